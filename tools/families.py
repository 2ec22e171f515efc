#!/usr/bin/env python3
"""Check that the ten type-specific files of /repo are copies of few texts.

The model has one generic definition per function, instantiated ten times. This script strips comments, replaces the
type names and the key function of each file by placeholders and compares the files function by function with the file
the model cites. It prints the classes of equal texts for every function; nothing in the proofs depends on it.
"""
import re, sys
repo = sys.argv[1] if len(sys.argv) > 1 else "/repo"
T = {"I4": "int32", "I8": "int64", "U4": "uint32", "U8": "uint64", "F4": "float32", "F8": "float64", "S": "string",
     "B": "[]byte", "LenS": "string", "LenB": "[]byte"}


def norm(f):
    s = open(f"{repo}/sorty{f}.go").read()
    s = re.sub(r"//[^\n]*", "", s)
    fs = {}
    for m in re.finditer(r"^func (\w+)\((.*?)^}", s, re.M | re.S):
        fs[m[1].removesuffix(f)] = m[1] + "(" + m[2]
    out = {}
    for n, b in fs.items():
        b = b.replace("atomic.AddUint64", "ADD").replace("^uint64(0)", "MINUSONE").replace("minMaxFour(uint32(", "minMaxFour(WORD(")
        b = b.replace("sixb.Mean" + f, "MEAN").replace("sixb.MeanI(", "MEAN(")
        b = re.sub(r"\b(isSorted|insertion|pivot|partOne|partTwo|gPartOne|partCon|short|gLong|long|sort)%s\b" % f, r"\1@", b)
        if f.startswith("Len"):
            b = b.replace("insertionI(", "insertion@(")
            b = re.sub(r"\blen\((\w+\[[^\]]*\]|val|pre)\)", r"KEY(\1)", b)
            b = b.replace("[nsConc]int\n", "[nsConc]KEYT\n").replace("pv int)", "pv KEYT)").replace("pv int,", "pv KEYT,")
            b = re.sub(r"\) int \{", ") INT {", b) if n == "pivot" else b
        elif f == "B":
            b = re.sub(r"sixb\.BtoS\((\w+(?:\[[^\]]*\])?)\)", r"KEY(\1)", b)
            b = b.replace("uint) string {", "uint) KEYT {").replace("insertionS(", "insertion@(").replace("[nsConc - 1]string", "[nsConc - 1]KEYT").replace("pv string", "pv KEYT")
        b = b.replace("[]" + T[f], "[]ELEM").replace(T[f], "ELEM")
        b = re.sub(r"KEY\((\w+(?:\[[^\]]*\])?)\)", r"\1", b)
        b = b.replace("\ta, b := ar[first], ar[first+step]\n\tc, d := ar", "\ta, b, c, d := ar[first], ar[first+step], ar")
        b = b.replace("KEYT", "ELEM").replace(") INT {", ") ELEM {")
        out[n] = re.sub(r"[ \t]+", " ", re.sub(r"\n\s*\n+", "\n", b)).strip()
    return out


N = {f: norm(f) for f in T}
names = []
for f in N:
    for n in N[f]:
        if n not in names:
            names.append(n)
for n in names:
    cl = {}
    for f in T:
        if n in N[f]:
            cl.setdefault(N[f][n], []).append(f)
    for t, c in list(cl.items()):  # thresholds and sample counts are parameters of the model
        u = t.replace("MaxLenInsFC", "MaxLenIns").replace("MaxLenRecFC", "MaxLenRec").replace("nsConc-1", "nsConc").replace("nsLong-1", "nsLong")
        if u != t:
            del cl[t]
            cl.setdefault(u, []).extend(c)
    print(f"{n:10}", " | ".join(" ".join(c) for c in cl.values()))
if len(sys.argv) > 2:
    import difflib
    n, a, b = sys.argv[2:5]
    print("\n".join(difflib.unified_diff(N[a][n].split("\n"), N[b][n].split("\n"), a, b, lineterm="")))
