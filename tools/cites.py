#!/usr/bin/env python3
"""Checks that every definition under lean/Verif/Model carries a comment that cites lines of /repo (or says what it builds on), and
that the cited lines exist. Prints, for each citation, the first line cited."""
import os, re, sys
R = "/repo"
ok = True
n = 0
for f in sorted(os.listdir("/verif/lean/Verif/Model")):
    t = open("/verif/lean/Verif/Model/" + f).read()
    for m in re.finditer(r"(?:/--(?P<doc>(?:(?!-/).)*)-/\s*)?(?:@\[[^\]]*\]\s*)?^(?:noncomputable )?(?:private )?(?:partial )?(?P<kind>def|abbrev|structure|inductive|class|instance) (?P<name>\S+)", t, re.S | re.M):
        doc = m["doc"] or ""
        n += 1
        cites = re.findall(r"(\w+\.go):(\d+)(?:-(\d+))?((?:, ?\d+(?:-\d+)?)*)", doc)
        if not cites:
            print(f"{f}: {m['kind']} {m['name']}: no lines: {' '.join(doc.split())[:110]}")
        for g, a, b, more in cites:
            p = os.path.join(R, g)
            if not os.path.exists(p):
                print(f"{f}: {m['name']}: no such file {g}"); ok = False; continue
            lines = open(p).read().split("\n")
            a, b = int(a), int(b or a)
            if not (0 < a <= b <= len(lines)):
                print(f"{f}: {m['name']}: bad lines {g}:{a}-{b}"); ok = False; continue
            if "-v" in sys.argv:
                print(f"{f}: {m['name']}: {g}:{a}-{b}: {lines[a-1].strip()} ... {lines[b-1].strip()}")
print(n, "definitions", "ok" if ok else "BAD")
