#!/usr/bin/env python3
"""Print the axioms of every theorem in MANIFEST.json (run after `lake build`)."""
import json, os, subprocess, tempfile
root = os.path.dirname(os.path.dirname(os.path.abspath(__file__)))
names = [t for c in json.load(open(root + "/MANIFEST.json"))["claims"] for t in c["theorems"]]
with tempfile.NamedTemporaryFile("w", suffix=".lean", delete=False) as f:
    f.write("import Verif\n" + "".join(f"#print axioms {n}\n" for n in names))
out = subprocess.run(["lake", "env", "lean", f.name], cwd=root + "/lean", capture_output=True, text=True).stdout
os.unlink(f.name)
print(out)
ax = set()
for part in out.replace("\n", " ").split("depends on axioms: [")[1:]:
    ax |= {a.strip() for a in part.split("]")[0].split(",")}
print("axioms used:", sorted(ax), "theorems:", len(names), "reported:", out.count("axioms"))
