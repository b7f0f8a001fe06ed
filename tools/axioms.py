#!/usr/bin/env python3
"""Print, for every theorem named in MANIFEST.json, the axioms it depends on, as a table of axiom sets."""
import collections, json, os, re, subprocess, sys

root = os.path.dirname(os.path.dirname(os.path.abspath(__file__)))
names = [t for c in json.load(open(os.path.join(root, "MANIFEST.json")))["claims"] for t in c["theorems"]]
src = "/tmp/print_axioms.lean"
with open(src, "w") as f:
    f.write("import Verif\n" + "".join(f"#print axioms {n}\n" for n in names))
out = subprocess.run(["lake", "env", "lean", src], cwd=os.path.join(root, "lean"), capture_output=True, text=True).stdout
sets = collections.defaultdict(list)
for m in re.finditer(r"'([^']+)' (?:depends on axioms: \[([^\]]*)\]|does not depend on any axioms)", out):
    key = ", ".join(sorted(x.strip() for x in (m.group(2) or "").split(",") if x.strip())) or "none"
    sets[key].append(m.group(1))
print(f"{sum(map(len, sets.values()))} of {len(names)} theorems")
for k, v in sorted(sets.items()):
    print(f"{k}: {len(v)}")
bad = [k for k in sets if set(k.split(", ")) - {"none", "propext", "Classical.choice", "Quot.sound"}]
sys.exit(1 if bad else 0)
