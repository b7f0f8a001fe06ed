#!/usr/bin/env python3
"""Write /verif/MANIFEST.json from the theorem names in lean/Verif/Props and the notes below."""
import glob
import json
import os
import re

root = os.path.dirname(os.path.dirname(os.path.abspath(__file__)))
notes = json.load(open(os.path.join(root, "tools", "notes.json")))
thms = {}
for path in sorted(glob.glob(os.path.join(root, "lean/Verif/Props/*.lean"))):
    for m in re.finditer(r"^theorem (C(\d\d+)_\w+'?)", open(path).read(), re.M):
        thms.setdefault("C" + m.group(2), []).append("Dsrg." + m.group(1))
claims = []
for line in open(os.path.join(root, "properties.jsonl")):
    pid = json.loads(line)["id"]
    note = notes.get(pid, {})
    names = thms.get(pid, [])
    if not names:
        if note.get("status") == "not_applicable":
            claims.append({"property": pid, "status": "not_applicable", "theorems": [], "note": note["note"]})
        continue
    partial = any("_partial" in n or "_violation" in n for n in names)
    status = note.get("status", "partial" if partial else "proved")
    claims.append({"property": pid, "status": status, "theorems": names, "note": note.get("note", "")})
json.dump({"claims": claims}, open(os.path.join(root, "MANIFEST.json"), "w"), indent=1)
print(len(claims), "claims;", sum(c["status"] == "proved" for c in claims), "proved")
