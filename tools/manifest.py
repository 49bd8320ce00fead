#!/usr/bin/env python3
"""Regenerates MANIFEST.json from the theorem names in lean/Verif/Props and tools/notes.json."""
import json, re, glob, os
root = os.path.dirname(os.path.dirname(os.path.abspath(__file__)))
props = [json.loads(l) for l in open(root + "/properties.jsonl") if l.strip()]
notes = json.load(open(root + "/tools/notes.json"))
thms = {}
for f in sorted(glob.glob(root + "/lean/Verif/Props/*.lean")):
    stack = []
    for line in open(f):
        m = re.match(r"namespace (\S+)", line)
        if m: stack.append(m.group(1))
        m = re.match(r"end (\S+)", line)
        if m and stack and stack[-1] == m.group(1): stack.pop()
        m = re.match(r"theorem (C(\d\d)_\w+)", line)
        if m: thms.setdefault("C" + m.group(2), []).append(".".join(stack + [m.group(1)]))
claims = []
for p in props:
    i = p["id"]
    t = thms.get(i, [])
    n = notes.get(i, {})
    if not t:
        if n.get("status") == "not_applicable":
            claims.append({"property": i, "status": "not_applicable", "theorems": [], "note": n["note"]})
        continue
    st = n.get("status") or ("partial" if any(x.endswith("_partial") for x in t) else "proved")
    claims.append({"property": i, "status": st, "theorems": t, "note": n.get("note", "")})
json.dump({"claims": claims}, open(root + "/MANIFEST.json", "w"), indent=1)
print(len(claims), "claims,", sum(len(c["theorems"]) for c in claims), "theorems")
missing = [p["id"] for p in props if p["id"] not in {c["property"] for c in claims}]
print("missing:", missing)
