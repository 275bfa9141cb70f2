#!/usr/bin/env python3
"""Generates MANIFEST.json from the theorem names found in lean/Verif/Props and the notes below."""
import json, os, re, glob, collections
root = os.path.join(os.path.dirname(os.path.abspath(__file__)), "..")
NOTES = json.load(open(os.path.join(root, "tools", "notes.json")))
props = [json.loads(l) for l in open(os.path.join(root, "properties.jsonl"))]
thms = collections.defaultdict(list)
for f in sorted(glob.glob(os.path.join(root, "lean/Verif/Props/*.lean"))):
    for m in re.finditer(r"^theorem (C\d\d+)_(\S+)", open(f).read(), re.M):
        thms[m.group(1)].append("PyBGL.%s_%s" % (m.group(1), m.group(2)))
claims = []
for p in props:
    i = p["id"]
    ts = thms.get(i, [])
    if not ts:
        continue
    note = NOTES.get(i, "")
    partial = any(("_partial" in t or "counterexample" in t) for t in ts)
    claims.append({"property": i, "status": "partial" if partial else "proved", "theorems": ts, "note": note})
json.dump({"claims": claims}, open(os.path.join(root, "MANIFEST.json"), "w"), indent=1)
print(len(claims), "claims;", sum(c["status"] == "proved" for c in claims), "proved; missing:",
      [p["id"] for p in props if p["id"] not in thms])
