#!/usr/bin/env python3
"""Regenerate MANIFEST.json from the theorems in lean/Verif/Props/*.lean and tools/status.json."""
import json, re, glob, os
root = os.path.join(os.path.dirname(os.path.abspath(__file__)), "..")
props = [json.loads(l) for l in open(os.path.join(root, "properties.jsonl"))]
status = json.load(open(os.path.join(root, "tools", "status.json")))
thms = {}
for f in sorted(glob.glob(os.path.join(root, "lean/Verif/Props/*.lean"))):
    src = open(f).read()
    spaces = []
    for l in src.split("\n"):
        m = re.match(r"namespace (\S+)", l)
        if m: spaces.append(m.group(1))
        m = re.match(r"end (\S+)", l)
        if m and spaces and spaces[-1] == m.group(1): spaces.pop()
        m = re.match(r"theorem (C\d+)_(\w+)", l)
        if m: thms.setdefault(m.group(1), []).append(".".join(spaces) + "." + m.group(1) + "_" + m.group(2))
claims = []
for p in props:
    i = p["id"]
    t = thms.get(i, [])
    s = status.get(i)
    if s is None:
        if t: print("no status for", i)
        continue
    claims.append({"property": i, "status": s["status"], "theorems": t, "note": s["note"]})
    if not t and s["status"] != "not_applicable": print("no theorem for", i)
json.dump({"claims": claims}, open(os.path.join(root, "MANIFEST.json"), "w"), indent=1)
print(len(claims), "claims", sum(len(c["theorems"]) for c in claims), "theorems")
