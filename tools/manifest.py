#!/usr/bin/env python3
"""Regenerate MANIFEST.json from the theorem names in lean/Verif/Props.

A property theorem is named Cnn_...; names ending in _partial or _false mark a property as partial.
NOTES gives the note per property."""
import json, re, glob, os
root = os.path.dirname(os.path.dirname(os.path.abspath(__file__)))
notes = json.load(open(os.path.join(root, "tools", "notes.json")))
th = {}
for f in sorted(glob.glob(os.path.join(root, "lean/Verif/Props/*.lean"))):
    for m in re.finditer(r"^theorem (C(\d\d+)_\w+)", open(f).read(), re.M):
        th.setdefault("C" + m.group(2), []).append("Revision." + m.group(1))
claims = []
for line in open(os.path.join(root, "properties.jsonl")):
    pid = json.loads(line)["id"]
    names = th.get(pid, [])
    if not names:
        claims.append({"property": pid, "status": notes.get(pid, {}).get("status", "partial"), "theorems": [], "note": notes.get(pid, {}).get("note", "not proved yet")})
        continue
    partial = any(n.endswith(("_partial", "_false")) for n in names)
    status = notes.get(pid, {}).get("status", "partial" if partial else "proved")
    claims.append({"property": pid, "status": status, "theorems": names, "note": notes.get(pid, {}).get("note", "")})
json.dump({"claims": claims}, open(os.path.join(root, "MANIFEST.json"), "w"), indent=1)
print(sum(c["status"] == "proved" for c in claims), "proved,", sum(c["status"] == "partial" and bool(c["theorems"]) for c in claims), "partial,", [c["property"] for c in claims if not c["theorems"]])
