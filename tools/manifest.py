#!/usr/bin/env python3
"""Regenerates MANIFEST.json from the theorem names (prefix Cnn_) in lean/Verif/Props and the notes below."""
import json, re, glob, os
root = os.path.dirname(os.path.dirname(os.path.abspath(__file__)))
notes = json.load(open(os.path.join(root, "tools", "notes.json")))
thms = {}
for f in sorted(glob.glob(os.path.join(root, "lean/Verif/Props/*.lean"))):
    for m in re.finditer(r"^theorem\s+(?:Dandy\.)?(C(\d{2,3})_\w+)", open(f).read(), re.M):
        thms.setdefault("C" + m.group(2), []).append("Dandy." + m.group(1))
claims = []
for line in open(os.path.join(root, "properties.jsonl")):
    pid = json.loads(line)["id"]
    n = notes.get(pid, {})
    if pid not in thms and not n:
        continue
    ts = thms.get(pid, [])
    status = n.get("status") or ("partial" if any(t.endswith("_partial") for t in ts) else "proved")
    claims.append({"property": pid, "status": status, "theorems": ts, "note": n.get("note", "")})
json.dump({"claims": claims}, open(os.path.join(root, "MANIFEST.json"), "w"), indent=1, ensure_ascii=False)
print(len(claims), "claims")
