#!/usr/bin/env python3
"""Regenerate MANIFEST.json from the theorem names in lean/Verif/Props and the notes below."""
import json, os, re
root = os.path.dirname(os.path.dirname(os.path.abspath(__file__)))
notes = json.load(open(os.path.join(root, "tools", "status.json")))
thms = {}
for dp, _, fs in os.walk(os.path.join(root, "lean", "Verif", "Props")):
    for f in sorted(fs):
        for m in re.finditer(r"^theorem (C\d\d+)_(\w+)", open(os.path.join(dp, f)).read(), re.M):
            thms.setdefault(m.group(1), []).append("Spafe.Props." + m.group(1) + "_" + m.group(2))
claims = []
for line in open(os.path.join(root, "properties.jsonl")):
    p = json.loads(line)["id"]
    t = thms.get(p, [])
    n = notes.get(p, {})
    if not t:
        continue
    status = n.get("status") or "proved"
    claims.append({"property": p, "status": status, "theorems": t, "note": n.get("note", "")})
json.dump({"claims": claims}, open(os.path.join(root, "MANIFEST.json"), "w"), indent=1)
print(len(claims), "claims;", {s: sum(c["status"] == s for c in claims) for s in ("proved", "partial", "not_applicable")})
