#!/usr/bin/env python3
"""Regenerate MANIFEST.json: property theorems are the theorems named Cnn_* in lean/Verif/Props."""
import json, re, pathlib
root = pathlib.Path(__file__).resolve().parent.parent
notes = json.loads((root / "tools/notes.json").read_text())
thms = {}
for f in sorted((root / "lean/Verif/Props").glob("*.lean")):
    for m in re.finditer(r"^theorem (C(\d\d)_\w+'?)", f.read_text(), re.M):
        thms.setdefault("C" + m.group(2), []).append("Verif." + m.group(1))
claims = []
for line in (root / "properties.jsonl").read_text().splitlines():
    p = json.loads(line)["id"]
    t = thms.get(p, [])
    status = notes.get(p, {}).get("status", "proved" if t else "partial")
    claims.append({"property": p, "status": status, "theorems": t, "note": notes.get(p, {}).get("note", "")})
(root / "MANIFEST.json").write_text(json.dumps({"claims": claims}, indent=1) + "\n")
print(len(claims), "claims;", "without theorems:", [c["property"] for c in claims if not c["theorems"]])
