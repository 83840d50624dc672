#!/usr/bin/env python3
"""Regenerate MANIFEST.json and lean/Verif.lean from the sources."""
import json, re, pathlib
root = pathlib.Path(__file__).resolve().parent.parent
props = [json.loads(l) for l in open(root / "properties.jsonl")]
notes = json.load(open(root / "tools" / "notes.json"))
thms = {}
for f in sorted((root / "lean/Verif/Props").glob("*.lean")):
    ns = []
    for line in f.read_text().splitlines():
        m = re.match(r"\s*namespace\s+(\S+)", line)
        if m: ns.append(m.group(1)); continue
        m = re.match(r"\s*end\s+(\S+)", line)
        if m:
            if ns and ns[-1] == m.group(1): ns.pop()
            continue
        m = re.match(r"\s*theorem\s+(C(\d+)_\S+)", line)
        if m:
            thms.setdefault("C" + m.group(2), []).append(".".join(ns + [m.group(1)]))
claims = []
for p in props:
    i = p["id"]
    t = thms.get(i, [])
    if not t:
        continue
    part = any("_partial" in x for x in t)
    n = notes.get(i, {})
    claims.append({"property": i, "status": n.get("status", "partial" if part else "proved"),
                   "theorems": t, "note": n.get("note", "")})
for i, n in notes.items():
    if n.get("status") == "not_applicable":
        claims.append({"property": i, "status": "not_applicable", "theorems": [], "note": n["note"]})
json.dump({"claims": claims}, open(root / "MANIFEST.json", "w"), indent=1)
mods = sorted(".".join(q.relative_to(root / "lean").with_suffix("").parts)
              for q in (root / "lean/Verif").rglob("*.lean"))
(root / "lean/Verif.lean").write_text("".join(f"import {m}\n" for m in mods))
print(len(claims), "claims;", sum(len(c["theorems"]) for c in claims), "theorems; missing:",
      [p["id"] for p in props if p["id"] not in thms and p["id"] not in notes])
