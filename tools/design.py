#!/usr/bin/env python3
"""Assemble DESIGN.md from tools/design_head.md, properties.jsonl, MANIFEST.json and the sources."""
import json, re, pathlib
root = pathlib.Path(__file__).resolve().parent.parent
props = [json.loads(l) for l in open(root / "properties.jsonl")]
claims = {c["property"]: c for c in json.load(open(root / "MANIFEST.json"))["claims"]}
where, imports = {}, {}
for f in sorted((root / "lean/Verif").rglob("*.lean")):
    s = f.read_text()
    k = f"{f.parent.name}.{f.stem}"
    imports[k] = re.findall(r"^import Verif\.(\S+)", s, re.M)
    if f.parent.name == "Props":
        for t in re.findall(r"^theorem\s+(C\d+_\S+)", s, re.M):
            where["Gcl." + t] = f.stem
def models(p):
    """Model modules imported directly or through Lemmas/Spec with the same topic."""
    seen, out, todo = set(), [], [f"Props.{p}"]
    while todo:
        k = todo.pop()
        if k in seen: continue
        seen.add(k)
        for i in imports.get(k, []):
            if i.startswith("Model."):
                if i not in out: out.append(i)
            else:
                todo.append(i)
    return [o.split(".")[1] for o in out]
rows = ["| property | status | theorems in | model | what is modelled and proved |", "|---|---|---|---|---|"]
for p in props:
    c = claims.get(p["id"])
    files = sorted({where[t] for t in c["theorems"]})
    ms = sorted({m for f in files for m in models(f)} - {"Basic"}) or ["Basic"]
    rows.append(f"| {p['id']} {p['title']} | {c['status']} ({len(c['theorems'])}) | {', '.join(files)} | {', '.join(ms)} | for {p['quantifier']}. {c['note']} |")
(root / "DESIGN.md").write_text((root / "tools/design_head.md").read_text() + "\n".join(rows) + "\n\nNo property is classified *not applicable*.\n")
print("DESIGN.md:", len(rows) - 2, "properties")
