#!/usr/bin/env python3
"""Turn the output of mutate.py into /verif/seeded/LOG.jsonl.  Usage: mutlog.py OUT1.jsonl OUT2.jsonl ...
`seeded/tightened.json` maps a mutant id to what was tightened after it survived."""
import json, os, sys
root = os.path.join(os.path.dirname(os.path.abspath(__file__)), "..")
tp = os.path.join(root, "seeded", "tightened.json")
tight = json.load(open(tp)) if os.path.exists(tp) else {}
titles = {}
for l in open(os.path.join(root, "properties.jsonl")):
    q = json.loads(l)
    titles[q["id"]] = q["title"]
rows = {}
for f in sys.argv[1:]:
    if not os.path.exists(f):
        continue
    for l in open(f):
        r = json.loads(l)
        if r["status"].startswith("INVALID"):
            # the patching stopped early, but a theorem of the claim had already stopped proving
            hit = [h for h in r.get("holes", []) if any(h.startswith(c + "_") for c in r.get("claims", []))]
            if not hit:
                continue
            r["status"], r["failed"] = "KILLED", hit
        if r["status"].startswith("BAD"):
            continue
        if not r.get("claims", ["x"]):
            r["status"] = "equivalent edit (no claim becomes false)" if r["status"] == "SURVIVED" else r["status"]
        t = tight.get(r["id"], {})
        if "edit" not in r:  # operator-level mutants of mutfast.py, stopped at the first failing theorem
            if r["status"] != "KILLED" and not t:
                continue
            r["edit"] = "line %d" % r["line"]
            ids = sorted({h.split("_")[0] for h in r["failed"] or t.get("tightened", [])})
            r["claim"] = t.get("claim", "; ".join("%s %s" % (i, titles.get(i, "")) for i in ids))
        rows[r["id"]] = {
            "id": r["id"], "definition": "Verif/Model/%s: %s" % (r["file"], r["definition"]),
            "edit": "%s: `%s` -> `%s`" % (r["edit"], " ".join(r["old"].split()), " ".join(r["new"].split())),
            "claim": r["claim"], "result": t.get("result", r["status"].lower()),
            "theorems_failed": r["failed"], "theorems_tightened": t.get("tightened", []),
            **({"note": t["note"]} if "note" in t else {})}
with open(os.path.join(root, "seeded", "LOG.jsonl"), "w") as o:
    for k in rows:
        o.write(json.dumps(rows[k], ensure_ascii=False) + "\n")
print(len(rows))
