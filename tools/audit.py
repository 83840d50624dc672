#!/usr/bin/env python3
"""Regenerate AXIOMS.txt (axioms of every claim theorem) and COVERAGE.md (which lines of the code each
definition of the model cites).  Needs a finished `lake build`."""
import pathlib, re, subprocess, tempfile
root = pathlib.Path(__file__).resolve().parent.parent
CHECK = """import Verif
import Lean.Util.CollectAxioms
open Lean Elab Command
run_cmd do
  let env ← getEnv
  let mut out : Array String := #[]
  for (n, c) in env.constants.map₁.toList do
    if n.getPrefix == `Gcl && (toString n).startsWith "Gcl.C" && c.isThm then
      let ax ← liftCoreM (collectAxioms n)
      let s := ", ".intercalate ((ax.map toString).qsort (· < ·)).toList
      out := out.push s!"{n}: {s}"
  for l in out.qsort (· < ·) do IO.println l
"""
with tempfile.NamedTemporaryFile("w", suffix=".lean", dir="/tmp", delete=False) as f:
    f.write(CHECK)
p = subprocess.run(["lake", "env", "lean", f.name], cwd=root / "lean", capture_output=True, text=True)
lines = [l for l in p.stdout.splitlines() if re.match(r"Gcl\.C\d+_", l)]
(root / "AXIOMS.txt").write_text("\n".join(lines) + "\n")
used = sorted({a.strip() for l in lines for a in l.split(":", 1)[1].split(",") if a.strip()})
print(len(lines), "theorems; axioms used:", used)
out = ["# Definitions of the model and the code they cite", "",
       "Generated by `tools/audit.py` from the doc comments in `lean/Verif/Model`.", ""]
cite = re.compile(r"((?:graphicle/)?(?:data|select|calculate|matrix|transform|base)\.py:[0-9,\- ]*[0-9])")
for m in sorted((root / "lean/Verif/Model").glob("*.lean")):
    s = m.read_text()
    rows = []
    for d in re.finditer(r"/--((?:(?!-/).)*)-/\s*(?:@\[[^\]]*\]\s*)?(?:noncomputable |private |protected )*"
                         r"(def|structure|inductive|abbrev|instance)\s+([^\s:({\[]+)", s, re.S):
        doc = " ".join(d.group(1).split())
        cs = [c.replace("graphicle/", "") for c in cite.findall(doc)]
        rows.append(f"| `{d.group(3)}` | {', '.join(cs) if cs else '(helper) ' + doc[:110]} |")
    out += [f"## Model/{m.name}", "", "| definition | models |", "|---|---|"] + rows + [""]
(root / "COVERAGE.md").write_text("\n".join(out))
