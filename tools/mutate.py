#!/usr/bin/env python3
"""Mutation testing of the theorems.

Usage: mutate.py BASE SCRATCH MUTANTS.json OUT.jsonl
BASE is a built copy of /verif/lean; SCRATCH is overwritten for every mutant.
For each mutant the edit is applied to the scratch copy, the project is rebuilt, every
proof that no longer goes through is replaced (in the scratch copy only) by a hole, and
when everything builds the claim theorems that depend on a hole are listed.
"""
import json, os, re, subprocess, sys, time

HOLE = "sor" + "ry"
DECL = re.compile(r"^(?:@\[[^\]]*\]\s*)?(?:private\s+|protected\s+|noncomputable\s+)*"
                  r"(theorem|lemma|example|def|instance|structure|inductive|abbrev)\b\s*([^\s:({\[]*)")

def decls(lines):
    out = []
    for i, l in enumerate(lines):
        m = DECL.match(l)
        if m:
            out.append((i, m.group(1), m.group(2)))
    return out

def end_of(lines, start):
    """first line after the declaration starting at `start`"""
    i = start + 1
    while i < len(lines):
        l = lines[i]
        if l and not l[0].isspace() and not l.startswith(("|", ")", "}", "]", "⟩")):
            return i
        i += 1
    return i

def cut_proof(text):
    """replace the proof part of a theorem by a hole; None if no proof is found"""
    depth = 0
    i = 0
    n = len(text)
    while i < n:
        c = text[i]
        if c in "([{⟨":
            depth += 1
        elif c in ")]}⟩":
            depth -= 1
        elif text.startswith("--", i):
            while i < n and text[i] != "\n":
                i += 1
        elif depth == 0 and text.startswith(":=", i):
            # `let x := ..` / `have x := ..` inside a statement
            line = text[text.rfind("\n", 0, i) + 1:i]
            if re.search(r"\b(let|have)\b[^;]*$", line):
                i += 2
                continue
            return text[:i] + ":= by " + HOLE + "\n"
        elif depth == 0 and re.match(r"\n\s*\| ", text[i:i + 40]):
            return text[:i] + " := by " + HOLE + "\n"
        i += 1
    return None

def build(root):
    p = subprocess.run(["lake", "build"], cwd=root, capture_output=True, text=True)
    return p.returncode, p.stdout + p.stderr

def patch(root, out, holes):
    errs = {}
    for m in re.finditer(r"error: (?:\./)?(Verif/\S+\.lean):(\d+):(\d+):", out):
        errs.setdefault(m.group(1), set()).add(int(m.group(2)))
    if not errs:
        return False, "no located error:\n" + out[-1500:]
    for f, ls in errs.items():
        path = os.path.join(root, f)
        lines = open(path).read().split("\n")
        ds = decls(lines)
        starts = set()
        for ln in ls:
            cand = [d for d in ds if d[0] < ln]
            if not cand:
                return False, f"error before any declaration {f}:{ln}"
            starts.add(cand[-1])
        for (s, kind, name) in sorted(starts, reverse=True):
            e = end_of(lines, s)
            seg = "\n".join(lines[s:e])
            if kind == "example":
                lines[s:e] = ["-- example removed"]
                holes.append(f + ":example@" + str(s + 1))
                continue
            if kind not in ("theorem", "lemma"):
                return False, f"{kind} {name} in {f} does not elaborate"
            new = cut_proof(seg)
            if new is None or HOLE in seg:
                return False, f"cannot patch {name} in {f}"
            lines[s:e] = new.split("\n")
            holes.append(name)
        open(path, "w").write("\n".join(lines))
    return True, ""

CHECK = """import Verif
import Lean.Util.CollectAxioms
open Lean Elab Command
run_cmd do
  let env ← getEnv
  for (n, c) in env.constants.map₁.toList do
    if n.getPrefix == `Gcl && n.getString!.startsWith "C" && c.isThm then
      let ax ← liftCoreM (collectAxioms n)
      if ax.contains ``sorryAx then IO.println s!"HOLE {n}"
"""

def main():
    base, scratch, mfile, outfile = sys.argv[1:5]
    muts = json.load(open(mfile))
    done = set()
    if os.path.exists(outfile):
        done = {json.loads(l)["id"] for l in open(outfile)}
    for m in muts:
        if m["id"] in done:
            continue
        t0 = time.time()
        subprocess.run(["rsync", "-a", "--delete", base.rstrip("/") + "/", scratch.rstrip("/") + "/"], check=True) \
            if subprocess.run(["which", "rsync"], capture_output=True).returncode == 0 else \
            subprocess.run(f"rm -rf {scratch} && cp -a {base} {scratch}", shell=True, check=True)
        path = os.path.join(scratch, "Verif/Model", m["file"])
        s = open(path).read()
        res = dict(m)
        if s.count(m["old"]) != 1:
            res["status"] = f"BAD: old text occurs {s.count(m['old'])} times"
        else:
            open(path, "w").write(s.replace(m["old"], m["new"]))
            holes = []
            status = None
            for _ in range(25):
                rc, out = build(scratch)
                if rc == 0:
                    break
                ok, why = patch(scratch, out, holes)
                if not ok:
                    status = "INVALID: " + why
                    break
            else:
                status = "INVALID: too many rounds"
            if status is None:
                open(os.path.join(scratch, "Check.lean"), "w").write(CHECK)
                p = subprocess.run(["lake", "env", "lean", "Check.lean"], cwd=scratch, capture_output=True, text=True)
                failed = sorted(set(re.findall(r"HOLE Gcl\.(C\w+)", p.stdout)))
                if p.returncode != 0:
                    status = "INVALID: check failed " + p.stdout[-500:] + p.stderr[-500:]
                res["failed"] = failed
                hit = [t for t in failed if any(t.startswith(c + "_") for c in m["claims"])]
                status = status or ("KILLED" if hit else "SURVIVED")
            res["status"] = status
            res["holes"] = holes
        res["secs"] = round(time.time() - t0)
        with open(outfile, "a") as f:
            f.write(json.dumps(res) + "\n")
        print(m["id"], res["status"][:200], len(res.get("failed", [])), res["secs"], flush=True)

main()
