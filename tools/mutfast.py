#!/usr/bin/env python3
"""Fast mutation testing: mutfast.py BASE SCRATCH DEPS MUTANTS.json OUT.jsonl

Like mutate.py, but stops at the first theorem that fails and on which a claim theorem depends.  DEPS lists, for every
claim theorem of the unedited project, the declarations it uses.  A mutant gives file, pos, end, new (offsets into the
model file).  A mutant SURVIVED when no claim theorem depends on anything that fails."""
import json, os, re, signal, subprocess, sys, time
sys.path.insert(0, os.path.dirname(os.path.abspath(__file__)))

DECL = re.compile(r"^(?:@\[[^\]]*\]\s*)?(?:private\s+|protected\s+|noncomputable\s+)*"
                  r"(theorem|lemma|example|def|instance|structure|inductive|abbrev)\b\s*([^\s:({\[]*)")
ERR = re.compile(r"error: (?:\./)?(Verif/\S+\.lean):(\d+):(\d+):")

def main():
    base, scratch, depsf, mfile, outfile = sys.argv[1:6]
    used = {}
    for l in open(depsf):
        w = l.split()
        if not w or not re.match(r"Gcl\.C\d", w[0]):
            continue
        for n in w[1:] + [w[0]]:
            used.setdefault(n, set()).add(w[0][4:])
    def claims(name):
        out = set()
        for k in ("Gcl." + name, "Gcl.Spec." + name, "Gcl.P4." + name, "Gcl.Dict." + name, name):
            out |= used.get(k, set())
        if not out:
            for k in used:
                if k.endswith("." + name):
                    out |= used[k]
        return out
    muts = json.load(open(mfile))
    done = set()
    if os.path.exists(outfile):
        done = {json.loads(l)["id"] for l in open(outfile)}
    if not os.path.exists(scratch):
        subprocess.run(["cp", "-a", base, scratch], check=True)
    for m in muts:
        if m["id"] in done:
            continue
        t0 = time.time()
        subprocess.run(f"rm -rf {scratch} && cp -a {base} {scratch}", shell=True, check=True)
        path = os.path.join(scratch, "Verif/Model", m["file"])
        s = open(path).read()
        assert s[m["pos"]:m["end"]] == m["old"], m
        open(path, "w").write(s[:m["pos"]] + m["new"] + s[m["end"]:])
        pr = subprocess.Popen(["lake", "build"], cwd=scratch, stdout=subprocess.PIPE, stderr=subprocess.STDOUT,
                              text=True, start_new_session=True)
        hit, holes, status = set(), [], None
        cache = {}
        for line in pr.stdout:
            e = ERR.search(line)
            if not e:
                continue
            f, ln = e.group(1), int(e.group(2))
            if f not in cache:
                cache[f] = [(i + 1,) + DECL.match(l).groups() for i, l in enumerate(
                    open(os.path.join(scratch, f)).read().split("\n")) if DECL.match(l)]
            c = [d for d in cache[f] if d[0] <= ln]
            if not c:
                continue
            kind, name = c[-1][1], c[-1][2]
            if f.startswith("Verif/Model/"):
                status = "INVALID: %s %s" % (kind, name)
                break
            if kind == "example":
                continue
            holes.append(name)
            hit |= claims(name)
            if hit:
                status = "KILLED"
                break
        if status:
            try:
                os.killpg(pr.pid, signal.SIGKILL)
            except ProcessLookupError:
                pass
        pr.wait()
        if status is None:
            status = "SURVIVED" if not holes else "SURVIVED-HOLES"
        res = dict(m, status=status, holes=holes, failed=sorted(hit), secs=round(time.time() - t0))
        with open(outfile, "a") as o:
            o.write(json.dumps(res, ensure_ascii=False) + "\n")
        print(m["id"], status, m["file"], m["definition"], m["line"], repr(m["old"]), "->", repr(m["new"]),
              holes[:1], res["secs"], flush=True)

main()
