"""Seeded-bug runs.  usage: seed.py mutants.json [--log]
Each mutant: {"definition","file","old","new","edit","claim"}.  The project is copied to /tmp/seedwork,
the edit is applied to the copy, the copy is rebuilt, and the theorems that fail are those whose proof
fails or depends (transitively) on one that fails."""
import json, os, re, subprocess, sys
here = os.path.dirname(os.path.dirname(os.path.abspath(__file__)))
work, base = "/tmp/seedwork", "/tmp/seedbase"
def sh(cmd, **k):
    return subprocess.run(cmd, shell=True, capture_output=True, text=True, **k)
DEPS = r'''
import Verif
open Lean
def depsMain : CoreM Unit := do
  let env ← getEnv
  let isOurs (n : Name) : Bool := match env.getModuleIdxFor? n with
    | some i => (`Verif).isPrefixOf (env.header.moduleNames[i.toNat]!)
    | none => false
  for (n, ci) in env.constants.map₁.toList do
    if isOurs n then
      if let some v := ci.value? (allowOpaque := true) then
        let used := (v.getUsedConstants ++ ci.type.getUsedConstants).filter isOurs
        let md := match env.getModuleIdxFor? n with
          | some i => env.header.moduleNames[i.toNat]!
          | none => .anonymous
        IO.println s!"{md} {n} {" ".intercalate (used.toList.map toString)}"
#eval depsMain
'''
def deps():
    open("/tmp/Deps.lean", "w").write(DEPS)
    r = sh("lake env lean /tmp/Deps.lean", cwd=here + "/lean")
    g, mod = {}, {}
    for l in r.stdout.splitlines():
        p = l.split()
        if p: g[p[1]] = set(p[2:]); mod[p[1]] = p[0]
    return g, mod
DECL = r"(?:private |@\[[^\]]*\] )*(?:theorem|def|lemma|instance|inductive|structure|abbrev)\b\s*(\S*)"
START = r"(?:@\[[^\]]*\] )?(theorem|lemma|example|def|instance|inductive|structure|mutual|end\b|namespace|/-|open|section|variable|abbrev|--|private|set_option)"
def admit(lines, st, en):
    """Replace the declaration in lines[st:en] by its statement, or drop it; its name."""
    m = re.match(DECL, lines[st])
    block = "\n".join(lines[st:en])
    k = block.find(":= by")
    if k < 0: k = block.find(":=")
    if k < 0: k = block.find("\n  | ")
    nb = (block[:k] + " := by sorry").split("\n") if k >= 0 and m and not lines[st].startswith("example") else [""]
    lines[st:en] = nb + [""] * (en - st - len(nb))
    return m.group(1) if m else "example"
def main():
    muts = json.load(open(sys.argv[1]))
    log = "--log" in sys.argv
    g, mod = deps()
    # edits made to the project during the run must not matter
    sh(f"rm -rf {base} && cp -a {here}/lean {base}")
    thms = {n for n in g if re.search(r"\.C\d\d+_\w+$", n)}
    def closure(n, seen):
        for m in g.get(n, ()):
            if m not in seen:
                seen.add(m); closure(m, seen)
        return seen
    cl = {n: closure(n, {n}) for n in thms}
    for mu in muts:
        sh(f"rm -rf {work} && cp -a {base} {work}")
        edits = mu.get("edits") or [[mu["file"], mu["old"], mu["new"]]]
        for f, old, new in edits:
            p = f"{work}/Verif/{f}"
            s = open(p).read()
            assert s.count(old) >= 1, (mu["definition"], "old text not found")
            open(p, "w").write(s.replace(old, new, 1))
        bad, examples = set(), 0
        # keep going over failures: replace failing theorems by sorry until the build passes
        for rnd in range(12):
            r = sh("lake build --no-ansi", cwd=work)
            out = r.stdout + r.stderr
            errs = set(re.findall(r"error: (?:\./)?(Verif/\S+?\.lean):(\d+):\d+", out))
            if r.returncode == 0: break
            if not errs: bad.add("BUILD:" + out[-300:]); break
            byfile = {}
            for f, l in errs: byfile.setdefault(f, []).append(int(l))
            for f, ls in byfile.items():
                path = f"{work}/{f}"
                lines = open(path).read().split("\n")
                starts = [i for i, l in enumerate(lines) if re.match(START, l)]
                md = f[:-5].replace("/", ".")
                done = set()
                for ln in sorted(ls, reverse=True):
                    st = max([s for s in starts if s <= ln - 1], default=None)
                    if st is None or st in done: continue
                    done.add(st)
                    # a mutual block fails as a whole
                    mu_st = max([s for s in starts if s <= st and lines[s].startswith("mutual")], default=None)
                    group = [st]
                    if mu_st is not None:
                        mu_en = min([s for s in starts if s > mu_st and lines[s].strip() == "end"], default=-1)
                        if mu_st <= st < mu_en:
                            group = [s for s in starts if mu_st < s < mu_en and re.match(DECL, lines[s])]
                            done |= set(group)
                            lines[mu_st] = lines[mu_en] = ""
                    for st in group:
                        en = min([s for s in starts if s > st], default=len(lines))
                        nm = admit(lines, st, en)
                        if nm == "example": examples += 1
                        else: bad.add((md, nm))
                open(path, "w").write("\n".join(lines))
        short = {(b[0], b[1].split(".")[-1]) for b in bad if isinstance(b, tuple)}
        failed = sorted(n.split(".")[-1] for n in thms if any((mod.get(x), x.split(".")[-1]) in short for x in cl[n]))
        direct = sorted(b[1] if isinstance(b, tuple) else b for b in bad)
        print(mu["definition"], "|", mu["edit"], "\n  direct:", direct, "examples:", examples, "\n  failed:", failed, flush=True)
        if log:
            with open(here + "/seeded/LOG.jsonl", "a") as fh:
                fh.write(json.dumps({"definition": mu["definition"], "edit": mu["edit"], "claim": mu["claim"],
                    "failed": failed, "failed_lemmas": [d for d in direct if not re.match(r"C\d\d", d)],
                    "tightened": mu.get("tightened", [])}) + "\n")
main()
