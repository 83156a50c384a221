"""Automatic mutation of the model.  usage: mutate.py [seed] [count per definition] [file pattern]
For every definition of lean/Verif/Model one of the syntactic edits below is applied at a random place; the
project is rebuilt in a copy (/tmp/autowork) up to the first errors, and the mutant is reported as killed by
the declarations that fail, as `example` if only examples fail, or as SURVIVED.  Results are appended to
/tmp/auto/results.jsonl; survivors are looked at by hand."""
import json, os, random, re, subprocess, sys
here = os.path.dirname(os.path.dirname(os.path.abspath(__file__)))
work, base = "/tmp/autowork", "/tmp/autobase"
OPS = [(r" < ", " ≤ "), (r" ≤ ", " < "), (r" > ", " ≥ "), (r" ≥ ", " > "), (r" = ", " ≠ "), (r" ≠ ", " = "),
       (r" && ", " || "), (r" \|\| ", " && "), (r" ∧ ", " ∨ "), (r" ∨ ", " ∧ "), (r" \+ 1\b", ""), (r" \+ 1\b", " + 2"),
       (r" - 1\b", ""), (r"\btrue\b", "false"), (r"\bfalse\b", "true"), (r"\.take\b", ".drop"), (r"\.drop\b", ".take"),
       (r"\.reverse\b", ""), (r" % ", " / "), (r" / ", " % "), (r" \* ", " + "), (r" - ", " + "), (r" \+ ", " - "),
       (r"\.head\?", ".getLast?"), (r"\.getLast\?", ".head?"), (r"\.tail\b", ""), (r"\bmin\b", "max"), (r"\bmax\b", "min"),
       (r"\.any\b", ".all"), (r"\.all\b", ".any"), (r"\.isEmpty\b", ".isEmpty.not"), (r"\.isSome\b", ".isNone"),
       (r"\.isNone\b", ".isSome"), (r"!(?=[a-z(])", "")]
def variants(block):
    out = []
    body = block.find(":=")
    if body < 0: body = block.find("\n  | ")
    if body < 0: return []
    for pat, rep in OPS:
        for m in re.finditer(pat, block):
            if m.start() > body + 1: out.append((m.start(), m.end(), rep))
    for m in re.finditer(r"(?<![\w.'])(\d+)(?![\w.'])", block):
        if m.start() > body + 1: out.append((m.start(), m.end(), str(int(m.group(1)) + 1)))
    for m in re.finditer(r"'(\w|[ .,%=-])'", block):
        if m.start() > body: out.append((m.start(), m.end(), "'~'"))
    for m in re.finditer(r'"([^"\n]*)"', block):
        if m.start() > body: out.append((m.start(), m.end(), '"' + m.group(1) + '~"'))
    # exchange the branches of a conditional on one line
    for m in re.finditer(r"\bthen ([^\n]+?) else ([^\n]+)", block):
        if m.start() > body and "if " not in m.group(0):
            out.append((m.start(), m.end(), f"then {m.group(2)} else {m.group(1)}"))
    # drop an alternative's result in favour of another one
    alts = [m for m in re.finditer(r"\n( +\| [^\n]*? =>) ([^\n]+)", block)]
    for a in alts:
        for b in alts:
            if a.group(2) != b.group(2) and re.fullmatch(r"[\w.()' ]+", b.group(2)):
                out.append((a.start(2), a.end(2), b.group(2)))
    return out
def blocks(path):
    text = open(path).read()
    starts = [m.start() for m in re.finditer(r"(?m)^(?=\S)", text)]
    starts.append(len(text))
    for s, e in zip(starts, starts[1:]):
        b = text[s:e]
        m = re.match(r"(?:@\[[^\]]*\] )?(?:private |partial )?(def|inductive) (\S+)", b)
        if m: yield m.group(2), s, e, b
def strip_comments(b):
    b = re.sub(r"/-.*?-/", lambda m: " " * len(m.group(0)), b, flags=re.S)
    return re.sub(r"--[^\n]*", lambda m: " " * len(m.group(0)), b)
def main():
    rnd = random.Random(int(sys.argv[1]) if len(sys.argv) > 1 else 0)
    per = int(sys.argv[2]) if len(sys.argv) > 2 else 1
    pat = sys.argv[3] if len(sys.argv) > 3 else ""
    subprocess.run(f"rm -rf {base} {work} && cp -a {here}/lean {base} && cp -a {here}/lean {work}", shell=True)
    muts = []
    d = base + "/Verif/Model"
    for f in sorted(os.listdir(d)):
        if not re.search(pat, f): continue
        for name, s, e, b in blocks(f"{d}/{f}"):
            v = variants(strip_comments(b))
            rnd.shuffle(v)
            for x in v[:per]: muts.append((f, name, s, b, x))
    rnd.shuffle(muts)
    print(len(muts), "mutants", flush=True)
    START = r"(?:@\[[^\]]*\] )?(?:private )?(theorem|lemma|example|def|instance|inductive|structure|mutual|abbrev)\b\s*(\S*)"
    for f, name, s, b, (i, j, rep) in muts:
        subprocess.run(f"rm -rf {work} && cp -a {base} {work}", shell=True)
        p = f"{work}/Verif/Model/{f}"
        orig = open(f"{base}/Verif/Model/{f}").read()
        open(p, "w").write(orig[:s + i] + rep + orig[s + j:])
        decls, ex, model, rc = set(), 0, False, None
        pr = subprocess.Popen("exec lake build --no-ansi", shell=True, stdout=subprocess.PIPE, stderr=subprocess.STDOUT, text=True,
                              cwd=work, start_new_session=True)
        # stop at the first theorem that fails
        for l in pr.stdout:
            m = re.match(r"error: (?:\./)?(Verif/\S+?\.lean):(\d+):\d+", l)
            if not m: continue
            ef, ln = m.groups()
            if "/Model/" in ef: model = True
            lines = open(f"{work}/{ef}").read().split("\n")
            for k in range(int(ln) - 1, -1, -1):
                m = re.match(START, lines[k])
                if m:
                    if m.group(1) == "example": ex += 1
                    else: decls.add(m.group(2))
                    break
            if decls: break
        if decls:
            os.killpg(pr.pid, 9)
        rc = pr.wait()
        st = "illtyped" if model else "killed" if decls else "example" if ex else "SURVIVED" if rc == 0 else "other"
        line = b.count("\n", 0, i)
        rec = {"file": f, "definition": name, "old": b.split("\n")[line].strip(), "at": b[i:j], "new": rep, "status": st, "decls": sorted(decls)[:6]}
        with open("/tmp/auto/results.jsonl", "a") as fh: fh.write(json.dumps(rec, ensure_ascii=False) + "\n")
        print(st, f, name, "|", rec["old"][:90], "|", repr(rec["at"]), "->", repr(rep), rec["decls"][:3], flush=True)
main()
