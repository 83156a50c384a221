"""Write AXIOMS.md: the axioms each property theorem depends on (from `#print axioms`)."""
import json, os, re, subprocess
here = os.path.dirname(os.path.dirname(os.path.abspath(__file__)))
names = [t for c in json.load(open(here + "/MANIFEST.json"))["claims"] for t in c["theorems"]]
open("/tmp/Ax.lean", "w").write("import Verif\n" + "".join(f"#print axioms {n}\n" for n in names))
out = subprocess.run("lake env lean /tmp/Ax.lean", shell=True, capture_output=True, text=True, cwd=here + "/lean").stdout
out = re.sub(r"\n\s+", " ", out)
groups = {}
for line in out.splitlines():
    m = re.match(r"'(\S+)' depends on axioms: \[(.*)\]", line)
    if m: groups.setdefault(", ".join(sorted(m.group(2).split(", "))), []).append(m.group(1))
    m = re.match(r"'(\S+)' does not depend", line)
    if m: groups.setdefault("none", []).append(m.group(1))
n = sum(map(len, groups.values()))
assert n == len(names), (n, len(names), out[-500:])
with open(here + "/AXIOMS.md", "w") as f:
    f.write("# Axioms of the property theorems\n\nGenerated by `tools/axioms.py` with `#print axioms`.\n")
    for k in sorted(groups):
        f.write(f"\n## {k} ({len(groups[k])})\n\n" + "\n".join(f"* `{t}`" for t in groups[k]) + "\n")
print({k: len(v) for k, v in groups.items()})
