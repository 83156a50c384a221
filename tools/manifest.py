"""Write MANIFEST.json: property -> theorems, found by the Cnn_ prefix of theorem names."""
import glob, json, os, re
here = os.path.dirname(os.path.dirname(os.path.abspath(__file__)))
thms = {}
for p in sorted(glob.glob(here + "/lean/Verif/Props/*.lean")):
    ns = []
    for line in open(p):
        m = re.match(r"namespace (\S+)", line)
        if m: ns.append(m.group(1))
        m = re.match(r"end (\S+)", line)
        if m and ns and ns[-1] == m.group(1): ns.pop()
        m = re.match(r"theorem ((C\d\d+)_\w+)", line)
        if m: thms.setdefault(m.group(2), []).append(".".join(ns + [m.group(1)]))
notes = json.load(open(here + "/tools/notes.json"))
claims = []
for line in open(here + "/properties.jsonl"):
    d = json.loads(line)
    i = d["id"]
    t = thms.get(i, [])
    n = notes.get(i, {})
    if not t:
        continue
    part = any("_partial" in x or "_refuted" in x for x in t)
    claims.append({"property": i, "status": n.get("status", "partial" if part else "proved"),
                   "theorems": t, "note": n.get("note", "")})
json.dump({"claims": claims}, open(here + "/MANIFEST.json", "w"), indent=1)
print({c["property"]: c["status"] for c in claims})
