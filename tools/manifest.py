"""Write MANIFEST.json from claims.py after checking that every theorem named exists in the sources,
and refresh lean/Verif.lean with every module."""
import json, os, re, sys, glob
here = os.path.dirname(os.path.abspath(__file__)); root = os.path.dirname(here)
sys.path.insert(0, here)
from claims import C
mods = sorted(os.path.relpath(f, root + "/lean")[:-5].replace("/", ".")
              for f in glob.glob(root + "/lean/Verif/**/*.lean", recursive=True))
open(root + "/lean/Verif.lean", "w").write("".join("import %s\n" % m for m in mods))
names = set()
for f in glob.glob(root + "/lean/Verif/**/*.lean", recursive=True):
    ns = []
    for line in open(f):
        m = re.match(r"namespace (\S+)", line)
        if m: ns.append(m.group(1))
        m = re.match(r"end (\S+)", line)
        if m and ns and ns[-1] == m.group(1): ns.pop()
        m = re.match(r"(?:@\[[^\]]*\] *)?(?:protected |private )?theorem (\S+)", line)
        if m: names.add(".".join(ns + [m.group(1)]))
props = [json.loads(l)["id"] for l in open(root + "/properties.jsonl")]
claims, bad, missing = [], [], []
for p in props:
    if p not in C: missing.append(p); continue
    s, t, n = C[p]
    bad += [x for x in t if x not in names]
    claims.append({"property": p, "status": s, "theorems": t, "note": n})
json.dump({"claims": claims}, open(root + "/MANIFEST.json", "w"), indent=1)
print("claims", len(claims), "missing", missing, "UNKNOWN THEOREMS", bad)
