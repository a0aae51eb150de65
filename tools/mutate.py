"""Run seeded mutations of the model in a scratch copy and log the outcome.

usage: mutate.py MUTS.py [--nolog]
MUTS.py defines M = [dict(id=, file=, defn=, old=, new=, claim=, areas=[...] (optional), note=)]
Only modules that import the mutated file and lie in the listed areas (default: its own) are rebuilt.
"""
import sys, os, re, json, subprocess, runpy
SCR = "/tmp/scratch/lean"
LOG = "/verif/seeded/LOG.jsonl"
def mods():
    out = {}
    for d, _, fs in os.walk(SCR + "/Verif"):
        for f in fs:
            if f.endswith(".lean"):
                p = os.path.join(d, f)
                m = os.path.relpath(p, SCR)[:-5].replace("/", ".")
                out[m] = set(re.findall(r"^import (Verif\.\S+)", open(p).read(), re.M))
    return out
def dependents(m, G):
    S = {m}
    while True:
        n = {a for a in G if a not in S and G[a] & S}
        if not n: return S
        S |= n
DECL = re.compile(r"^\s*(?:@\[[^\]]*\]\s*)?(?:private |protected |noncomputable |nonrec )*(theorem|lemma|def|example|instance|abbrev|structure|inductive)\b\s*(\S*)")
def encl(path, line):
    L = open(path).read().split("\n")
    for i in range(min(line, len(L)) - 1, -1, -1):
        mm = DECL.match(L[i])
        if mm:
            k, n = mm.group(1), mm.group(2)
            return n if k in ("theorem", "lemma") else f"{k} {n}".strip() if k != "example" else "example"
    return "?"
def run(mu, log=True):
    p = os.path.join(SCR, mu["file"])
    src = open(p).read()
    if src.count(mu["old"]) != mu.get("count", 1):
        print("!!", mu["id"], "old string occurs", src.count(mu["old"]), "times"); return
    open(p, "w").write(src.replace(mu["old"], mu["new"]))
    try:
        G = mods()
        m = mu["file"][:-5].replace("/", ".")
        area = m.split(".")[1]
        areas = mu.get("areas", [area])
        T = sorted(a for a in dependents(m, G) if a.split(".")[1] in areas)
        r = subprocess.run(["lake", "build"] + T, cwd=SCR, capture_output=True, text=True, timeout=12000)
        out = r.stdout + r.stderr
        fails = []
        for f, l in re.findall(r"error: (Verif/\S+?\.lean):(\d+):\d+", out):
            n = encl(os.path.join(SCR, f), int(l))
            if n == "example": n = "example in " + f
            if n not in fails: fails.append(n)
        ok = r.returncode == 0
        print(("SURVIVED " if ok else "killed   ") + mu["id"], mu["defn"], "|", mu["claim"], "|", fails[:12], flush=True)
        if not ok and not fails: print(out[-1500:])
        if log and (fails or ok):
            rec = dict(definition=mu["defn"], file=mu["file"], edit=mu.get("note") or f"{mu['old'].strip()}  ->  {mu['new'].strip()}", claim=mu["claim"],
                       theorems_failed=fails, theorems_tightened=mu.get("tightened", []))
            if ok: rec["outcome"] = "survived"
            open(LOG, "a").write(json.dumps(rec, ensure_ascii=False) + "\n")
    finally:
        open(p, "w").write(src)
if __name__ == "__main__":
    M = runpy.run_path(sys.argv[1])["M"]
    only = [a for a in sys.argv[2:] if not a.startswith("--")]
    for mu in M:
        if only and mu["id"] not in only: continue
        run(mu, "--nolog" not in sys.argv)
