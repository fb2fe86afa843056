"""Writes MANIFEST.json from the CLAIMS table; theorem names are checked to exist in the Lean sources."""
import json, os, re, sys
ROOT = os.path.dirname(os.path.dirname(os.path.abspath(__file__)))
names = {}
for d, _, fs in os.walk(os.path.join(ROOT, "lean", "Verif")):
    for f in fs:
        if not f.endswith(".lean"): continue
        ns = []
        for line in open(os.path.join(d, f)):
            m = re.match(r"namespace (\S+)", line)
            if m: ns.append(m.group(1))
            m = re.match(r"end (\S+)", line)
            if m and ns and ns[-1] == m.group(1): ns.pop()
            m = re.match(r"theorem (C\d\d+_\w+)", line)
            if m: names.setdefault(m.group(1).split("_")[0], []).append(".".join(ns + [m.group(1)]))
STATUS = json.load(open(os.path.join(ROOT, "tools", "status.json")))
claims = []
for line in open(os.path.join(ROOT, "properties.jsonl")):
    pid = json.loads(line)["id"]
    th = sorted(set(names.get(pid, [])))
    st, note = STATUS.get(pid, [None, ""])
    if not th or st is None:
        claims.append({"property": pid, "status": "partial", "theorems": [], "note": "No theorem yet; still to be modelled."})
        if th: print("no status for", pid, file=sys.stderr)
        continue
    claims.append({"property": pid, "status": st, "theorems": th, "note": note})
json.dump({"claims": claims}, open(os.path.join(ROOT, "MANIFEST.json"), "w"), indent=1)
print(sum(1 for c in claims if c["theorems"]), "claims with theorems of", len(claims))
