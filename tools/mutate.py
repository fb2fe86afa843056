#!/usr/bin/env python3
"""Seeded-bug runs. usage: mutate.py batch.json
Each entry of the batch: {"def", "file", "old", "new", "claim"}. Takes a snapshot of /verif/lean. For each: copy it to a scratch directory, replace `old` by
`new` in `file`, run `lake build`, collect the declarations with errors and the modules that could not be built, and append a line to
/verif/seeded/LOG.jsonl.

A failed build does NOT mean the bug was caught: the failure may be a proof script in a helper lemma that could be repaired although the
edited program is wrong. Each line is written with verdict "unreviewed"; it becomes "caught" only when a property theorem is named whose
statement is false of the edited program, and "survived" otherwise."""
import json, os, re, subprocess, sys
ORIG, SRC, DST = "/verif/lean", "/tmp/mut/src", "/tmp/mut/lean"
LOG = "/verif/seeded/LOG.jsonl"
def decl_at(path, line):
    name = "?"
    for k, l in enumerate(open(path).read().split("\n")[:line], 1):
        m = re.match(r"^(?:@\[[^\]]*\]\s*)?(?:private |noncomputable |protected )*(theorem|lemma|def|example|instance|structure|abbrev)\b\s*([^\s:({\[]*)", l)
        if m: name = m.group(2) if m.group(1) != "example" else f"example@{k}"
    return name
def imports(mod):
    p = f"{DST}/{mod.replace('.', '/')}.lean"
    if not os.path.exists(p): return []
    return re.findall(r"^import (Verif\S*)", open(p).read(), re.M)
def main():
    subprocess.run(["rm", "-rf", SRC], check=True); subprocess.run(["cp", "-a", ORIG, SRC], check=True)
    for m in json.load(open(sys.argv[1])):
        subprocess.run(["rm", "-rf", DST], check=True); subprocess.run(["cp", "-a", SRC, DST], check=True)
        p = f"{DST}/{m['file']}"
        s = open(p).read()
        if s.count(m["old"]) < 1:
            print("NOT FOUND", m["def"], flush=True); continue
        if s.count(m["old"]) > 1 and not m.get("all"):
            print("AMBIGUOUS", m["def"], s.count(m["old"]), flush=True); continue
        open(p, "w").write(s.replace(m["old"], m["new"]))
        r = subprocess.run(["lake", "build"], cwd=DST, capture_output=True, text=True)
        out = r.stdout + r.stderr
        failed, badmods = [], set()
        for f, l in re.findall(r"error: (Verif/\S+?\.lean):(\d+):", out):
            d = decl_at(f"{DST}/{f}", int(l))
            badmods.add(f[:-5].replace("/", "."))
            if d not in failed: failed.append(d)
        # downstream modules
        mods = []
        for root, _, fs in os.walk(f"{DST}/Verif"):
            mods += [os.path.relpath(os.path.join(root, f), DST)[:-5].replace("/", ".") for f in fs if f.endswith(".lean")]
        blocked = set()
        ch = True
        while ch:
            ch = False
            for x in mods:
                if x not in badmods and x not in blocked and any(i in badmods or i in blocked for i in imports(x)):
                    blocked.add(x); ch = True
        e = {"definition": m["def"], "file": m["file"], "edit": m.get("edit", f"{m['old'].strip()}  ==>  {m['new'].strip()}"), "claim_broken": m["claim"],
             "theorems_failed": failed, "modules_not_rebuilt": sorted(blocked), "theorems_tightened": [],
             "verdict": "unreviewed" if failed else "survived"}
        if m.get("note"): e["note"] = m["note"]
        with open(LOG, "a") as f: f.write(json.dumps(e) + "\n")
        print("BUILD FAILS, REVIEW" if failed else "SURVIVED", m["def"], failed[:6], sorted(blocked)[:4], flush=True)
main()
