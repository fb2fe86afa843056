#!/usr/bin/env python3
"""Fill in verdicts. usage: review.py file.json
The file is a list of [verdict, theorem, note, tightened...] for the unreviewed lines of seeded/LOG.jsonl, in order. Verdicts: caught (the named property theorem
is false of the edited program, for the reason given in the note), survived (no property theorem is false of it), equivalent (the edit does not change behaviour)."""
import json, sys
LOG = "/verif/seeded/LOG.jsonl"
L = [json.loads(l) for l in open(LOG)]
R = json.load(open(sys.argv[1]))
U = [e for e in L if e["verdict"] == "unreviewed"]
assert len(U) >= len(R), (len(U), len(R))
for e, r in zip(U, R):
    e["verdict"] = r[0]
    if r[1]: e["property_theorem_false_of_edit"] = r[1]
    e["note"] = (e.get("note", "") + " " + r[2]).strip()
    if len(r) > 3: e["theorems_tightened"] = r[3:]
    e["reviewed_by"] = "argument in note"
open(LOG, "w").write("".join(json.dumps(e) + "\n" for e in L))
