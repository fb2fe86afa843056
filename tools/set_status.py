#!/usr/bin/env python3
"""usage: set_status.py Cnn proved|partial "note" [...more triples]"""
import json, os, sys
p = os.path.join(os.path.dirname(os.path.abspath(__file__)), "status.json")
d = json.load(open(p))
a = sys.argv[1:]
for i in range(0, len(a), 3):
    d[a[i]] = [a[i + 1], a[i + 2]]
with open(p, "w") as f:
    f.write("{\n" + ",\n".join(f"{json.dumps(k)}: {json.dumps(d[k])}" for k in sorted(d)) + "\n}\n")
