#!/usr/bin/env python3
"""Print the statements of property theorems. usage: stmts.py Area [Area...]"""
import re, sys, glob
for a in sys.argv[1:]:
    for f in sorted(glob.glob(f"/verif/lean/Verif/{a}.lean") + glob.glob(f"/verif/lean/Verif/{a}/*.lean")):
        s = open(f).read()
        for m in re.finditer(r"((?:/--(?:(?!-/).)*-/\s*)?)((?:open Classical in\s*)?theorem C\d\d+_(?:(?!:=).)*?:=|(?:open Classical in\s*)?theorem C\d\d+_(?:(?!\n\n).)*)", s, re.S):
            print(f"-- {f[18:]}"); print(m.group(1).strip()); t = m.group(2)
            print(t); print()
