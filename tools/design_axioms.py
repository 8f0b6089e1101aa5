#!/usr/bin/env python3
"""Write the table of axioms into DESIGN.md from the output of axioms.lean.txt (lake env lean tools/axioms.lean.txt > FILE)."""
import sys, re, collections
rows = collections.defaultdict(list)
for l in open(sys.argv[1]):
    w = l.split()
    rows[" ".join(w[1:]) or "none"].append(w[0].replace("Verif.Props.", ""))
out = ["<!-- axioms: begin (generated by tools/design_axioms.py) -->"]
big = "Classical.choice Quot.sound propext"
for k in sorted(rows, key=lambda k: len(rows[k])):
    names = sorted(rows[k])
    if k == big:
        out.append(f"* `propext`, `Classical.choice`, `Quot.sound`: the other {len(names)} property theorems: " + ", ".join(names) + ".")
    elif k == "none":
        out.append(f"* no axioms: " + ", ".join(names) + ".")
    else:
        out.append("* " + ", ".join(f"`{a}`" for a in k.split()) + ": " + ", ".join(names) + ".")
out.append("<!-- axioms: end -->")
p = "/verif/DESIGN.md"
s = open(p).read()
s = re.sub(r"<!-- axioms: begin.*?axioms: end -->", lambda m: "\n".join(out), s, flags=re.S)
open(p, "w").write(s)
