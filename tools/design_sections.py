#!/usr/bin/env python3
"""Regenerate the sections Findings and Uncited functions of DESIGN.md from MANIFEST.json, properties.jsonl, notes.json and cov.py."""
import json, re, subprocess
root = "/verif/"
titles = {d["id"]: d["title"] for d in map(json.loads, open(root + "properties.jsonl"))}
rows = []
for c in json.load(open(root + "MANIFEST.json"))["claims"]:
    f = [t.split(".")[-1] for t in c["theorems"] if re.search(r"_false(_|$)", t)]
    if f:
        rows.append(f"* **{c['property']}** ({c['status']}) {titles[c['property']]}. {c['note']} Counterexamples: " + ", ".join(f"`{t}`" for t in f) + ".")
cov, cur = {}, None
for l in subprocess.run(["python3", root + "tools/cov.py"], capture_output=True, text=True, check=True).stdout.splitlines():
    w = l.split()
    if l.startswith(" "):
        cov[cur].append(f"`{w[0].split('.')[-1]}` {w[1]}-{w[2]}")
    else:
        cur = w[0]; cov[cur] = []
def put(s, name, lines):
    b, e = f"<!-- {name}: begin (generated by tools/design_sections.py) -->", f"<!-- {name}: end -->"
    return re.sub(rf"<!-- {name}: begin.*?{name}: end -->", lambda m: "\n".join([b] + lines + [e]), s, flags=re.S)
s = open(root + "DESIGN.md").read()
s = put(s, "findings", rows)
s = put(s, "uncited", [f"* {k}: " + ", ".join(v) + "." for k, v in cov.items() if v])
open(root + "DESIGN.md", "w").write(s)
