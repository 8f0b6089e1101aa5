#!/usr/bin/env python3
"""Regenerate MANIFEST.json and lean/Verif.lean from the theorems in lean/Verif/Props."""
import json, re, glob, os
root = os.path.dirname(os.path.dirname(os.path.abspath(__file__)))
notes = json.load(open(os.path.join(root, "tools", "notes.json")))
thms = {}
for f in sorted(glob.glob(root + "/lean/Verif/Props/*.lean")):
    src = open(f).read()
    for m in re.finditer(r"^theorem (C(\d\d\d?)_\w+'?)", src, re.M):
        thms.setdefault("C" + m.group(2), []).append("Verif.Props." + m.group(1))
claims = []
for l in open(root + "/properties.jsonl"):
    p = json.loads(l)["id"]
    ts = thms.get(p, [])
    n = notes.get(p, {})
    if not ts:
        claims.append({"property": p, "status": n.get("status", "partial"), "theorems": [],
                       "note": n.get("note", "not yet proved")})
        continue
    bad = any(re.search(r"_false|_partial", t) for t in ts)
    claims.append({"property": p, "status": n.get("status", "partial" if bad else "proved"),
                   "theorems": ts, "note": n.get("note", "")})
with open(root + "/MANIFEST.json", "w") as o:
    o.write('{"claims": [\n' + ",\n".join(" " + json.dumps(c) for c in claims) + "\n]}\n")
mods = []
for f in sorted(glob.glob(root + "/lean/Verif/**/*.lean", recursive=True)):
    mods.append(os.path.relpath(f, root + "/lean")[:-5].replace("/", "."))
with open(root + "/lean/Verif.lean", "w") as o:
    o.write("".join("import %s\n" % m for m in mods))
print({c["property"]: (c["status"], len(c["theorems"])) for c in claims})
