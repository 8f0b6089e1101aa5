#!/usr/bin/env python3
"""Apply one wrong edit at a time to a scratch copy of the model and record which theorems fail.

usage: mutate.py SCRATCH MUTANTS.json OUT.jsonl
MUTANTS.json: [{"file": "Model/Param.lean", "def": "...", "old": "...", "new": "...", "edit": "...", "claim": "C01: ..."}]
SCRATCH is recreated for every mutant from PRISTINE (env), a copy of lean/ with its build output; DEPS (env) is the output of deps.lean."""
import json, os, re, subprocess, sys
scratch, muts, out = sys.argv[1:4]
deps = {}
for l in open(os.environ.get("DEPS", "/tmp/mut/deps.txt")):
    w = l.split()
    deps[w[0]] = set(w[1:])
decl = re.compile(r"^(?:@\[[^\]]*\]\s*)?(?:private |protected |noncomputable )*(theorem|lemma|def|instance|example|structure|inductive|abbrev)\s+(\S+)?")
def enclosing(path, line):
    src = open(path).read().split("\n")
    ns = []
    name = None
    for i, l in enumerate(src[:line]):
        m = re.match(r"^(namespace|(?:noncomputable )?section)\b\s*(\S+)?", l)
        if m: ns.append(m.group(2) if m.group(1) == "namespace" else None)
        if re.match(r"^end\b", l) and ns: ns.pop()
        m = decl.match(l)
        if m:
            name = ("example" if m.group(1) == "example" else ".".join([x for x in ns if x] + [m.group(2) or "?"]))
    return name
pristine = os.environ.get("PRISTINE", "/tmp/mut/pristine")
for m in json.load(open(muts)):
    subprocess.run(["rm", "-rf", scratch]); subprocess.run(["cp", "-a", pristine, scratch])
    path = os.path.join(scratch, "Verif", m["file"])
    orig = open(path).read()
    if orig.count(m["old"]) != 1:
        print("BAD MUTANT (%d matches)" % orig.count(m["old"]), m["def"], m["edit"]); continue
    open(path, "w").write(orig.replace(m["old"], m["new"]))
    r = subprocess.run(["lake", "build"], cwd=scratch, capture_output=True, text=True, timeout=5400)
    txt = r.stdout + r.stderr
    failed = []
    for mm in re.finditer(r"^error: (Verif/\S+?\.lean):(\d+):\d+", txt, re.M):
        n = enclosing(os.path.join(scratch, mm.group(1)), int(mm.group(2)))
        tag = "%s (%s)" % (n, mm.group(1)[6:]) if n == "example" else n
        if tag not in failed: failed.append(tag)
    open(path, "w").write(orig)
    direct = [f for f in failed if f and f.startswith("Verif.Props.C")]
    helper = [f for f in failed if f not in direct]
    via = sorted(t for t, d in deps.items() if t not in direct and any(f in d for f in failed))
    rec = {"definition": m["def"], "edit": m["edit"], "claim": m["claim"], "built": r.returncode == 0,
           "failed": direct, "failed_lemmas": helper, "failed_through_lemmas": via, "tightened": m.get("tightened", [])}
    if r.returncode and not failed: rec["output"] = txt[-1500:]
    open(out, "a").write(json.dumps(rec) + "\n")
    print(m["def"], "|", m["edit"], "|", m["claim"][:60], "->", "SURVIVED" if r.returncode == 0 else "caught",
          [f.split(".")[-1] for f in direct][:6], [f.split(".")[-1] for f in helper][:4], "via", len(via), flush=True)
    if "output" in rec: print(rec["output"])
