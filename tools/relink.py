#!/usr/bin/env python3
"""Recompute failed_through_lemmas of log lines (stdin to stdout), completing lemma names recorded without their full namespace.
env DEPS: output of deps.lean.txt."""
import sys, json, os
deps = {}
for l in open(os.environ.get("DEPS", "/tmp/mut/deps.txt")):
    w = l.split(); deps[w[0]] = set(w[1:])
allnames = set().union(*deps.values()) | set(deps)
def full(n):
    if n is None or n in allnames: return {n}
    s = n.split(".")[-1]
    c = {a for a in allnames if a.split(".")[-1] == s}
    return c if len(c) == 1 else {n}
for l in sys.stdin:
    d = json.loads(l)
    d["failed_lemmas"] = [next(iter(full(f))) for f in d["failed_lemmas"]]
    d["failed"] += [f for f in d["failed_lemmas"] if f and f.startswith("Verif.Props.C") and f[13:15].isdigit()]
    d["failed_lemmas"] = [f for f in d["failed_lemmas"] if f not in d["failed"]]
    fs = set(d["failed"]) | set(d["failed_lemmas"])
    d["failed_through_lemmas"] = sorted(t for t, x in deps.items() if t not in d["failed"] and fs & x)
    print(json.dumps(d))
