#!/usr/bin/env python3
"""Generates MANIFEST.json. Theorem names are checked against the Lean sources."""
import json, re, pathlib, sys
root = pathlib.Path(__file__).resolve().parent.parent
C = {}
def claim(pid, status, theorems, note=""):
    C[pid] = dict(property=pid, status=status, theorems=["Ripsrc."+t for t in theorems], note=note)
exec((root/"tools/claims.py").read_text())
src = "\n".join(p.read_text() for p in (root/"lean/Verif").rglob("*.lean"))
names = set(re.findall(r"^(?:protected |private )?theorem ([^\s:({\[]+)", src, re.M))
bad = [t for c in C.values() for t in c["theorems"] if t.split(".",1)[1] not in names and t.split(".")[-1] not in names]
if bad: sys.exit("unknown theorems: %s" % bad)
ids = [json.loads(l)["id"] for l in (root/"properties.jsonl").open()]
for i in ids:
    if i not in C: print("no claim for", i)
(root/"MANIFEST.json").write_text(json.dumps({"claims":[C[i] for i in ids if i in C]}, indent=1)+"\n")
