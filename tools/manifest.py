#!/usr/bin/env python3
"""Writes MANIFEST.json.  CLAIMS: property -> (status, theorems, note)."""
import json, os, re, sys
here = os.path.dirname(os.path.abspath(__file__))
root = os.path.dirname(here)
NS = "Willow.Props."
from claims import CLAIMS
names = set()
for d, _, fs in os.walk(os.path.join(root, "lean/Verif/Props")):
    for f in fs:
        for l in open(os.path.join(d, f), encoding="utf8"):
            m = re.match(r"theorem (\S+)", l)
            if m: names.add(m.group(1))
out = []
used = set()
for p, (st, ths, note) in sorted(CLAIMS.items()):
    for t in ths:
        if t not in names: sys.exit(f"unknown theorem {t} for {p}")
        used.add(t)
    out.append({"property": p, "status": st, "theorems": [NS + t for t in ths], "note": note})
for n in sorted(names - used): print("unclaimed theorem:", n)
json.dump({"claims": out}, open(os.path.join(root, "MANIFEST.json"), "w"), indent=1)
