#!/usr/bin/env python3
"""Regenerates MANIFEST.json from the table below."""
import json, os
N = "Folx."
C = {}
def claim(p, status, ths, note=""):
    C[p] = dict(property=p, status=status, theorems=[N + t for t in ths], note=note)
exec(open(os.path.join(os.path.dirname(__file__), "claims.py")).read())
ids = [json.loads(l)["id"] for l in open(os.path.join(os.path.dirname(__file__), "..", "properties.jsonl"))]
json.dump({"claims": [C[i] for i in ids if i in C]}, open(os.path.join(os.path.dirname(__file__), "..", "MANIFEST.json"), "w"), indent=1, ensure_ascii=False)
print(len(C), "claims; missing:", [i for i in ids if i not in C])
