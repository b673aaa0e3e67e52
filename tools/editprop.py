#!/usr/bin/env python3
"""usage: editprop.py ID FIELD TEXT; edits a field of a property in properties.jsonl."""
import json, os, sys
p = os.path.join(os.path.dirname(os.path.abspath(__file__)), "..", "properties.jsonl")
rows = [json.loads(l) for l in open(p)]
hit = False
for r in rows:
    if r["id"] == sys.argv[1]:
        r[sys.argv[2]] = sys.argv[3]; hit = True
assert hit
open(p, "w").write("".join(json.dumps(r, ensure_ascii=False) + "\n" for r in rows))
