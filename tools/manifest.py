#!/usr/bin/env python3
"""Regenerates MANIFEST.json: collects the theorems named Cnn_* from the Lean sources and adds the
status and note recorded in tools/status.json."""
import glob, json, os, re

ROOT = os.path.dirname(os.path.dirname(os.path.abspath(__file__)))
status = json.load(open(os.path.join(ROOT, "tools", "status.json")))
thms = {}
for path in sorted(glob.glob(os.path.join(ROOT, "lean", "Verif", "**", "*.lean"), recursive=True)):
    ns = []
    for line in open(path):
        m = re.match(r"namespace\s+(\S+)", line)
        if m:
            ns.append(m.group(1))
        m = re.match(r"end\s+(\S+)", line)
        if m and ns and ns[-1] == m.group(1):
            ns.pop()
        m = re.match(r"(?:protected\s+|private\s+)?theorem\s+(C\d\d+)_([^\s:({\[]*)", line)
        if m:
            name = ".".join(ns + [f"{m.group(1)}_{m.group(2)}"])
            thms.setdefault(m.group(1), []).append(name)
claims = []
for line in open(os.path.join(ROOT, "properties.jsonl")):
    if not line.strip():
        continue
    pid = json.loads(line)["id"]
    st = status.get(pid, {})
    if pid not in thms and st.get("status") != "not_applicable":
        claims.append({"property": pid, "status": "partial", "theorems": [],
                       "note": st.get("note", "not proved yet")})
        continue
    claims.append({"property": pid, "status": st.get("status", "partial"),
                   "theorems": thms.get(pid, []), "note": st.get("note", "")})
json.dump({"claims": claims}, open(os.path.join(ROOT, "MANIFEST.json"), "w"), indent=1, ensure_ascii=False)
print({s: sum(c["status"] == s for c in claims) for s in ("proved", "partial", "not_applicable")},
      "theorems:", sum(len(c["theorems"]) for c in claims),
      "missing:", [c["property"] for c in claims if not c["theorems"]])
