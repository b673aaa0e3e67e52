#!/usr/bin/env python3
"""Writes AXIOMS.md: the axioms every theorem of MANIFEST.json depends on, as printed by `#print axioms`.
Needs a finished `lake build`. The Lean file it feeds to Lean is temporary and outside the repository."""
import json, os, re, subprocess, tempfile

ROOT = os.path.dirname(os.path.dirname(os.path.abspath(__file__)))
claims = json.load(open(os.path.join(ROOT, "MANIFEST.json")))["claims"]
names = [t for c in claims for t in c["theorems"]]
with tempfile.NamedTemporaryFile("w", suffix=".lean", delete=False) as f:
    f.write("import Verif\n" + "".join(f"#print axioms {n}\n" for n in names))
out = subprocess.run(["lake", "env", "lean", f.name], cwd=os.path.join(ROOT, "lean"), capture_output=True, text=True).stdout
os.unlink(f.name)
axioms = {}
for m in re.finditer(r"'([^']+)' (?:depends on axioms: \[([^\]]*)\]|does not depend on any axioms)", out):
    axioms[m.group(1)] = sorted(x.strip() for x in (m.group(2) or "").split(",") if x.strip())
groups = {}
for n in names:
    groups.setdefault(", ".join(axioms[n]) or "none", []).append(n)
with open(os.path.join(ROOT, "AXIOMS.md"), "w") as f:
    f.write("# Axioms per theorem\n\nOutput of `#print axioms` for the theorems of MANIFEST.json, written by `tools/axioms.py`.\n")
    for g in sorted(groups, key=lambda g: (len(g), g)):
        f.write(f"\n## {g} ({len(groups[g])} theorems)\n\n")
        f.writelines(f"* `{n}`\n" for n in groups[g])
print({g: len(v) for g, v in groups.items()})
