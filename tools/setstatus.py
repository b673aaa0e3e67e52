#!/usr/bin/env python3
"""usage: setstatus.py ID STATUS NOTE [ID STATUS NOTE ...]; records the status and regenerates MANIFEST.json."""
import json, os, subprocess, sys
here = os.path.dirname(os.path.abspath(__file__))
path = os.path.join(here, "status.json")
st = json.load(open(path))
args = sys.argv[1:]
for i in range(0, len(args), 3):
    st[args[i]] = {"status": args[i + 1], "note": args[i + 2]}
json.dump(dict(sorted(st.items())), open(path, "w"), indent=1, ensure_ascii=False)
subprocess.check_call([sys.executable, os.path.join(here, "manifest.py")])
