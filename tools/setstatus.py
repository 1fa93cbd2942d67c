#!/usr/bin/env python3
"""usage: setstatus.py Cnn status note -- record the status of a property in tools/status.json"""
import json, os, sys
p = os.path.join(os.path.dirname(__file__), "status.json")
d = json.load(open(p))
d[sys.argv[1]] = [sys.argv[2], sys.argv[3]]
with open(p, "w") as f:
    f.write("{\n" + ",\n".join(f"  {json.dumps(k)}: {json.dumps(d[k])}" for k in sorted(d)) + "\n}\n")
