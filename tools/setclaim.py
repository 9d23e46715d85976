#!/usr/bin/env python3
"""setclaim.py ID STATUS thm1,thm2,... NOTE : insert or replace one claim in MANIFEST.json."""
import json, sys, os
p = os.path.join(os.path.dirname(__file__), '..', 'MANIFEST.json')
m = json.load(open(p))
pid, status, thms, note = sys.argv[1:5]
c = {"property": pid, "status": status, "theorems": [t for t in thms.split(',') if t], "note": note}
m["claims"] = sorted([x for x in m["claims"] if x["property"] != pid] + [c], key=lambda x: x["property"])
json.dump(m, open(p, 'w'), indent=1)
