#!/usr/bin/env python3
"""seedlog.py OUT.jsonl [TIGHT.json]: append results of tools/seed.py to seeded/LOG.jsonl.
TIGHT.json maps a definition to the list of theorems tightened after the attempt."""
import json, sys, os
log = os.path.join(os.path.dirname(__file__), '..', 'seeded', 'LOG.jsonl')
tight = json.load(open(sys.argv[2])) if len(sys.argv) > 2 else {}
with open(log, 'a') as f:
    for l in open(sys.argv[1]):
        d = json.loads(l)
        m = d.get('mut', d)
        failed = d.get('failed') or []
        if not failed or any(x.endswith('?') for x in failed):
            failed = d.get('broken') or []
        f.write(json.dumps({
            "definition": m['definition'], "file": m['file'],
            "edit": {"old": m['old'], "new": m['new']},
            "claim": m['claim'], "properties": m.get('ids', []),
            "theorems_failed": failed,
            "theorems_still_true": d.get('survived', []),
            "theorems_tightened": tight.get(m['definition'], []),
            **({"note": "the definition itself is rejected: " + d['error'].split('::')[0][:200]} if d.get('error') else {})}) + "\n")
