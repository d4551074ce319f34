"""Writes MANIFEST.json from tools/claims.txt.

Format of claims.txt: one claim per line, `Cnn | status | thm1 thm2 ... | note`.
"""
import json, os
here = os.path.dirname(os.path.abspath(__file__))
claims = []
for line in open(os.path.join(here, 'claims.txt')):
    line = line.strip()
    if not line or line.startswith('#'):
        continue
    pid, status, thms, note = [t.strip() for t in line.split('|', 3)]
    claims.append({"property": pid, "status": status, "theorems": thms.split(), "note": note})
json.dump({"claims": claims}, open(os.path.join(here, '..', 'MANIFEST.json'), 'w'), indent=1)
