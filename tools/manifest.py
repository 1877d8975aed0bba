"""Regenerates MANIFEST.json. Theorems are found by name: CNN_*; the status and note come from NOTES."""
import json, re, glob, os
root = os.path.dirname(os.path.dirname(os.path.abspath(__file__)))
thms = {}
for f in sorted(glob.glob(root + '/lean/Verif/Props/*.lean')):
    src = open(f).read()
    ns = re.search(r'^namespace (\S+)', src, re.M).group(1)
    for m in re.finditer(r'^theorem (C\d+)_(\S+)', src, re.M):
        thms.setdefault(m.group(1), []).append('%s.%s_%s' % (ns, m.group(1), m.group(2)))
notes = json.load(open(root + '/tools/notes.json'))
claims = []
for line in open(root + '/properties.jsonl'):
    p = json.loads(line)['id']
    if p not in thms:
        continue
    status, note = notes.get(p, ['proved', ''])
    claims.append({'property': p, 'status': status, 'theorems': thms[p], 'note': note})
json.dump({'claims': claims}, open(root + '/MANIFEST.json', 'w'), indent=1, ensure_ascii=False)
print(len(claims), 'claims', sum(len(c['theorems']) for c in claims), 'theorems')
