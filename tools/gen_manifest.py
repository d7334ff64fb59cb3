#!/usr/bin/env python3
"""Regenerate MANIFEST.json from the theorem names (C<nn>_*) in lean/Verif/Props."""
import glob, json, os, re
root = os.path.dirname(os.path.dirname(os.path.abspath(__file__)))
notes = json.load(open(os.path.join(root, 'tools', 'notes.json')))
th = {}
for f in sorted(glob.glob(root + '/lean/Verif/Props/*.lean')):
    for m in re.finditer(r'^theorem (C\d+)_(\S+)', open(f).read(), re.M):
        th.setdefault(m.group(1), []).append('Joque.' + m.group(1) + '_' + m.group(2))
claims = []
for line in open(root + '/properties.jsonl'):
    pid = json.loads(line)['id']
    if pid not in th:
        continue
    n = notes.get(pid, {})
    claims.append({'property': pid, 'status': n.get('status', 'proved'),
                   'theorems': th[pid], 'note': n.get('note', '')})
json.dump({'claims': claims}, open(root + '/MANIFEST.json', 'w'), indent=1)
print(len(claims), 'claims')
