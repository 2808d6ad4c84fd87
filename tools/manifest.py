#!/usr/bin/env python3
"""Regenerate MANIFEST.json from the theorem names in lean/Verif/Props and tools/notes.json."""
import re, json, glob, os
root = os.path.join(os.path.dirname(os.path.abspath(__file__)), '..')
thms = {}
for f in sorted(glob.glob(root + '/lean/Verif/Props/*.lean')):
    ns = []
    for line in open(f):
        m = re.match(r'namespace (\S+)', line)
        if m: ns += m.group(1).split('.')
        m = re.match(r'end (\S+)', line)
        if m:
            for _ in m.group(1).split('.'):
                if ns: ns.pop()
        m = re.match(r'theorem (C\d\d\d?)(_\S+)', line)
        if m:
            thms.setdefault(m.group(1), []).append('.'.join(ns + [m.group(1) + m.group(2)]))
notes = json.load(open(root + '/tools/notes.json'))
claims = []
for line in open(root + '/properties.jsonl'):
    p = json.loads(line)
    i = p['id']
    n = notes.get(i, {})
    if i not in thms and 'status' not in n:
        continue
    claims.append({'property': i, 'status': n.get('status', 'proved'), 'theorems': thms.get(i, []),
                   'note': n.get('note', '')})
json.dump({'claims': claims}, open(root + '/MANIFEST.json', 'w'), indent=1)
print(len(claims), 'claims', sum(len(c['theorems']) for c in claims), 'theorems')
