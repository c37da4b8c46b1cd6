#!/usr/bin/env python3
"""Regenerate MANIFEST.json and lean/Verif.lean from the theorem names in lean/Verif/Props
and the status/notes table in tools/status.json."""
import json, re, glob, os
root = os.path.dirname(os.path.dirname(os.path.abspath(__file__)))
names = {}
for f in sorted(glob.glob(root + '/lean/Verif/Props/*.lean')):
    ns = []
    for l in open(f):
        if m := re.match(r'namespace (\S+)', l):
            ns.append(m.group(1))
        elif (m := re.match(r'end (\S+)', l)) and ns and ns[-1] == m.group(1):
            ns.pop()
        elif m := re.match(r'theorem (C(\d\d+)_\w+)', l):
            names.setdefault('C' + m.group(2), []).append('.'.join(ns + [m.group(1)]))
status = json.load(open(root + '/tools/status.json'))
claims = []
for l in open(root + '/properties.jsonl'):
    p = json.loads(l)['id']
    st, note = status.get(p, [None, ''])
    if p not in names and st != 'not_applicable':
        continue
    claims.append({'property': p, 'status': st or 'proved', 'theorems': names.get(p, []), 'note': note})
json.dump({'claims': claims}, open(root + '/MANIFEST.json', 'w'), indent=1, ensure_ascii=False)
mods = sorted(os.path.relpath(f, root + '/lean')[:-5].replace('/', '.')
              for f in glob.glob(root + '/lean/Verif/**/*.lean', recursive=True))
open(root + '/lean/Verif.lean', 'w').write(''.join(f'import {m}\n' for m in mods))
print(len(claims), 'claims', len(mods), 'modules', 'missing:',
      [json.loads(l)['id'] for l in open(root + '/properties.jsonl') if json.loads(l)['id'] not in names])
