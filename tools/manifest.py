#!/usr/bin/env python3
"""Regenerate MANIFEST.json from the theorem names in lean/Verif/Props/*.lean."""
import re, json, glob, collections, os
root = os.path.dirname(os.path.dirname(os.path.abspath(__file__)))
notes = json.load(open(os.path.join(root, 'tools', 'notes.json')))
th = collections.OrderedDict()
for f in sorted(glob.glob(os.path.join(root, 'lean/Verif/Props/*.lean'))):
    ns = []
    for line in open(f):
        m = re.match(r'namespace (\S+)', line)
        if m: ns.append(m.group(1))
        m = re.match(r'end (\S+)', line)
        if m and ns and ns[-1] == m.group(1): ns.pop()
        m = re.match(r'(?:noncomputable )?theorem ((C\d\d+)_\S+)', line)
        if m: th.setdefault(m.group(2), []).append('.'.join(ns) + '.' + m.group(1))
props = [json.loads(l)['id'] for l in open(os.path.join(root, 'properties.jsonl'))]
claims = []
for p in props:
    n = notes.get(p, {})
    if p in th:
        auto = 'partial' if any(t.endswith('_partial') or t.endswith('_refuted') for t in th[p]) else 'proved'
        claims.append({'property': p, 'status': n.get('status', auto), 'theorems': th[p], 'note': n.get('note', '')})
    elif n.get('status') == 'not_applicable':
        claims.append({'property': p, 'status': 'not_applicable', 'theorems': [], 'note': n.get('note', '')})
    else:
        print('no theorem for', p)
for p in th:
    if p not in props: print('unknown property', p)
json.dump({'claims': claims}, open(os.path.join(root, 'MANIFEST.json'), 'w'), indent=1)
