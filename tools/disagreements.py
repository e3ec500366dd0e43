#!/usr/bin/env python3
"""Rewrite section 4 of DESIGN.md from the docstrings of the `_violated` theorems."""
import glob, os, re
root = os.path.dirname(os.path.dirname(os.path.abspath(__file__)))
items = []
for f in sorted(glob.glob(os.path.join(root, 'lean/Verif/Props/*.lean'))):
    s = open(f).read()
    for m in re.finditer(r'/--((?:(?!-/).)*)-/\s*(?:omit[^\n]*\n)?(?:set_option[^\n]*\n)?theorem (C\d\d_\w*violated\w*)', s, re.S):
        t = ' '.join(m.group(1).split())
        t = re.sub(r'^The code violates \*\*C\d\d\*\*:\s*', '', t)
        t = re.sub(r'^\*\*C\d\d\*\*(, negation)?( as stated)?( fails)?[:,]?\s*', '', t)
        t = t.replace('**', '')
        items.append((m.group(2), t, os.path.basename(f)))
items.sort()
out = ['## 4. Disagreements between the code and the claims', '',
       'Each line is a theorem of the model: the claim fails for the input (or the whole class of inputs) named there.',
       'The list is generated from the theorem comments by `tools/disagreements.py`.', '']
for n, t, f in items:
    out.append(f'* `{n}` (`Props/{f}`): {t}')
p = os.path.join(root, 'DESIGN.md')
s = open(p).read()
a = s.index('## 4. Disagreements')
b = s.find('\n## 5.', a)
s = s[:a] + '\n'.join(out) + '\n' + (s[b:] if b >= 0 else '')
open(p, 'w').write(s)
