#!/usr/bin/env python3
"""Add or replace notes: addnote.py C01 "text" [C02 "text" ...]"""
import json, sys, os
p = os.path.join(os.path.dirname(__file__), 'notes.json')
d = json.load(open(p))
a = sys.argv[1:]
for k, v in zip(a[::2], a[1::2]):
    d[k] = v
json.dump(dict(sorted(d.items())), open(p, 'w'), indent=0)
