#!/usr/bin/env python3
"""Writes MANIFEST.json and checks that the theorem names occur in the sources."""
import json, re, glob, os, sys
here = os.path.dirname(os.path.dirname(os.path.abspath(__file__)))
claims = json.load(open(os.path.join(here, 'tools', 'claims.json')))
names = set()
for f in glob.glob(os.path.join(here, 'lean/Verif/**/*.lean'), recursive=True):
    ns = []
    for line in open(f):
        m = re.match(r'namespace (\S+)', line)
        if m: ns.append(m.group(1))
        m = re.match(r'end (\S+)', line)
        if m and ns and ns[-1] == m.group(1): ns.pop()
        m = re.match(r'(?:private |protected |noncomputable )*(?:theorem|lemma) (\S+)', line)
        if m: names.add('.'.join(ns + [m.group(1)]))
props = [json.loads(l)['id'] for l in open(os.path.join(here, 'properties.jsonl'))]
out, bad = [], False
for p in props:
    c = claims.get(p)
    if c is None: continue
    for t in c['theorems']:
        if t not in names: print('missing theorem', p, t); bad = True
    out.append({'property': p, 'status': c['status'], 'theorems': c['theorems'], 'note': c['note']})
for p in claims:
    if p not in props: print('unknown property', p); bad = True
json.dump({'claims': out}, open(os.path.join(here, 'MANIFEST.json'), 'w'), indent=1)
print(len(out), 'claims; without:', [p for p in props if p not in claims])
sys.exit(bad)
