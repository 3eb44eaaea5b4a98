#!/usr/bin/env python3
"""Write MANIFEST.json from the table below, checking that every theorem named exists."""
import json, os, re, sys
root = os.path.join(os.path.dirname(os.path.abspath(__file__)), '..')
claims = json.load(open(os.path.join(root, 'tools', 'claims.json')))
names = set()
for d, _, fs in os.walk(os.path.join(root, 'lean', 'Verif', 'Props')):
    for f in fs:
        ns = []
        for line in open(os.path.join(d, f)):
            m = re.match(r'namespace (\S+)', line)
            if m: ns.append(m.group(1))
            m = re.match(r'end (\S+)', line)
            if m and ns and ns[-1] == m.group(1): ns.pop()
            m = re.match(r'theorem (\S+)', line)
            if m: names.add('.'.join(ns + [m.group(1)]))
props = [json.loads(l)['id'] for l in open(os.path.join(root, 'properties.jsonl'))]
out = []
bad = False
used = set()
for p in props:
    c = claims.get(p)
    if c is None:
        c = {"status": "partial", "theorems": [], "note": "not yet proved"}
    ths = ['Zarr.' + t for t in c["theorems"]]
    for t in ths:
        used.add(t)
        if t not in names:
            print('missing theorem', t); bad = True
    out.append({"property": p, "status": c["status"], "theorems": ths, "note": c["note"]})
for n in sorted(names - used):
    if re.match(r'Zarr\.C\d\d', n): print('unclaimed', n)
json.dump({"claims": out}, open(os.path.join(root, 'MANIFEST.json'), 'w'), indent=1)
print({s: sum(1 for c in out if c['status'] == s) for s in ('proved', 'partial', 'not_applicable')},
      'open', [c['property'] for c in out if not c['theorems']])
sys.exit(1 if bad else 0)
