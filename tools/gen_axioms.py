#!/usr/bin/env python3
"""Rewrite the last section of DESIGN.md from `#print axioms` of every theorem in the manifest.
Run after `lake build`."""
import json, os, re, subprocess, sys, tempfile
root = os.path.join(os.path.dirname(os.path.abspath(__file__)), '..')
ths = [t for c in json.load(open(os.path.join(root, 'MANIFEST.json')))['claims'] for t in c['theorems']]
with tempfile.NamedTemporaryFile('w', suffix='.lean', delete=False) as f:
    f.write('import Verif\n' + ''.join('#print axioms %s\n' % t for t in ths))
p = subprocess.run(['lake', 'env', 'lean', f.name], cwd=os.path.join(root, 'lean'), capture_output=True, text=True)
by = {}
for t in ths:
    m = re.search(r"'%s' depends on axioms: \[([^\]]*)\]" % re.escape(t), p.stdout)
    if m: ax = ', '.join(sorted(x.strip() for x in m.group(1).split(',')))
    elif "'%s' does not depend on any axioms" % t in p.stdout: ax = 'none'
    else: sys.exit('no answer for ' + t + p.stdout[-500:])
    by.setdefault(ax, []).append(t.replace('Zarr.', ''))
allowed = {'propext', 'Classical.choice', 'Quot.sound', 'none'}
for ax in by:
    assert set(ax.split(', ')) <= allowed, ax
s = '## 9. Axioms of each theorem\n\n'
for ax in sorted(by):
    s += '* %s (%d): %s\n' % ('`%s`' % ax if ax != 'none' else 'no axioms', len(by[ax]), ', '.join(by[ax]))
d = os.path.join(root, 'DESIGN.md')
t = open(d).read()
open(d, 'w').write(t[:t.index('## 9. Axioms of each theorem')] + s)
