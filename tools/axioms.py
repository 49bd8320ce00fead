#!/usr/bin/env python3
"""Write AXIOMS.md: the axioms of every property theorem, as Lean's collectAxioms reports them."""
import subprocess, tempfile, os
code = '''import Verif
open Lean
#eval show MetaM Unit from do
  let env ← getEnv
  for (n, ci) in env.constants.map₁.toList do
    if (`Verif).isPrefixOf n && ci.isThm then
      let ax ← collectAxioms n
      IO.println s!"AX {n} {" ".intercalate (ax.toList.map toString)}"
'''
d = tempfile.mkdtemp(); f = os.path.join(d, 'Ax.lean'); open(f, 'w').write(code)
root = os.path.join(os.path.dirname(os.path.abspath(__file__)), '..')
out = subprocess.run(['lake', 'env', 'lean', f], cwd=os.path.join(root, 'lean'), capture_output=True, text=True).stdout
import json, re
names = [t for c in json.load(open(os.path.join(root, 'MANIFEST.json')))['claims'] for t in c['theorems']]
ax = {}
for l in out.split('\n'):
    if l.startswith('AX '):
        p = l.split(); ax[p[1]] = sorted(p[2:])
with open(os.path.join(root, 'AXIOMS.md'), 'w') as o:
    o.write('# Axioms of the property theorems\n\nGenerated by tools/axioms.py from `collectAxioms`.\n\n| theorem | axioms |\n|---|---|\n')
    for n in names: o.write('| %s | %s |\n' % (n, ', '.join(ax[n]) or 'none'))
print(len(names), set(a for n in names for a in ax[n]))
