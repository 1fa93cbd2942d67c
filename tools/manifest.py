#!/usr/bin/env python3
"""Collect the property theorems (named Cnn_... or Cnn_Cmm_...) from lean/Verif/Props, combine them with
tools/status.json and write MANIFEST.json and lean/Verif/Audit.lean."""
import json, re, glob, os
root = os.path.dirname(os.path.dirname(os.path.abspath(__file__)))
ids = [json.loads(l)['id'] for l in open(root + '/properties.jsonl')]
status = json.load(open(root + '/tools/status.json'))
thms = {i: [] for i in ids}
mods = []
for f in sorted(glob.glob(root + '/lean/Verif/Props/*.lean')):
    mods.append('Verif.Props.' + os.path.basename(f)[:-5])
    ns = []
    for line in open(f):
        m = re.match(r'namespace (\S+)', line)
        if m: ns.append(m.group(1))
        m = re.match(r'end (\S+)', line)
        if m and ns and ns[-1] == m.group(1): ns.pop()
        m = re.match(r'theorem ((?:C\d\d\d?_)+\S*)', line)
        if m:
            name = '.'.join(ns + [m.group(1)])
            for p in re.findall(r'C\d\d\d?(?=_)', m.group(1)):
                if p in thms: thms[p].append(name)
claims = []
for i in ids:
    st = status.get(i)
    if st is None: continue
    claims.append({'property': i, 'status': st[0], 'theorems': thms[i], 'note': st[1]})
json.dump({'claims': claims}, open(root + '/MANIFEST.json', 'w'), indent=1)
allthms = sorted({t for c in claims for t in c['theorems']})
with open(root + '/lean/Verif/Audit.lean', 'w') as o:
    for m in mods: o.write(f'import {m}\n')
    o.write('\n/-!\n# Axioms used by the property theorems (written by tools/manifest.py)\n-/\n\n')
    for t in allthms: o.write(f'#print axioms {t}\n')
with open(root + '/lean/Verif.lean', 'w') as o:
    for m in mods: o.write(f'import {m}\n')
    o.write('import Verif.Audit\n')
for i in ids:
    if thms[i] == [] or status.get(i) is None: print('missing', i, thms[i], status.get(i))
print(len(allthms), 'theorems')
