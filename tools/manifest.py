#!/usr/bin/env python3
"""Regenerate MANIFEST.json and lean/Verif/Audit.lean from the theorem names in lean/Verif.

A property theorem is a theorem whose name starts with its property id (C01_...). A property is `partial`
if one of its theorems is named *_partial or *_refutes, `not_applicable` if tools/notes.json says so, and
`proved` otherwise. Notes come from tools/notes.json.
"""
import json, os, re
root = os.path.join(os.path.dirname(os.path.abspath(__file__)), '..')
notes = json.load(open(os.path.join(root, 'tools/notes.json')))
props = [json.loads(l) for l in open(os.path.join(root, 'properties.jsonl')) if l.strip()]
found, mods = {}, []
imports = [l.split()[1] for l in open(os.path.join(root, 'lean/Verif.lean')) if l.startswith('import')]
for mod in imports:
    if mod == 'Verif.Audit':
        continue
    path = os.path.join(root, 'lean', mod.replace('.', '/') + '.lean')
    ns, hit = [], False
    for line in open(path):
        m = re.match(r'namespace (\S+)', line)
        if m:
            ns.append(m.group(1)); continue
        m = re.match(r'end (\S+)\s*$', line)
        if m and ns and m.group(1) == ns[-1]:
            ns.pop(); continue
        m = re.match(r'theorem (C\d\d+)_(\S+)', line)
        if m:
            hit = True
            found.setdefault(m.group(1), []).append('.'.join(ns + [m.group(1) + '_' + m.group(2)]))
    if hit:
        mods.append(mod)
claims = []
for p in props:
    i = p['id']
    ths = found.pop(i, [])
    n = notes.get(i, {})
    if n.get('status') == 'not_applicable':
        status = 'not_applicable'
    elif not ths:
        continue
    elif any(t.endswith('_partial') or t.endswith('_refutes') for t in ths) or n.get('status') == 'partial':
        status = 'partial'
    else:
        status = 'proved'
    claims.append({'property': i, 'status': status, 'theorems': ths, 'note': n.get('note', '')})
assert not found, found
json.dump({'claims': claims}, open(os.path.join(root, 'MANIFEST.json'), 'w'), indent=1, ensure_ascii=False)
open(os.path.join(root, 'MANIFEST.json'), 'a').write('\n')
with open(os.path.join(root, 'lean/Verif/Audit.lean'), 'w') as f:
    f.write(''.join('import %s\n' % m for m in mods))
    f.write('\n/-! Axioms used by every property theorem (generated by tools/manifest.py). -/\n\n')
    for c in claims:
        for t in c['theorems']:
            f.write('#print axioms %s\n' % t)
print({s: sum(c['status'] == s for c in claims) for s in ('proved', 'partial', 'not_applicable')},
      'missing:', [p['id'] for p in props if p['id'] not in {c['property'] for c in claims}])
