#!/usr/bin/env python3
"""Writes /verif/MANIFEST.json from tools/claims.txt and checks that the theorems exist.

claims.txt has blocks of the form
  C01 proved
  : theorem names, blank separated (namespace Pkm is implied)
  note text
separated by blank lines.
"""
import json, os, re, subprocess, sys
root = os.path.dirname(os.path.dirname(os.path.abspath(__file__)))
claims = []
for block in open(os.path.join(root, 'tools', 'claims.txt')).read().strip().split('\n\n'):
    lines = block.strip().split('\n')
    pid, status = lines[0].split()
    thms, note = [], []
    for l in lines[1:]:
        if l.startswith(':'):
            thms += ['Pkm.' + t for t in l[1:].split()]
        else:
            note.append(l.strip())
    claims.append(dict(property=pid, status=status, theorems=thms, note=' '.join(note)))
claims.sort(key=lambda c: c['property'])
json.dump({'claims': claims}, open(os.path.join(root, 'MANIFEST.json'), 'w'), indent=1)
if '--check' in sys.argv:
    src = 'import Verif\n' + ''.join(f'#print axioms {t}\n' for c in claims for t in c['theorems'])
    open('/tmp/manifest_check.lean', 'w').write(src)
    out = subprocess.run(['lake', 'env', 'lean', '/tmp/manifest_check.lean'], cwd=os.path.join(root, 'lean'),
                         capture_output=True, text=True).stdout
    bad = [l for l in out.split('\n') if 'error' in l or 'sorry' in l]
    ax = set(re.findall(r'[A-Za-z_.]+', ' '.join(re.findall(r'\[([^\]]*)\]', out))))
    print('theorems', sum(len(c['theorems']) for c in claims), 'axioms', sorted(ax), 'bad', bad[:20])
