#!/usr/bin/env python3
"""Write AXIOMS.txt: the axioms each theorem of MANIFEST.json depends on, as Lean reports them."""
import json, os, re, subprocess
root = os.path.dirname(os.path.dirname(os.path.abspath(__file__)))
names = [t for c in json.load(open(root + '/MANIFEST.json'))['claims'] for t in c['theorems']]
open('/tmp/axioms.lean', 'w').write('import Verif\n' + ''.join('#print axioms %s\n' % t for t in names))
out = subprocess.run(['lake', 'env', 'lean', '/tmp/axioms.lean'], cwd=root + '/lean', capture_output=True, text=True).stdout
out = re.sub(r',\s+', ', ', out)
got = {}
for l in out.splitlines():
    m = re.match(r"'(.*)' depends on axioms: \[(.*)\]", l)
    if m: got[m.group(1)] = m.group(2)
    m = re.match(r"'(.*)' does not depend", l)
    if m: got[m.group(1)] = 'none'
bad = [t for t in names if t not in got]
ok = {'propext', 'Classical.choice', 'Quot.sound', 'none'}
bad += [t for t in got if not set(got[t].split(', ')) <= ok]
by = {}
for t in names: by.setdefault(got.get(t, '?'), []).append(t)
with open(root + '/AXIOMS.txt', 'w') as f:
    for k in sorted(by, key=lambda k: -len(by[k])):
        f.write('[%s] (%d theorems)\n' % (k, len(by[k])) + ''.join('  %s\n' % t for t in by[k]) + '\n')
print(len(names), 'theorems;', 'bad: %s' % bad if bad else 'all within the standard three')
