#!/usr/bin/env python3
"""Regenerate MANIFEST.json from the theorem names in lean/Verif and tools/status.json
(id -> [status, note]). Also prints properties without theorems."""
import re, json, glob, os
root = os.path.dirname(os.path.dirname(os.path.abspath(__file__)))
thms = {}
for f in sorted(glob.glob(root + '/lean/Verif/**/*.lean', recursive=True)):
    ns = []
    for line in open(f):
        m = re.match(r'namespace\s+(\S+)', line)
        if m: ns.append(m.group(1)); continue
        m = re.match(r'(?:noncomputable |public )?section\b|mutual\s*$', line)
        if m: ns.append(None); continue
        m = re.match(r'end(\s+[\w.]+)?\s*$', line)
        if m:
            if ns: ns.pop()
            continue
        m = re.match(r'(?:@\[.*?\]\s*)?(?:protected )?theorem\s+(C\d\d+)_(\S+)', line)
        if m:
            name = '.'.join([x for x in ns if x] + [m.group(1) + '_' + m.group(2)])
            thms.setdefault(m.group(1), []).append(name)
status = json.load(open(root + '/tools/status.json'))
claims = []
for line in open(root + '/properties.jsonl'):
    i = json.loads(line)['id']
    if i not in thms:
        if i in status and status[i][0] == 'not_applicable':
            claims.append({'property': i, 'status': 'not_applicable', 'theorems': [], 'note': status[i][1]})
        else:
            print('no theorem for', i)
        continue
    st, note = status.get(i, ['', ''])
    if not st:
        st = 'partial' if any(t.endswith('_partial') for t in thms[i]) else 'proved'
        print('no status for', i, '->', st)
    claims.append({'property': i, 'status': st, 'theorems': thms[i], 'note': note})
json.dump({'claims': claims}, open(root + '/MANIFEST.json', 'w'), indent=1)
with open('/tmp/axioms.lean', 'w') as o:
    o.write('import Verif\n')
    for i in thms:
        for t in thms[i]: o.write('#print axioms %s\n' % t)
print(sum(map(len, thms.values())), 'theorems')
