#!/usr/bin/env python3
"""Write FINDINGS.md from the doc comments of the theorems that refute a documented or expected behaviour."""
import glob, os, re
root = os.path.dirname(os.path.dirname(os.path.abspath(__file__)))
out = {}
for f in sorted(glob.glob(root + '/lean/Verif/**/*.lean', recursive=True)):
    s = open(f).read()
    for m in re.finditer(r'/--((?:(?!-/).)*)-/\s*theorem\s+(C\d+)_(\S+)', s, re.S):
        doc, c, n = m.groups()
        if 'refuted' in n or 'finding' in doc or n.endswith('_ub'):
            d = re.sub(r'\s+', ' ', doc.replace('**', '')).strip()
            d = re.sub(r'^%s\.? ?' % c, '', d)
            out.setdefault(c, []).append((c + '_' + n, d, os.path.relpath(f, root + '/lean/Verif')))
with open(root + '/FINDINGS.md', 'w') as o:
    o.write('# Findings\n\nBehaviour of the code that contradicts its documentation, or that a user would not expect. Each line is a theorem. Generated by tools/findings.py from the comments on the theorems.\n')
    for c in sorted(out, key=lambda x: int(x[1:])):
        o.write('\n## %s\n' % c)
        for n, d, f in out[c]: o.write('* `%s` (%s): %s\n' % (n, f, d))
print(sum(map(len, out.values())), 'findings')
