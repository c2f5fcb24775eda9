#!/usr/bin/env python3
"""addprop.py < json: {"id","title","statement","quantifier","why_tests_cant","anchors","modelled","how"}: append a property and its DESIGN row."""
import json,sys
for p in json.load(sys.stdin):
    m=p.pop('modelled'); h=p.pop('how')
    if any(json.loads(l)['id']==p['id'] for l in open('/verif/properties.jsonl')): print('dup',p['id']); continue
    open('/verif/properties.jsonl','a').write(json.dumps(p,ensure_ascii=False)+'\n')
    s=open('/verif/DESIGN.md').read()
    mark='<!-- rows -->\n'
    assert mark in s
    s=s.replace(mark,'| %s | %s | %s |\n%s'%(p['id'],m,h,mark))
    open('/verif/DESIGN.md','w').write(s)
