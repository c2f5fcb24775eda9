#!/usr/bin/env python3
"""Mutation tests. Usage: mutate.py batch.json [--log]
batch: list of {"file","old","new","definition","edit","claim"}; file relative to lean/Verif.
Each edit is applied in a scratch copy (/tmp/mut/lean), everything is rebuilt, and the theorems in
which Lean reports errors are collected (modules depending on a failed module are not rebuilt)."""
import json, sys, subprocess, re, os, shutil
SRC='/verif/lean'; DST='/tmp/mut/lean'; LOG='/verif/seeded/LOG.jsonl'
os.makedirs('/tmp/mut',exist_ok=True)
def sync(): subprocess.run(['rsync','-a','--delete',SRC+'/',DST+'/'],check=True) if shutil.which('rsync') else (shutil.rmtree(DST,ignore_errors=True), subprocess.run(['cp','-a',SRC,DST],check=True))
def enclosing(path,line):
    ls=open(path).read().split('\n')
    for k in range(min(line,len(ls))-1,-1,-1):
        m=re.match(r'\s*(?:@\[.*?\]\s*)?(?:private |protected )?(theorem|def|example|instance|abbrev)\b\s*(\S*)',ls[k])
        if m: return (m.group(2) if m.group(1)=='theorem' else m.group(1)+(' '+m.group(2) if m.group(1)!='example' else ''))
    return '?'
batch=json.load(open(sys.argv[1]))
sync()
for b in batch:
    p=DST+'/Verif/'+b['file']; orig=open(p).read()
    n=orig.count(b['old'])
    if n<1: print('NOT FOUND',b['file'],b['old'][:60]); continue
    if n>1 and not b.get('all'): print('AMBIGUOUS',n,b['file'],b['old'][:60]); continue
    open(p,'w').write(orig.replace(b['old'],b['new']))
    r=subprocess.run(['lake','build'],cwd=DST,capture_output=True,text=True)
    out=r.stdout+r.stderr
    failed=[]
    for m in re.finditer(r'error: (Verif/\S+?\.lean):(\d+):(\d+)',out):
        t=enclosing(DST+'/'+m.group(1),int(m.group(2)))
        t=m.group(1)[6:-5]+':'+t
        if t not in failed: failed.append(t)
    ok='Build completed successfully' in out
    print('SURVIVED' if ok else 'killed', b['definition'],'|',b['edit'],'|',failed[:8])
    open(p,'w').write(orig)
    if '--log' in sys.argv:
        rec={'definition':b['definition'],'edit':b['edit'],'claim_broken':b['claim'],'theorems_failed':failed,'theorems_tightened':b.get('tightened',[])}
        if ok: rec['note']=b.get('note','survived')
        if b.get('log',True): open(LOG,'a').write(json.dumps(rec)+'\n')
