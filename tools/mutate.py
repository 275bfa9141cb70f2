#!/usr/bin/env python3
"""usage: run.py muts.json -- each: {id, file, def, old, new, edit, claim}"""
import json,sys,subprocess,re,os,shutil
ROOT='/tmp/mut/lean'
muts=json.load(open(sys.argv[1])); only=set(sys.argv[2:])
out=open('/tmp/mut/results.jsonl','a')
def enclosing(path,line):
    ls=open(path).read().split('\n')
    for i in range(line-1,-1,-1):
        m=re.match(r'(?:@\[.*?\]\s*)?(?:private |protected |noncomputable )*(theorem|def|lemma|example|instance|abbrev)\s*(\S*)',ls[i])
        if m: return m.group(2) if m.group(1)!='example' else 'example:%d'%(i+1)
    return '?'
for m in muts:
    if only and m['id'] not in only: continue
    src='/tmp/mut/snap/lean/'+m['file']; dst=ROOT+'/'+m['file']
    s=open(src).read()
    n=s.count(m['old'])
    if n<1 or (n>1 and 'occ' not in m):
        print(m['id'],'BAD PATTERN count',n); continue
    if n>1:
        parts=s.split(m['old']); k=m['occ']
        t=m['old'].join(parts[:k+1])+m['new']+m['old'].join(parts[k+1:])
    else: t=s.replace(m['old'],m['new'])
    open(dst,'w').write(t)
    p=subprocess.run(['lake','build'],cwd=ROOT,capture_output=True,text=True)
    o=p.stdout+p.stderr
    errs=[]
    for f,l in re.findall(r'error: (Verif/\S+?\.lean):(\d+):\d+',o):
        e=enclosing(ROOT+'/'+f,int(l)); x=f.split('/')[-1][:-5]+':'+e
        if x not in errs: errs.append(x)
    open(dst,'w').write(s)
    r=dict(id=m['id'],ok=p.returncode==0,errs=errs)
    print(m['id'],'SURVIVED' if p.returncode==0 else 'failed',errs[:8],flush=True)
    out.write(json.dumps(dict(m,**r))+'\n'); out.flush()
