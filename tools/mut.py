#!/usr/bin/env python3
"""mut.py spec.json : each spec {file,old,new,def,edit,claim,(n: occurrence)}; works in /tmp/mut/lean, appends to /verif/seeded/LOG.jsonl"""
import json,sys,subprocess,re,os,shutil
SRC='/verif/lean'; DST='/tmp/mut/lean'
subprocess.run(['rsync','-a','--delete',SRC+'/',DST+'/'],check=True) if shutil.which('rsync') else (subprocess.run('rm -rf %s && cp -a %s %s'%(DST,SRC,DST),shell=True,check=True))
specs=json.load(open(sys.argv[1]))
def encl(lines,ln):
    for i in range(min(ln,len(lines))-1,-1,-1):
        m=re.match(r'(?:@\[[^\]]*\]\s*)?(?:private |protected |noncomputable )*(theorem|lemma|def|example|instance|inductive|structure|abbrev)\s*([^\s:({\[]*)',lines[i])
        if m: return (m.group(1)+' '+m.group(2)).strip()
    return '?'
for s in specs:
    p=os.path.join(DST,s['file']); src=open(os.path.join(SRC,s['file'])).read()
    c=src.count(s['old'])
    if c==0 or (c>1 and 'n' not in s): print('BAD SPEC',s['def'],c); continue
    if 'n' in s:
        idx=-1
        for _ in range(s['n']+1): idx=src.find(s['old'],idx+1)
        new=src[:idx]+s['new']+src[idx+len(s['old']):]
    else: new=src.replace(s['old'],s['new'])
    open(p,'w').write(new)
    r=subprocess.run('lake build 2>&1',shell=True,cwd=DST,capture_output=True,text=True)
    errs=re.findall(r'error: (Verif/[\w/]+\.lean):(\d+):\d+: (.*)',r.stdout)
    failed=[]; 
    for f,l,m in errs:
        d=f+': '+encl(open(os.path.join(DST,f)).read().split('\n'),int(l))
        if d not in failed: failed.append(d)
    blocked=sorted(set(re.findall(r'- (Verif[\w.]*)',r.stdout.split('Some required targets logged failures')[-1]))) if 'Some required' in r.stdout else []
    # blocked dependents: modules importing failing ones (transitively)
    imp={}
    for root,_,fs in os.walk(DST+'/Verif'):
        for f in fs:
            if f.endswith('.lean'):
                q=os.path.join(root,f); mod=os.path.relpath(q,DST)[:-5].replace('/','.')
                imp[mod]=set(re.findall(r'^import (Verif\S*)',open(q).read(),re.M))
    bad={f[:-5].replace('/','.') for f,_,_ in errs}; dep=set()
    ch=True
    while ch:
        ch=False
        for m,i in imp.items():
            if m not in bad and m not in dep and i&(bad|dep): dep.add(m); ch=True
    rec={'definition':s['def'],'file':s['file'],'edit':s['edit'],'claim':s['claim'],'theorems_failed':failed,'modules_blocked':sorted(dep),'theorems_tightened':s.get('tightened',[]),'verdict':'caught' if errs else 'NOT CAUGHT'}
    print(json.dumps({k:rec[k] for k in ('definition','edit','theorems_failed','verdict')}),flush=True)
    if errs: open('/verif/seeded/LOG.jsonl','a').write(json.dumps(rec)+'\n')
    else: open('/tmp/mut/uncaught.jsonl','a').write(json.dumps(rec)+'\n'); 
    open(p,'w').write(src)
