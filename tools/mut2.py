#!/usr/bin/env python3
"""mut2.py spec.py : spec.py defines S=list of (file, old, new, def, edit, claim[, n]); fresh copy of the build for every mutant."""
import json,sys,subprocess,re,os,shutil
SRC='/verif/lean'; DST='/tmp/mut/lean'
ns={}; exec(open(sys.argv[1]).read(),ns); specs=ns['S']
only=set(sys.argv[2:])
os.makedirs('/tmp/mut',exist_ok=True)
def encl(lines,ln):
    for i in range(min(ln,len(lines))-1,-1,-1):
        m=re.match(r'(?:@\[[^\]]*\]\s*)?(?:private |protected |noncomputable )*(theorem|lemma|def|example|instance|inductive|structure|abbrev)\s*([^\s:({\[]*)',lines[i])
        if m: return (m.group(1)+' '+m.group(2)).strip()
    return '?'
bad=False
for k,s in enumerate(specs):
    src=open(os.path.join(SRC,'Verif/'+s[0]+'.lean')).read(); c=src.count(s[1])
    if c==0 or (c>1 and len(s)<7): print('BAD SPEC',k,s[3],s[4],c); bad=True
if '--check' in only: sys.exit()
snap='/tmp/mut/snap'
subprocess.run(f'rm -rf {snap} && cp -a {SRC} {snap}',shell=True,check=True)
for k,s in enumerate(specs):
    if only and str(k) not in only: continue
    f='Verif/'+s[0]+'.lean'
    src=open(os.path.join(snap,f)).read(); c=src.count(s[1])
    if c==0 or (c>1 and len(s)<7): continue
    subprocess.run(f'rm -rf {DST} && cp -a {snap} {DST}',shell=True,check=True)
    p=os.path.join(DST,f)
    if len(s)>=7:
        idx=-1
        for _ in range(s[6]+1): idx=src.find(s[1],idx+1)
        new=src[:idx]+s[2]+src[idx+len(s[1]):]
    else: new=src.replace(s[1],s[2])
    open(p,'w').write(new)
    r=subprocess.run('lake build 2>&1',shell=True,cwd=DST,capture_output=True,text=True)
    errs=re.findall(r'error: (Verif/[\w/]+\.lean):(\d+):\d+: (.*)',r.stdout)
    failed=[]
    for ff,l,m in errs:
        d=ff+': '+encl(open(os.path.join(DST,ff)).read().split('\n'),int(l))
        if d not in failed: failed.append(d)
    imp={}
    for root,_,fs in os.walk(DST+'/Verif'):
        for ff in fs:
            if ff.endswith('.lean'):
                q=os.path.join(root,ff); mod=os.path.relpath(q,DST)[:-5].replace('/','.')
                imp[mod]=set(re.findall(r'^import (Verif\S*)',open(q).read(),re.M))
    badm={ff[:-5].replace('/','.') for ff,_,_ in errs}; dep=set(); ch=True
    while ch:
        ch=False
        for m,i in imp.items():
            if m not in badm and m not in dep and i&(badm|dep): dep.add(m); ch=True
    ok = 'Build completed successfully' in r.stdout
    defbad=any(d.split(': ')[1].split()[-1]==s[3].split('.')[-1] and 'def' in d for d in failed)
    rec={'definition':s[3],'file':f,'edit':s[4],'claim':s[5],'theorems_failed':failed,'modules_blocked':sorted(dep),'theorems_tightened':[],'verdict':'NOT CAUGHT' if ok else ('caught' if errs else 'UNKNOWN')}
    print(k,json.dumps({x:rec[x] for x in ('definition','edit','theorems_failed','verdict')}),'DEFBAD' if defbad else '',flush=True)
    if errs and not ok and not defbad: open('/verif/seeded/LOG.jsonl','a').write(json.dumps(rec)+'\n')
    else: open('/tmp/mut/uncaught.jsonl','a').write(json.dumps(rec)+'\n')
