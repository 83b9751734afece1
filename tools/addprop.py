import json,sys
def prop(**k):
    L=[json.loads(x) for x in open('/verif/properties.jsonl') if x.strip()]
    L=[x for x in L if x['id']!=k['id']]+[k]
    open('/verif/properties.jsonl','w').write(''.join(json.dumps(x)+'\n' for x in L))
def row(r):
    p='/verif/DESIGN.md'; s=open(p).read()
    cid=r.split('|')[1].strip()
    lines=[l for l in s.split('\n') if not l.startswith('| %s |'%cid)]
    i=next(i for i,l in enumerate(lines) if l.startswith('| C39, C42 |'))
    lines.insert(i,r); open(p,'w').write('\n'.join(lines))
