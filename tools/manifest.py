import json
C=[]
def c(p,s,t,n): C.append(dict(property=p,status=s,theorems=t,note=n))
exec(open('/tmp/tools/claims.py').read())
json.dump(dict(claims=sorted(C,key=lambda d:d['property'])),open('/verif/MANIFEST.json','w'),indent=1)
