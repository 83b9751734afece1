import sys,re
for spec in sys.argv[1:]:
    f,names=spec.split(':'); t=open(f'/verif/lean/Verif/{f}.lean').read().split('\n')
    for n in names.split(','):
        for i,l in enumerate(t):
            if re.match(r'(?:@\[[^\]]*\]\s*)?(?:private |noncomputable |protected |partial )*(def|structure|inductive|abbrev)\s+'+re.escape(n)+r'(\s|$)',l):
                j=i+1
                while j<len(t) and t[j].strip()!='' : j+=1
                print(f'--{f}'); print('\n'.join(t[i:j])); break
