import re,sys
# print defs (non-theorem top-level decls)
for f in sys.argv[1:]:
    L=open(f).read().split('\n'); print('=====',f)
    i=0; 
    starts=[k for k,l in enumerate(L) if re.match(r'(@\[|/--|private |protected |noncomputable |theorem|lemma|def |example|instance|inductive|structure|abbrev|namespace|end |section|variable|open|mutual|import|/-!)',l)]
    starts.append(len(L))
    for a,b in zip(starts,starts[1:]):
        if re.match(r'(@\[[^\]]*\]\s*)?(private |protected |noncomputable )*(def |inductive|structure|abbrev|instance)',L[a]):
            t=[l for l in L[a:b] if l.strip()]
            print('\n'.join(t))
