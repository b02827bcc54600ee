# usage: reg.py id  (reads /tmp/reg_<id>.json {prop: python code, row, finding, status, note, imports})
import json,sys,re
i=sys.argv[1]; d=json.load(open(f'/tmp/reg_{i}.json'))
V='/verif/'
s=open(V+'tools/gen_properties.py').read()
k=s.index('with open(')
s=s[:k]+d['prop'].rstrip()+'\n\n'+s[k:]
open(V+'tools/gen_properties.py','w').write(s)
D=open(V+'DESIGN.md').read().split('\n')
last=max(n for n,l in enumerate(D) if re.match(r'\| C\d\d+ \|',l))
D.insert(last+1,d['row'])
D='\n'.join(D)
if d.get('finding'):
    k=D.index('\n## Testing the theorems against wrong programs')
    nums=[int(x) for x in re.findall(r'^(\d+)\. ',D[:k],re.M)]
    D=D[:k].rstrip('\n')+'\n'+f"{max(nums)+1}. "+d['finding']+'\n'+D[k:]
open(V+'DESIGN.md','w').write(D)
st=json.load(open(V+'tools/status.json'))
st[i]={"status":d['status'],"note":d['note']}
json.dump(st,open(V+'tools/status.json','w'),indent=1,ensure_ascii=False)
f=V+'lean/Verif.lean'
t=open(f).read()
imp=''.join(f'import {m}\n' for m in d['imports'] if f'import {m}\n' not in t)
t=t.replace('import Verif.Props.Conformance\n',imp+'import Verif.Props.Conformance\n')
open(f,'w').write(t)
