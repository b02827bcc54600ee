#!/usr/bin/env python3
"""Writes /verif/MANIFEST.json. Theorems are found by name prefix Cnn_ in lean/Verif/Props; notes and status below."""
import json,re,glob,os
root=os.path.dirname(os.path.dirname(os.path.abspath(__file__)))
names={}
for f in sorted(glob.glob(root+'/lean/Verif/Props/*.lean')):
    ns=[]
    for line in open(f):
        m=re.match(r'namespace (\S+)',line)
        if m: ns.append(m.group(1)); continue
        m=re.match(r'end (\S+)',line)
        if m and ns and ns[-1]==m.group(1): ns.pop(); continue
        m=re.match(r'theorem (\S+)',line)
        if m:
            n=m.group(1); c=re.match(r'(C\d\d+)_',n)
            if c: names.setdefault(c.group(1),[]).append('.'.join(ns+[n]))
STATUS=json.load(open(root+'/tools/status.json'))
claims=[]
for l in open(root+'/properties.jsonl'):
    p=json.loads(l)['id']
    st=STATUS.get(p,{})
    th=names.get(p,[])
    if not th and not st: continue
    claims.append(dict(property=p,status=st.get('status','proved'),theorems=th,note=st.get('note','')))
json.dump({"claims":claims},open(root+'/MANIFEST.json','w'),indent=1,ensure_ascii=False)
print(len(claims),'claims;',[ (c['property'],c['status'],len(c['theorems'])) for c in claims])
