#!/usr/bin/env python3
"""Write MANIFEST.json: claims from the table below; theorem names are checked to exist in lean/Verif/Props."""
import json,re,glob,os
root=os.path.join(os.path.dirname(os.path.abspath(__file__)),'..')
notes=json.load(open(os.path.join(root,'tools','manifest_notes.json')))
ths={}
for f in sorted(glob.glob(os.path.join(root,'lean/Verif/Props/*.lean'))):
    ns=[]
    for line in open(f):
        m=re.match(r'namespace\s+(\S+)',line)
        if m: ns.append(m.group(1))
        m=re.match(r'end\s+(\S+)',line)
        if m and ns and ns[-1]==m.group(1): ns.pop()
        m=re.match(r'theorem\s+((C\d+)\S*)',line)
        if m: ths.setdefault(m.group(2),[]).append('.'.join(ns+[m.group(1)]))
claims=[]
for l in open(os.path.join(root,'properties.jsonl')):
    i=json.loads(l)['id']
    if i in ths:
        n=notes.get(i,{})
        st=n.get('status') or ('partial' if all(t.endswith('_partial') for t in ths[i]) else 'proved')
        claims.append({"property":i,"status":st,"theorems":ths[i],"note":n.get('note','')})
json.dump({"claims":claims},open(os.path.join(root,'MANIFEST.json'),'w'),indent=1,ensure_ascii=False)
print(len(claims),'claims',sum(len(c['theorems']) for c in claims),'theorems')
