#!/usr/bin/env python3
"""Writes /verif/MANIFEST.json and checks that every named theorem exists in the Lean sources."""
import json,re,glob,sys,os
P="LBDD."
C={}
def claim(i,status,thms,note): C[i]=(status,[P+t for t in thms],note)
exec(open(os.path.join(os.path.dirname(__file__),'claims.py')).read())
ids=[json.loads(l)['id'] for l in open('/verif/properties.jsonl')]
have=set()
for f in glob.glob('/verif/lean/Verif/**/*.lean',recursive=True):
    ns=[]
    for l in open(f):
        m=re.match(r'\s*namespace\s+(\S+)',l)
        if m: ns.append(m.group(1))
        m=re.match(r'\s*end\s+(\S+)',l)
        if m and ns and ns[-1]==m.group(1): ns.pop()
        m=re.match(r'\s*(?:protected\s+|private\s+)?theorem\s+(\S+)',l)
        if m: have.add('.'.join(ns+[m.group(1)]))
bad=[t for _,(s,ts,n) in C.items() for t in ts if t not in have]
print('unknown theorems:',bad)
print('properties without claim:',[i for i in ids if i not in C])
json.dump({"claims":[{"property":i,"status":C[i][0],"theorems":C[i][1],"note":C[i][2]} for i in ids if i in C]},open('/verif/MANIFEST.json','w'),indent=1,ensure_ascii=False)
