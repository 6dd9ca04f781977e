#!/usr/bin/env python3
"""Regenerates MANIFEST.json from the table below: every theorem named Cnn_* in lean/Verif/Props is listed
under property Cnn.  STATUS and NOTE give the verdicts."""
import re,glob,json,sys
sys.path.insert(0,'/verif')
STATUS=json.load(open('/verif/status.json'))
th={}
for f in sorted(glob.glob('/verif/lean/Verif/Props/*.lean')):
    ns=[]
    for l in open(f):
        m=re.match(r'namespace (\S+)',l)
        if m: ns.append(m.group(1))
        m=re.match(r'end (\S+)',l)
        if m and ns and ns[-1]==m.group(1): ns.pop()
        m=re.match(r'theorem (C(\d\d+)_\S*)',l)
        if m: th.setdefault('C'+m.group(2),[]).append('.'.join(ns+[m.group(1)]))
claims=[]
for k in sorted(set(th)|set(STATUS)):
    st,note=STATUS.get(k,["MISSING",""])
    if st=="MISSING": print("no status for",k,file=sys.stderr); continue
    if not th.get(k) and st!="not_applicable": print("no theorems for",k,file=sys.stderr); continue
    claims.append({"property":k,"status":st,"theorems":th.get(k,[]),"note":note})
json.dump({"claims":claims},open('/verif/MANIFEST.json','w'),indent=1)
print(len(claims),"claims",sum(len(c['theorems']) for c in claims),"theorems")
