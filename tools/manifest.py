#!/usr/bin/env python3
"""Regenerates MANIFEST.json from the theorem names in lean/Verif/Props (theorems are named Cnn_...) and
the notes below. Status: `partial` when a listed theorem has the suffix _partial / contains _violated or the
property is in PARTIAL; `not_applicable` when nothing is proved; else `proved`."""
import json,re,glob,os
R=os.path.dirname(os.path.dirname(os.path.abspath(__file__)))
exec(open(R+'/tools/notes.py').read())
props=[json.loads(l) for l in open(R+'/properties.jsonl')]
th={}
for f in sorted(glob.glob(R+'/lean/Verif/**/*.lean',recursive=True)):
    ns=[]
    for l in open(f):
        m=re.match(r'namespace (\S+)',l)
        if m: ns.append(m.group(1))
        m=re.match(r'end (\S+)',l)
        if m and ns and ns[-1]==m.group(1): ns.pop()
        m=re.match(r'(?:@\[.*\] )?theorem (C\d\d+)_(\S+)',l)
        if m: th.setdefault(m.group(1),[]).append('.'.join(ns+[m.group(1)+'_'+m.group(2)]))
out=[]
for p in props:
    i=p['id']; t=th.get(i,[])
    if not t: st='not_applicable'
    elif i in PARTIAL or any('_partial' in x or '_violated' in x for x in t): st='partial'
    else: st='proved'
    out.append(dict(property=i,status=st,theorems=t,note=NOTES.get(i,'')))
    if not NOTES.get(i): print('no note',i,len(t))
json.dump({"claims":out},open(R+'/MANIFEST.json','w'),indent=1)
from collections import Counter
print(Counter(c['status'] for c in out), sum(len(c['theorems']) for c in out))
