#!/usr/bin/env python3
"""usage: setp.py < json list of property dicts; replaces/append into properties.jsonl; key 'status':[st,note] goes to status.json"""
import json,sys
P='/verif/properties.jsonl'; S='/verif/tools/status.json'
props=[json.loads(l) for l in open(P)]
st=json.load(open(S))
idx={p['id']:p for p in props}
for d in json.load(sys.stdin):
    s=d.pop('status',None)
    if s: st[d['id']]=s
    if d['id'] in idx: idx[d['id']].update(d)
    else:
        idx[d['id']]=d; props.append(d)
for p in props:
    for k in ('id','title','statement','quantifier','why_tests_cant','anchors'): assert k in p,(p['id'],k)
props.sort(key=lambda p:p['id'])
open(P,'w').write(''.join(json.dumps(p,ensure_ascii=False)+'\n' for p in props))
open(S,'w').write('{\n'+',\n'.join(json.dumps(k)+': '+json.dumps(st[k],ensure_ascii=False) for k in sorted(st))+'\n}\n')
