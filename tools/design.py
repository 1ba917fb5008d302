#!/usr/bin/env python3
"""DESIGN.md = tools/design_head.md + a table per property from properties.jsonl, MANIFEST.json and tools/how.json"""
import json
P={}
for l in open('/verif/properties.jsonl'):
    d=json.loads(l);P[d['id']]=d
M={c['property']:c for c in json.load(open('/verif/MANIFEST.json'))['claims']}
H=json.load(open('/verif/tools/how.json'))
out=open('/verif/tools/design_head.md').read().rstrip('\n')
out+='\n\n## Property by property\n\n'
for k in sorted(P):
    c=M.get(k)
    st=c['status'] if c else 'planned'
    out+=f"* **{k} {P[k]['title']}** ({st}). {H.get(k,'')}"
    if c and c['theorems']:
        out+=' Theorems: '+', '.join('`'+t.replace('Verif.Props.','')+'`' for t in c['theorems'])+'.'
    if c and c['status']=='partial': out+=' Missing: '+c['note']
    out+='\n'
open('/verif/DESIGN.md','w').write(out)
miss=[k for k in P if k not in H]
if miss: print('no how:',miss)
