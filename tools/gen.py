#!/usr/bin/env python3
"""Regenerate lean/Verif.lean and MANIFEST.json from the sources and tools/notes.json."""
import json,re,os,glob
os.chdir(os.path.dirname(os.path.abspath(__file__))+'/..')
mods=sorted(glob.glob('lean/Verif/**/*.lean',recursive=True))
open('lean/Verif.lean','w').write(''.join('import '+m[5:-5].replace('/','.')+'\n' for m in mods))
notes=json.load(open('tools/notes.json'))
props=[json.loads(l)['id'] for l in open('properties.jsonl')]
th={p:[] for p in props}
for m in mods:
    ns=[]
    for l in open(m):
        t=re.match(r'namespace (\S+)',l)
        if t: ns.append(t.group(1))
        t=re.match(r'end (\S+)',l)
        if t and ns and ns[-1]==t.group(1): ns.pop()
        t=re.match(r'theorem ((C\d\d+)_\S+)',l)
        if t and t.group(2) in th: th[t.group(2)].append('.'.join(ns+[t.group(1)]))
claims=[]
for p in props:
    if not th[p] and p not in notes: continue
    n=notes.get(p,{})
    st=n.get('status') or ('proved' if th[p] else 'partial')
    claims.append({'property':p,'status':st,'theorems':th[p],'note':n.get('note','' if th[p] else 'not yet proved')})
json.dump({'claims':claims},open('MANIFEST.json','w'),indent=1)
print(sum(len(x) for x in th.values()),'theorems;','missing:',[p for p in props if not th[p]])
