#!/usr/bin/env python3
"""Convert the results of the scratch mutation runs (/tmp/mutw/results.jsonl) to seeded/LOG.jsonl."""
import json,os
os.chdir(os.path.dirname(os.path.abspath(__file__))+'/..')
T=json.load(open('tools/tightened.json'))
seen={}
if os.path.exists('seeded/LOG.jsonl'):
    for l in open('seeded/LOG.jsonl'):
        d=json.loads(l); seen[d['id']]=d
for l in open('/tmp/mutw/results.jsonl'):
    r=json.loads(l)
    if r.get('error'): continue
    if r['id'] in T:
        t=T[r['id']]
    else: t=[]
    if r['survived'] and not (t['theorems'] if isinstance(t,dict) else t): note='survived'
    elif r['survived']: note='survived when first tried; theorems tightened'
    else: note='rejected'
    import re
    c=re.match(r'((C\d\d)(/C\d\d)?): ',r['claim'])
    if c and r['theorems'] and not any(x.startswith(c.group(2)) for x in r['theorems']): r['claim']=r['claim'][c.end():]
    seen[r['id']]={'id':r['id'],'file':'lean/'+r['file'],'definition':r['definition'],
      'edit':{'from':r['old'],'to':r['new']},'claim':r['claim'],'result':note,
      'failed':r['theorems'],'first_errors':r['failing'][:6],'tightened':t if isinstance(t,list) else t['theorems']}
    if isinstance(t,dict): seen[r['id']]['note']=t['note']
open('seeded/LOG.jsonl','w').write(''.join(json.dumps(v)+'\n' for k,v in sorted(seen.items())))
print(len(seen), [k for k,v in seen.items() if v['result']=='survived'])
