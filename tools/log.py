# results of automatic mutants -> /verif/seeded/LOG.jsonl
import json,os,re
man=json.load(open('/verif/MANIFEST.json'))
props={}
for l in open('/verif/properties.jsonl'):
    d=json.loads(l); props[d['id']]=d['title']
by={}
for c in man['claims']:
    for t in c['theorems']: by.setdefault(t.split('.')[-1],[]).append(c['property'])
# tags **Cxx** / C12. in doc comments give ownership for lemmas
own={}
topic={}
for dp,_,fs in os.walk('/verif/lean/Verif'):
    for f in fs:
        s=open(os.path.join(dp,f)).read()
        t=os.path.basename(dp)
        for c in man['claims']:
            for th in c['theorems']:
                if re.search(r'theorem '+re.escape(th.split('.')[-1])+r'\b',s): topic.setdefault(t,set()).add(c['property'])
tight=json.load(open('/tmp/mutw/tight.json')) if os.path.exists('/tmp/mutw/tight.json') else {}
manual=[json.loads(l) for l in open('/tmp/mutw/manual.jsonl')] if os.path.exists('/tmp/mutw/manual.jsonl') else []
out=[]
rows=[]
for f in sorted(os.listdir('/tmp/mutw')):
    if re.match(r'res_.*\.jsonl$',f):
        rows+=[json.loads(l) for l in open('/tmp/mutw/'+f)]
for r in rows:
    if r['status'] in('timeout','other'): continue
    t=r['file'].split('/')[0]
    ids=sorted({p for th in r['failed'] for p in (by.get(th.split('.')[-1],[]) or by.get(th.split('.')[-1]+'_partial',[])) if p in topic.get(t,set()) or r['status']=='killed_elsewhere'})
    if not ids: ids=sorted(topic.get(t,set()))
    key=f"{r['file']}:{r['def']}:{r['edit']}"
    tg=tight.get(key,[])
    out.append(dict(definition=f"Verif/{r['file']}: {r['def']}",edit=r['edit'],
      claim_broken=[f"{i}: {props[i]}" for i in ids],
      theorems_failed=r['failed'],outcome=('survived' if r['status']=='survived' else 'rejected'),
      theorems_tightened=tg if isinstance(tg,list) else [],
      **({'note':tg} if isinstance(tg,str) else {})))
out+=manual
ren=json.load(open('/tmp/mutw/renames.json')); ren={k.split('.')[-1]:v.split('.')[-1] for k,v in ren.items()}
def rn(x):
    h=x.split(' ')[0]; b=h.split('.')[-1]
    return x.replace(b,ren[b],1) if b in ren and not (b=='face_bounds' and 'MeshRun' in h) else x
for o in out:
    o['theorems_failed']=[rn(x) for x in o['theorems_failed']]
    o['theorems_tightened']=[rn(x) for x in o['theorems_tightened']]
open('/verif/seeded/LOG.jsonl','w').write(''.join(json.dumps(o,ensure_ascii=False)+'\n' for o in out))
sv=[o for o in out if o.get('outcome')=='survived' and not o['theorems_tightened'] and 'note' not in o]
print(len(out),'entries; untreated survivors',len(sv))
for o in sv: print('  ',o['definition'],o['edit'])
