import json
props=[json.loads(l) for l in open('/verif/properties.jsonl')]
head=open('/tmp/w/design_head.md').read()
plan=json.load(open('/tmp/w/plan.json'))
rows=''.join(f"| {x['id']} | {x['title']} | {plan.get(x['id'],['',''])[0]} | {plan.get(x['id'],['',''])[1]} |\n" for x in props)
tail=open('/tmp/w/design_tail.md').read()
open('/verif/DESIGN.md','w').write(head+"\n## Per-property plan\n\n| id | property | what is modelled | how it is proved |\n|---|---|---|---|\n"+rows+"\n"+tail)
