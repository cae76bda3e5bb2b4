set -e
cd /tmp/w; python3 mkprops.py >/dev/null
python3 - <<'P'
import json
exec(open('/tmp/w/extra.py').read())
with open('/verif/properties.jsonl','a') as f:
    for p,_ in EXTRA: f.write(json.dumps(p,ensure_ascii=False)+'\n')
plan=json.load(open('/tmp/w/plan.json'))
for p,pl in EXTRA: plan[p['id']]=pl
json.dump(plan,open('/tmp/w/plan_all.json','w'))
P
sed 's#/tmp/w/plan.json#/tmp/w/plan_all.json#' mkdesign.py | python3
bash mkroot.sh
python3 mkman.py
wc -l /verif/properties.jsonl
