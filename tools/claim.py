# usage: python3 claim.py C08 partial "thm1,thm2" "note"
import json,sys,os
p='/verif/MANIFEST.json'
m=json.load(open(p)) if os.path.exists(p) else {"claims":[]}
def put(pid,st,th,note):
    m["claims"]=[c for c in m["claims"] if c["property"]!=pid]
    m["claims"].append({"property":pid,"status":st,"theorems":[t.strip() for t in th.split(',') if t.strip()],"note":note})
    m["claims"].sort(key=lambda c:c["property"])
def save(): json.dump(m,open(p,'w'),indent=1,ensure_ascii=False)
if __name__=="__main__":
    put(*sys.argv[1:5]); save()
