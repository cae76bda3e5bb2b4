import json,os,re
rows=[]
for f in sorted(os.listdir('/tmp/mutw')):
    if re.match(r'res_.*\.jsonl$',f): rows+=[json.loads(l) for l in open('/tmp/mutw/'+f)]
M=[('Interp/Model.lean','doInterp',['Interp.interp_dims (new)']),('Adiabats/Model.lean','enthalpy',['Adiabats.enthalpy_spec (new)']),
('Recon/Model.lean','mp5Bounds',['Recon.mp5Bounds_spec (new)']),('LightBulb/Model.lean','yeFit',['LightBulb.yeFit_spec (new)','LightBulb.ye_history_fit (new)']),
('LightBulb/Model.lean','heat',['LightBulb.heat_cool_laws (new)']),('LightBulb/Model.lean','cool',['LightBulb.heat_cool_laws (new)']),
('LightBulb/Model.lean','applyForce',['LightBulb.bulb_applied (new)']),('TOV/Model.lean','stage',['TOV.step_midpoint (new)'])]
exec(open('/tmp/mutw/tight_extra.py').read()) if os.path.exists('/tmp/mutw/tight_extra.py') else None
out={}
for r in rows:
    if r['status']!='survived': continue
    for f,d,t in M:
        if r['file']==f and r['def']==d:
            if isinstance(t,dict):
                for k,v in t.items():
                    if k in r['edit']: out[f"{f}:{d}:{r['edit']}"]=v
            else: out[f"{f}:{d}:{r['edit']}"]=t
json.dump(out,open('/tmp/mutw/tight.json','w'),ensure_ascii=False)
