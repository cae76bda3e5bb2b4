import re,sys,os,random,subprocess,json,hashlib,time
lane=sys.argv[1]; topics=sys.argv[2].split(','); per=int(sys.argv[3]); seed=int(sys.argv[4]) if len(sys.argv)>4 else 1
root=f'/tmp/mut{lane}/lean'
out=open(f'/tmp/mutw/res_{lane}.jsonl','a')
done=set()
for f in os.listdir('/tmp/mutw'):
    if f.startswith('res_'):
        for l in open('/tmp/mutw/'+f):
            d=json.loads(l); done.add((d['file'],d['def'],d['edit']))
cnt={}
for x in done: cnt[(x[0],x[1])]=cnt.get((x[0],x[1]),0)+1
def decls(s):
    # returns list (kind,name,start,end)
    r=[]
    ms=list(re.finditer(r'^(?:@\[[^\]]*\]\s*)?(?:noncomputable |private |protected )*(def|abbrev|theorem|lemma|structure|inductive|instance|section|end|variable|namespace|open|/--|/-!|class|import|omit)(?:\s+(\S+))?',s,re.M))
    for a,b in zip(ms,ms[1:]+[None]):
        r.append((a.group(1),a.group(2),a.start(),b.start() if b else len(s)))
    return r
def muts(body):
    res=[]
    i0=body.find(':=')
    if i0<0: i0=0
    def sub(pat,rep,label):
        for m in re.finditer(pat,body):
            if m.start()<i0: continue
            n=m.expand(rep) if isinstance(rep,str) else rep(m)
            if n is None: continue
            nb=body[:m.start()]+n+body[m.end():]
            ctx=body[max(0,m.start()-25):m.end()+25].replace('\n',' ')
            nctx=(body[max(0,m.start()-25):m.start()]+n+body[m.end():m.end()+25]).replace('\n',' ')
            res.append((label,f'`{ctx.strip()}` -> `{nctx.strip()}`',nb))
    sub(r' \+ (?!1\b)',' - ','sign flipped')
    sub(r' - (?!1\b)',' + ','sign flipped')
    sub(r'(?<=[a-z]) [+-] 1\b','','off by one: shift dropped')
    sub(r' < ',' ≤ ','boundary < becomes <=')
    sub(r' ≤ ',' < ','boundary <= becomes <')
    sub(r' > ',' ≥ ','boundary > becomes >=')
    sub(r' ≥ ',' > ','boundary >= becomes >')
    sub(r' < ',' > ','comparison reversed')
    sub(r' > ',' < ','comparison reversed')
    sub(r' ≤ ',' ≥ ','comparison reversed')
    sub(r' ≥ ',' ≤ ','comparison reversed')
    sub(r'\bmin\b','max','min becomes max')
    sub(r'\bmax\b','min','max becomes min')
    sub(r'\btrue\b','false','flag flipped'); sub(r'\bfalse\b','true','flag flipped')
    sub(r' && ',' || ','and becomes or'); sub(r' \|\| ',' && ','or becomes and')
    sub(r' ∧ ',' ∨ ','and becomes or'); sub(r' ∨ ',' ∧ ','or becomes and')
    sub(r'(?<![\w.])0\.5(?!\w)','0.25','constant changed')
    sub(r'(?<![\w.^])2(\.0)?(?![\w.])','3','constant changed')
    sub(r'(?<![\w.^])1 / 2(?![\w.])','1 / 3','constant changed')
    sub(r'(?<![\w.^\[(])0(?![\w.\]])','1','constant changed')
    sub(r'if (?=\S)','if ¬ ','condition negated') if False else None
    sub(r' \* ',' / ','multiplication becomes division')
    sub(r'\^ 2','^ 1','square dropped')
    sub(r'(?<=[ (])-(?=[A-Za-z(])','','sign dropped')
    # then/else swap
    m=re.search(r'if ([^\n]{1,80}?) then ([^\n]{1,80}?) else ([^\n]{1,80})$',body,re.M)
    if m and m.start()>i0:
        res.append(('branches swapped',f'`{m.group(0)[:90]}` branches swapped',body[:m.start()]+f'if {m.group(1)} then {m.group(3)} else {m.group(2)}'+body[m.end():]))
    # argument swap
    for m in re.finditer(r'\(([a-zA-Z][\w\']*(?: [a-zA-Z][\w\']*)+) : ',body[:i0]):
        names=m.group(1).split()
        for a in names:
            for b in names:
                if a==b: continue
                occ=[o for o in re.finditer(r'(?<![\w.\'])'+re.escape(a)+r'(?![\w\'])',body) if o.start()>i0]
                for o in occ[:2]:
                    nb=body[:o.start()]+b+body[o.end():]
                    ctx=body[max(0,o.start()-25):o.end()+25].replace('\n',' ')
                    res.append(('argument swapped',f'`{ctx.strip()}`: `{a}` -> `{b}`',nb))
    return res
def run(targets,to):
    try:
        p=subprocess.run(['lake','build']+targets,cwd=root,capture_output=True,text=True,timeout=to)
        return p.returncode,p.stdout+p.stderr
    except subprocess.TimeoutExpired:
        subprocess.run(['pkill','-f',root],check=False)
        return 124,'TIMEOUT'
def thm_at(path,line):
    s=open(path).read().split('\n')
    for i in range(min(line,len(s))-1,-1,-1):
        m=re.match(r'(?:@\[[^\]]*\]\s*)?(?:noncomputable |private |protected )*(def|theorem|lemma|instance|abbrev)\s+(\S+)',s[i])
        if m: return m.group(1),m.group(2)
    return None,None
LIM=0
rnd=random.Random(seed)
for t in topics:
    files=sorted(os.listdir(f'{root}/Verif/{t}'))
    targets=[f'Verif.{t}.{f[:-5]}' for f in files]
    for mf in files:
        path=f'{root}/Verif/{t}/{mf}'
        orig=open(path).read()
        D=decls(orig)
        for qi,(kind,name,a,b) in enumerate(D):
            if kind not in('def','abbrev'): continue
            doc=orig[D[qi-1][2]:a] if qi else ''
            if not mf.startswith('Model') and not re.search(r'\.[ch]pp',doc): continue
            if LIM and qi and not True: continue
            body=orig[a:b]
            ms=muts(body); rnd.shuffle(ms)
            k=cnt.get((f'{t}/{mf}',name),0); tries=0; seen=set()
            for label,edit,nb in ms:
                if k>=per or tries>=3*per: break
                key=(f'{t}/{mf}',name,f'{label}: {edit}')
                if key in done or label in seen: continue
                tries+=1
                open(path,'w').write(orig[:a]+nb+orig[b:])
                t0=time.time()
                rc,o=run(targets,400)
                errs=re.findall(r'error: (Verif/\S+?\.lean):(\d+):',o)
                bad=any(e[0]==f'Verif/{t}/{mf}' and thm_at(root+'/'+e[0],int(e[1]))[0] in('def','abbrev','instance') for e in errs)
                if bad: continue
                failed=[]
                for e in errs:
                    kk,nn=thm_at(root+'/'+e[0],int(e[1]))
                    if nn and nn not in failed: failed.append(nn)
                st='killed' if failed else ('timeout' if rc==124 else ('survived' if rc==0 else 'other'))
                if st=='survived':
                    rc2,o2=run(['Verif'],900)
                    errs2=re.findall(r'error: (Verif/\S+?\.lean):(\d+):',o2)
                    for e in errs2:
                        kk,nn=thm_at(root+'/'+e[0],int(e[1]))
                        if nn and nn not in failed: failed.append(nn)
                    if failed: st='killed_elsewhere'
                out.write(json.dumps(dict(file=f'{t}/{mf}',**{'def':name},edit=f'{label}: {edit}',status=st,failed=failed,secs=round(time.time()-t0)),ensure_ascii=False)+'\n'); out.flush()
                seen.add(label); k+=1
            open(path,'w').write(orig)
        open(path,'w').write(orig)
    run(targets,900)
print('lane',lane,'finished')
