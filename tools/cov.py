import re,glob,os,collections
src={}
for p in glob.glob('/repo/src/**/*.?pp',recursive=True):
    src[os.path.relpath(p,'/repo/src')]=len(open(p).read().split('\n'))
base=collections.defaultdict(list)
for k in src: base[os.path.basename(k)].append(k)
cov=collections.defaultdict(set)
for f in glob.glob('/verif/lean/Verif/**/*.lean',recursive=True):
    t=open(f).read()
    for m in re.finditer(r'([\w/]+\.[ch]pp)((?:[:, ]+(?:lines? )?\d+(?:\s*[-–]\s*\d+)?)+)',t):
        b=os.path.basename(m.group(1))
        for k in base.get(b,[]):
            if not k.endswith(m.group(1)) and '/' in m.group(1) and not m.group(1).endswith(k): continue
            for r in re.finditer(r'(\d+)(?:\s*[-–]\s*(\d+))?',m.group(2)):
                a=int(r.group(1)); e=int(r.group(2) or a)
                if e<a: e=a
                cov[k]|=set(range(a,min(e,src[k])+1))
out=[]
for k,n in src.items():
    lines=open('/repo/src/'+k).read().split('\n')
    code=[i+1 for i,l in enumerate(lines) if l.strip() and not l.strip().startswith('//') and not l.strip().startswith('#')]
    un=[i for i in code if i not in cov[k]]
    out.append((len(un),len(code),k,un))
out.sort(reverse=True)
tot=sum(o[1] for o in out); u=sum(o[0] for o in out)
print(tot,u)
for o in out[:45]:
    # runs
    runs=[];
    for i in o[3]:
        if runs and i-runs[-1][1]<=4: runs[-1][1]=i
        else: runs.append([i,i])
    print(o[2],o[0],'/',o[1],[f'{a}-{b}' for a,b in runs if b-a>=5])
