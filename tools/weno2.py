import sys; sys.argv=['x']
exec(open('/tmp/w/weno.py').read().split("best=0")[0])
import random
random.seed(3)
best=None
for _ in range(300000):
    s=random.randint(-20,20); c=random.randint(-20,20)
    e=[random.choice([-1,0,1,2,-2])*F(1,random.choice([1,2,5,10])) for _ in range(5)]
    q=[F(c)*(i-2)**2+s*(i-2)+e[i] for i in range(5)]
    v,pl,lin,A,_a=weno(*q)
    hi=max(*pl,lin);lo=min(*pl,lin)
    ex=max(v-hi,lo-v)
    if ex>F(1,10**6):
        if best is None or ex>best[0]: best=(ex,[str(x) for x in q],float(v),[float(x) for x in pl],float(lin),float(A))
print(best and float(best[0]),best)
