exec(open('/tmp/w/weno.py').read().split("best=0")[0])
import itertools
best=[]
for q in itertools.product(range(0,4),repeat=5):
    v,pl,lin,A,_a=weno(*[F(x) for x in q])
    if A>F(102,100): best.append((sum(q),float(A),q))
best.sort(); print(best[:10])
