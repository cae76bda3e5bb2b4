from fractions import Fraction as F
import random
eps=F(1,10**100)
def mc(dm,dp,a):
    dc=F(1,2)*(dm+dp) if dm*dp>0 else F(0)
    m=min(abs(dc),a*min(abs(dm),abs(dp)))
    return m if dc>=0 else -m
def weno(q0,q1,q2,q3,q4):
    t=F(13,3)
    a=q0-2*q1+q2;b=q0-4*q1+3*q2;b0=t*a*a+b*b+eps
    a=q1-2*q2+q3;b=q3-q1;b1=t*a*a+b*b+eps
    a=q2-2*q3+q4;b=q4-4*q3+3*q2;b2=t*a*a+b*b+eps
    tau=abs(b2-b0)
    B0=(b0+tau)/b0;B1=(b1+tau)/b1;B2=(b2+tau)/b2
    g=[F(1,10),F(6,10),F(3,10)]
    def half(B0,B1,B2,q0,q1,q2,q3,q4):
        w0=g[0]*B0+eps;w1=g[1]*B1+eps;w2=g[2]*B2+eps
        s=1/(w0+w1+w2)
        p0=F(1,3)*q0-F(7,6)*q1+F(11,6)*q2
        p1=-F(1,6)*q1+F(5,6)*q2+F(1,3)*q3
        p2=F(1,3)*q2+F(5,6)*q3-F(1,6)*q4
        al=3*s*w0*w1*w2/(g[2]*w0*w1+g[1]*w0*w2+g[0]*w1*w2)+eps
        return s*(w0*p0+w1*p1+w2*p2),al,(p0,p1,p2)
    ql,al,pl=half(B0,B1,B2,q0,q1,q2,q3,q4)
    qr,ar,pr=half(B2,B1,B0,q4,q3,q2,q1,q0)
    dq=mc(q2-q1,q3-q2,2)
    A=2*al*ar/(al+ar)
    lin=q2+dq/2
    return A*ql+(1-A)*lin,pl,lin,A,(al,ar)
best=0
random.seed(1)
for n in (3,5,8):
  found=None
  for _ in range(60000):
    q=[F(random.randint(-n,n)) for _ in range(5)]
    v,pl,lin,A,_a=weno(*q)
    hi=max(*pl,lin);lo=min(*pl,lin)
    if A>1: best=max(best,A)
    if v>hi or v<lo:
        c=sum(abs(x) for x in q)
        if found is None or c<found[0]: found=(c,q,float(v),[float(x) for x in pl],float(lin),float(A))
  print(n,found,float(best))
print('material')
for n in (4,8,16):
  found=None
  for _ in range(100000):
    q=[F(random.randint(-n,n)) for _ in range(5)]
    v,pl,lin,A,_a=weno(*q)
    hi=max(*pl,lin);lo=min(*pl,lin)
    ex=max(v-hi,lo-v)
    if ex>F(1,10**6):
        if found is None or ex>found[0]: found=(ex,q,float(v),[float(x) for x in pl],float(lin),float(A))
  print(n,found and float(found[0]),found)
