import math, cmath
from math import factorial as f
# own transcription: cells extracted from source text by exec of assignment lines only
import re
src=open('/repo/newt/qlmACH.py').read().split('\n')
rng={'rect_prism':(42,50),'annulus':(97,135),'cone':(181,214),'cone2':(259,278),'tri_prism':(326,363),'trapezoid':(412,465),'cylindrical_section':(510,536),'tetrahedron':(583,617),'platehole':(787,801),'pyramid':(847,865),'cylhole2':(719,739),'cylhole':(661,674)}
class NP:
    sqrt=staticmethod(lambda x: math.sqrt(x)); pi=math.pi; exp=staticmethod(cmath.exp); sin=math.sin; tan=math.tan; arccos=math.acos
def gl(f,a,b,n=400):
    # composite gauss 5? use simpson-like GL 
    import math
    xs=[-0.9061798459386640,-0.5384693101056831,0,0.5384693101056831,0.9061798459386640]; ws=[0.2369268850561891,0.4786286704993665,0.5688888888888889,0.4786286704993665,0.2369268850561891]
    s=0;h=(b-a)/n
    for i in range(n):
        c=a+(i+.5)*h
        for x,w in zip(xs,ws): s+=w*f(c+x*h/2)*h/2
    return s
class SP:
    @staticmethod
    def hyp2f1(a,b,c,x):
        s=0;t=1.0
        for n in range(4000):
            s+=t; t*=(a+n)*(b+n)/((c+n)*(n+1))*x
        return s
    ellipe=staticmethod(lambda m: gl(lambda t: math.sqrt(1-m*math.sin(t)**2),0,math.pi/2))
    ellipk=staticmethod(lambda m: gl(lambda t: 1/math.sqrt(1-m*math.sin(t)**2),0,math.pi/2))
def code(name,**kw):
    a,b=rng[name]
    if name=='annulus': lines=[l for i,l in enumerate(src[a-1:b],a) if not(100<=i<=102)]
    else: lines=src[a-1:b]
    class Q(dict): pass
    q={}
    class A:
        def __setitem__(s,k,v): q[k]=v
        def __getitem__(s,k): return q[k]
    d=dict(np=NP,sp=SP,qlm=A(),L=0,abs=abs); d.update(kw)
    exec('\n'.join(l[4:] for l in lines),d)
    return q
def coef(l,m):
    """list of (c,a,b,cz) s.t. conj-normalised solid harmonic = N*sum"""
    N=(-1)**m*math.sqrt((2*l+1)*f(l+m)*f(l-m)/(4*math.pi))
    from collections import defaultdict
    P=defaultdict(complex)
    def mul(p,q):
        r=defaultdict(complex)
        for (a,b),u in p.items():
            for (c,d),v in q.items(): r[a+c,b+d]+=u*v
        return r
    def pw(p,n):
        r={(0,0):1}
        for _ in range(n): r=mul(r,p)
        return r
    k=0
    while l-m-2*k>=0:
        xy=mul(pw({(1,0):1,(0,1):1j},k),pw({(1,0):1,(0,1):-1j},m+k))
        c=(-1)**k/(2**(m+2*k)*f(m+k)*f(k)*f(l-m-2*k))
        for (a,b),v in xy.items(): P[a,b,l-m-2*k]+=N*c*v
        k+=1
    return P
def check(name,mono,rho=1.3,**kw):
    q=code(name,rho=rho,**kw)
    bad=[]
    for l in range(6):
        for m in range(l+1):
            ex=sum(c*mono(*e) for e,c in coef(l,m).items() if abs(c)>1e-15)*rho
            got=q.get((l,m),0)
            if abs(ex-got)>1e-7*max(1e-3,abs(ex),abs(got)): bad.append((l,m,got,ex,got/ex if abs(ex)>1e-12 else None))
    print(name,'BAD' if bad else 'OK',sorted(q))
    for b in bad: print('   ',b)
def p(n,a,b): return (b**(n+1)-a**(n+1))/(n+1)
x,y,z=1.1,.7,1.6
check('rect_prism',lambda a,b,c:p(a,-x/2,x/2)*p(b,-y/2,y/2)*p(c,-z/2,z/2),x=x,y=y,z=z)
# annulus
H,Ri,Ro,pc,ph=1.3,.4,1.2,.7,.9
def ann(a,b,c): return gl(lambda t: math.cos(t)**a*math.sin(t)**b,pc-ph,pc+ph,40)*p(a+b+1,Ri,Ro)*p(c,-H/2,H/2)
check('annulus',ann,H=H,Ri=Ri,Ro=Ro,phic=pc,phih=ph)
def trig(a,b): return gl(lambda t: math.cos(t)**a*math.sin(t)**b,0,2*math.pi,40)
h,r1,r2=1.4,.6,1.1
check('cone',lambda a,b,c: trig(a,b)*gl(lambda zz: ((r1+r2)/2+(r1-r2)*zz/h)**(a+b+2)/(a+b+2)*zz**c,-h/2,h/2,20),h=h,r1=r1,r2=r2)
print('cone2: r1 lower, r2 upper'); check('cone2',lambda a,b,c: trig(a,b)*gl(lambda zz: (r1+(r2-r1)*zz/h)**(a+b+2)/(a+b+2)*zz**c,0,h,20),h=h,r1=r1,r2=r2)
d,y1,y2=1.3,-.4,.9
for (d,y1,y2) in [(1.3,-.4,.9),(1.3,.9,-.4),(-1.3,-.4,.9)]:
    check('tri_prism',lambda a,b,c: p(c,-h/2,h/2)*abs(gl(lambda X: X**a*p(b,y1*X/d,y2*X/d),0,d,20))*(1 if True else 0) if False else p(c,-h/2,h/2)*gl(lambda X: X**a*p(b,min(y1*X/d,y2*X/d),max(y1*X/d,y2*X/d)),min(0,d),max(0,d),20),h=h,d=d,y1=y1,y2=y2)
t,w1,w2=.8,1.2,.5
check('trapezoid',lambda a,b,c: p(c,-t/2,t/2)*gl(lambda X:X**a*p(b,-(w1+(w2-w1)*X/h)/2,(w1+(w2-w1)*X/h)/2),0,h,20),t=t,w1=w1,w2=w2,h=h)
r,d=1.2,.5
check('cylindrical_section',lambda a,b,c: p(c,-t/2,t/2)*gl(lambda u:(r*math.cos(u))**a*p(b,-r*math.sin(u),r*math.sin(u))*r*math.sin(u),0,math.acos(d/r),50),t=t,r=r,d=d)
check('tetrahedron',lambda a,b,c:x**(a+1)*y**(b+1)*z**(c+1)*f(a)*f(b)*f(c)/f(a+b+c+3),x=x,y=y,z=z)
th=.5;s=math.tan(th)
# x = s z + u/cos, y=v ; (u,v) in disc r
def ph_(a,b,c):
    tot=0
    for j in range(a+1):
        tot+=math.comb(a,j)*s**(a-j)*p(c+a-j,-t/2,t/2)*(1/math.cos(th))**(j+1)*trig(j,b)*r**(j+b+2)/(j+b+2)
    return tot
check('platehole',ph_,t=t,r=r,theta=th)
check('pyramid',lambda a,b,c: p(a,-x/2,x/2)*p(b,-y/2,y/2)*gl(lambda zz:(1-zz/h)**(a+b+2)*zz**c,0,h,20),h=h,x=x,y=y)
R=1.5;r=.8
def ch(a,b,c): return gl(lambda t: math.cos(t)**a*math.sin(t)**b*gl(lambda rr: rr**(a+b+1)*p(c,-math.sqrt(R*R-(rr*math.cos(t))**2),math.sqrt(R*R-(rr*math.cos(t))**2)),0,r,8),0,2*math.pi,16)
check('cylhole',ch,r=r,R=R); check('cylhole2',ch,r=r,R=R)
