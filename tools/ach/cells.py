from emit import *
from fractions import Fraction as Fr
from math import factorial as f, isqrt
import re
def qsqrt(q):
    a,b=isqrt(q.numerator),isqrt(q.denominator)
    assert a*a==q.numerator and b*b==q.denominator,(q)
    return Fr(a,b)
def fr(q): return f'{q.numerator}' if q.denominator==1 else f'{q.numerator} / {q.denominator}'
def evalrad(A):
    """A string like '15 / (2 * Real.pi)' -> (rational, power of pi)"""
    has='Real.pi' in A
    v=eval(re.sub(r'(\d+)',r'Fr(\1)',A.replace('Real.pi','1')),dict(Fr=Fr))
    if not has: return Fr(v),0
    v2=eval(re.sub(r'(\d+)',r'Fr(\1)',A.replace('Real.pi','Fr(7)')),dict(Fr=Fr))
    return Fr(v),(1 if v2/v==7 else -1)
def radical(txt):
    """find the radical used in a cell text"""
    ms=[(m.group(1),m.start()) for m in re.finditer(r'Real\.sqrt \(((?:[^()]|\([^()]*\))*)\)',txt)]
    ms=[x for x in ms]
    return ms
def hN(l,m,txt,extra_pi=True):
    N2=Fr((2*l+1)*f(l+m)*f(l-m),4)  # /pi
    ms=radical(txt)
    if not ms:
        c=qsqrt(N2); form=f'({fr(c)}) / Real.sqrt Real.pi'; sq=[]
        return form,['Real.pi']
    A,pos=ms[-1]
    v,p=evalrad(A)
    # denominators?
    pre=txt[:pos]
    den=bool(re.search(r'/ (\((\d+ \* )?)?$',pre))
    if p==0:
        if den:
            c=qsqrt(N2*v); return f'({fr(c)}) / (Real.sqrt ({A}) * Real.sqrt Real.pi)',[A,'Real.pi']
        c=qsqrt(N2/v); return f'({fr(c)}) * Real.sqrt ({A}) / Real.sqrt Real.pi',[A,'Real.pi']
    if den:
        assert p==1
        c=qsqrt(N2*v); return f'({fr(c)}) / Real.sqrt ({A})',[A]
    assert p==-1
    c=qsqrt(N2/v); return f'({fr(c)}) * Real.sqrt ({A})',[A]
def hN_proof(l,m,form,rads):
    s=f'''  have hN : Nlm {l} (({m} : ℕ) : ℤ) = {form} := by
    rw [Nlm]
    refine (Real.sqrt_eq_iff_mul_self_eq_of_pos (by positivity)).2 ?_
'''
    for i,A in enumerate(rads):
        s+=f'    have q{i} := Real.mul_self_sqrt (show (0 : ℝ) ≤ {A} by positivity)\n'
    s+=f'    have e1 : ((({l} : ℕ) : ℤ) + (({m} : ℕ) : ℤ)).toNat = {l+m} := rfl\n    have e2 : ((({l} : ℕ) : ℤ) - (({m} : ℕ) : ℤ)).toNat = {l-m} := rfl\n'
    s+='    rw [e1, e2]\n    norm_num [Nat.factorial]\n    nlsq\n'
    return s
def allPairs(): return [(l,m) for l in range(6) for m in range(l+1)]
def ks(l,m,par=True):
    return [k for k in range((l-m)//2+1) if not par or (l-m-2*k)%2==0]
