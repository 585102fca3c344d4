from gencells import *
import itertools
V={'000':'4 * W0','200':'4 / 3 * (R ^ 2 * W0 - W1)','020':'4 * W1','002':'4 / 3 * (r ^ 2 * W0 - W1)',
 '400':'4 / 5 * (R ^ 4 * W0 - 2 * R ^ 2 * W1 + W2)','040':'4 * W2','004':'4 / 5 * (r ^ 4 * W0 - 2 * r ^ 2 * W1 + W2)',
 '220':'4 / 3 * (R ^ 2 * W1 - W2)','202':'4 / 9 * (R ^ 2 * r ^ 2 * W0 - (R ^ 2 + r ^ 2) * W1 + W2)','022':'4 / 3 * (r ^ 2 * W1 - W2)'}
W={'W0':'(2 * r ^ 2 * R * tInt (r / R) 0)','W1':'(2 * r ^ 4 * R * tInt (r / R) 1)','W2':'(2 * r ^ 6 * R * tInt (r / R) 2)'}
def val(s):
    for a,b in W.items(): s=s.replace(a,b)
    return s
out='''import Verif.Proofs.AchCylMon

/-! # The hole drilled into a cylinder: its moments in terms of three integrals -/

namespace Newt.Ach

open MeasureTheory Finset Spec

'''
for key in V:
    e,a,b=map(int,key)
    out+=f'''theorem cylm_{key} (r R : ℝ) (hr : 0 < r) (hR : r ≤ R) : mon3 (cylC r R) {e} {a} {b} = {val(V[key])} := by
  rw [show mon3 (cylC r R) {e} {a} {b} = mon3 (cylC r R) (2 * {e//2}) (2 * {a//2}) (2 * {b//2}) from rfl, cyl_mon_even r R hr hR]
  simp only [wInt_eq r R hr hR, sum_range_succ, sum_range_zero, Nat.choose, Nat.reduceAdd, Nat.reduceSub, Nat.reduceMul, zero_add, add_zero]
  push_cast
  ring

'''
def mons(l,m):
    # monomials (e,a,b) needed with degree l
    return [(e,a,l-e-a) for e in range(l+1) for a in range(l-e+1)]
# true moments: real formula in t0,t1,t2
N2=lambda l,m: None
for (l,m) in allPairs():
    kk=list(range((l-m)//2+1))
    es=sorted({l-m-2*k for k in kk})
    # compute real value: sum_k c_k * sum_{terms} coefficient * V
    zero = (l%2==1) or (m%2==1)
    tot={}
    if not zero:
        from math import comb
        for k in kk:
            c=Fr((-1)**(m+k),2**(m+2*k)*f(k)*f(m+k)*f(l-m-2*k))
            # (x-iy)^m (x^2+y^2)^k
            for p in range(m+1):
                for j in range(k+1):
                    a=m+2*k-(2*j+p); b=2*j+p
                    if a%2 or b%2: continue
                    co=c*comb(m,p)*comb(k,j)*(-1)**(p//2)
                    key=f'{l-m-2*k}{a}{b}'
                    tot[key]=tot.get(key,0)+co
    rhs='0' if zero else '(Nlm %d ((%d : ℕ) : ℤ) : ℂ) * ((%s : ℝ) : ℂ)'%(l,m,' + '.join(f'({fr(v)}) * ({val(V[k])})' for k,v in tot.items() if v))
    out+=f"theorem cylI_{l}{m} (r R : ℝ) (hr : 0 < r) (hR : r ≤ R) :\n    ∫ v in drilledCylinder r R, solidS {l} (({m} : ℕ) : ℤ) v = {rhs} := by\n"
    out+="  have hC := cylC_compact r R hr (by linarith)\n"
    for e in es: out+=f"  have hE{e} := expands_solid _ hC {e}\n"
    odd=[]; ev=[]
    for k in kk:
        e=l-m-2*k
        for a in range(m+2*k+1):
            b=m+2*k-a
            if e%2 or a%2 or b%2: odd.append((e,a,b))
            else: ev.append((e,a,b))
    for (e,a,b) in odd: out+=f"  have o{e}{a}{b} := cyl_mon_odd r R hr hR {e} {a} {b} (by norm_num)\n"
    out+=f"  rw [show drilledCylinder r R = {{v : V3 | (v 2, (v 0, v 1)) ∈ cylC r R}} from rfl, solidI_{l}{m} _ hC, "+', '.join(f'pmX_{m}{k} hE{l-m-2*k}' for k in kk)+"]\n"
    simp=[f'o{e}{a}{b}' for e,a,b in odd]+[f'cylm_{e}{a}{b} r R hr hR' for e,a,b in ev]
    out+=f"  simp only [{', '.join(simp)}]\n  push_cast\n  ring\n\n"
out+='end Newt.Ach\n'
open('/verif/lean/Verif/Proofs/AchCylInt.lean','w').write(out)
CF['cylhole2']=dict(hyps='(rho r R : ℝ) (hr : 0 < r) (hR : r ≤ R)',args='rho r R',S='(drilledCylinder r R)',call='rho r R hr hR')
def gen3(name,cfg):
    params,helpers,res=cell_info(name); p=PFX[name]
    o=''
    for (l,m) in allPairs():
        code=res.get((l,m))
        o+=f"theorem {p}_{l}{m} {cfg['hyps']} :\n    QlmACH.{p}Cell {cfg['args']} {l} {m} = densityInner rho {cfg['S']} {l} (({m} : ℕ) : ℤ) := by\n"
        if not code:
            o+=f"  rw [densityInner, cylI_{l}{m} r R hr hR, mul_zero]\n  rfl\n\n"; continue
        txt=' '.join(list(code['loc'].values())+[code['expr']])
        ms=radical(txt)
        form,rads=hN2(l,m,txt)
        o+=NlmPf(l,m,form,rads)
        o+=f"  have hR0 : 0 < R := by linarith\n  obtain ⟨k, rfl⟩ : ∃ k, r = k * R := ⟨r / R, by field_simp⟩\n"
        o+="  have hk0 : 0 < k := by by_contra h; nlinarith\n  have hk1 : k ≤ 1 := by by_contra h; nlinarith\n  have hkR : k * R / R = k := by field_simp\n"
        o+="  obtain ⟨t0, t1, t2⟩ := tInt_ell k _ _ hk0 hk1 rfl rfl\n"
        o+=f"  rw [densityInner, cylI_{l}{m} _ R hr hR, hN]\n  simp only [QlmACH.{p}Cell, QlmACH.{p}{l}{m}, hkR]\n"
        o+="  generalize (if k = 1 then (1 : ℝ) else QlmACH.ellipe (k ^ 2)) = E at *\n  generalize (if k = 1 then (0 : ℝ) else QlmACH.ellipk (k ^ 2)) = K at *\n"
        o+="  rw [← eq_div_iff (by positivity)] at t0 t1 t2\n  simp only [t0, t1, t2]\n"
        o+="  have hp := sqrt_pi_ne\n"
        for A in rads:
            if A!='Real.pi': o+=f"  have hs := sqrt_cast_ne ({A}) (by positivity)\n"
        o+=rads_post(rads)
        o+="  have hRc : (R : ℂ) ≠ 0 := Complex.ofReal_ne_zero.2 hR0.ne'\n  have hkc : (k : ℂ) ≠ 0 := Complex.ofReal_ne_zero.2 hk0.ne'\n  push_cast\n  field_simp\n  try ring\n\n"
    return o
def rads_post(rads): return ''
def hN2(l,m,txt):
    N=Fr((2*l+1)*f(l+m)*f(l-m),4)
    A,pos=radical(txt)[-1]
    v,p=evalrad(A)
    pre=txt[:pos]
    den=bool(re.search(r'/ (\((\d+ \* )?)?$',pre))
    if den:
        assert p==1
        c=qsqrt(N*v); return f'({fr(c)}) / Real.sqrt ({A})',[A]
    assert p==-1
    c=qsqrt(N/v); return f'({fr(c)}) * Real.sqrt ({A})',[A]
if __name__=='__main__':
    out='''import Verif.Proofs.AchCylInt

/-! # cylhole2 cells against the volume integrals -/

namespace Newt.Ach

open MeasureTheory Finset Spec

'''
    PFX.setdefault('cylhole2','ell')
    out+=gen3('cylhole2',CF['cylhole2'])+dispatch('cylhole2',CF['cylhole2'])+'end Newt.Ach\n'
    open('/verif/lean/Verif/Proofs/AchEll.lean','w').write(out)
