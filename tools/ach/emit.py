from gen import *
PFX={'rect_prism':'rect','annulus':'ann','cone':'con','cone2':'conTwo','tri_prism':'tri','trapezoid':'trap','cylindrical_section':'seg','tetrahedron':'tet','cylhole':'hyp','cylhole2':'ell','platehole':'plate','pyramid':'pyr'}
def wrap(s,ind,width=112):
    out=[];line=' '*ind
    import re
    # break at top-level-ish ' + ' or ' - ' or ' * '
    toks=s.split(' ')
    for t in toks:
        if len(line)+len(t)+1>width and t in('+','-','*','/'):
            out.append(line.rstrip()); line=' '*(ind+2)+t+' '
        else: line+=t+' '
    out.append(line.rstrip())
    return '\n'.join(out)
def cell_info(name):
    params,helpers,cells=process(name)
    res={}
    cplx={'eiphi'}
    for k,(seq,loc) in sorted(cells.items()):
        nm=set()
        for o,e,_ in seq: nm|=names(e)
        for q,v in loc.items():
            nm.discard(q)
            for o,e,_ in v: nm|=names(e)
        lines=[x[2] for x in seq+sum(loc.values(),[])]
        txt=' '.join([chain(v) for v in loc.values()]+[chain(seq)])
        res[k]=dict(names=nm,loc={q:chain(v) for q,v in loc.items()},expr=chain(seq),a=min(lines),b=max(lines),C=('Complex.I' in txt) or 'eiphi' in nm)
    return params,helpers,res
def emit(name):
    params,helpers,res=cell_info(name)
    p=PFX[name]
    hn=[h[0] for h in helpers if h[0]!='__if__']
    if name=='cylhole2': hn+=['Ek','Kk']
    order=['rho']+params+hn
    o=''
    for (l,m),c in res.items():
        args=[a for a in order if a in c['names']]
        ar=[a for a in args if a!='eiphi']
        sig=f"({' '.join(ar)} : ℝ)"+(' (eiphi : ℂ)' if 'eiphi' in args else '')
        c['call']=f"{p}{l}{m} "+' '.join(ar+(['eiphi'] if 'eiphi' in args else []))
        ln=f"{c['a']}" if c['a']==c['b'] else f"{c['a']}-{c['b']}"
        ty='ℂ' if c['C'] else 'ℝ'
        o+=f"/-- `{name}`: `qlm[{l}, L+{m}]`.  newt/qlmACH.py:{ln}. -/\nnoncomputable def {p}{l}{m} {sig} : {ty} :=\n"
        for q,v in c['loc'].items():
            t='ℂ' if 'Complex.I' in v else 'ℝ'
            o+=wrap(f"let {q} : {t} := {v}",2)+'\n'
        e=c['expr']
        if e.startswith('-'): e='('+e+')'
        o+=wrap(e,2)+'\n\n'
    return o,params,helpers,res
LN={'rect_prism':(11,61,42,50),'annulus':(64,146,97,135),'cone':(149,225,181,214),'cone2':(228,289,259,278),'tri_prism':(292,374,326,363),'trapezoid':(377,476,412,465),'cylindrical_section':(479,547,510,536),'tetrahedron':(550,628,583,617),'cylhole':(631,685,661,674),'cylhole2':(688,750,719,739),'platehole':(753,812,787,801),'pyramid':(815,876,847,865)}
GUARD={'rect_prism':'x ≤ 0 ∨ y ≤ 0 ∨ z ≤ 0','annulus':'Ro ≤ Ri ∨ Ro ≤ 0 ∨ H ≤ 0 ∨ phih > Real.pi ∨ phih ≤ 0','cone':'h ≤ 0 ∨ (r1 = 0 ∧ r2 = 0)','cone2':'h ≤ 0 ∨ (r1 = 0 ∧ r2 = 0)','tri_prism':'h ≤ 0 ∨ d = 0 ∨ y1 = y2','trapezoid':'h ≤ 0 ∨ t ≤ 0 ∨ w1 < 0 ∨ w2 < 0','cylindrical_section':'d ≤ 0 ∨ r ≤ d ∨ t ≤ 0','tetrahedron':'x ≤ 0 ∨ y ≤ 0 ∨ z ≤ 0','cylhole':'r ≤ 0 ∨ R < r','cylhole2':'r ≤ 0 ∨ R < r','platehole':'r ≤ 0 ∨ t ≤ 0 ∨ |theta| > Real.pi / 2','pyramid':'x ≤ 0 ∨ y ≤ 0 ∨ h ≤ 0'}
def full(name):
    o,params,helpers,res=emit(name); p=PFX[name]
    a,b,c,d=LN[name]
    o+=f"/-- The cells `qlm[l, L+m]`, `m >= 0`, of `{name}`; all other cells stay `0`.  newt/qlmACH.py:{c}-{d}. -/\n"
    hyp=''
    pp=' '.join(['rho']+params)
    o+=f"noncomputable def {p}Cell ({pp} : ℝ) (l m : ℕ) : ℂ :=\n"
    hs=[h for h in helpers if h[0]!='__if__']
    for h in hs:
        ty='ℂ' if 'Complex' in h[1] else 'ℝ'
        o+=wrap(f"let {h[0]} : {ty} := {h[1]}",2)+'\n'
    if name=='cylhole2':
        o+="  let Ek : ℝ := if k = 1 then 1 else ellipe (k ^ 2)\n  let Kk : ℝ := if k = 1 then 0 else ellipk (k ^ 2)\n"
    o+="  match l, m with\n"
    for (l,m),cc in res.items():
        o+=f"  | {l}, {m} => {cc['call']}\n" if cc['C'] else f"  | {l}, {m} => (({cc['call']} : ℝ) : ℂ)\n"
    o+="  | _, _ => 0\n\n"
    nm={'annulus':'annulus'}.get(name,name)
    lean=nm.replace('_p','P').replace('_s','S')
    o+=f"open Classical in\n/-- `{name}(LMax, {', '.join(['rho']+params)})`.  newt/qlmACH.py:{a}-{b}. -/\n"
    o+=f"noncomputable def {lean} (LMax : ℕ) ({pp} : ℝ) : Res LMax :=\n  if {GUARD[name]} then .valueError\n"
    if name=='trapezoid': o+="  else if (w1 + w2) / 2 = 0 then .zeroDivision\n"
    o+=f"  else .ok (table LMax ({p}Cell {pp}))\n\n"
    return o
if __name__=='__main__':
    H='''import Verif.Model.BigQlm

/-!
# Model of `newt/qlmACH.py` (closed-form inner moments up to degree 5)

Generated from the source text: every cell is the expression the code assigns to it, with augmented
assignments (`+=`, `-=`, `*=`, `/=`) written as one expression.
-/

namespace Newt.QlmACH

open Newt.Qlm (fill)
open Newt.BigQlm (Res)

/-- The common tail of every constructor: the array is built for `L = max(LMax, 5)`, the cells with
`m < 0` are filled in from those with `m > 0`, and the array is cut down if `LMax < 5`.
newt/qlmACH.py:35-39, 52-61 (and the same lines of every other constructor). -/
noncomputable def table (LMax : ℕ) (val : ℕ → ℕ → ℂ) : Mom LMax :=
  let L := if LMax < 5 then 5 else LMax
  let q : Mom L := fill L val
  Mom.ofFn LMax fun l m => q.get l m

'''
    shapes=['rect_prism','annulus','cone','cone2','tri_prism','trapezoid','cylindrical_section','tetrahedron','platehole','pyramid']
    out=H+''.join(full(n) for n in shapes)
    out+="end Newt.QlmACH\n"
    open('/verif/lean/Verif/Model/QlmACH.lean','w').write(out)
    H2='''import Verif.Model.QlmACH
import Mathlib.Analysis.SpecialFunctions.OrdinaryHypergeometric
import Mathlib.Analysis.SpecialFunctions.Integrals.Basic

/-!
# Model of `newt/qlmACH.py` `cylhole` and `cylhole2` (closed forms with special functions)
-/

namespace Newt.QlmACH

open Newt.BigQlm (Res)

/-- `scipy.special.ellipe(m)`, the complete elliptic integral of the second kind, by its documented
definition. -/
noncomputable def ellipe (m : ℝ) : ℝ := ∫ t in (0 : ℝ)..(Real.pi / 2), Real.sqrt (1 - m * Real.sin t ^ 2)

/-- `scipy.special.ellipk(m)`, the complete elliptic integral of the first kind, by its documented
definition. -/
noncomputable def ellipk (m : ℝ) : ℝ := ∫ t in (0 : ℝ)..(Real.pi / 2), 1 / Real.sqrt (1 - m * Real.sin t ^ 2)

/-- `scipy.special.hyp2f1(a, b, c, x)`, Gauss's hypergeometric function, by its power series. -/
noncomputable def hyp2f1 (a b c x : ℝ) : ℝ := ordinaryHypergeometric a b c x

'''
    out=H2+full('cylhole')+full('cylhole2')+"end Newt.QlmACH\n"
    open('/verif/lean/Verif/Model/QlmACHole.lean','w').write(out)
