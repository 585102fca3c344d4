from cells import *
import sys
def NlmPf(l,m,form,rads):
    s=f'''  have hN : Nlm {l} (({m} : ℕ) : ℤ) = {form} := by
    refine Nlm_sq {l} {m} _ (by norm_num) (by positivity) ?_
    have h1 := Real.pi_pos
    simp only [div_pow, mul_pow]
'''
    for A in rads: s+=f'    rw [Real.sq_sqrt (show (0 : ℝ) ≤ {A} by positivity)]\n'
    s+='    norm_num [Nat.factorial]\n    try field_simp\n    try norm_num\n'
    return s
def gen(name,cfg):
    params,helpers,res=cell_info(name); p=PFX[name]
    o=''
    for (l,m) in allPairs():
        code=res.get((l,m))
        if (l,m) in cfg.get('skip',[]): continue
        par=cfg['kind']=='prism'
        kk=[k for k in range((l-m)//2+1) if not par or (l-m)%2==0]
        o+=f"theorem {p}_{l}{m} {cfg['hyps']} :\n    QlmACH.{p}Cell {cfg['args']} {l} {m} = densityInner rho {cfg['S']} {l} (({m} : ℕ) : ℤ){cfg.get('corr',{}).get((l,m),'')} := by\n"
        o+=cfg['pre']
        rw=f"densityInner, {cfg['I']}_{l}{m} {cfg['Iargs']}" if 'I' in cfg else None
        if par and (l-m)%2:
            assert not code
            o+=f"  rw [{rw}, mul_zero]\n  rfl\n\n"; continue
        if code:
            txt=' '.join(list(code['loc'].values())+[code['expr']])
            form,rads=hN(l,m,txt)
            o+=NlmPf(l,m,form,rads)
        o+=f"  rw [{rw}, "+', '.join(cfg['pm'](m,k) for k in kk)+(', hN]\n' if code else ']\n')
        h=f"QlmACH.{p}{l}{m}, " if code else ''
        o+=f"  simp only [QlmACH.{p}Cell, {h}{cfg['simp']}]\n"
        o+=cfg.get('post',lambda l,m,code:'')(l,m,code)
        if code:
            if '4 * Real.pi' in ''.join(h[1] or '' for h in helpers)+txt:
                o+="  rw [sqrt_four_pi]\n"
            o+="  have hp := sqrt_pi_ne\n"
            for A in rads:
                if A!='Real.pi': o+=f"  have hs := sqrt_cast_ne ({A}) (by positivity)\n"
        else:
            pass
        o+=cfg.get('fin',lambda l,m,code:"  push_cast\n"+("  field_simp\n" if code else '')+"  try ring\n")(l,m,code)
        o+='\n'
    return o
HEAD='''import Verif.Proofs.AchPlane

/-! # {t} -/

namespace Newt.Ach

open MeasureTheory Finset Spec

'''
Z='zint_val0, zint_val1, zint_val2, zint_val3, zint_val4, zint_val5'
def dispatch(name,cfg,skip=()):
    p=PFX[name]
    if cfg.get('nodisp'): return TRAPD
    s=f"theorem {p}_cells {cfg['hyps']} (l m : ℕ) (hm : m ≤ l) (hl : l ≤ 5) :\n    QlmACH.{p}Cell {cfg['args']} l m = densityInner rho {cfg['S']} l m := by\n"
    s+=f"  refine cells21 (fun l m => QlmACH.{p}Cell {cfg['args']} l m = densityInner rho {cfg['S']} l ((m : ℕ) : ℤ))\n    "
    s+=' '.join(f"({p}_{l}{m} {cfg['call']})" for l,m in allPairs())+' l m hm hl\n\n'
    s+=f"theorem {p}_high ({' '.join(['rho']+process(name)[0])} : ℝ) (l m : ℕ) (hl : 5 < l) : QlmACH.{p}Cell {' '.join(['rho']+process(name)[0])} l m = 0 := by\n  obtain ⟨k, rfl⟩ : ∃ k, l = k + 6 := ⟨l - 6, by omega⟩\n  rfl\n\n"
    return s
CF={}
TRAPD='''/-- The trapezoid in terms of its two parallel sides: every cell but (4, 4). -/
theorem trap_cells (rho t w1 w2 h : ℝ) (ht : 0 < t) (h1 : 0 ≤ w1) (h2 : 0 ≤ w2) (hw : w1 + w2 ≠ 0) (hh : 0 < h)
    (l m : ℕ) (hm : m ≤ l) (hl : l ≤ 5) (h44 : ¬ (l = 4 ∧ m = 4)) :
    QlmACH.trapCell rho t w1 w2 h l m = densityInner rho (prism t (trapezoid w1 w2 h)) l m := by
  have hw0 : 0 < (w1 + w2) / 2 := by
    rcases h1.lt_or_eq with h | h
    · linarith
    · rcases h2.lt_or_eq with h' | h'
      · linarith
      · exact absurd (by rw [← h, ← h', add_zero]) hw
  obtain ⟨w, D, e1, e2, hwp⟩ : ∃ w D : ℝ, w1 = w * (1 + D / 2) ∧ w2 = w * (1 - D / 2) ∧ 0 < w :=
    ⟨(w1 + w2) / 2, (w1 - w2) / ((w1 + w2) / 2), by field_simp; ring, by field_simp; ring, hw0⟩
  subst e1 e2
  refine cells21 (fun l m => ¬ (l = 4 ∧ m = 4) → QlmACH.trapCell rho t (w * (1 + D / 2)) (w * (1 - D / 2)) h l m
      = densityInner rho (prism t (trapezoid (w * (1 + D / 2)) (w * (1 - D / 2)) h)) l ((m : ℕ) : ℤ))
    CELLS l m hm hl h44

theorem trap_cell44 (rho t w1 w2 h : ℝ) (ht : 0 < t) (h1 : 0 ≤ w1) (h2 : 0 ≤ w2) (hw : w1 + w2 ≠ 0) (hh : 0 < h) :
    QlmACH.trapCell rho t w1 w2 h 4 4 = densityInner rho (prism t (trapezoid w1 w2 h)) 4 4
      - ((rho * h * t * ((w1 + w2) / 2) / Real.sqrt (4 * Real.pi) * Real.sqrt (7 / 10) / 64
        * (48 * h ^ 4 - 40 * h ^ 2 * ((w1 + w2) / 2) ^ 2 + 3 * ((w1 + w2) / 2) ^ 4) : ℝ) : ℂ) := by
  have hw0 : 0 < (w1 + w2) / 2 := by
    rcases h1.lt_or_eq with h | h
    · linarith
    · rcases h2.lt_or_eq with h' | h'
      · linarith
      · exact absurd (by rw [← h, ← h', add_zero]) hw
  obtain ⟨w, D, e1, e2, hwp⟩ : ∃ w D : ℝ, w1 = w * (1 + D / 2) ∧ w2 = w * (1 - D / 2) ∧ 0 < w :=
    ⟨(w1 + w2) / 2, (w1 - w2) / ((w1 + w2) / 2), by field_simp; ring, by field_simp; ring, hw0⟩
  subst e1 e2
  have hw1 : (w * (1 + D / 2) + w * (1 - D / 2)) / 2 = w := by ring
  rw [hw1]
  exact trap_44 rho t w D h ht hwp h1 h2 hh

theorem trap_high (rho t w1 w2 h : ℝ) (l m : ℕ) (hl : 5 < l) : QlmACH.trapCell rho t w1 w2 h l m = 0 := by
  obtain ⟨k, rfl⟩ : ∃ k, l = k + 6 := ⟨l - 6, by omega⟩
  rfl

'''.replace('CELLS',' '.join(f'(fun _ => trap_{l}{m} rho t w D h ht hwp h1 h2 hh)' if (l,m)!=(4,4) else '(fun h => absurd ⟨rfl, rfl⟩ h)' for l,m in allPairs()))
CF['rect_prism']=dict(kind='prism',hyps='(rho x y z : ℝ) (hx : 0 < x) (hy : 0 < y) (hz : 0 < z)',args='rho x y z',S='(prism z (rectangle x y))',
  pre='  have hE := expands_rect x y hx hy\n',I='prismI',Iargs='z hz _ (rectangle_compact x y)',pm=lambda m,k:f'pmX_{m}{k} hE',simp=Z,call='rho x y z hx hy hz')
CF['pyramid']=dict(kind='cone',hyps='(rho h x y : ℝ) (hh : 0 < h) (hx : 0 < x) (hy : 0 < y)',args='rho h x y',S='(coneOver h (rectangle x y))',
  pre='  have hE := expands_rect x y hx hy\n',I='coneI',Iargs='h hh _ (rectangle_compact x y)',pm=lambda m,k:f'pmX_{m}{k} hE',simp=Z,call='rho h x y hh hx hy')
CF['tetrahedron']=dict(kind='cone',hyps='(rho x y z : ℝ) (hx : 0 < x) (hy : 0 < y) (hz : 0 < z)',args='rho x y z',S='(coneOver z (triangle (x, 0) (0, y)))',
  pre='  have hE := expands_right x y hx hy\n',I='coneI',Iargs='z hz _ (triangle_compact _ _)',pm=lambda m,k:f'pmX_{m}{k} hE',simp='Nat.factorial',call='rho x y z hx hy hz',
  fin=lambda l,m,code:"  push_cast\n  field_simp\n  norm_num\n  first | done | ring1 | (ring_nf; simp only [Complex.I_sq, Complex.I_pow_three, Complex.I_pow_four]; ring)\n")
CF['trapezoid']=dict(kind='prism',hyps='(rho t w D h : ℝ) (ht : 0 < t) (hw : 0 < w) (h1 : 0 ≤ w * (1 + D / 2)) (h2 : 0 ≤ w * (1 - D / 2)) (hh : 0 < h)',
  args='rho t (w * (1 + D / 2)) (w * (1 - D / 2)) h',S='(prism t (trapezoid (w * (1 + D / 2)) (w * (1 - D / 2)) h))',
  pre='  have hE := expands_trap2 (w * (1 + D / 2)) (w * (1 - D / 2)) h h1 h2 hh\n  have hw1 : (w * (1 + D / 2) + w * (1 - D / 2)) / 2 = w := by ring\n  have hw2 : (w * (1 + D / 2) - w * (1 - D / 2)) / w = D := by field_simp; ring\n',
  I='prismI',Iargs='t ht _ (trapezoid_compact _ _ h hh)',pm=lambda m,k:f'pmX_{m}{k} hE',simp='hw1, hw2, trapM, Nat.reduceMod, Nat.reduceAdd, Nat.reduceSub, sum_range_succ, sum_range_zero, Nat.choose, if_true, one_ne_zero, if_false',
  call='rho t w D h ht hw h1 h2 hh',fin=lambda l,m,code:"  push_cast\n  field_simp\n  try ring\n", corr={(4,4):"\n      - ((rho * h * t * w / Real.sqrt (4 * Real.pi) * Real.sqrt (7 / 10) / 64 * (48 * h ^ 4 - 40 * h ^ 2 * w ^ 2 + 3 * w ^ 4) : ℝ) : ℂ)"},nodisp=True)
CF['tri_prism']=dict(kind='prism',hyps='(rho h d y1 y2 : ℝ) (hh : 0 < h) (hd : d ≠ 0)',args='rho h d y1 y2',S='(prism h (triangle (d, y1) (d, y2)))',
  pre='  obtain ⟨c, hc, hT⟩ := pm_triangle_signed d y1 y2 hd\n  have hE := expands_tint d y1 y2\n',I='prismI',Iargs='h hh _ (triangle_compact _ _)',pm=lambda m,k:f'hT {m} {k}, pmX_{m}{k} hE',simp='← hc',call='rho h d y1 y2 hh hd',
  fin=lambda l,m,code:"  push_cast\n  field_simp\n  norm_num\n  first | done | ring1 | (ring_nf; simp only [Complex.I_sq, Complex.I_pow_three, Complex.I_pow_four, Ipow5]; ring)\n")
def annpost(l,m,code):
    if not code: return ''
    e={1:'phih * 2 / 2 = 1 * phih',2:'phih * 2 = 2 * phih',3:'phih * 2 * 3 / 2 = 3 * phih',4:'2 * (phih * 2) = 4 * phih',5:'phih * 2 * 5 / 2 = 5 * phih'}
    return '' if m==0 else f"  rw [show {e[m]} by ring]\n"
CF['annulus']=dict(kind='prism',hyps='(rho H Ri Ro phic phih : ℝ) (hH : 0 < H) (hRi : 0 ≤ Ri) (hRo : Ri ≤ Ro) (h0 : 0 ≤ phih) (hh : phih ≤ Real.pi)',
  args='rho H Ri Ro phic phih',S='(prism H (sector Ri Ro phic phih))',pre='',I='prismI',Iargs='H hH _ (sector_compact _ _ _ _)',
  pm=lambda m,k:f'pm_sec{"0" if m==0 else ""} Ri Ro phic phih hRi hRo h0 hh {"" if m==0 else m} {k}'+('' if m==0 else ' (by norm_num)'),simp='Nat.cast_ofNat',call='rho H Ri Ro phic phih hH hRi hRo h0 hh',post=annpost,
  fin=lambda l,m,code:"  push_cast\n  field_simp\n  try ring\n")
SEGFIN='''  generalize Real.sin p = S at *
  generalize Real.cos p = C at *
  push_cast
  have hSC' : (S : ℂ) ^ 2 = 1 - (C : ℂ) ^ 2 := by rw [eq_sub_iff_add_eq]; exact_mod_cast hSC
  have g3 : (S : ℂ) ^ 3 = S * (1 - (C : ℂ) ^ 2) := by rw [pow_succ, hSC']; ring
  have g4 : (S : ℂ) ^ 4 = (1 - (C : ℂ) ^ 2) ^ 2 := by rw [show (4 : ℕ) = 2 * 2 by norm_num, pow_mul, hSC']
  have g5 : (S : ℂ) ^ 5 = S * (1 - (C : ℂ) ^ 2) ^ 2 := by rw [pow_succ, g4]; ring
  have g6 : (S : ℂ) ^ 6 = (1 - (C : ℂ) ^ 2) ^ 3 := by rw [show (6 : ℕ) = 2 * 3 by norm_num, pow_mul, hSC']
  have g7 : (S : ℂ) ^ 7 = S * (1 - (C : ℂ) ^ 2) ^ 3 := by rw [pow_succ, g6]; ring
  FS  norm_num
  first | done | ring1 | (ring_nf; simp only [Complex.I_sq, Complex.I_pow_three, Complex.I_pow_four, Ipow5, hSC', g3, g4, g5, g6, g7]; ring)
'''
def segpost(l,m,code):
    return '  rw [hsin2, hsin3, hsin4, hsin5]\n' if False else ''
CF['cylindrical_section']=dict(kind='prism',hyps='(rho t r p : ℝ) (ht : 0 < t) (hr : 0 < r) (hp0 : 0 < p) (hp2 : p < Real.pi / 2)',
  args='rho t r (r * Real.cos p)',S='(prism t (segment r (r * Real.cos p)))',
  pre='''  have hSC := Real.sin_sq_add_cos_sq p
  have hE := expands_tint (r * Real.cos p) (-(r * Real.sin p)) (r * Real.sin p)
  have e1 : r * Real.cos p / r = Real.cos p := by field_simp
  have e2 : Real.arccos (Real.cos p) = p := Real.arccos_cos hp0.le (by linarith [Real.pi_pos])
  have e3 : Real.sqrt (1 - Real.cos p ^ 2) = Real.sin p := by
    rw [← Real.sin_sq, Real.sqrt_sq (Real.sin_nonneg_of_nonneg_of_le_pi hp0.le (by linarith [Real.pi_pos]))]
''',I='prismI',Iargs='t ht _ (segment_compact _ _ hr.le)',
  pm=lambda m,k:f'pm_seg r p hr hp0 hp2 {m} {k}, pm_sec{"0" if m==0 else ""} 0 r 0 p le_rfl hr.le hp0.le (by linarith [Real.pi_pos]) {"" if m==0 else m} {k}'+('' if m==0 else ' (by norm_num)')+f', pmX_{m}{k} hE',
  simp='e1, e2, e3, Nat.cast_ofNat, Nat.cast_one, one_mul, sin_2p, sin_3p, sin_4p, sin_5p',call='rho t r p ht hr hp0 hp2',
  fin=lambda l,m,code: SEGFIN.replace('FS','field_simp\n' if code else '\n'))
if __name__=='__main__':
    for n in sys.argv[2:]:
        cfg=CF[n]
    out=HEAD.replace('{t}',sys.argv[1]+' cells against the volume integrals')
    for n in sys.argv[2:]: out+=gen(n,CF[n])+dispatch(n,CF[n])
    out+='end Newt.Ach\n'
    open(f'/verif/lean/Verif/Proofs/Ach{sys.argv[1]}.lean','w').write(out)
