import Verif.Spec.Shapes
import Verif.Proofs.BodyFirst
import Verif.Props.Embed
import Verif.Props.Qlm

/-!
# C38, C39, C56: moving and combining bodies

C56 is about the moment arrays of arbitrary bodies (point masses, uniform solids, anything of
compact support); C38 and C39 are about the bookkeeping class `Shape` of `newt/shapes.py`.
-/

namespace Newt

open Spec MeasureTheory

/-! ## C56: moments of a moved body -/

/-- C56: translating the inner moments of any body gives the inner moments of the translated body. -/
theorem C56_translate (L : ℕ) (b : Body) (d : V3) :
    translate_qlm (Mom.ofFn L b.inner) d = Mom.ofFn L (b.translate d).inner := by
  rw [translate_qlm_closed _ (Body.inner_valid L b)]
  apply Mom.ext_get
  intro l m hl hm
  rw [Mom.get_ofFn _ hl hm, Mom.get_ofFn _ hl hm, Body.inner_translate, trInner]
  congr 1
  refine Finset.sum_congr rfl fun k hk => Finset.sum_congr rfl fun n hn => ?_
  rw [Finset.mem_range] at hk
  rw [Finset.mem_Icc] at hn
  rw [Mom.get_ofFn _ (by omega) (by omega)]

/-- C56: rotating the inner moments of any body gives the inner moments of the rotated body. -/
theorem C56_rotate (L : ℕ) (b : Body) (alpha beta gamma : ℝ) :
    rotate_qlm (Mom.ofFn L b.inner) alpha beta gamma = some (Mom.ofFn L (b.rotate alpha beta gamma).inner) := by
  rw [rotate_qlm_rotM, Option.some.injEq]
  apply Mom.ext_get
  intro l m hl hm
  rw [Mom.get_ofFn _ hl hm]
  by_cases h : m.natAbs ≤ l
  · rw [rotM_get _ _ _ _ _ _ hl h, Body.inner_rotate _ _ _ _ _ _ h]
    refine Finset.sum_congr rfl fun n hn => ?_
    rw [Finset.mem_Icc] at hn
    rw [Mom.get_ofFn _ hl (by omega)]
  · rw [Body.inner_out _ _ _ (by omega)]
    exact (rotM_valid _ (Body.inner_valid L b) alpha beta gamma).2 l m hl hm (by omega)

/-- C56 for a uniform solid: the annulus moved anywhere. -/
theorem C56_annulus (L : ℕ) (mass H Ri Ro phic phih : ℝ) (hH : 0 < H) (hRi : 0 ≤ Ri) (hR : Ri < Ro)
    (h0 : 0 < phih) (hpi : phih ≤ Real.pi) (d : V3) (alpha beta gamma : ℝ) :
    ∃ q q', Qlm.annulus L mass H Ri Ro phic phih = .ok q ∧ rotate_qlm q alpha beta gamma = some q' ∧
      translate_qlm q' d =
        Mom.ofFn L (((Body.solid mass (prism H (sector Ri Ro phic phih))
          (prism_compact H _ (sector_compact _ _ _ _))).rotate alpha beta gamma).translate d).inner := by
  have hS := prism_compact H _ (sector_compact Ri Ro phic phih)
  have e : Mom.ofFn L (uniformMoment mass (prism H (sector Ri Ro phic phih)))
      = Mom.ofFn L (Body.solid mass _ hS).inner := by
    apply Mom.ext_get
    intro l m hl hm
    rw [Mom.get_ofFn _ hl hm, Mom.get_ofFn _ hl hm, Body.inner_solid]
  refine ⟨_, _, C36_annulus L mass H Ri Ro phic phih hH hRi hR h0 hpi, ?_, C56_translate L _ d⟩
  rw [e, C56_rotate]

/-! ## C38: `Shape` objects -/

theorem rotRow_z (t : ℝ) (c : V3) : Shape.rotRow t ![0, 0, 1] c = some (turnZ t c) := by
  rw [Shape.rotRow, rotMatrix_some ez_ne, turnZ_eq, ← rotF_z]; rfl

theorem rotRow_y (t : ℝ) (c : V3) : Shape.rotRow t ![0, 1, 0] c = some (turnY t c) := by
  rw [Shape.rotRow, rotMatrix_some ey_ne, turnY_eq, ← rotF_y]; rfl

theorem rotcom (t1 t2 t3 : ℝ) (c : Option V3) :
    ((c.bind (Shape.rotRow t3 ![0, 0, 1])).bind (Shape.rotRow t2 ![0, 1, 0])).bind (Shape.rotRow t1 ![0, 0, 1])
      = c.map (euler t1 t2 t3) := by
  cases c with
  | none => rfl
  | some c => simp [rotRow_z, rotRow_y, euler]

theorem euler_mat (a b g : ℝ) : ∃ R : Matrix (Fin 3) (Fin 3) ℝ, ∀ v, euler a b g v = R.mulVec v := by
  refine ⟨rzM a * ryM b * rzM g, fun v => ?_⟩
  rw [euler_eq, eul, rz_toLin, ry_toLin, rz_toLin]
  simp [Matrix.toLin'_apply, Matrix.mulVec_mulVec, Matrix.mul_assoc]

theorem books_rotate {K : ℕ} {s : Shape} {bd : Body} (h : Books K s bd) (a b g : ℝ) (s' : Shape)
    (hs : s.rotate a b g = (s', none)) : Books K s' (bd.rotate a b g) := by
  rw [Shape.rotate] at hs
  rcases hm : s.mesh with _ | m
  · rw [hm] at hs; simp at hs
  · rw [hm] at hs
    simp only [Prod.mk.injEq, and_true] at hs
    subst hs
    refine ⟨?_, ?_, h.deg, ?_⟩
    · rw [Body.mass_rotate]; exact h.mass
    · intro c hc i
      simp only [rotcom] at hc
      obtain ⟨c0, hc0, rfl⟩ := Option.map_eq_some_iff.1 hc
      obtain ⟨R, hR⟩ := euler_mat a b g
      rw [Body.rotate, Body.first_lin _ _ _ R hR, hR]
      have := h.com c0 hc0
      have e : bd.first = s.mass • c0 := by funext j; rw [← this j]; rfl
      rw [e, Matrix.mulVec_smul]; rfl
    · intro hi
      obtain ⟨q, hq, hv, hq2⟩ := h.moments hi
      refine ⟨rotM a b g q, by simp [hq, rotate_qlm_rotM], rotM_valid q hv a b g, ?_⟩
      intro l m hl hm'
      have hL : l ≤ s.lmax := hl.trans h.deg
      rw [rotM_get _ _ _ _ _ _ hL hm', Body.inner_rotate _ _ _ _ _ _ hm']
      refine Finset.sum_congr rfl fun n hn => ?_
      rw [Finset.mem_Icc] at hn
      rw [hq2 l n hl (by omega)]

theorem books_translate {K : ℕ} {s : Shape} {bd : Body} (h : Books K s bd) (d : V3) (t : Bool) (s' : Shape)
    (hs : s.translate d t = (s', none)) : Books K s' (bd.translate d) := by
  rw [Shape.translate] at hs
  rcases hm : s.mesh with _ | m
  · rw [hm] at hs; simp at hs
  · rw [hm] at hs
    have hcom : ∀ c, (s.com.map fun c => c + d) = some c → ∀ i, s.mass * c i = (bd.translate d).first i := by
      intro c hc i
      obtain ⟨c0, hc0, rfl⟩ := Option.map_eq_some_iff.1 hc
      rw [Body.first_translate, ← h.com c0 hc0 i, ← h.mass, Pi.add_apply]; ring
    simp only at hs
    split_ifs at hs with h1 h2 h3
    all_goals simp only [Prod.mk.injEq, and_true, reduceCtorEq, and_false] at hs
    · subst hs
      refine ⟨by rw [Body.mass_translate]; exact h.mass, hcom, h.deg, ?_⟩
      intro hi
      obtain ⟨q, hq, hv, hq2⟩ := h.moments hi
      refine ⟨translate_qlm q d, by simp [hq], translate_qlm_valid q hv d, ?_⟩
      intro l m hl hm'
      have hL : l ≤ s.lmax := hl.trans h.deg
      rw [translate_qlm_closed q hv, Mom.get_ofFn _ hL (by omega), trInner, Body.inner_translate]
      congr 1
      refine Finset.sum_congr rfl fun k hk => Finset.sum_congr rfl fun n hn => ?_
      rw [Finset.mem_range] at hk
      rw [Finset.mem_Icc] at hn
      rw [hq2 k n (by omega) (by omega)]
    · subst hs
      exact ⟨by rw [Body.mass_translate]; exact h.mass, hcom, h.deg, fun hi => by simp at hi⟩
    · subst hs
      refine ⟨by rw [Body.mass_translate]; exact h.mass, hcom, h.deg, fun hi => ?_⟩
      exact absurd hi h3.1

theorem le_foldl_max (L : List ℕ) (a : ℕ) : a ≤ L.foldl max a := by
  induction L generalizing a with
  | nil => simp
  | cons b L ih => exact (le_max_left a b).trans (ih _)

/-- Adding: the list of the bodies of the added shapes. -/
theorem books_add {K : ℕ} {s : Shape} {bd : Body} (h : Books K s bd) (ts : List Shape) (bs : List Body)
    (hts : List.Forall₂ (Books K) ts bs) (s' : Shape) (hs : s.add ts = (s', none)) :
    Books K s' (bd ++ bs.flatten) := by
  have hmass : ∀ (ts : List Shape) (bs : List Body), List.Forall₂ (Books K) ts bs →
      (ts.map Shape.mass).sum = Body.mass bs.flatten := by
    intro ts bs h
    induction h with
    | nil => simp [Body.mass]
    | cons h1 _ ih => rw [List.map_cons, List.sum_cons, ih, List.flatten_cons, Body.mass_append, h1.mass]
  have hcom : ∀ (ts : List Shape) (bs : List Body), List.Forall₂ (Books K) ts bs →
      ∀ cs, (ts.mapM fun t : Shape => t.com.map fun c => t.mass • c) = some cs →
      ∀ i, (cs.sum : V3) i = Body.first bs.flatten i := by
    intro ts bs h
    induction h with
    | nil => intro cs hcs i; simp at hcs; subst hcs; simp [Body.first]
    | cons h1 _ ih =>
      intro cs hcs i
      rw [List.mapM_cons] at hcs
      obtain ⟨c0, hc0, hcs⟩ := Option.bind_eq_some_iff.1 hcs
      obtain ⟨cs', hcs', hcs⟩ := Option.bind_eq_some_iff.1 hcs
      rw [Option.pure_def, Option.some.injEq] at hcs
      subst hcs
      obtain ⟨c, hc, rfl⟩ := Option.map_eq_some_iff.1 hc0
      rw [List.sum_cons, Pi.add_apply, ih cs' hcs', List.flatten_cons, Body.first_append, ← h1.com c hc i]
      rfl
  rw [Shape.add] at hs
  simp only at hs
  by_cases hin : (∀ t ∈ s :: ts, t.inner = true) ∨ (∀ t ∈ s :: ts, t.inner = false)
  swap
  · rw [if_neg hin] at hs; simp at hs
  rw [if_pos hin] at hs
  have hall : List.Forall₂ (Books K) (s :: ts) (bd :: bs) := .cons h hts
  have hb : bd ++ bs.flatten = (bd :: bs).flatten := rfl
  rcases hmesh : (s :: ts).mapM Shape.mesh with _ | ms
  · rw [hmesh] at hs; simp at hs
  · rcases ms with _ | ⟨m0, ms⟩
    · rw [hmesh] at hs; simp at hs
    · rw [hmesh] at hs
      simp only [Prod.mk.injEq, and_true] at hs
      subst hs
      have hdeg : K ≤ Shape.maxL s ts := h.deg.trans (le_foldl_max _ _)
      refine ⟨?_, ?_, hdeg, ?_⟩
      · rw [hb]; exact hmass _ _ hall
      · intro c hc i
        obtain ⟨cs, hcs, hc⟩ := Option.bind_eq_some_iff.1 hc
        change (if ((s :: ts).map Shape.mass).sum = 0 then none else
          some (fun i => (cs.sum : V3) i / ((s :: ts).map Shape.mass).sum)) = some c at hc
        split_ifs at hc with h0
        rw [Option.some.injEq] at hc
        subst hc
        rw [hb, ← hcom _ _ hall cs hcs i]
        change ((s :: ts).map Shape.mass).sum * _ = _
        rw [mul_div_cancel₀ _ h0]
      · intro hi
        have hin' : ∀ t ∈ s :: ts, t.inner = true := by
          rcases hin with h1 | h1
          · exact h1
          · have := h1 s (by simp)
            change s.inner = true at hi
            rw [hi] at this; simp at this
        have key : ∀ (L : ℕ) (us : List Shape) (cs : List Body), K ≤ L → List.Forall₂ (Books K) us cs →
            (∀ t ∈ us, t.inner = true) →
            ∃ qs : List (Mom L), (us.mapM fun t : Shape => t.qlm.map fun q => embed_qlm q L) = some qs ∧
              (∀ q ∈ qs, Valid q) ∧
              ∀ (l : ℕ) (m : ℤ), l ≤ K → m.natAbs ≤ l →
                (qs.map fun q => q.get l m).sum = Body.inner cs.flatten l m := by
          intro L us cs hL hu
          induction hu with
          | nil => intro _; exact ⟨[], rfl, by simp, by simp [Body.inner]⟩
          | @cons t c us cs h1 _ ih =>
            intro ht
            obtain ⟨qs, e1, e2, e3⟩ := ih fun t ht' => ht t (List.mem_cons_of_mem _ ht')
            obtain ⟨q, hq, hv, hq2⟩ := h1.moments (ht t (by simp))
            refine ⟨embed_qlm q L :: qs, ?_, ?_, ?_⟩
            · rw [List.mapM_cons, hq, e1]; rfl
            · intro q' hq'
              rcases List.mem_cons.1 hq' with rfl | hq'
              · exact C32_valid q hv L
              · exact e2 q' hq'
            · intro l m hl hm
              rw [List.map_cons, List.sum_cons, e3 l m hl hm, embed_get _ _ _ _ (by omega) (by omega),
                hq2 l m hl hm, List.flatten_cons, Body.inner_append]
        obtain ⟨qs, e1, e2, e3⟩ := key (Shape.maxL s ts) (s :: ts) (bd :: bs) hdeg hall hin'
        refine ⟨Shape.sumMom qs, ?_, ?_, ?_⟩
        · change Option.map _ _ = _
          rw [e1]; rfl
        · refine valid_ofFn _ ?_ ?_
          · intro l m hl hm
            rw [map_list_sum, ← List.sum_map_mul_left, List.map_map]
            congr 1
            refine List.map_congr_left fun q hq => ?_
            exact (e2 q hq).1 l m hl hm
          · intro l m hl hm
            apply List.sum_eq_zero
            intro x hx
            obtain ⟨q, hq, rfl⟩ := List.mem_map.1 hx
            by_cases h' : m.natAbs ≤ Shape.maxL s ts
            · exact (e2 q hq).2 l m hl h' hm
            · exact Mom.get_out q (fun hh => h' hh.2)
        · intro l m hl hm
          change (Shape.sumMom qs).get l m = _
          rw [Shape.sumMom, Mom.get_ofFn _ (hl.trans hdeg) (by omega), e3 l m hl hm, hb]


theorem forall₂_set {α β : Type*} {R : α → β → Prop} {l : List α} {k : List β} (h : List.Forall₂ R l k)
    (i : ℕ) (a : α) (b : β) (hab : R a b) : List.Forall₂ R (l.set i a) (k.set i b) := by
  induction h generalizing i with
  | nil => simp
  | cons h1 h2 ih =>
    cases i with
    | zero => exact .cons hab h2
    | succ i => exact .cons h1 (ih i)

theorem forall₂_get {α β : Type*} {R : α → β → Prop} {l : List α} {k : List β} (h : List.Forall₂ R l k)
    (i : ℕ) (a : α) (b0 : β) (ha : l[i]? = some a) : R a (k.getD i b0) := by
  induction h generalizing i with
  | nil => simp at ha
  | cons h1 h2 ih =>
    cases i with
    | zero => simp at ha; subst ha; simpa using h1
    | succ i => simp at ha; simpa using ih i ha

theorem books_step {K : ℕ} (op : ShapeOp) (hs : List Shape) (bs : List Body)
    (h : List.Forall₂ (Books K) hs bs) (hs' : List Shape) (hrun : op.run hs = some hs') :
    List.Forall₂ (Books K) hs' (bodyStep bs op) := by
  cases op with
  | rotate i a b g =>
    simp only [ShapeOp.run] at hrun
    obtain ⟨s, hsi, hr⟩ := Option.bind_eq_some_iff.1 hrun
    rcases hrot : s.rotate a b g with ⟨s', _ | e⟩
    · rw [hrot] at hr
      simp only [Option.some.injEq] at hr
      subst hr
      exact forall₂_set h i _ _ (books_rotate (forall₂_get h i s [] hsi) a b g s' hrot)
    · rw [hrot] at hr; simp at hr
  | translate i d t =>
    simp only [ShapeOp.run] at hrun
    obtain ⟨s, hsi, hr⟩ := Option.bind_eq_some_iff.1 hrun
    rcases htr : s.translate d t with ⟨s', _ | e⟩
    · rw [htr] at hr
      simp only [Option.some.injEq] at hr
      subst hr
      exact forall₂_set h i _ _ (books_translate (forall₂_get h i s [] hsi) d t s' htr)
    · rw [htr] at hr; simp at hr
  | add i js =>
    simp only [ShapeOp.run] at hrun
    obtain ⟨s, hsi, hr⟩ := Option.bind_eq_some_iff.1 hrun
    obtain ⟨ts, hts, hr⟩ := Option.bind_eq_some_iff.1 hr
    rcases hadd : s.add ts with ⟨s', _ | e⟩
    · rw [hadd] at hr
      simp only [Option.some.injEq] at hr
      subst hr
      refine forall₂_set h i _ _ (books_add (forall₂_get h i s [] hsi) ts _ ?_ s' hadd)
      clear hadd hrun hr
      induction js generalizing ts with
      | nil => simp at hts; subst hts; exact .nil
      | cons j js ih =>
        rw [List.mapM_cons] at hts
        obtain ⟨t, ht, hts⟩ := Option.bind_eq_some_iff.1 hts
        obtain ⟨ts', hts', e⟩ := Option.bind_eq_some_iff.1 hts
        rw [Option.pure_def, Option.some.injEq] at e
        subst e
        exact .cons (forall₂_get h j t [] ht) (ih ts' hts')
    · rw [hadd] at hr; simp at hr

/-- C38: however long the program, if it runs to the end then every object still keeps the books of
the body that the same sequence of motions and unions makes of the original bodies. -/
theorem C38_history (K : ℕ) (ops : List ShapeOp) (hs : List Shape) (bs : List Body)
    (h : List.Forall₂ (Books K) hs bs) (hs' : List Shape) (hrun : runShapes ops hs = some hs') :
    List.Forall₂ (Books K) hs' (ops.foldl bodyStep bs) := by
  induction ops generalizing hs bs with
  | nil => simp only [runShapes, Option.some.injEq] at hrun; subst hrun; exact h
  | cons op ops ih =>
    rw [runShapes] at hrun
    obtain ⟨h1, e1, hrun⟩ := Option.bind_eq_some_iff.1 hrun
    exact ih h1 _ (books_step op hs bs h h1 e1) hrun

theorem inUse_step (op : ShapeOp) (hs : List Shape) (h : ∀ s ∈ hs, InUse s) (hf : op.Fits hs.length) :
    ∃ hs', op.run hs = some hs' ∧ hs'.length = hs.length ∧ ∀ s ∈ hs', InUse s := by
  have hset : ∀ i s', InUse s' → ∀ s ∈ hs.set i s', InUse s := by
    intro i s' hs' s hmem
    rcases List.mem_or_eq_of_mem_set hmem with h1 | rfl
    · exact h s h1
    · exact hs'
  cases op with
  | rotate i a b g =>
    have hu := h _ (List.getElem_mem hf)
    obtain ⟨m, hm⟩ := Option.isSome_iff_exists.1 hu.mesh
    have e : hs[i]? = some hs[i] := List.getElem?_eq_getElem hf
    simp only [ShapeOp.run, e, Option.bind_some, Shape.rotate, hm]
    refine ⟨_, rfl, List.length_set, hset i _ ⟨hu.inner, rfl, ?_, hu.mass⟩⟩
    simp only [rotcom, Option.isSome_map]
    exact hu.com
  | translate i d t =>
    obtain ⟨hi, rfl⟩ := hf
    have hu := h _ (List.getElem_mem hi)
    obtain ⟨m, hm⟩ := Option.isSome_iff_exists.1 hu.mesh
    have e : hs[i]? = some hs[i] := List.getElem?_eq_getElem hi
    simp only [ShapeOp.run, e, Option.bind_some, Shape.translate, hm, hu.inner, and_self, if_true]
    refine ⟨_, rfl, List.length_set, hset i _ ⟨rfl, rfl, ?_, hu.mass⟩⟩
    simp only [Option.isSome_map]
    exact hu.com
  | add i js =>
    obtain ⟨hi, hj⟩ := hf
    have hu := h _ (List.getElem_mem hi)
    have e : hs[i]? = some hs[i] := List.getElem?_eq_getElem hi
    have ets : ∃ ts, (js.mapM fun j => hs[j]?) = some ts ∧ ∀ t ∈ ts, InUse t := by
      clear e hu
      induction js with
      | nil => exact ⟨[], rfl, by simp⟩
      | cons j js ih =>
        obtain ⟨ts, e1, e2⟩ := ih fun k hk => hj k (List.mem_cons_of_mem _ hk)
        have hjl := hj j (by simp)
        refine ⟨hs[j] :: ts, ?_, ?_⟩
        · rw [List.mapM_cons, List.getElem?_eq_getElem hjl, e1]; rfl
        · intro t ht
          rcases List.mem_cons.1 ht with rfl | ht
          · exact h _ (List.getElem_mem hjl)
          · exact e2 t ht
    obtain ⟨ts, e1, e2⟩ := ets
    simp only [ShapeOp.run, e, Option.bind_some, e1]
    have hall : ∀ t ∈ hs[i] :: ts, InUse t := by
      intro t ht
      rcases List.mem_cons.1 ht with rfl | ht
      · exact hu
      · exact e2 t ht
    have hin : (∀ t ∈ hs[i] :: ts, t.inner = true) ∨ (∀ t ∈ hs[i] :: ts, t.inner = false) :=
      .inl fun t ht => (hall t ht).inner
    have hmass : 0 < ((hs[i] :: ts).map Shape.mass).sum := by
      rw [List.map_cons, List.sum_cons]
      have : 0 ≤ (ts.map Shape.mass).sum := List.sum_nonneg (by
        intro x hx
        obtain ⟨t, ht, rfl⟩ := List.mem_map.1 hx
        exact (e2 t ht).mass.le)
      linarith [hu.mass]
    have hmapM : ∀ {β : Type} (f : Shape → Option β) (us : List Shape), (∀ t ∈ us, (f t).isSome) →
        ∃ r, us.mapM f = some r ∧ r.length = us.length := by
      intro β f us
      induction us with
      | nil => intro _; exact ⟨[], rfl, rfl⟩
      | cons u us ih =>
        intro hu
        obtain ⟨r, e1, e2⟩ := ih fun t ht => hu t (List.mem_cons_of_mem _ ht)
        obtain ⟨x, hx⟩ := Option.isSome_iff_exists.1 (hu u (by simp))
        exact ⟨x :: r, by rw [List.mapM_cons, hx, e1]; rfl, by simp [e2]⟩
    obtain ⟨ms, hms, hlen⟩ := hmapM Shape.mesh (hs[i] :: ts) fun t ht => (hall t ht).mesh
    obtain ⟨cs, hcs, _⟩ := hmapM (fun t : Shape => t.com.map fun c => t.mass • c) (hs[i] :: ts)
      fun t ht => by simpa using (hall t ht).com
    cases ms with
    | nil => simp at hlen
    | cons m0 ms =>
      rw [Shape.add]
      simp only [if_pos hin, hms]
      refine ⟨_, rfl, List.length_set, hset i _ ⟨hu.inner, rfl, ?_, hmass⟩⟩
      simp only [hcs, Option.bind_some]
      rw [if_neg hmass.ne']
      rfl

/-- C38: nothing can go wrong in a program on objects in normal use that names existing objects and
translates to inner moments: it runs to the end, and the objects stay in normal use. -/
theorem C38_total (ops : List ShapeOp) (hs : List Shape) (h : ∀ s ∈ hs, InUse s)
    (hf : ∀ op ∈ ops, op.Fits hs.length) :
    ∃ hs', runShapes ops hs = some hs' ∧ hs'.length = hs.length ∧ ∀ s ∈ hs', InUse s := by
  induction ops generalizing hs with
  | nil => exact ⟨hs, rfl, rfl, h⟩
  | cons op ops ih =>
    obtain ⟨h1, e1, e2, e3⟩ := inUse_step op hs h (hf op (by simp))
    obtain ⟨h2, f1, f2, f3⟩ := ih h1 e3 (by rw [e2]; exact fun o ho => hf o (List.mem_cons_of_mem _ ho))
    exact ⟨h2, by rw [runShapes, e1]; exact f1, f2.trans e2, f3⟩

end Newt
