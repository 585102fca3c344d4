import Verif.Spec.ShapeHeap
import Verif.Props.ShapesMake

/-!
# C126: shapes, and the arrays the user and the shapes hold
-/

namespace Newt

open Spec

namespace Heap

theorem value_append {w : World} {o : Obj} (h1 : o.com < w.vecs.length) (h2 : o.qlm < w.moms.length) (vs : List (Option V3))
    (ms : List (Σ L : ℕ, Option (Mom L))) (os : List Obj) : (World.mk (w.vecs ++ vs) (w.moms ++ ms) os).value o = w.value o := by
  rw [World.value, World.value, List.getElem?_append_left h1, List.getElem?_append_left h2]

/-- Two worlds that agree on the arrays of an object. -/
theorem value_congr {w w' : World} {o : Obj} (h1 : w'.vecs[o.com]? = w.vecs[o.com]?) (h2 : w'.moms[o.qlm]? = w.moms[o.qlm]?) :
    w'.value o = w.value o := by rw [World.value, World.value, h1, h2]

theorem shapes_get {w : World} {hs : List Shape} (h : w.Shapes hs) (i : ℕ) : (w.objs[i]?).bind w.value = hs[i]? := by
  have := congrArg (fun l => l[i]?) h
  simp only [List.getElem?_map] at this
  cases ho : w.objs[i]? <;> cases hh : hs[i]? <;> simp_all

theorem shapes_length {w : World} {hs : List Shape} (h : w.Shapes hs) : w.objs.length = hs.length := by
  have := congrArg List.length h
  simpa using this

/-- Replacing one object. -/
theorem shapes_set {w w' : World} {hs : List Shape} (h : w.Shapes hs) {i : ℕ} {o' : Obj} {s' : Shape} (hi : i < w.objs.length)
    (ho : w'.objs = w.objs.set i o') (hv : w'.value o' = some s') (hj : ∀ j o, j ≠ i → w.objs[j]? = some o → w'.value o = w.value o) :
    w'.Shapes (hs.set i s') := by
  have hl := shapes_length h
  refine List.ext_getElem? fun j => ?_
  rw [ho, List.getElem?_map, List.getElem?_map, List.getElem?_set, List.getElem?_set]
  by_cases hij : i = j
  · subst hij
    simp only [if_true]
    rw [if_pos hi, if_pos (by omega)]
    simp [hv]
  · rw [if_neg hij, if_neg hij]
    have := congrArg (fun l => l[j]?) h
    simp only [List.getElem?_map] at this
    rw [← this]
    cases e : w.objs[j]? with
    | none => rfl
    | some o => simp [hj j o (Ne.symm hij) e]

/-- The invariant holds initially. -/
theorem separate_start : Separate World.start := ⟨fun i j o p h => by simp [World.start] at h, fun o h => by simp [World.start] at h⟩

/-- Storing new arrays. -/
theorem separate_store {w : World} (h : Separate w) {i : ℕ} (s : Shape) : Separate (w.storeNew i s) := by
  obtain ⟨h1, h2⟩ := h
  have hb : ∀ (j : ℕ) (o : Obj), w.objs[j]? = some o → o.com < w.vecs.length ∧ o.qlm < w.moms.length := fun j o e => h2 o (List.mem_of_getElem? e)
  constructor
  · intro j k o p hj hk hjk
    rw [World.storeNew] at hj hk
    simp only [List.getElem?_set] at hj hk
    split_ifs at hj hk with a b c d e
    · exact absurd (a.symm.trans c) hjk
    · have := hb k p hk
      simp only [Option.some.injEq] at hj
      subst hj
      dsimp only
      omega
    · have := hb j o hj
      simp only [Option.some.injEq] at hk
      subst hk
      dsimp only
      omega
    · exact h1 j k o p hj hk hjk
  · intro o ho
    rw [World.storeNew] at ho ⊢
    dsimp only at ho ⊢
    rw [List.length_append, List.length_append]
    rcases List.mem_or_eq_of_mem_set ho with ho | rfl
    · have := h2 o ho
      simp only [List.length_singleton]; omega
    · simp

theorem shapes_store {w : World} (hS : Separate w) {hs : List Shape} (h : w.Shapes hs) {i : ℕ} (hi : i < w.objs.length) (s : Shape) :
    (w.storeNew i s).Shapes (hs.set i s) := by
  refine shapes_set h hi rfl ?_ fun j o _ e => ?_
  · rw [World.value, World.storeNew]
    simp
  · have := hS.2 o (List.mem_of_getElem? e)
    exact value_append this.1 this.2 _ _ _

/-- What a successful `translate` leaves. -/
theorem translate_spec {w w' : World} {i a : ℕ} {t : Bool} (h : w.translate i a t = some w') :
    ∃ o s v d s', w.objs[i]? = some o ∧ w.value o = some s ∧ w.vecs[a]? = some (some v) ∧
      (w.vecs.set o.com (s.com.map fun c => c + v))[a]? = some (some d) ∧ s.translate d t = (s', none) ∧
      ((w' = { w with vecs := w.vecs.set o.com (s.com.map fun c => c + v), objs := w.objs.set i { o with mesh := s'.mesh } } ∧ rPOf d = 0 ∧ o.inner = t) ∨
       (w' = { vecs := w.vecs.set o.com (s.com.map fun c => c + v), moms := w.moms ++ [⟨s'.lmax, s'.qlm⟩],
               objs := w.objs.set i { o with inner := s'.inner, qlm := w.moms.length, mesh := s'.mesh } } ∧ ¬ (rPOf d = 0 ∧ o.inner = t))) := by
  rw [World.translate] at h
  simp only [Option.bind_eq_some_iff] at h
  obtain ⟨o, ho, s, hs, v', hv, v, e1, d', hd, d, e2, h⟩ := h
  subst e1 e2
  rcases e : s.translate d t with ⟨s', _ | err⟩
  · rw [e] at h
    dsimp only at h
    refine ⟨o, s, v, d, s', ho, hs, hv, hd, e, ?_⟩
    split_ifs at h with h0
    · left; exact ⟨(Option.some.inj h).symm, h0⟩
    · right; exact ⟨(Option.some.inj h).symm, h0⟩
  · rw [e] at h
    simp at h

theorem separate_step {w w' : World} (op : Op) (h : Separate w) (hr : op.run w = some w') : Separate w' := by
  obtain ⟨h1, h2⟩ := h
  have hb : ∀ (j : ℕ) (o : Obj), w.objs[j]? = some o → o.com < w.vecs.length ∧ o.qlm < w.moms.length := fun j o e => h2 o (List.mem_of_getElem? e)
  cases op with
  | make s =>
    rw [Op.run, Option.some.injEq] at hr
    subst hr
    constructor
    · intro j k o p hj hk hjk
      dsimp only at hj hk
      rw [List.getElem?_append] at hj hk
      split_ifs at hj hk with a b b
      · exact h1 j k o p hj hk hjk
      · have e := List.mem_of_getElem? hk
        rw [List.mem_singleton] at e
        have := hb j o hj
        subst e
        dsimp only
        omega
      · have e := List.mem_of_getElem? hj
        rw [List.mem_singleton] at e
        have := hb k p hk
        subst e
        dsimp only
        omega
      · have e1 := (List.getElem?_eq_some_iff.1 hj).1
        have e2 := (List.getElem?_eq_some_iff.1 hk).1
        simp only [List.length_singleton] at e1 e2
        omega
    · intro o ho
      dsimp only at ho ⊢
      rw [List.length_append, List.length_append, List.length_singleton, List.length_singleton]
      rw [List.mem_append, List.mem_singleton] at ho
      rcases ho with ho | rfl
      · have := h2 o ho
        omega
      · simp
  | newVec v =>
    rw [Op.run, Option.some.injEq] at hr
    subst hr
    refine ⟨h1, fun o ho => ?_⟩
    have := h2 o ho
    dsimp only
    rw [List.length_append]
    omega
  | setVec a v =>
    rw [Op.run] at hr
    split_ifs at hr with ha
    rw [Option.some.injEq] at hr
    subst hr
    refine ⟨h1, fun o ho => ?_⟩
    have := h2 o ho
    dsimp only
    rw [List.length_set]
    exact this
  | rotate i al be ga =>
    rw [Op.run, World.rotate] at hr
    obtain ⟨o, ho, hr⟩ := Option.bind_eq_some_iff.1 hr
    obtain ⟨s, hs, hr⟩ := Option.bind_eq_some_iff.1 hr
    rcases e : s.rotate al be ga with ⟨s', _ | err⟩
    · rw [e] at hr
      rw [← Option.some.inj hr]
      exact separate_store ⟨h1, h2⟩ s'
    · rw [e] at hr; simp at hr
  | translate i a t =>
    obtain ⟨o, s, v, d, s', ho, hs, hv, hd, e, hw⟩ := translate_spec hr
    have hoi := hb i o ho
    rcases hw with ⟨rfl, -⟩ | ⟨rfl, -⟩
    · constructor
      · intro j k o' p hj hk hjk
        simp only [List.getElem?_set] at hj hk
        split_ifs at hj hk with x y z u u
        · exact absurd (x.symm.trans z) hjk
        · rw [Option.some.injEq] at hj
          subst hj
          exact h1 i k o p ho hk (by omega)
        · rw [Option.some.injEq] at hk
          subst hk
          exact h1 j i o' o hj ho (by omega)
        · exact h1 j k o' p hj hk hjk
      · intro p hp
        dsimp only at hp ⊢
        rw [List.length_set]
        rcases List.mem_or_eq_of_mem_set hp with hp | rfl
        · exact h2 p hp
        · exact hoi
    · constructor
      · intro j k o' p hj hk hjk
        simp only [List.getElem?_set] at hj hk
        split_ifs at hj hk with x y z u u
        · exact absurd (x.symm.trans z) hjk
        · rw [Option.some.injEq] at hj
          have := hb k p hk
          subst hj
          exact ⟨(h1 i k o p ho hk (by omega)).1, by dsimp only; omega⟩
        · rw [Option.some.injEq] at hk
          have := hb j o' hj
          subst hk
          exact ⟨(h1 j i o' o hj ho (by omega)).1, by dsimp only; omega⟩
        · exact h1 j k o' p hj hk hjk
      · intro p hp
        dsimp only at hp ⊢
        rw [List.length_set, List.length_append, List.length_singleton]
        rcases List.mem_or_eq_of_mem_set hp with hp | rfl
        · have := h2 p hp
          omega
        · dsimp only; omega
  | add i js =>
    rw [Op.run, World.add] at hr
    obtain ⟨o, ho, hr⟩ := Option.bind_eq_some_iff.1 hr
    obtain ⟨s, hs, hr⟩ := Option.bind_eq_some_iff.1 hr
    obtain ⟨ts, hts, hr⟩ := Option.bind_eq_some_iff.1 hr
    rcases e : s.add ts with ⟨s', _ | err⟩
    · rw [e] at hr
      rw [← Option.some.inj hr]
      exact separate_store ⟨h1, h2⟩ s'
    · rw [e] at hr; simp at hr

theorem run_separate (ops : List Op) : ∀ (w w' : World), Separate w → run ops w = some w' → Separate w' := by
  induction ops with
  | nil => intro w w' h hr; rw [run, Option.some.injEq] at hr; exact hr ▸ h
  | cons op ops ih =>
    intro w w' h hr
    rw [run] at hr
    obtain ⟨w1, e, hr⟩ := Option.bind_eq_some_iff.1 hr
    exact ih w1 w' (separate_step op h e) hr

/-- The components of a successful `Shape.translate`. -/
theorem shape_translate {s s' : Shape} {d : V3} {t : Bool} (h : s.translate d t = (s', none)) :
    s'.com = s.com.map (fun c => c + d) ∧ s'.mass = s.mass ∧ (s.inner = t → s'.inner = s.inner) ∧
      (rPOf d = 0 → s.inner = t → ∃ e : s'.lmax = s.lmax, e ▸ s'.qlm = s.qlm) := by
  rw [Shape.translate] at h
  cases hm : s.mesh with
  | none => rw [hm] at h; simp at h
  | some m =>
    rw [hm] at h
    dsimp only at h
    split_ifs at h with a b c
    · rw [Prod.mk.injEq] at h
      obtain ⟨rfl, -⟩ := h
      refine ⟨rfl, rfl, fun _ => rfl, fun h0 h1 => ⟨rfl, ?_⟩⟩
      show s.qlm.map _ = s.qlm
      have : (fun q : Mom s.lmax => translate_qlm q d) = id := by
        funext q; rw [translate_qlm]; simp only [if_pos h0]; rfl
      rw [this, Option.map_id]; rfl
    · rw [Prod.mk.injEq] at h
      obtain ⟨rfl, -⟩ := h
      refine ⟨rfl, rfl, fun h => ?_, fun _ h => ?_⟩
      · exact absurd (h ▸ b.1) b.2
      · exact absurd (h ▸ b.1) b.2
    · rw [Prod.mk.injEq] at h
      obtain ⟨rfl, -⟩ := h
      refine ⟨rfl, rfl, fun _ => rfl, fun h0 h1 => ⟨rfl, ?_⟩⟩
      show s.qlm.map _ = s.qlm
      have : (fun q : Mom s.lmax => translate_Qlmb q d) = id := by
        funext q; rw [translate_Qlmb]; simp only [if_pos h0]; rfl
      rw [this, Option.map_id]; rfl
    · simp at h

/-- Reading the object after `translate`: everything as in `Shape.translate` with the displacement `d` found in `tvec` after the first line, except
that the centre of mass has been moved by what `tvec` contained before. -/
theorem translate_value {w w' : World} {i a : ℕ} {t : Bool} (hS : Separate w) (h : w.translate i a t = some w') :
    ∃ o s v d s' o', w.objs[i]? = some o ∧ w.value o = some s ∧ w.vecs[a]? = some (some v) ∧
      (w.vecs.set o.com (s.com.map fun c => c + v))[a]? = some (some d) ∧ s.translate d t = (s', none) ∧
      w'.vecs = w.vecs.set o.com (s.com.map fun c => c + v) ∧ w'.objs = w.objs.set i o' ∧ o'.com = o.com ∧
      w'.value o' = some { s' with com := s.com.map fun c => c + v } ∧
      ∀ p, p.qlm < w.moms.length → p.com ≠ o.com → w'.value p = w.value p := by
  obtain ⟨o, s, v, d, s', ho, hs, hv, hd, e, hw⟩ := translate_spec h
  have hb := hS.2 o (List.mem_of_getElem? ho)
  obtain ⟨c1, c2, c3, c4⟩ := shape_translate e
  have hs' := hs
  rw [World.value] at hs'
  obtain ⟨q, hq, hs'⟩ := Option.bind_eq_some_iff.1 hs'
  obtain ⟨c, hc, hs'⟩ := Option.map_eq_some_iff.1 hs'
  rcases hw with ⟨rfl, h0, h1⟩ | ⟨rfl, -⟩
  · refine ⟨o, s, v, d, s', _, ho, hs, hv, hd, e, rfl, rfl, rfl, ?_, ?_⟩
    · have hi : s.inner = o.inner := by rw [← hs']
      obtain ⟨el, eq⟩ := c4 h0 (by rw [hi, h1])
      have c3' := c3 (by rw [hi, h1])
      rw [World.value]
      dsimp only
      rw [hq, List.getElem?_set_self hb.1]
      simp only [Option.bind_some, Option.map_some, Option.some.injEq]
      rcases s' with ⟨i', l', q', cm', m', me'⟩
      dsimp only at el
      subst el
      dsimp only at eq c2 c3' ⊢
      subst hs'
      dsimp only at eq c2 c3' ⊢
      rw [eq, c2, c3']
    · intro p _ hp
      exact value_congr (by dsimp only; rw [List.getElem?_set_ne (Ne.symm hp)]) rfl
  · refine ⟨o, s, v, d, s', _, ho, hs, hv, hd, e, rfl, rfl, rfl, ?_, ?_⟩
    · rw [World.value]
      dsimp only
      rw [List.getElem?_append_right le_rfl, List.getElem?_set_self hb.1]
      simp only [Nat.sub_self, List.getElem?_cons_zero, Option.bind_some, Option.map_some, Option.some.injEq]
      rw [← hs'] at c2
      dsimp only at c2
      rw [← c2]
    · intro p hp1 hp
      exact value_congr (by dsimp only; rw [List.getElem?_set_ne (Ne.symm hp)]) (by dsimp only; rw [List.getElem?_append_left hp1])

/-- Success of `translate` in terms of the contents. -/
theorem translate_some {w : World} {i a : ℕ} {t : Bool} {o : Obj} {s s' : Shape} {v d : V3} (ho : w.objs[i]? = some o) (hs : w.value o = some s)
    (hv : w.vecs[a]? = some (some v)) (hd : (w.vecs.set o.com (s.com.map fun c => c + v))[a]? = some (some d)) (e : s.translate d t = (s', none)) :
    ∃ w', w.translate i a t = some w' := by
  rw [World.translate, ho, Option.bind_some, hs, Option.bind_some, hv, Option.bind_some, Option.bind_some]
  dsimp only
  rw [hd, Option.bind_some, Option.bind_some, e]
  dsimp only
  split_ifs <;> exact ⟨_, rfl⟩

theorem shapes_unique {w : World} {hs hs' : List Shape} (h : w.Shapes hs) (h' : w.Shapes hs') : hs = hs' := by
  have := h.symm.trans h'
  exact List.map_injective_iff.2 (Option.some_injective _) this

theorem step_fwd {w w' : World} (hS : Separate w) {hs : List Shape} (h : w.Shapes hs) (op : Op) (hc : Clean w op) (hr : op.run w = some w') :
    ∃ hs', meaning w op hs = some hs' ∧ w'.Shapes hs' := by
  cases op with
  | make s =>
    refine ⟨_, rfl, ?_⟩
    rw [Op.run, Option.some.injEq] at hr
    subst hr
    rw [World.Shapes]
    dsimp only
    rw [List.map_append, List.map_append]
    congr 1
    · rw [← h]
      apply List.map_congr_left
      intro o ho
      have := hS.2 o ho
      exact value_append this.1 this.2 _ _ _
    · simp [World.value]
  | newVec v =>
    refine ⟨_, rfl, ?_⟩
    rw [Op.run, Option.some.injEq] at hr
    subst hr
    refine Eq.trans ?_ h
    apply List.map_congr_left
    intro o ho
    have := hS.2 o ho
    exact value_congr (by dsimp only; rw [List.getElem?_append_left this.1]) rfl
  | setVec a v =>
    refine ⟨_, rfl, ?_⟩
    rw [Op.run, if_pos hc.1, Option.some.injEq] at hr
    subst hr
    refine Eq.trans ?_ h
    apply List.map_congr_left
    intro o ho
    exact value_congr (by dsimp only; rw [List.getElem?_set_ne (Ne.symm (hc.2 o ho))]) rfl
  | rotate i al be ga =>
    rw [Op.run, World.rotate] at hr
    obtain ⟨o, ho, hr⟩ := Option.bind_eq_some_iff.1 hr
    obtain ⟨s, hs', hr⟩ := Option.bind_eq_some_iff.1 hr
    have hg := shapes_get h i
    rw [ho, Option.bind_some, hs'] at hg
    rcases e : s.rotate al be ga with ⟨s', _ | err⟩
    · rw [e] at hr
      rw [← Option.some.inj hr]
      refine ⟨hs.set i s', ?_, shapes_store hS h (List.getElem?_eq_some_iff.1 ho).1 s'⟩
      rw [meaning, ShapeOp.run, ← hg, Option.bind_some, e]
    · rw [e] at hr; simp at hr
  | translate i a t =>
    obtain ⟨o, s, v, d, s', o', ho, hs', hv, hd, e, e1, e2, e3, e4, e5⟩ := translate_value hS hr
    have hg := shapes_get h i
    rw [ho, Option.bind_some, hs'] at hg
    rw [List.getElem?_set_ne (hc o ho), hv, Option.some.injEq, Option.some.injEq] at hd
    subst hd
    have hcom := (shape_translate e).1
    rw [← hcom] at e4
    refine ⟨hs.set i s', ?_, shapes_set h (List.getElem?_eq_some_iff.1 ho).1 e2 e4 fun j p hj hp => ?_⟩
    · rw [meaning, hv, Option.bind_some, Option.bind_some, ShapeOp.run, ← hg, Option.bind_some, e]
    · exact e5 p (hS.2 p (List.mem_of_getElem? hp)).2 (hS.1 j i p o hp ho hj).1
  | add i js =>
    rw [Op.run, World.add] at hr
    obtain ⟨o, ho, hr⟩ := Option.bind_eq_some_iff.1 hr
    obtain ⟨s, hs', hr⟩ := Option.bind_eq_some_iff.1 hr
    obtain ⟨ts, hts, hr⟩ := Option.bind_eq_some_iff.1 hr
    have hg := shapes_get h i
    rw [ho, Option.bind_some, hs'] at hg
    rw [show (fun j => (w.objs[j]?).bind w.value) = fun j => hs[j]? from funext (shapes_get h)] at hts
    rcases e : s.add ts with ⟨s', _ | err⟩
    · rw [e] at hr
      rw [← Option.some.inj hr]
      refine ⟨hs.set i s', ?_, shapes_store hS h (List.getElem?_eq_some_iff.1 ho).1 s'⟩
      rw [meaning, ShapeOp.run, ← hg, Option.bind_some, hts, Option.bind_some, e]
    · rw [e] at hr; simp at hr

theorem step_bwd {w : World} {hs : List Shape} (h : w.Shapes hs) (op : Op) (hc : Clean w op) {hs' : List Shape}
    (hm : meaning w op hs = some hs') : ∃ w', op.run w = some w' := by
  have get : ∀ (i : ℕ) (s : Shape), hs[i]? = some s → ∃ o, w.objs[i]? = some o ∧ w.value o = some s := by
    intro i s e
    rw [← shapes_get h i] at e
    exact Option.bind_eq_some_iff.1 e
  cases op with
  | make s => exact ⟨_, rfl⟩
  | newVec v => exact ⟨_, rfl⟩
  | setVec a v => rw [Op.run, if_pos hc.1]; exact ⟨_, rfl⟩
  | rotate i al be ga =>
    rw [meaning, ShapeOp.run] at hm
    obtain ⟨s, hs1, hm⟩ := Option.bind_eq_some_iff.1 hm
    obtain ⟨o, ho, hv⟩ := get i s hs1
    rw [Op.run, World.rotate, ho, Option.bind_some, hv, Option.bind_some]
    rcases e : s.rotate al be ga with ⟨s', _ | err⟩
    · exact ⟨_, rfl⟩
    · rw [e] at hm; simp at hm
  | translate i a t =>
    rw [meaning] at hm
    simp only [Option.bind_eq_some_iff] at hm
    obtain ⟨v', hv, v, e1, hm⟩ := hm
    subst e1
    rw [ShapeOp.run] at hm
    obtain ⟨s, hs1, hm⟩ := Option.bind_eq_some_iff.1 hm
    obtain ⟨o, ho, hval⟩ := get i s hs1
    rcases e : s.translate v t with ⟨s', _ | err⟩
    · exact translate_some ho hval hv (by rw [List.getElem?_set_ne (hc o ho), hv]) e
    · rw [e] at hm; simp at hm
  | add i js =>
    rw [meaning, ShapeOp.run] at hm
    obtain ⟨s, hs1, hm⟩ := Option.bind_eq_some_iff.1 hm
    obtain ⟨o, ho, hv⟩ := get i s hs1
    obtain ⟨ts, hts, hm⟩ := Option.bind_eq_some_iff.1 hm
    rw [Op.run, World.add, ho, Option.bind_some, hv, Option.bind_some,
      show (fun j => (w.objs[j]?).bind w.value) = fun j => hs[j]? from funext (shapes_get h), hts, Option.bind_some]
    rcases e : s.add ts with ⟨s', _ | err⟩
    · exact ⟨_, rfl⟩
    · rw [e] at hm; simp at hm

end Heap

/-- C126: whatever the user does, no two objects ever share an array. -/
theorem C126_separate (ops : List Heap.Op) (w : Heap.World) (h : Heap.run ops Heap.World.start = some w) : Heap.Separate w :=
  Heap.run_separate ops _ w Heap.separate_start h

/-- C126: a statement that does not write into, or pass to `translate`, an object's own `com` array has exactly the effect on the shapes that it has
when arrays are treated as values, and fails exactly if it fails there. -/
theorem C126_step (w : Heap.World) (hS : Heap.Separate w) (hs : List Shape) (h : w.Shapes hs) (op : Heap.Op) (hc : Heap.Clean w op) (hs' : List Shape) :
    Heap.meaning w op hs = some hs' ↔ ∃ w', op.run w = some w' ∧ w'.Shapes hs' := by
  constructor
  · intro hm
    obtain ⟨w', hr⟩ := Heap.step_bwd h op hc hm
    obtain ⟨hs'', h1, h2⟩ := Heap.step_fwd hS h op hc hr
    rw [hm, Option.some.injEq] at h1
    exact ⟨w', hr, h1 ▸ h2⟩
  · rintro ⟨w', hr, h2⟩
    obtain ⟨hs'', h1, h3⟩ := Heap.step_fwd hS h op hc hr
    rw [h1, Heap.shapes_unique h2 h3]

/-- C126: hence after every program of such statements the objects describe the bodies they should. -/
theorem C126_history (K : ℕ) (w : Heap.World) (bs : List Body) (h : Heap.Reach K w bs) :
    Heap.Separate w ∧ ∃ hs, w.Shapes hs ∧ List.Forall₂ (Books K) hs bs := by
  induction h with
  | start => exact ⟨Heap.separate_start, [], rfl, List.Forall₂.nil⟩
  | step w w' bs op new _ hc hn hr ih =>
    obtain ⟨hS, hs, h1, h2⟩ := ih
    refine ⟨Heap.separate_step op hS hr, ?_⟩
    obtain ⟨hs', hm, h3⟩ := Heap.step_fwd hS h1 op hc hr
    refine ⟨hs', h3, ?_⟩
    cases op with
    | make s =>
      rw [Heap.meaning, Option.some.injEq] at hm
      subst hm
      exact List.rel_append h2 (List.Forall₂.cons (hn s rfl) List.Forall₂.nil)
    | newVec v => rw [Heap.meaning, Option.some.injEq] at hm; subst hm; exact h2
    | setVec a v => rw [Heap.meaning, Option.some.injEq] at hm; subst hm; exact h2
    | rotate i al be ga => exact books_step _ hs bs h2 hs' (by simpa only [Heap.meaning] using hm)
    | translate i a t =>
      rw [Heap.meaning] at hm
      simp only [Option.bind_eq_some_iff] at hm
      obtain ⟨v', hv, v, e1, hm⟩ := hm
      subst e1
      rw [Heap.bodies, hv]
      exact books_step _ hs bs h2 hs' hm
    | add i js => exact books_step _ hs bs h2 hs' (by simpa only [Heap.meaning] using hm)

/-- `rotate` and `add` put the result in new arrays. -/
theorem Heap.run_store {w w' : Heap.World} {op : Heap.Op} {i : ℕ} (ht : op.target = some i) (hn : ∀ a t, op ≠ .translate i a t) (hr : op.run w = some w') :
    ∃ s, w' = w.storeNew i s ∧ i < w.objs.length := by
  cases op with
  | make s => simp [Heap.Op.target] at ht
  | newVec v => simp [Heap.Op.target] at ht
  | setVec a v => simp [Heap.Op.target] at ht
  | rotate k al be ga =>
    rw [Heap.Op.target, Option.some.injEq] at ht
    subst ht
    rw [Heap.Op.run, Heap.World.rotate] at hr
    obtain ⟨o, ho, hr⟩ := Option.bind_eq_some_iff.1 hr
    obtain ⟨s, hs, hr⟩ := Option.bind_eq_some_iff.1 hr
    rcases e : s.rotate al be ga with ⟨s', _ | err⟩
    · rw [e] at hr
      exact ⟨s', (Option.some.inj hr).symm, (List.getElem?_eq_some_iff.1 ho).1⟩
    · rw [e] at hr; simp at hr
  | translate k a t =>
    rw [Heap.Op.target, Option.some.injEq] at ht
    subst ht
    exact absurd rfl (hn a t)
  | add k js =>
    rw [Heap.Op.target, Option.some.injEq] at ht
    subst ht
    rw [Heap.Op.run, Heap.World.add] at hr
    obtain ⟨o, ho, hr⟩ := Option.bind_eq_some_iff.1 hr
    obtain ⟨s, hs, hr⟩ := Option.bind_eq_some_iff.1 hr
    obtain ⟨ts, hts, hr⟩ := Option.bind_eq_some_iff.1 hr
    rcases e : s.add ts with ⟨s', _ | err⟩
    · rw [e] at hr
      exact ⟨s', (Option.some.inj hr).symm, (List.getElem?_eq_some_iff.1 ho).1⟩
    · rw [e] at hr; simp at hr

/-- C126: a method called on one object, with any arguments, leaves every other object, every moment array and every array of three numbers except that
object's own `com` as they were. -/
theorem C126_others (w w' : Heap.World) (hS : Heap.Separate w) (op : Heap.Op) (i : ℕ) (ht : op.target = some i) (hr : op.run w = some w') :
    (∀ (j : ℕ) (p : Heap.Obj), j ≠ i → w.objs[j]? = some p → w'.objs[j]? = some p ∧ w'.value p = w.value p) ∧
    (∀ b, b < w.moms.length → w'.moms[b]? = w.moms[b]?) ∧
    (∀ a, a < w.vecs.length → (∀ o, w.objs[i]? = some o → o.com ≠ a) → w'.vecs[a]? = w.vecs[a]?) := by
  by_cases hn : ∃ a t, op = .translate i a t
  · obtain ⟨a, t, rfl⟩ := hn
    obtain ⟨o, s, v, d, s', o', ho, hs', hv, hd, e, e1, e2, e3, e4, e5⟩ := Heap.translate_value hS hr
    refine ⟨fun j p hj hp => ⟨?_, e5 p (hS.2 p (List.mem_of_getElem? hp)).2 (hS.1 j i p o hp ho hj).1⟩, fun b hb => ?_, fun a' _ ha => ?_⟩
    · rw [e2, List.getElem?_set_ne (Ne.symm hj), hp]
    · obtain ⟨o2, s2, v2, d2, s2', -, -, -, -, -, hw⟩ := Heap.translate_spec hr
      rcases hw with ⟨rfl, -⟩ | ⟨rfl, -⟩
      · rfl
      · exact List.getElem?_append_left hb
    · rw [e1, List.getElem?_set_ne (ha o ho)]
  · push Not at hn
    obtain ⟨s, rfl, hi⟩ := Heap.run_store ht hn hr
    refine ⟨fun j p hj hp => ⟨?_, ?_⟩, fun b hb => List.getElem?_append_left hb, fun a ha _ => List.getElem?_append_left ha⟩
    · rw [Heap.World.storeNew]
      dsimp only
      rw [List.getElem?_set_ne (Ne.symm hj), hp]
    · have := hS.2 p (List.mem_of_getElem? hp)
      exact Heap.value_append this.1 this.2 _ _ _

/-- C126: a reference to `shape.com` taken before a call.  After `translate` it is still the shape's `com` and shows the new centre; after `rotate` or
`add` it keeps the old centre and is no longer the shape's `com`. -/
theorem C126_held (w w' : Heap.World) (hS : Heap.Separate w) (op : Heap.Op) (i : ℕ) (ht : op.target = some i) (hr : op.run w = some w')
    (o : Heap.Obj) (ho : w.objs[i]? = some o) :
    ∃ o', w'.objs[i]? = some o' ∧
      ((∃ a t v, op = .translate i a t ∧ w.vecs[a]? = some (some v) ∧ o'.com = o.com ∧
          w'.vecs[o.com]? = (w.vecs[o.com]?).map fun c => c.map fun c => c + v) ∨
       ((∀ a t, op ≠ .translate i a t) ∧ o'.com ≠ o.com ∧ w'.vecs[o.com]? = w.vecs[o.com]?)) := by
  have hb := hS.2 o (List.mem_of_getElem? ho)
  by_cases hn : ∃ a t, op = .translate i a t
  · obtain ⟨a, t, rfl⟩ := hn
    obtain ⟨o1, s, v, d, s', o', ho1, hs', hv, hd, e, e1, e2, e3, e4, e5⟩ := Heap.translate_value hS hr
    rw [ho, Option.some.injEq] at ho1
    subst ho1
    refine ⟨o', ?_, Or.inl ⟨a, t, v, rfl, hv, e3, ?_⟩⟩
    · rw [e2, List.getElem?_set_self (List.getElem?_eq_some_iff.1 ho).1]
    · rw [Heap.World.value] at hs'
      obtain ⟨q, hq, hs'⟩ := Option.bind_eq_some_iff.1 hs'
      obtain ⟨c, hc, hs'⟩ := Option.map_eq_some_iff.1 hs'
      rw [e1, List.getElem?_set_self hb.1, hc, ← hs']
      rfl
  · push Not at hn
    obtain ⟨s, rfl, hi⟩ := Heap.run_store ht hn hr
    refine ⟨_, by rw [Heap.World.storeNew]; exact List.getElem?_set_self hi, Or.inr ⟨hn, ?_, List.getElem?_append_left hb.1⟩⟩
    dsimp only
    omega

/-- C126: `shape.translate(shape.com, to_inner)`, the array itself being passed: the mesh and the moments are displaced by twice the centre of mass,
`com` by once. -/
theorem C126_self (w w' : Heap.World) (hS : Heap.Separate w) (i : ℕ) (t : Bool) (o : Heap.Obj) (ho : w.objs[i]? = some o) (s : Shape)
    (hs : w.value o = some s) (hr : (Heap.Op.translate i o.com t).run w = some w') :
    ∃ c s' o', s.com = some c ∧ s.translate (c + c) t = (s', none) ∧ w'.objs[i]? = some o' ∧
      w'.value o' = some { s' with com := some (c + c) } := by
  have hb := hS.2 o (List.mem_of_getElem? ho)
  obtain ⟨o1, s1, v, d, s', o', ho1, hs1, hv, hd, e, e1, e2, e3, e4, e5⟩ := Heap.translate_value hS hr
  rw [ho, Option.some.injEq] at ho1
  subst ho1
  rw [hs, Option.some.injEq] at hs1
  subst hs1
  have hc : s.com = some v := by
    rw [Heap.World.value] at hs
    obtain ⟨q, hq, hs'⟩ := Option.bind_eq_some_iff.1 hs
    obtain ⟨c, hc, hs'⟩ := Option.map_eq_some_iff.1 hs'
    rw [hv, Option.some.injEq] at hc
    rw [← hs', ← hc]
  rw [List.getElem?_set_self hb.1, hc, Option.map_some, Option.some.injEq, Option.some.injEq] at hd
  subst hd
  rw [hc, Option.map_some] at e4
  refine ⟨v, s', o', hc, e, ?_, e4⟩
  rw [e2, List.getElem?_set_self (List.getElem?_eq_some_iff.1 ho).1]

/-- The moments of degree one determine the first moment. -/
theorem Heap.first_of_inner (b b' : Body) (h0 : b.inner 1 0 = b'.inner 1 0) (h1 : b.inner 1 1 = b'.inner 1 1) (i : Fin 3) : b.first i = b'.first i := by
  have n1 : Real.sqrt (3 / (4 * Real.pi)) ≠ 0 := (Real.sqrt_pos.2 (by positivity)).ne'
  have n2 : Real.sqrt (3 / (2 * Real.pi)) / 2 ≠ 0 := (div_pos (Real.sqrt_pos.2 (by positivity)) two_pos).ne'
  rw [Body.inner_one_zero, Body.inner_one_zero, Complex.ofReal_inj] at h0
  have e1 := mul_left_cancel₀ n1 h0
  rw [Body.inner_one_one, Body.inner_one_one] at h1
  have e2 := mul_left_cancel₀ (neg_ne_zero.2 (Complex.ofReal_ne_zero.2 n2)) h1
  have er := congrArg Complex.re e2
  have ei := congrArg Complex.im e2
  simp at er ei
  fin_cases i
  · exact er
  · exact ei
  · exact e1

/-- C126: so a shape with nonzero mass away from the origin describes no body any more: its moments are those of the body displaced by twice the centre
of mass, its `com` is the centre of the body displaced once. -/
theorem C126_self_wrong (K : ℕ) (w w' : Heap.World) (hS : Heap.Separate w) (i : ℕ) (o : Heap.Obj) (ho : w.objs[i]? = some o) (s : Shape)
    (hs : w.value o = some s) (b : Body) (hbk : Books K s b) (hin : s.inner = true) (c : V3) (hc : s.com = some c) (hc0 : c ≠ 0) (hm : b.mass ≠ 0)
    (hr : (Heap.Op.translate i o.com true).run w = some w') :
    ∃ o' s'', w'.objs[i]? = some o' ∧ w'.value o' = some s'' ∧
      (∃ q, s''.qlm = some q ∧ ∀ (l : ℕ) (m : ℤ), l ≤ K → m.natAbs ≤ l → q.get l m = (b.translate (c + c)).inner l m) ∧
      s''.com = some (c + c) ∧ (∀ k, b.mass * (c + c) k = (b.translate c).first k) ∧
      ¬ Books K s'' (b.translate (c + c)) ∧ (1 ≤ K → ¬ Books K s'' (b.translate c)) := by
  obtain ⟨c', s', o', h1, h2, h3, h4⟩ := C126_self w w' hS i true o ho s hs hr
  rw [hc, Option.some.injEq] at h1
  subst h1
  have hb := books_translate hbk (c + c) true s' h2
  have hin' : s'.inner = true := ((Heap.shape_translate h2).2.2.1 hin).trans hin
  have e4 := (Heap.shape_translate h2).2.1
  have key : ¬ ∀ k, b.mass * c k = 0 := fun h => hc0 (funext fun k => (mul_eq_zero.1 (h k)).resolve_left hm)
  refine ⟨o', _, h3, h4, ?_, rfl, fun k => ?_, fun hB => key fun k => ?_, fun hK hB => key fun k => ?_⟩
  · obtain ⟨q, hq, -, hm⟩ := hb.moments hin'
    exact ⟨q, hq, hm⟩
  · rw [Body.first_translate, ← hbk.com c hc k, hbk.mass, Pi.add_apply]; ring
  · have e1 := hB.com (c + c) rfl k
    rw [Body.first_translate, ← hbk.com c hc k] at e1
    dsimp only at e1
    rw [e4, hbk.mass] at e1
    simp only [Pi.add_apply] at e1
    linarith
  · obtain ⟨q, hq, -, h⟩ := hb.moments hin'
    obtain ⟨q', hq', -, h'⟩ := hB.moments hin'
    have hq' : s'.qlm = some q' := hq'
    rw [hq, Option.some.injEq] at hq'
    subst hq'
    have := Heap.first_of_inner (b.translate (c + c)) (b.translate c) ((h 1 0 hK (by simp)).symm.trans (h' 1 0 hK (by simp)))
      ((h 1 1 hK (by simp)).symm.trans (h' 1 1 hK (by simp))) k
    rw [Body.first_translate, Body.first_translate, Pi.add_apply] at this
    linarith

/-! ## Non-vacuity -/

/-- A ball of mass 2 at (1, 0, 0), moved by its own `com` array: the program runs, and the object keeps the books of no body it should. -/
example (mesh : Mesh) : ∃ w w' : Heap.World, Heap.run [.make (Shape.sphere 4 2 1 ![1, 0, 0] mesh)] Heap.World.start = some w ∧
    (Heap.Op.translate 0 0 true).run w = some w' ∧ ∃ (o : Heap.Obj) (s : Shape), w'.objs[0]? = some o ∧ w'.value o = some s ∧ s.com = some ![2, 0, 0] ∧
      ¬ Books 4 s (((Body.solid 2 (ball 1) (ball_compact 1)).translate ![1, 0, 0]).translate (![1, 0, 0] + ![1, 0, 0])) ∧
      ¬ Books 4 s (((Body.solid 2 (ball 1) (ball_compact 1)).translate ![1, 0, 0]).translate ![1, 0, 0]) := by
  set s := Shape.sphere 4 2 1 ![1, 0, 0] mesh with hs
  have hB := C38_sphere 4 2 1 ![1, 0, 0] mesh one_pos
  have hcom : s.com = some ![1, 0, 0] := by rw [hs]; simp [Shape.sphere, Shape.translate]
  have hin : s.inner = true := by rw [hs]; simp [Shape.sphere, Shape.translate]
  have hmesh : ∃ m, s.mesh = some m := by rw [hs]; simp [Shape.sphere, Shape.translate]
  have hmass : ((Body.solid 2 (ball 1) (ball_compact 1)).translate ![1, 0, 0]).mass ≠ 0 := by
    rw [Body.mass_translate, Body.mass_solid 2 _ _ (ball_vol 1 one_pos).ne']; norm_num
  have hne : (![1, 0, 0] : V3) ≠ 0 := fun h => by have := congrFun h 0; simp at this
  rw [← hs] at hB
  clear_value s
  have hrun : Heap.run [.make s] Heap.World.start = some ⟨[s.com], [⟨s.lmax, s.qlm⟩], [⟨s.inner, 0, 0, s.mass, s.mesh⟩]⟩ := rfl
  obtain ⟨m, hm⟩ := hmesh
  have ht : ∃ s', s.translate (![1, 0, 0] + ![1, 0, 0]) true = (s', none) := by
    rw [Shape.translate, hm]; simp [hin]
  obtain ⟨s', ht⟩ := ht
  obtain ⟨w', hw'⟩ := Heap.translate_some (w := ⟨[s.com], [⟨s.lmax, s.qlm⟩], [⟨s.inner, 0, 0, s.mass, s.mesh⟩]⟩) (i := 0) (a := 0) (t := true)
    (o := ⟨s.inner, 0, 0, s.mass, s.mesh⟩) (s := s) (v := ![1, 0, 0]) (d := ![1, 0, 0] + ![1, 0, 0]) rfl rfl (by simp [hcom]) (by simp [hcom]) ht
  refine ⟨_, w', hrun, hw', ?_⟩
  obtain ⟨o', s'', h1, h2, -, h3, -, h4, h5⟩ := C126_self_wrong 4 _ w' (C126_separate _ _ hrun) 0 ⟨s.inner, 0, 0, s.mass, s.mesh⟩ rfl s rfl _ hB hin _
    hcom hne hmass hw'
  exact ⟨o', s'', h1, h2, by rw [h3]; norm_num, h4, h5 (by norm_num)⟩

/-- A program in which the vector belongs to the user: a ball, an array of the user's, and a move by it.  It can be run, and its final state is
one `C126_history` speaks about. -/
example (mesh : Mesh) : ∃ (w : Heap.World) (bs : List Body), Heap.Reach 4 w bs ∧ w.objs.length = 1 ∧ bs.length = 1 := by
  set s := Shape.sphere 4 2 1 ![1, 0, 0] mesh with hs
  have hB := C38_sphere 4 2 1 ![1, 0, 0] mesh one_pos
  have hin : s.inner = true := by rw [hs]; simp [Shape.sphere, Shape.translate]
  have hmesh : ∃ m, s.mesh = some m := by rw [hs]; simp [Shape.sphere, Shape.translate]
  rw [← hs] at hB
  clear_value s
  have r1 := Heap.Reach.step Heap.World.start _ _ (.make s) _ (Heap.Reach.start (K := 4)) trivial (fun s' h => by cases h; exact hB) rfl
  have r2 := Heap.Reach.step _ _ _ (.newVec ![0, 3, 0]) [] r1 trivial (fun s' h => by cases h) rfl
  obtain ⟨m, hm⟩ := hmesh
  have ht : ∃ s', s.translate ![0, 3, 0] true = (s', none) := by
    rw [Shape.translate, hm]; simp [hin]
  obtain ⟨s', ht⟩ := ht
  obtain ⟨w', hw'⟩ := Heap.translate_some (w := ⟨[s.com, some ![0, 3, 0]], [⟨s.lmax, s.qlm⟩], [⟨s.inner, 0, 0, s.mass, s.mesh⟩]⟩) (i := 0) (a := 1)
    (t := true) (o := ⟨s.inner, 0, 0, s.mass, s.mesh⟩) (s := s) (v := ![0, 3, 0]) (d := ![0, 3, 0]) rfl rfl rfl rfl ht
  have hc : Heap.Clean ⟨[s.com, some ![0, 3, 0]], [⟨s.lmax, s.qlm⟩], [⟨s.inner, 0, 0, s.mass, s.mesh⟩]⟩ (.translate 0 1 true) := by
    intro o ho; simp at ho; rw [← ho]; simp
  have r3 := Heap.Reach.step _ _ _ (.translate 0 1 true) [] r2 hc (fun s' h => by cases h) hw'
  obtain ⟨-, hs', h1, h2⟩ := C126_history 4 _ _ r3
  have hl := h2.length_eq
  refine ⟨_, _, r3, ?_, ?_⟩
  · rw [Heap.shapes_length h1, hl]; simp [Heap.bodies, bodyStep]
  · simp [Heap.bodies, bodyStep]

end Newt
