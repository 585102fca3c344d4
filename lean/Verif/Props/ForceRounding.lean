import Verif.Proofs.ForceRounding2
import Verif.Props.TorqueRounding

/-!
# C129: the rounding of the force calculated from multipole moments
-/

namespace Newt

open Spec Flt

variable {a : Arith} {u : ℝ} {e : ℕ → ℝ}

theorem forceSize_eq (G : ℝ) (L : ℕ) (wq wQ : ℕ → ℤ → ℝ) (r : ℝ) : forceSize G L wq wQ r = grossForceOf G L wq wQ r := by
  rw [forceSize, forceIdx_sum, grossForceOf]
  simp only [termSize, Finset.mul_sum]

theorem force_within (h0 : 0 ≤ u) (h1 : u < 1) (ha : Accurate a u e) {L : ℕ} {q q0 Q Q0 : Mom L} {wq wQ : ℕ → ℤ → ℝ} {cq cQ : ℝ} (hcq : 1 ≤ cq) (hcQ : 1 ≤ cQ)
    (hq : ∀ (l : ℕ) (m : ℤ), l ≤ L → m.natAbs ≤ l → Within cq (wq l m) (q0.get l m) (q.get l m))
    (hQ : ∀ (l : ℕ) (m : ℤ), l ≤ L → m.natAbs ≤ l → Within cQ (wQ l m) (Q0.get l m) (Q.get l m)) {x y z G g : ℝ} (hg : a.op G g) {F : Fin 3 → ℂ}
    (h : Flt.multipole_force a q Q x y z g F) :
    ∃ F0, Newt.multipole_force q0 Q0 x y z G = some F0 ∧ ∀ i, Within (gamGrow u L * grow u (20 + 7 * L + forceTerms L) * (cq * cQ))
      (grossForceOf G L wq wQ (Real.sqrt (x ^ 2 + y ^ 2 + z ^ 2))) (F0 i) (F i) := by
  obtain ⟨b, p, fac, hb, hp, hfac, k0, k1, k2⟩ := h
  obtain ⟨b0, hb0, hw⟩ := basis_within h0 h1 ha hb
  refine ⟨_, by rw [Newt.multipole_force, hb0]; rfl, fun i => ?_⟩
  rw [← forceSize_eq]
  fin_cases i
  · exact comp_within h0 h1 ha hcq hcQ hq hQ (fun l m hl hm => (hw l m hl hm).1) hg hp hfac k0
  · exact comp_within h0 h1 ha hcq hcQ hq hQ (fun l m hl hm => (hw l m hl hm).2.1) hg hp hfac k1
  · exact comp_within h0 h1 ha hcq hcQ hq hQ (fun l m hl hm => (hw l m hl hm).2.2) hg hp hfac k2

/-- **C129 (the basis).**  Each entry of degree `l` of the three arrays that `force_basis` returns carries the errors of at most `7 l` roundings, relative to
`gradMaj`. -/
theorem C129_basis (h0 : 0 ≤ u) (h1 : u < 1) (ha : Accurate a u e) {L : ℕ} {x y z : ℝ} {b : Mom L × Mom L × Mom L} (h : Flt.force_basis a L x y z b) :
    ∃ b0, Newt.force_basis L x y z = some b0 ∧ ∀ (l : ℕ) (m : ℤ), l ≤ L → m.natAbs ≤ l →
      ‖b.1.get l m - b0.1.get l m‖ ≤ relErr u (7 * l) * gradMaj (Real.sqrt (x ^ 2 + y ^ 2 + z ^ 2)) l m ∧
      ‖b.2.1.get l m - b0.2.1.get l m‖ ≤ relErr u (7 * l) * gradMaj (Real.sqrt (x ^ 2 + y ^ 2 + z ^ 2)) l m ∧
      ‖b.2.2.get l m - b0.2.2.get l m‖ ≤ relErr u (7 * l) * gradMaj (Real.sqrt (x ^ 2 + y ^ 2 + z ^ 2)) l m := by
  obtain ⟨b0, hb0, hw⟩ := basis_within h0 h1 ha h
  have e1 : ∀ k, grow u k - 1 = relErr u k := fun k => by rw [grow]; ring
  refine ⟨b0, hb0, fun l m hl hm => ?_⟩
  obtain ⟨w1, w2, w3⟩ := hw l m hl hm
  rw [← e1]
  exact ⟨w1.2, w2.2, w3.2⟩

/-- **C129 (the force).**  In any arithmetic whose operations have a relative error of at most `u`, `multipole_force` returns the exact force between the
given moments up to `forceErr` times the force without regard to sign. -/
theorem C129_force (h0 : 0 ≤ u) (h1 : u < 1) (ha : Accurate a u e) {L : ℕ} (q Q : Mom L) {x y z G g : ℝ} (hg : a.op G g) {F : Fin 3 → ℂ}
    (h : Flt.multipole_force a q Q x y z g F) :
    ∃ F0, Newt.multipole_force q Q x y z G = some F0 ∧ ∀ i, ‖F i - F0 i‖ ≤ forceErr u L * grossForceLM G q Q (Real.sqrt (x ^ 2 + y ^ 2 + z ^ 2)) := by
  obtain ⟨F0, hF0, hw⟩ := force_within h0 h1 ha (q0 := q) (Q0 := Q) le_rfl le_rfl (fun l m _ _ => Within.refl (w := ‖q.get l m‖) le_rfl le_rfl)
    (fun l m _ _ => Within.refl (w := ‖Q.get l m‖) le_rfl le_rfl) hg h
  refine ⟨F0, hF0, fun i => (hw i).2.trans_eq ?_⟩
  rw [forceErr, grossForceLM, gamGrow, grow, mul_one, mul_one]

/-- **C129 (exact arithmetic).**  Without rounding errors the model in floating point arithmetic is the exact one. -/
theorem C129_exact (ha : Accurate a 0 e) {L : ℕ} (q Q : Mom L) {x y z G g : ℝ} (hg : a.op G g) {F : Fin 3 → ℂ} (h : Flt.multipole_force a q Q x y z g F) :
    Newt.multipole_force q Q x y z G = some F := by
  obtain ⟨F0, hF0, hw⟩ := C129_force le_rfl one_pos ha q Q hg h
  have e1 : forceErr 0 L = 0 := by simp [forceErr, relErr]
  rw [hF0, Option.some.injEq]
  funext i
  have := hw i
  rw [e1, zero_mul] at this
  exact (sub_eq_zero.1 (norm_eq_zero.1 (le_antisymm this (norm_nonneg _)))).symm

/-! ## Every call that is legal returns -/

theorem cdiv_exists (hT : Total a) (z : ℂ) (d : ℝ) : ∃ w, CDiv a z d w := by
  obtain ⟨w, hw⟩ := cop_exists hT (z / d)
  exact ⟨w, Or.inl hw⟩

theorem cscale_exists (hT : Total a) (s : ℝ) (z : ℂ) : ∃ w, CScale a s z w := cop_exists hT _

theorem sub_exists (hT : Total a) (c r2 d : ℝ) (v Y b : ℂ) : ∃ out, FbSub a c r2 d v Y b out := by
  obtain ⟨c2, k1⟩ := hT.op (2 * c)
  obtain ⟨s1, k2⟩ := cscale_exists hT c2 Y
  obtain ⟨s2, k3⟩ := cscale_exists hT r2 b
  obtain ⟨s, k4⟩ := cop_exists hT (s1 + s2)
  obtain ⟨s', k5⟩ := cdiv_exists hT s d
  obtain ⟨o, k6⟩ := cop_exists hT (v - s')
  exact ⟨o, c2, s1, s2, s, s', k1, k2, k3, k4, k5, k6⟩

theorem low_exists (hT : Total a) (x y z r2 : ℝ) (l m : ℕ) (p pp : FBRow) : ∃ Y X V Z : ℂ, ∀ n : FBRow, n.yt m = Y → n.bX m = X → n.bY m = V → n.bZ m = Z →
    FbLow a x y z r2 l m p pp n := by
  obtain ⟨k, hk⟩ := hT.op ((2 * l - 1) * z)
  obtain ⟨t1, a1⟩ := cscale_exists hT k (p.yt m)
  obtain ⟨t2, a2⟩ := cscale_exists hT r2 (pp.yt m)
  obtain ⟨s, a3⟩ := cop_exists hT (t1 - t2)
  obtain ⟨Y, a4⟩ := cdiv_exists hT s ((l : ℝ) ^ 2 - (m : ℝ) ^ 2)
  obtain ⟨tX, b1⟩ := cscale_exists hT k (p.bX m)
  obtain ⟨vX, b2⟩ := cdiv_exists hT tX ((l : ℝ) ^ 2 - (m : ℝ) ^ 2)
  obtain ⟨X, b3⟩ := sub_exists hT x r2 ((l : ℝ) ^ 2 - (m : ℝ) ^ 2) vX (pp.yt m) (pp.bX m)
  obtain ⟨tY, c1⟩ := cscale_exists hT k (p.bY m)
  obtain ⟨vY, c2⟩ := cdiv_exists hT tY ((l : ℝ) ^ 2 - (m : ℝ) ^ 2)
  obtain ⟨V, c3⟩ := sub_exists hT y r2 ((l : ℝ) ^ 2 - (m : ℝ) ^ 2) vY (pp.yt m) (pp.bY m)
  obtain ⟨tZ, d1⟩ := cscale_exists hT z (p.bZ m)
  obtain ⟨sZ, d2⟩ := cop_exists hT (p.yt m + tZ)
  obtain ⟨gZ, d3⟩ := cscale_exists hT (2 * l - 1) sZ
  obtain ⟨vZ, d4⟩ := cdiv_exists hT gZ ((l : ℝ) ^ 2 - (m : ℝ) ^ 2)
  obtain ⟨Z, d5⟩ := sub_exists hT z r2 ((l : ℝ) ^ 2 - (m : ℝ) ^ 2) vZ (pp.yt m) (pp.bZ m)
  refine ⟨Y, X, V, Z, fun n hY hX hV hZ => ⟨k, hk, ⟨t1, t2, s, a1, a2, a3, ?_⟩, ⟨tX, vX, b1, b2, ?_⟩, ⟨tY, vY, c1, c2, ?_⟩, ⟨tZ, sZ, gZ, vZ, d1, d2, d3, d4, ?_⟩⟩⟩
  · rw [hY]; exact a4
  · rw [hX]; exact b3
  · rw [hV]; exact c3
  · rw [hZ]; exact d5

theorem top_exists (hT : Total a) (x y : ℝ) (l : ℕ) (p : FBRow) : ∃ Y X V Z : ℂ, ∀ n : FBRow, n.yt l = Y → n.bX l = X → n.bY l = V → n.bZ l = Z → FbTop a x y l p n := by
  obtain ⟨t1, a1⟩ := cmul_exists hT (-((x : ℂ) - Complex.I * y)) (p.yt (l - 1))
  obtain ⟨Y, a2⟩ := cdiv_exists hT t1 (2 * l)
  obtain ⟨t2, b1⟩ := cmul_exists hT (p.bX (l - 1)) ((x : ℂ) - Complex.I * y)
  obtain ⟨s2, b2⟩ := cop_exists hT (p.yt (l - 1) + t2)
  obtain ⟨X, b3⟩ := cdiv_exists hT (-s2) (2 * l)
  obtain ⟨t3, c1⟩ := cmul_exists hT (p.bY (l - 1)) ((x : ℂ) - Complex.I * y)
  obtain ⟨s3, c2⟩ := cop_exists hT (Complex.I * p.yt (l - 1) - t3)
  obtain ⟨V, c3⟩ := cdiv_exists hT s3 (2 * l)
  obtain ⟨t4, d1⟩ := cmul_exists hT (p.bZ (l - 1)) ((x : ℂ) - Complex.I * y)
  obtain ⟨Z, d2⟩ := cdiv_exists hT (-t4) (2 * l)
  refine ⟨Y, X, V, Z, fun n hY hX hV hZ => ⟨⟨t1, a1, ?_⟩, ⟨t2, s2, b1, b2, ?_⟩, ⟨t3, s3, c1, c2, ?_⟩, ⟨t4, d1, ?_⟩⟩⟩
  · rw [hY]; exact a2
  · rw [hX]; exact b3
  · rw [hV]; exact c3
  · rw [hZ]; exact d2

theorem first_exists (hT : Total a) (z : ℝ) (p : FBRow) : ∃ Y X V Z : ℂ, ∀ n : FBRow, n.yt 0 = Y → n.bX 0 = X → n.bY 0 = V → n.bZ 0 = Z → FbFirst a z p n := by
  obtain ⟨k, hk⟩ := hT.op (1 * z)
  obtain ⟨t1, a1⟩ := cscale_exists hT k (p.yt 0)
  obtain ⟨Y, a2⟩ := cdiv_exists hT t1 1
  obtain ⟨t2, b1⟩ := cscale_exists hT k (p.bX 0)
  obtain ⟨X, b2⟩ := cdiv_exists hT t2 1
  obtain ⟨t3, c1⟩ := cscale_exists hT k (p.bY 0)
  obtain ⟨V, c2⟩ := cdiv_exists hT t3 1
  obtain ⟨t4, d1⟩ := cscale_exists hT z (p.bZ 0)
  obtain ⟨s, d2⟩ := cop_exists hT (p.yt 0 + t4)
  obtain ⟨v, d3⟩ := cscale_exists hT 1 s
  obtain ⟨Z, d4⟩ := cdiv_exists hT v 1
  refine ⟨Y, X, V, Z, fun n hY hX hV hZ => ⟨k, hk, ⟨t1, a1, ?_⟩, ⟨t2, b1, ?_⟩, ⟨t3, c1, ?_⟩, ⟨t4, s, v, d1, d2, d3, ?_⟩⟩⟩
  · rw [hY]; exact a2
  · rw [hX]; exact b2
  · rw [hV]; exact c2
  · rw [hZ]; exact d4

/-- One more row. -/
theorem fbrow_exists (hT : Total a) (x y z r2 : ℝ) (l : ℕ) (p pp : FBRow) : ∃ n : FBRow, FbTop a x y l p n ∧ (l = 1 → FbFirst a z p n) ∧
    (2 ≤ l → ∀ m, m < l → FbLow a x y z r2 l m p pp n) ∧ ∀ m, l < m → n.yt m = 0 ∧ n.bX m = 0 ∧ n.bY m = 0 ∧ n.bZ m = 0 := by
  obtain ⟨Y, X, V, Z, htop⟩ := top_exists hT x y l p
  obtain ⟨Y1, X1, V1, Z1, hfirst⟩ := first_exists hT z p
  choose Y2 X2 V2 Z2 hlow using fun m => low_exists hT x y z r2 l m p pp
  let pick : ℂ → ℂ → (ℕ → ℂ) → ℕ → ℂ := fun A B C m => if l < m then 0 else if m = l then A else if l = 1 then B else C m
  have k1 : ∀ A B C, pick A B C l = A := fun A B C => by simp [pick]
  have k2 : ∀ A B C, l = 1 → pick A B C 0 = B := fun A B C h => by simp [pick, h]
  have k3 : ∀ A B C m, 2 ≤ l → m < l → pick A B C m = C m := fun A B C m h h' => by
    simp only [pick, if_neg (by omega : ¬ l < m), if_neg (by omega : ¬ m = l), if_neg (by omega : ¬ l = 1)]
  have k4 : ∀ A B C m, l < m → pick A B C m = 0 := fun A B C m h => by simp only [pick, if_pos h]
  refine ⟨⟨pick Y Y1 Y2, pick X X1 X2, pick V V1 V2, pick Z Z1 Z2⟩, htop _ (k1 _ _ _) (k1 _ _ _) (k1 _ _ _) (k1 _ _ _),
    fun h => hfirst _ (k2 _ _ _ h) (k2 _ _ _ h) (k2 _ _ _ h) (k2 _ _ _ h), fun h m hm => hlow m _ (k3 _ _ _ m h hm) (k3 _ _ _ m h hm) (k3 _ _ _ m h hm) (k3 _ _ _ m h hm),
    fun m hm => ⟨k4 _ _ _ m hm, k4 _ _ _ m hm, k4 _ _ _ m hm, k4 _ _ _ m hm⟩⟩

theorem rows_exist (hT : Total a) (L : ℕ) (x y z : ℝ) : ∃ rows, FbRows a L x y z rows := by
  obtain ⟨sx, a1⟩ := hT.op (x ^ 2)
  obtain ⟨sy, a2⟩ := hT.op (y ^ 2)
  obtain ⟨sz, a3⟩ := hT.op (z ^ 2)
  obtain ⟨t, a4⟩ := hT.op (sx + sy)
  obtain ⟨r2, a5⟩ := hT.op (t + sz)
  have step : ∀ (l : ℕ) (p pp : FBRow), ∃ n : FBRow, FbTop a x y (l + 1) p n ∧ (l + 1 = 1 → FbFirst a z p n) ∧
    (2 ≤ l + 1 → ∀ m, m < l + 1 → FbLow a x y z r2 (l + 1) m p pp n) ∧ ∀ m, l + 1 < m → n.yt m = 0 ∧ n.bX m = 0 ∧ n.bY m = 0 ∧ n.bZ m = 0 :=
    fun l p pp => fbrow_exists hT x y z r2 (l + 1) p pp
  choose next h1 h2 h3 h4 using step
  let two : ℕ → FBRow × FBRow := fun l => Nat.rec (FBRow.init, FBRow.zero) (fun l pr => (next l pr.1 pr.2, pr.1)) l
  have t1 : ∀ l, (two (l + 1)).1 = next l (two l).1 (two l).2 := fun l => rfl
  have t2 : ∀ l, (two (l + 1)).2 = (two l).1 := fun l => rfl
  refine ⟨fun l => (two l).1, r2, ⟨sx, sy, sz, t, a1, a2, a3, a4, a5⟩, rfl, ?_, ?_, ?_, ?_⟩
  · intro l m hlm
    rcases l with _ | l
    · have : ¬ m = 0 := by omega
      simp [two, FBRow.init, this]
    · exact h4 l _ _ m hlm
  · intro l hl _
    obtain ⟨k, rfl⟩ : ∃ k, l = k + 1 := ⟨l - 1, by omega⟩
    exact h1 k _ _
  · intro _
    exact h2 0 _ _ rfl
  · intro l hl _ m hm
    obtain ⟨k, rfl⟩ : ∃ k, l = k + 2 := ⟨l - 2, by omega⟩
    exact h3 (k + 1) _ _ (by omega) m hm

theorem fac2_exists (hT : Total a) {L : ℕ} (q Q : Mom L) (fac : ℝ) (i : ℕ × ℤ × ℕ × ℤ) : ∃ f, Fac2 a q Q fac i f := by
  obtain ⟨mofac, k1⟩ := cscale_exists hT fac (q.get i.1 i.2.1)
  obtain ⟨v, k2⟩ := cdiv_exists hT mofac (2 * i.2.2.1 + 1)
  obtain ⟨t, k3⟩ := hT.op ((2 * i.2.2.1 + 1) / (2 * i.1 + 1))
  obtain ⟨s, k4⟩ := hT.op (Real.sqrt t)
  obtain ⟨lmofac, k5⟩ := cscale_exists hT s v
  obtain ⟨w, k6⟩ := cmul_exists hT (Q.get i.2.2.1 i.2.2.2) lmofac
  obtain ⟨g1, b1⟩ := hT.lib (gammaln (i.1 + i.2.1 + 1))
  obtain ⟨g2, b2⟩ := hT.lib (gammaln (i.1 - i.2.1 + 1))
  obtain ⟨h, b3⟩ := hT.op (g1 + g2)
  obtain ⟨g3, b4⟩ := hT.lib (gammaln (i.2.2.1 + i.2.2.2 + 1))
  obtain ⟨g4, b5⟩ := hT.lib (gammaln (i.2.2.1 - i.2.2.2 + 1))
  obtain ⟨k, b6⟩ := hT.op (g3 + g4)
  obtain ⟨s', b7⟩ := hT.op (k - h)
  obtain ⟨v', b8⟩ := hT.lib (Real.exp s')
  obtain ⟨E, b9⟩ := hT.op (Real.sqrt v')
  obtain ⟨f, k7⟩ := cscale_exists hT E w
  exact ⟨f, mofac, v, lmofac, w, t, s, E, k1, k2, k3, k4, k5, k6, ⟨g1, g2, g3, g4, h, k, s', v', b1, b2, b3, b4, b5, b6, b7, b8, b9⟩, k7⟩

theorem cadds_exists (hT : Total a) (ys : List ℂ) : ∀ s, ∃ t, CAdds a ys s t := by
  induction ys with
  | nil => exact fun s => ⟨s, CAdds.nil s⟩
  | cons y ys ih =>
    intro s
    obtain ⟨s', hs⟩ := cop_exists hT (s + y)
    obtain ⟨t, ht⟩ := ih s'
    exact ⟨t, CAdds.cons hs ht⟩

theorem comp_exists (hT : Total a) {L : ℕ} (q Q b : Mom L) (fac : ℝ) : ∃ F, ForceComp a q Q b fac F := by
  have h : ∀ i : ℕ × ℤ × ℕ × ℤ, ∃ t, ∃ f, Fac2 a q Q fac i f ∧ CMul a f (b.get (i.2.2.1 - i.1) (i.2.2.2 - i.2.1)) t := fun i => by
    obtain ⟨f, hf⟩ := fac2_exists hT q Q fac i
    obtain ⟨t, ht⟩ := cmul_exists hT f (b.get (i.2.2.1 - i.1) (i.2.2.2 - i.2.1))
    exact ⟨t, f, hf, ht⟩
  choose t ht using h
  obtain ⟨F, hF⟩ := cadds_exists hT ((forceIdx L).map t) 0
  refine ⟨F, (forceIdx L).map t, ?_, hF⟩
  rw [List.forall₂_map_right_iff]
  exact List.forall₂_same.2 fun i _ => ht i

/-- **C129 (calls that return).**  In an arithmetic that answers every request, `multipole_force` returns exactly when the exact routine does: always, except at
degree zero without displacement. -/
theorem C129_returns (hT : Total a) {L : ℕ} (q Q : Mom L) (x y z g : ℝ) :
    ((∃ F, Flt.multipole_force a q Q x y z g F) ↔ (Newt.multipole_force q Q x y z g).isSome) ∧
    ((∃ F, Flt.multipole_force a q Q x y z g F) ↔ ¬ (L = 0 ∧ x = 0 ∧ y = 0 ∧ z = 0)) := by
  have main : ∀ b : Mom L × Mom L × Mom L, Flt.force_basis a L x y z b → ∃ F, Flt.multipole_force a q Q x y z g F := by
    intro b hb
    obtain ⟨p, hp⟩ := hT.op (4 * Real.pi)
    obtain ⟨fac, hfac⟩ := hT.op (p * g)
    obtain ⟨F0, h0⟩ := comp_exists hT q Q b.1 fac
    obtain ⟨F1, h1⟩ := comp_exists hT q Q b.2.1 fac
    obtain ⟨F2, h2⟩ := comp_exists hT q Q b.2.2 fac
    exact ⟨![F0, F1, F2], b, p, fac, hb, hp, hfac, h0, h1, h2⟩
  have h2 : (∃ F, Flt.multipole_force a q Q x y z g F) ↔ ¬ (L = 0 ∧ x = 0 ∧ y = 0 ∧ z = 0) := by
    constructor
    · rintro ⟨F, b, p, fac, hb, -⟩ ⟨hL, hx⟩
      rcases hb with ⟨-, -, -, hb⟩ | ⟨hne, -⟩
      · rw [Newt.force_basis, if_pos ⟨rfl, rfl, rfl⟩, if_pos hL] at hb
        cases hb
      · exact hne hx
    · intro h
      by_cases hx : x = 0 ∧ y = 0 ∧ z = 0
      · have hL : 1 ≤ L := by
          by_contra hc
          exact h ⟨by omega, hx⟩
        exact main _ (Or.inl ⟨hx.1, hx.2.1, hx.2.2, force_basis_rows (Or.inl hL)⟩)
      · obtain ⟨rows, hr⟩ := rows_exist hT L x y z
        exact main _ (Or.inr ⟨hx, rows, hr, rfl⟩)
  refine ⟨?_, h2⟩
  rw [h2, Newt.multipole_force, Option.isSome_map]
  by_cases h : L = 0 ∧ x = 0 ∧ y = 0 ∧ z = 0
  · rw [Newt.force_basis, if_pos h.2, if_pos h.1]
    simpa using h
  · have : 1 ≤ L ∨ ¬ (x = 0 ∧ y = 0 ∧ z = 0) := by
      by_contra hc
      push Not at hc
      exact h ⟨by omega, hc.2⟩
    rw [force_basis_rows this]
    simpa using h

/-! ## From the point masses to the force -/

/-- **C129 (the whole calculation).**  Point masses `A` within radius `r` of the origin, point masses `B` beyond `R`, and a displacement `d` of `A` with
`r + |d| < R`.  Their moments to degree `L >= 1` and `multipole_force`, all in floating point arithmetic, give the force on the displaced `A` up to the
truncation error and the rounding error; the imaginary parts are within the same error of zero. -/
theorem C129_points (h0 : 0 ≤ u) (h1 : u ≤ 1 / 4) (ha : Accurate a u e) (A B : PtArray) (v : V3) (r R d eps : ℝ) (hr : 0 ≤ r) (hrR : r + modulus v < R)
    (hA : ∀ p ∈ A, originDist p ≤ r) (hB : ∀ p ∈ B, R ≤ originDist p) (hdA : PolarAccuracy u d A) (hdB : PolarAccuracy u d B) {L : ℕ} (hL : 1 ≤ L)
    (heps : ∀ l, l ≤ L → e l ≤ eps * harmMax l) {q Q : Mom L} (hq : Flt.qmoments a L A q) (hQ : Flt.Qmomentsb a L B Q) {g : ℝ} (hg : a.op BIG_G g)
    {F : Fin 3 → ℂ} (hF : Flt.multipole_force a q Q (v 0) (v 1) (v 2) g F) :
    ∃ f T, Newt.point_matrix_gravity (translate_point_array A v) B = some (f, T) ∧ ∀ i, ‖F i - (f i : ℂ)‖ ≤
      BIG_G * absMass A * absMass B * missed (r + modulus v) R L + forceBudget u d eps L (A.length + B.length) *
        grossForceOf BIG_G L (fun l _ => absMass A * r ^ l * harmMax l) (fun l _ => absMass B * (1 / R ^ (l + 1)) * harmMax l) (modulus v) := by
  have h1' : u < 1 := by linarith
  have hv0 : 0 ≤ modulus v := modulus_nonneg v
  have hR : 0 < R := by linarith
  have hpi := Real.pi_pos
  have hE0 : 0 ≤ eps + L * (Real.pi * (d + 8 * u)) := by
    have he : 0 ≤ eps * harmMax 0 := (ha.nonneg 0).trans (heps 0 (by omega))
    have hy : 0 < harmMax 0 := by rw [harmMax]; positivity
    have : 0 ≤ eps := by
      by_contra hc
      push Not at hc
      nlinarith
    have := hdA.1
    positivity
  obtain ⟨q0, hq0, -⟩ := C127_inner h0 h1 ha hq
  have hO := qmoments_some hq0
  have hO' : ¬ OffAfterOrigin A := (originLast_iff A).1 (hO.resolve_left (by omega))
  have hoff : OffOrigin B := fun p hp hc => by
    have h2 := hB p hp
    have h3 : originDist p = 0 := by rw [originDist_eq, modulus_eq_zero]; exact hc
    linarith
  have eQ := Qmomentsb_closed L B hoff
  have hAt : ∀ p ∈ translate_point_array A v, modulus p.pos ≤ r + modulus v := by
    intro p hp
    rw [translate_point_array, List.mem_map] at hp
    obtain ⟨s, hs, rfl⟩ := hp
    exact (modulus_add_le _ _).trans (add_le_add (hA s hs) le_rfl)
  obtain ⟨q1, F1, f, T, k1, k2, k3, k4⟩ := C115_points_force A B v (r + modulus v) R (by linarith) hrR hO' hAt hB L hL
  refine ⟨f, T, k3, fun i => ?_⟩
  rw [qmoments_closed L A hO] at k1
  obtain rfl := Option.some.inj k1
  rw [eQ] at k2
  set c2 := 1 + (eps + L * (Real.pi * (d + 8 * u))) with hc2
  have hc2' : 1 ≤ c2 := by rw [hc2]; linarith
  obtain ⟨F0, hF0, hw⟩ := force_within h0 h1' ha (q0 := Mom.ofFn L (innerMoment A)) (Q0 := Mom.ofFn L (outerMoment B))
    (one_le_mul_of_one_le_of_one_le (grow_one_le h0 h1' (3 * L + 3 + A.length)) hc2') (one_le_mul_of_one_le_of_one_le (grow_one_le h0 h1' (3 * L + 7 + B.length)) hc2')
    (wq := fun l _ => absMass A * r ^ l * harmMax l) (wQ := fun l _ => absMass B * (1 / R ^ (l + 1)) * harmMax l)
    (fun l m hl hm => by
      rw [Mom.get_ofFn _ hl (by omega)]
      have := inner_within h0 h1 ha hdA heps hA hq hl (m := m) (by omega)
      rwa [if_pos hm] at this)
    (fun l m hl hm => by
      rw [Mom.get_ofFn _ hl (by omega)]
      have := outer_within h0 h1 ha hdB heps hR hB hQ hl (m := m) (by omega)
      rwa [if_pos hm] at this) hg hF
  rw [hF0] at k2
  obtain rfl := Option.some.inj k2
  have e1 : gamGrow u L * grow u (20 + 7 * L + forceTerms L) * (grow u (3 * L + 3 + A.length) * c2 * (grow u (3 * L + 7 + B.length) * c2)) - 1 =
      forceBudget u d eps L (A.length + B.length) := by
    rw [forceBudget, ← hc2, show (1 + relErr u (13 * L + 30 + forceTerms L + (A.length + B.length))) = grow u (13 * L + 30 + forceTerms L + (A.length + B.length)) from rfl]
    have : grow u (13 * L + 30 + forceTerms L + (A.length + B.length)) = grow u (20 + 7 * L + forceTerms L) * grow u (3 * L + 3 + A.length) * grow u (3 * L + 7 + B.length) := by
      rw [grow_add h1', grow_add h1']; congr 1; omega
    rw [this, gamGrow]; ring
  have h5 := (hw i).2
  rw [e1] at h5
  calc ‖F i - (f i : ℂ)‖ = ‖(F0 i - (f i : ℂ)) + (F i - F0 i)‖ := by congr 1; ring
    _ ≤ ‖F0 i - (f i : ℂ)‖ + ‖F i - F0 i‖ := norm_add_le _ _
    _ ≤ _ := add_le_add (k4 i) h5

/-! ## Without displacement -/

theorem sqrt_ratio_le {x y k : ℝ} (hy : 0 < y) (hk : 0 ≤ k) (h : x ≤ k ^ 2 * y) : Real.sqrt (x / y) ≤ k := by
  refine Real.sqrt_le_iff.2 ⟨hk, ?_⟩
  rw [div_le_iff₀ hy]
  exact h

theorem step_ratio (lo : ℕ) (mo : ℤ) (hmo : mo.natAbs ≤ lo) :
    Real.sqrt ((((lo + 1 : ℕ) + mo).toNat.factorial * ((lo + 1 : ℕ) - mo).toNat.factorial) / ((lo + mo).toNat.factorial * (lo - mo).toNat.factorial)) ≤ (lo : ℝ) + 1 ∧
    Real.sqrt ((((lo + 1 : ℕ) + (mo + 1)).toNat.factorial * ((lo + 1 : ℕ) - (mo + 1)).toNat.factorial) / ((lo + mo).toNat.factorial * (lo - mo).toNat.factorial)) ≤ 2 * ((lo : ℝ) + 1) ∧
    Real.sqrt ((((lo + 1 : ℕ) + (mo - 1)).toNat.factorial * ((lo + 1 : ℕ) - (mo - 1)).toNat.factorial) / ((lo + mo).toNat.factorial * (lo - mo).toNat.factorial)) ≤ 2 * ((lo : ℝ) + 1) := by
  obtain ⟨p, hp⟩ : ∃ p : ℕ, (lo : ℤ) + mo = p := ⟨(lo + mo).toNat, by omega⟩
  obtain ⟨s, hs⟩ : ∃ s : ℕ, (lo : ℤ) - mo = s := ⟨(lo - mo).toNat, by omega⟩
  have e1 : (((lo + 1 : ℕ) : ℤ) + mo).toNat = p + 1 := by omega
  have e2 : (((lo + 1 : ℕ) : ℤ) - mo).toNat = s + 1 := by omega
  have e3 : (((lo + 1 : ℕ) : ℤ) + (mo + 1)).toNat = p + 1 + 1 := by omega
  have e4 : (((lo + 1 : ℕ) : ℤ) - (mo + 1)).toNat = s := by omega
  have e5 : (((lo + 1 : ℕ) : ℤ) + (mo - 1)).toNat = p := by omega
  have e6 : (((lo + 1 : ℕ) : ℤ) - (mo - 1)).toNat = s + 1 + 1 := by omega
  have hps : (p : ℝ) + s = 2 * lo := by exact_mod_cast (by omega : p + s = 2 * lo)
  have p0 : (0 : ℝ) ≤ p := Nat.cast_nonneg _
  have s0 : (0 : ℝ) ≤ s := Nat.cast_nonneg _
  have fp : (0 : ℝ) < (p.factorial : ℝ) := by exact_mod_cast Nat.factorial_pos _
  have fs : (0 : ℝ) < (s.factorial : ℝ) := by exact_mod_cast Nat.factorial_pos _
  have fps := mul_pos fp fs
  rw [hp, hs, e1, e2, e3, e4, e5, e6]
  simp only [Nat.factorial_succ, Int.toNat_natCast]
  push_cast
  refine ⟨sqrt_ratio_le fps (by positivity) ?_, sqrt_ratio_le fps (by positivity) ?_, sqrt_ratio_le fps (by positivity) ?_⟩
  · calc ((p : ℝ) + 1) * p.factorial * ((s + 1) * s.factorial) = ((p + 1) * (s + 1)) * (p.factorial * s.factorial) := by ring
      _ ≤ _ := mul_le_mul_of_nonneg_right (by nlinarith [sq_nonneg ((p : ℝ) - s)]) fps.le
  · calc ((p : ℝ) + 1 + 1) * ((p + 1) * p.factorial) * s.factorial = ((p + 1 + 1) * (p + 1)) * (p.factorial * s.factorial) := by ring
      _ ≤ _ := mul_le_mul_of_nonneg_right (by nlinarith) fps.le
  · calc (p.factorial : ℝ) * ((s + 1 + 1) * ((s + 1) * s.factorial)) = ((s + 1 + 1) * (s + 1)) * (p.factorial * s.factorial) := by ring
      _ ≤ _ := mul_le_mul_of_nonneg_right (by nlinarith) fps.le

theorem gradMaj_origin {l : ℕ} (h : l ≠ 1) (m : ℤ) : gradMaj 0 l m = 0 := by
  rw [gradMaj]
  rcases l with _ | _ | l
  · simp
  · exact absurd rfl h
  · simp

theorem gradMaj_first : gradMaj 0 1 0 = 5 / 2 ∧ gradMaj 0 1 1 = 5 / 4 ∧ gradMaj 0 1 (-1) = 5 / 4 := by
  have h1 : gradMaj 0 1 (1 : ℕ) = 5 / 4 := by rw [gradMaj, solidCoef_nat le_rfl]; norm_num
  have h0 : gradMaj 0 1 (0 : ℕ) = 5 / 2 := by rw [gradMaj, solidCoef_nat (by omega)]; norm_num
  refine ⟨h0, h1, ?_⟩
  rw [gradMaj_abs]
  exact h1

theorem harm_pair (lo : ℕ) : harmMax lo * harmMax (lo + 1) / Real.sqrt ((2 * ((lo + 1 : ℕ) : ℝ) + 1) * (2 * lo + 1)) = 1 / (4 * Real.pi) := by
  have hpi := Real.pi_pos
  have h1 : (0 : ℝ) < 2 * ((lo + 1 : ℕ) : ℝ) + 1 := by positivity
  have h2 : (0 : ℝ) < 2 * (lo : ℝ) + 1 := by positivity
  rw [harmMax, harmMax, Real.sqrt_div h1.le, Real.sqrt_div h2.le, Real.sqrt_mul h1.le]
  have s1 := Real.sqrt_pos.2 h1
  have s2 := Real.sqrt_pos.2 h2
  have s3 : Real.sqrt (4 * Real.pi) * Real.sqrt (4 * Real.pi) = 4 * Real.pi := Real.mul_self_sqrt (by positivity)
  have s4 := Real.sqrt_pos.2 (by positivity : 0 < 4 * Real.pi)
  generalize Real.sqrt (4 * Real.pi) = S at s3 s4 ⊢
  rw [← s3]
  field_simp

theorem square_sum_le (x : ℝ) (hx0 : 0 ≤ x) (hx1 : x < 1) (L : ℕ) : ∑ l ∈ Finset.range (L + 1), (2 * (l : ℝ) + 1) * (l + 1) * x ^ l ≤ (1 + 3 * x) / (1 - x) ^ 3 := by
  have hk : ∀ L : ℕ, (∑ l ∈ Finset.range (L + 1), (2 * (l : ℝ) + 1) * (l + 1) * x ^ l) * (1 - x) ^ 3 =
      1 + 3 * x - x ^ (L + 1) * ((2 * L + 3) * (L + 2) * (1 - x) ^ 2 + (4 * L + 9) * x * (1 - x) + 4 * x ^ 2) := by
    intro L
    induction L with
    | zero => simp; ring
    | succ L ih =>
      rw [Finset.sum_range_succ, add_mul, ih]
      push_cast
      ring
  have h3 : (0 : ℝ) < (1 - x) ^ 3 := pow_pos (by linarith) 3
  have h4 : 0 ≤ 1 - x := by linarith
  rw [le_div_iff₀ h3, hk L]
  have : 0 ≤ x ^ (L + 1) * ((2 * L + 3) * (L + 2) * (1 - x) ^ 2 + (4 * L + 9) * x * (1 - x) + 4 * x ^ 2) := by positivity
  linarith

/-- Without displacement the force without regard to sign has a closed upper limit. -/
theorem gross_origin {G r R MA MB : ℝ} (hG : 0 ≤ G) (hr : 0 ≤ r) (hrR : r < R) (hMA : 0 ≤ MA) (hMB : 0 ≤ MB) (L : ℕ) :
    grossForceOf G L (fun l _ => MA * r ^ l * harmMax l) (fun l _ => MB * (1 / R ^ (l + 1)) * harmMax l) 0 ≤ G * MA * MB * (15 / 2 * (R + 3 * r) / (R - r) ^ 3) := by
  have hR : 0 < R := by linarith
  have hpi := Real.pi_pos
  obtain ⟨m0, m1, m2⟩ := gradMaj_first
  have inner : ∀ lo : ℕ, ∀ mo ∈ Finset.Icc (-(lo : ℤ)) lo, (∑ l ∈ Finset.Icc (lo + 1) L, ∑ m ∈ Finset.Icc (mo - (l - lo : ℕ)) (mo + (l - lo : ℕ)),
      MA * r ^ lo * harmMax lo * (MB * (1 / R ^ (l + 1)) * harmMax l) / Real.sqrt ((2 * l + 1) * (2 * lo + 1)) *
      Real.sqrt (((l + m).toNat.factorial * (l - m).toNat.factorial) / ((lo + mo).toNat.factorial * (lo - mo).toNat.factorial)) * gradMaj 0 (l - lo) (m - mo)) ≤
      MA * MB * (r ^ lo * (1 / R ^ (lo + 2))) / (4 * Real.pi) * (15 / 2 * (lo + 1)) := by
    intro lo mo hmo
    rw [Finset.mem_Icc] at hmo
    by_cases hlo : lo + 1 ≤ L
    · rw [Finset.sum_eq_single_of_mem (lo + 1) (Finset.mem_Icc.2 ⟨le_rfl, hlo⟩)]
      · rw [Nat.add_sub_cancel_left]
        have e3 : Finset.Icc (mo - ((1 : ℕ) : ℤ)) (mo + ((1 : ℕ) : ℤ)) = {mo - 1, mo, mo + 1} := by
          ext k
          simp only [Finset.mem_Icc, Finset.mem_insert, Finset.mem_singleton, Nat.cast_one]
          omega
        rw [e3, Finset.sum_insert (by simp; omega), Finset.sum_insert (by simp), Finset.sum_singleton, sub_self, show mo - 1 - mo = -1 by ring, show mo + 1 - mo = 1 by ring,
          m0, m1, m2]
        obtain ⟨k1, k2, k3⟩ := step_ratio lo mo (by omega)
        have e4 : MA * r ^ lo * harmMax lo * (MB * (1 / R ^ (lo + 1 + 1)) * harmMax (lo + 1)) / Real.sqrt ((2 * ((lo + 1 : ℕ) : ℝ) + 1) * (2 * lo + 1)) =
            MA * MB * (r ^ lo * (1 / R ^ (lo + 2))) / (4 * Real.pi) := by
          calc _ = MA * MB * (r ^ lo * (1 / R ^ (lo + 2))) * (harmMax lo * harmMax (lo + 1) / Real.sqrt ((2 * ((lo + 1 : ℕ) : ℝ) + 1) * (2 * lo + 1))) := by ring
            _ = _ := by rw [harm_pair]; ring
        rw [e4]
        have hX : 0 ≤ MA * MB * (r ^ lo * (1 / R ^ (lo + 2))) / (4 * Real.pi) := by positivity
        generalize MA * MB * (r ^ lo * (1 / R ^ (lo + 2))) / (4 * Real.pi) = X at hX
        have := mul_le_mul_of_nonneg_left k1 hX
        have := mul_le_mul_of_nonneg_left k2 hX
        have := mul_le_mul_of_nonneg_left k3 hX
        nlinarith
      · intro l hl hne
        rw [Finset.mem_Icc] at hl
        refine Finset.sum_eq_zero fun m _ => ?_
        rw [gradMaj_origin (by omega), mul_zero]
    · rw [Finset.Icc_eq_empty (by omega), Finset.sum_empty]
      positivity
  have e5 : ∀ lo : ℕ, ∑ mo ∈ Finset.Icc (-(lo : ℤ)) lo, MA * MB * (r ^ lo * (1 / R ^ (lo + 2))) / (4 * Real.pi) * (15 / 2 * (lo + 1)) =
      MA * MB / (4 * Real.pi) * (15 / 2) * (1 / R ^ 2) * ((2 * (lo : ℝ) + 1) * (lo + 1) * (r / R) ^ lo) := by
    intro lo
    rw [Finset.sum_const, Int.card_Icc, show ((lo : ℤ) + 1 - -(lo : ℤ)).toNat = 2 * lo + 1 by omega, nsmul_eq_mul, div_pow, pow_add]
    push_cast
    field_simp
  have hS := square_sum_le (r / R) (by positivity) ((div_lt_one hR).2 hrR) L
  rw [grossForceOf, abs_of_nonneg hG]
  calc _ ≤ 4 * Real.pi * G * ∑ lo ∈ Finset.range (L + 1), ∑ mo ∈ Finset.Icc (-(lo : ℤ)) lo, MA * MB * (r ^ lo * (1 / R ^ (lo + 2))) / (4 * Real.pi) * (15 / 2 * (lo + 1)) :=
        mul_le_mul_of_nonneg_left (Finset.sum_le_sum fun lo _ => Finset.sum_le_sum fun mo hmo => inner lo mo hmo) (by positivity)
    _ = 4 * Real.pi * G * (MA * MB / (4 * Real.pi) * (15 / 2) * (1 / R ^ 2)) * ∑ lo ∈ Finset.range (L + 1), (2 * (lo : ℝ) + 1) * (lo + 1) * (r / R) ^ lo := by
        simp only [e5]
        rw [← Finset.mul_sum]; ring
    _ ≤ 4 * Real.pi * G * (MA * MB / (4 * Real.pi) * (15 / 2) * (1 / R ^ 2)) * ((1 + 3 * (r / R)) / (1 - r / R) ^ 3) := mul_le_mul_of_nonneg_left hS (by positivity)
    _ = _ := by
        have h2 : 1 - r / R = (R - r) / R := by field_simp
        have h3 : R - r ≠ 0 := by linarith
        rw [h2]
        field_simp

theorem absMass_nonneg (A : PtArray) : 0 ≤ absMass A := List.sum_nonneg fun x hx => by
  obtain ⟨p, -, rfl⟩ := List.mem_map.1 hx; exact abs_nonneg _

theorem forceBudget_nonneg (h0 : 0 ≤ u) (h1 : u < 1) {d eps : ℝ} (hd : 0 ≤ d) (heps : 0 ≤ eps) (L N : ℕ) : 0 ≤ forceBudget u d eps L N := by
  rw [forceBudget]
  have hpi := Real.pi_pos
  have k1 := gamGrow_one_le h0 h1 L
  rw [gamGrow] at k1
  have k2 := grow_one_le h0 h1 (13 * L + 30 + forceTerms L + N)
  rw [grow] at k2
  have k3 : (1 : ℝ) ≤ 1 + (eps + L * (Real.pi * (d + 8 * u))) := by
    have : 0 ≤ eps + L * (Real.pi * (d + 8 * u)) := by positivity
    linarith
  have := one_le_mul_of_one_le_of_one_le (one_le_mul_of_one_le_of_one_le k1 k2) (one_le_pow₀ k3 (n := 2))
  linarith

/-- **C129 (without displacement).**  The force from the moments without displacement: the rounding part relative to the masses and distances. -/
theorem C129_origin (h0 : 0 ≤ u) (h1 : u ≤ 1 / 4) (ha : Accurate a u e) (A B : PtArray) (r R d eps : ℝ) (hr : 0 ≤ r) (hrR : r < R)
    (hA : ∀ p ∈ A, originDist p ≤ r) (hB : ∀ p ∈ B, R ≤ originDist p) (hdA : PolarAccuracy u d A) (hdB : PolarAccuracy u d B) {L : ℕ} (hL : 1 ≤ L)
    (heps0 : 0 ≤ eps) (heps : ∀ l, l ≤ L → e l ≤ eps * harmMax l) {q Q : Mom L} (hq : Flt.qmoments a L A q) (hQ : Flt.Qmomentsb a L B Q) {g : ℝ} (hg : a.op BIG_G g)
    {F : Fin 3 → ℂ} (hF : Flt.multipole_force a q Q 0 0 0 g F) :
    ∃ f T, Newt.point_matrix_gravity A B = some (f, T) ∧ ∀ i, ‖F i - (f i : ℂ)‖ ≤
      BIG_G * absMass A * absMass B * (missed r R L + 15 / 2 * (R + 3 * r) / (R - r) ^ 3 * forceBudget u d eps L (A.length + B.length)) := by
  have h1' : u < 1 := by linarith
  have hG : 0 ≤ BIG_G := by rw [BIG_G]; norm_num
  have hz : modulus (0 : V3) = 0 := (modulus_eq_zero _).2 rfl
  obtain ⟨f0, T0, k1, k2⟩ := C129_points h0 h1 ha A B 0 r R d eps hr (by rw [hz]; linarith) hA hB hdA hdB hL heps hq hQ hg (F := F) hF
  rw [hz, add_zero] at k2
  have eA : translate_point_array A 0 = A := by
    rw [translate_point_array]
    conv_rhs => rw [← List.map_id A]
    refine List.map_congr_left fun p _ => ?_
    rw [translate_point, add_zero]
    rfl
  rw [eA] at k1
  refine ⟨f0, T0, k1, fun i => ?_⟩
  have hgr := gross_origin hG hr hrR (absMass_nonneg A) (absMass_nonneg B) L
  have hbud := forceBudget_nonneg h0 h1' hdA.1 heps0 L (A.length + B.length)
  refine ((k2 i).trans (add_le_add le_rfl (mul_le_mul_of_nonneg_left hgr hbud))).trans_eq ?_
  ring

/-- **C129 (two ways to the same force).**  Without displacement, the force from the moments and the force from `point_matrix_gravity`, both computed in
floating point arithmetic, differ by at most the truncation error and the two rounding errors. -/
theorem C129_two_ways (h0 : 0 ≤ u) (h1 : u ≤ 1 / 4) (ha : Accurate a u e) (A B : PtArray) (r R d eps : ℝ) (hr : 0 ≤ r) (hrR : r < R)
    (hA : ∀ p ∈ A, originDist p ≤ r) (hB : ∀ p ∈ B, R ≤ originDist p) (hdA : PolarAccuracy u d A) (hdB : PolarAccuracy u d B) {L : ℕ} (hL : 1 ≤ L)
    (heps0 : 0 ≤ eps) (heps : ∀ l, l ≤ L → e l ≤ eps * harmMax l) {q Q : Mom L} (hq : Flt.qmoments a L A q) (hQ : Flt.Qmomentsb a L B Q) {g : ℝ} (hg : a.op BIG_G g)
    {F : Fin 3 → ℂ} (hF : Flt.multipole_force a q Q 0 0 0 g F) {f T : V3} (hpm : Flt.point_matrix_gravity u A B f T) (i : Fin 3) :
    ‖F i - (f i : ℂ)‖ ≤ BIG_G * absMass A * absMass B * (missed r R L + 15 / 2 * (R + 3 * r) / (R - r) ^ 3 * forceBudget u d eps L (A.length + B.length)) +
      relErr u (18 + A.length + B.length) * grossForce A B i := by
  have h1' : u < 1 := by linarith
  obtain ⟨f0, T0, k1, k2⟩ := C129_origin h0 h1 ha A B r R d eps hr hrR hA hB hdA hdB hL heps0 heps hq hQ hg hF
  obtain ⟨f1, T1, hpm1, hb1⟩ := C112_gravity h0 h1' A B f T hpm
  rw [k1] at hpm1
  obtain ⟨rfl, -⟩ := Prod.mk.inj (Option.some.inj hpm1)
  have hb := (hb1 i).1
  have h6 : ‖((f0 i : ℂ) - (f i : ℂ))‖ = |f i - f0 i| := by rw [← Complex.ofReal_sub, Complex.norm_real, Real.norm_eq_abs, abs_sub_comm]
  calc ‖F i - (f i : ℂ)‖ = ‖(F i - (f0 i : ℂ)) + ((f0 i : ℂ) - (f i : ℂ))‖ := by congr 1; ring
    _ ≤ ‖F i - (f0 i : ℂ)‖ + |f i - f0 i| := (norm_add_le _ _).trans (by rw [h6])
    _ ≤ _ := add_le_add (k2 i) hb

/-! ## Sizes in double precision -/

theorem forceTerms_le {L : ℕ} (hL : L ≤ 20) : forceTerms L ≤ 35210 := by
  interval_cases L <;> decide +kernel

theorem gam_double {L : ℕ} (hL : L ≤ 20) : Real.exp (relErr ((2 : ℝ)⁻¹ ^ 53) 3 * (2 * Real.log ((2 * L).factorial))) ≤ 1 + 1e-12 := by
  have hu : (0 : ℝ) ≤ (2 : ℝ)⁻¹ ^ 53 := by positivity
  have h3 : relErr ((2 : ℝ)⁻¹ ^ 53) 3 ≤ 6 * (2 : ℝ)⁻¹ ^ 53 := by
    have := C112_size hu 3 (by norm_num)
    push_cast at this
    linarith
  have h30 := relErr_nonneg hu (by norm_num : (2 : ℝ)⁻¹ ^ 53 < 1) 3
  have hlog : Real.log ((2 * L).factorial) ≤ 160 := by
    have k1 : (2 * L).factorial ≤ 2 ^ 160 := (Nat.factorial_le (by omega : 2 * L ≤ 40)).trans (by decide +kernel)
    have k2 : (((2 * L).factorial : ℕ) : ℝ) ≤ 2 ^ 160 := by exact_mod_cast k1
    calc Real.log ((2 * L).factorial) ≤ Real.log (2 ^ 160) := Real.log_le_log (by exact_mod_cast Nat.factorial_pos _) k2
      _ = 160 * Real.log 2 := by rw [Real.log_pow]; norm_num
      _ ≤ 160 * 1 := by
          have := Real.log_le_sub_one_of_pos (by norm_num : (0 : ℝ) < 2)
          linarith
      _ = 160 := by ring
  have hlog0 := log_fact_nonneg (2 * L)
  have hx : relErr ((2 : ℝ)⁻¹ ^ 53) 3 * (2 * Real.log ((2 * L).factorial)) ≤ 5e-13 := by
    calc _ ≤ 6 * (2 : ℝ)⁻¹ ^ 53 * (2 * 160) := by gcongr
      _ ≤ 5e-13 := by norm_num
  have h4 := Real.add_one_le_exp (-(5e-13 : ℝ))
  have h5 : Real.exp (5e-13) ≤ 1 + 1e-12 := by
    have h6 : Real.exp (5e-13) * Real.exp (-(5e-13 : ℝ)) = 1 := by rw [← Real.exp_add]; simp
    have h7 := Real.exp_pos (5e-13)
    have h8 : Real.exp (5e-13) * (-(5e-13 : ℝ) + 1) ≤ 1 := by
      exact (mul_le_mul_of_nonneg_left h4 h7.le).trans h6.le
    by_contra hc
    push Not at hc
    have : (1 + 1e-12 : ℝ) * (-(5e-13 : ℝ) + 1) ≤ Real.exp (5e-13) * (-(5e-13 : ℝ) + 1) := mul_le_mul_of_nonneg_right hc.le (by norm_num)
    have h9 : (1 : ℝ) < (1 + 1e-12 : ℝ) * (-(5e-13 : ℝ) + 1) := by norm_num
    linarith
  exact (Real.exp_le_exp.2 hx).trans h5

theorem rel_double {k n : ℕ} (hk : k ≤ n) (hn : (n : ℝ) ≤ 1e15) : relErr ((2 : ℝ)⁻¹ ^ 53) k ≤ 2 * n * (2 : ℝ)⁻¹ ^ 53 := by
  have hu : (0 : ℝ) ≤ (2 : ℝ)⁻¹ ^ 53 := by positivity
  have hk' : (k : ℝ) ≤ n := by exact_mod_cast hk
  refine (C112_size hu k ?_).trans ?_
  · calc (k : ℝ) * (2 : ℝ)⁻¹ ^ 53 ≤ 1e15 * (2 : ℝ)⁻¹ ^ 53 := by gcongr; linarith
      _ ≤ 1 / 2 := by norm_num
  · gcongr

/-- **C129 (double precision).**  Up to degree 20, with every operation accurate to `2^-53`: given moments, the force is accurate to `1e-11` of the force without
regard to sign; from up to 100000 rows the rounding part is below `4e-6` if `sph_harm` is accurate to `1e-7` of its largest value, and below `1e-10` if it is
accurate to `1e-12` and no row is within 6 degrees of the `z` axis. -/
theorem C129_double {L N : ℕ} (hL : L ≤ 20) (hN : N ≤ 100000) {eps : ℝ} (heps : 0 ≤ eps) :
    forceErr ((2 : ℝ)⁻¹ ^ 53) L ≤ 1e-11 ∧
    (eps ≤ 1e-7 → forceBudget ((2 : ℝ)⁻¹ ^ 53) (Real.sqrt (relErr ((2 : ℝ)⁻¹ ^ 53) 4 / 2)) eps L N ≤ 4e-6) ∧
    (eps ≤ 1e-12 → forceBudget ((2 : ℝ)⁻¹ ^ 53) (relErr ((2 : ℝ)⁻¹ ^ 53) 4 / (1 / 10)) eps L N ≤ 1e-10) := by
  have hu : (0 : ℝ) ≤ (2 : ℝ)⁻¹ ^ 53 := by positivity
  have hu1 : (2 : ℝ)⁻¹ ^ 53 < 1 := by norm_num
  have hgam := gam_double hL
  have hgam0 := Real.exp_pos (relErr ((2 : ℝ)⁻¹ ^ 53) 3 * (2 * Real.log ((2 * L).factorial)))
  have hft := forceTerms_le hL
  have h4 : relErr ((2 : ℝ)⁻¹ ^ 53) 4 ≤ 8 * (2 : ℝ)⁻¹ ^ 53 := by
    have := C112_size hu 4 (by norm_num)
    push_cast at this
    linarith
  have h40 := relErr_nonneg hu hu1 4
  have hL' : (L : ℝ) ≤ 20 := by exact_mod_cast hL
  have hpi := Real.pi_pos
  have hpi' := Real.pi_lt_d2
  refine ⟨?_, ?_, ?_⟩
  · have k1 := rel_double (k := 20 + 7 * L + forceTerms L) (n := 36000) (by omega) (by norm_num)
    have k0 := relErr_nonneg hu hu1 (20 + 7 * L + forceTerms L)
    have k2 : relErr ((2 : ℝ)⁻¹ ^ 53) (20 + 7 * L + forceTerms L) ≤ 8.1e-12 := k1.trans (by norm_num)
    rw [forceErr]
    have : Real.exp (relErr ((2 : ℝ)⁻¹ ^ 53) 3 * (2 * Real.log ((2 * L).factorial))) * (1 + relErr ((2 : ℝ)⁻¹ ^ 53) (20 + 7 * L + forceTerms L)) ≤ (1 + 1e-12) * (1 + 8.1e-12) :=
      mul_le_mul hgam (by linarith) (by linarith) (by norm_num)
    have h9 : (1 + 1e-12 : ℝ) * (1 + 8.1e-12) - 1 ≤ 1e-11 := by norm_num
    linarith
  · intro he
    have k1 := rel_double (k := 13 * L + 30 + forceTerms L + N) (n := 136000) (by omega) (by norm_num)
    have k0 := relErr_nonneg hu hu1 (13 * L + 30 + forceTerms L + N)
    have k2 : relErr ((2 : ℝ)⁻¹ ^ 53) (13 * L + 30 + forceTerms L + N) ≤ 3.1e-11 := k1.trans (by norm_num)
    have hd : Real.sqrt (relErr ((2 : ℝ)⁻¹ ^ 53) 4 / 2) ≤ 2.2e-8 := by
      refine Real.sqrt_le_iff.2 ⟨by norm_num, ?_⟩
      calc relErr ((2 : ℝ)⁻¹ ^ 53) 4 / 2 ≤ 8 * (2 : ℝ)⁻¹ ^ 53 / 2 := by gcongr
        _ ≤ _ := by norm_num
    have hd0 := Real.sqrt_nonneg (relErr ((2 : ℝ)⁻¹ ^ 53) 4 / 2)
    have hE : eps + L * (Real.pi * (Real.sqrt (relErr ((2 : ℝ)⁻¹ ^ 53) 4 / 2) + 8 * (2 : ℝ)⁻¹ ^ 53)) ≤ 1.6e-6 := by
      calc _ ≤ 1e-7 + 20 * (3.15 * (2.2e-8 + 8 * (2 : ℝ)⁻¹ ^ 53)) := by gcongr
        _ ≤ _ := by norm_num
    have hE0 : 0 ≤ eps + L * (Real.pi * (Real.sqrt (relErr ((2 : ℝ)⁻¹ ^ 53) 4 / 2) + 8 * (2 : ℝ)⁻¹ ^ 53)) := by positivity
    rw [forceBudget]
    generalize eps + L * (Real.pi * (Real.sqrt (relErr ((2 : ℝ)⁻¹ ^ 53) 4 / 2) + 8 * (2 : ℝ)⁻¹ ^ 53)) = E at hE hE0
    generalize Real.exp (relErr ((2 : ℝ)⁻¹ ^ 53) 3 * (2 * Real.log ((2 * L).factorial))) = X at hgam hgam0
    have : X * (1 + relErr ((2 : ℝ)⁻¹ ^ 53) (13 * L + 30 + forceTerms L + N)) * (1 + E) ^ 2 ≤ (1 + 1e-12) * (1 + 3.1e-11) * (1 + 1.6e-6) ^ 2 := by gcongr
    have h9 : (1 + 1e-12 : ℝ) * (1 + 3.1e-11) * (1 + 1.6e-6) ^ 2 - 1 ≤ 4e-6 := by norm_num
    linarith
  · intro he
    have k1 := rel_double (k := 13 * L + 30 + forceTerms L + N) (n := 136000) (by omega) (by norm_num)
    have k0 := relErr_nonneg hu hu1 (13 * L + 30 + forceTerms L + N)
    have k2 : relErr ((2 : ℝ)⁻¹ ^ 53) (13 * L + 30 + forceTerms L + N) ≤ 3.1e-11 := k1.trans (by norm_num)
    have hd : relErr ((2 : ℝ)⁻¹ ^ 53) 4 / (1 / 10) ≤ 80 * (2 : ℝ)⁻¹ ^ 53 := by
      rw [div_le_iff₀ (by norm_num)]; linarith
    have hE : eps + L * (Real.pi * (relErr ((2 : ℝ)⁻¹ ^ 53) 4 / (1 / 10) + 8 * (2 : ℝ)⁻¹ ^ 53)) ≤ 3e-12 := by
      calc _ ≤ 1e-12 + 20 * (3.15 * (80 * (2 : ℝ)⁻¹ ^ 53 + 8 * (2 : ℝ)⁻¹ ^ 53)) := by gcongr
        _ ≤ _ := by norm_num
    have hE0 : 0 ≤ eps + L * (Real.pi * (relErr ((2 : ℝ)⁻¹ ^ 53) 4 / (1 / 10) + 8 * (2 : ℝ)⁻¹ ^ 53)) := by positivity
    rw [forceBudget]
    generalize eps + L * (Real.pi * (relErr ((2 : ℝ)⁻¹ ^ 53) 4 / (1 / 10) + 8 * (2 : ℝ)⁻¹ ^ 53)) = E at hE hE0
    generalize Real.exp (relErr ((2 : ℝ)⁻¹ ^ 53) 3 * (2 * Real.log ((2 * L).factorial))) = X at hgam hgam0
    have : X * (1 + relErr ((2 : ℝ)⁻¹ ^ 53) (13 * L + 30 + forceTerms L + N)) * (1 + E) ^ 2 ≤ (1 + 1e-12) * (1 + 3.1e-11) * (1 + 3e-12) ^ 2 := by gcongr
    have h9 : (1 + 1e-12 : ℝ) * (1 + 3.1e-11) * (1 + 3e-12) ^ 2 - 1 ≤ 1e-10 := by norm_num
    linarith

-- a run of the whole chain in correctly rounded double precision, with rows inside radius 2, displaced by 1, and outside radius 4
example : ∃ (q Q : Mom 3) (F : Fin 3 → ℂ), Flt.qmoments ieee53 3 [⟨2, ![1, 0, 1]⟩, ⟨5, ![0, 1, 0]⟩] q ∧ Flt.Qmomentsb ieee53 3 [⟨2, ![3, 4, 1]⟩] Q ∧
    Flt.multipole_force ieee53 q Q 0 0 1 (binRound 53 BIG_G) F ∧ ieee53.op BIG_G (binRound 53 BIG_G) ∧ (2 : ℝ) + modulus ![0, 0, 1] < 4 ∧
    (∀ p ∈ ([⟨2, ![1, 0, 1]⟩, ⟨5, ![0, 1, 0]⟩] : PtArray), originDist p ≤ 2) ∧ ∀ p ∈ ([⟨2, ![3, 4, 1]⟩] : PtArray), 4 ≤ originDist p := by
  have hA : OffOrigin ([⟨2, ![1, 0, 1]⟩, ⟨5, ![0, 1, 0]⟩] : PtArray) := by
    intro p hp hc
    simp only [List.mem_cons, List.not_mem_nil, or_false] at hp
    rcases hp with rfl | rfl
    · have := congrFun hc 0; simp at this
    · have := congrFun hc 1; simp at this
  obtain ⟨q, hq⟩ := (C127_returns (u := (2 : ℝ)⁻¹ ^ 53) (by positivity) (by norm_num) ieee53_accurate ieee53_total (b := 53) (by norm_num) ieee53_nearest 3
    [⟨2, ![1, 0, 1]⟩, ⟨5, ![0, 1, 0]⟩] (by
      intro p hp
      simp only [List.mem_cons, List.not_mem_nil, or_false] at hp
      rcases hp with rfl | rfl
      · exact rep_one (by norm_num)
      · exact rep_zero _)).2 (by rw [qmoments_closed 3 _ (Or.inr hA.originLast)]; rfl)
  obtain ⟨Q, hQ⟩ := C127_outer_returns (u := (2 : ℝ)⁻¹ ^ 53) (by positivity) (by norm_num) ieee53_accurate ieee53_total (b := 53) (by norm_num) ieee53_nearest 3
    [⟨2, ![3, 4, 1]⟩] (by
      intro p hp
      rw [List.mem_singleton] at hp
      subst hp
      exact rep_one (by norm_num))
  obtain ⟨F, hF⟩ := (C129_returns ieee53_total q Q 0 0 1 (binRound 53 BIG_G)).2.2 (by norm_num)
  refine ⟨q, Q, F, hq, hQ, hF, rfl, ?_, ?_, ?_⟩
  · have : modulus ![0, 0, 1] = 1 := by rw [modulus]; simp
    rw [this]; norm_num
  · intro p hp
    simp only [List.mem_cons, List.not_mem_nil, or_false] at hp
    rcases hp with rfl | rfl
    · rw [originDist, Real.sqrt_le_left (by norm_num)]; simp only [Matrix.cons_val]; norm_num
    · rw [originDist, Real.sqrt_le_left (by norm_num)]; simp only [Matrix.cons_val]; norm_num
  · intro p hp
    rw [List.mem_singleton] at hp
    subst hp
    rw [originDist]
    refine Real.le_sqrt_of_sq_le ?_
    simp only [Matrix.cons_val]
    norm_num

end Newt
