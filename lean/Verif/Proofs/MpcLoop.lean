import Verif.Proofs.Mpc

/-! # The loop of `read_mpc` consumes the lines -/

namespace Newt.Multi
open Newt.Spec Newt.Qlm MeasureTheory
variable {L : ℕ}

theorem skip_length (n : ℕ) (rest r : List Str) (h : skip n rest = .ok r) : r.length ≤ rest.length := by
  induction n generalizing rest with
  | zero => rw [skip] at h; injection h with h; rw [h]
  | succ n ih =>
    rw [skip] at h
    simp only [bind, Except.bind] at h
    split at h
    · cases h
    · split_ifs at h
      · have := ih _ h; simp at this; omega
      · injection h with h; rw [h]

theorem finish_length (e : Env L) (s s' : St L) (q) (h : finish e s q = .ok s') (hs : s.rest ≠ []) :
    s'.rest.length < s.rest.length := by
  have hpos : 0 < s.rest.length := List.length_pos_iff.2 hs
  rw [finish] at h
  simp only [bind, Except.bind] at h
  repeat' (split at h)
  all_goals first
    | (injection h with h; subst h; simp; omega)
    | cases h

theorem bind_ok {ε α β : Type} {x : Except ε α} {f : α → Except ε β} {r : β} (h : (x >>= f) = .ok r) :
    ∃ a, x = .ok a ∧ f a = .ok r := by
  cases x with
  | error e => cases h
  | ok a => exact ⟨a, rfl, h⟩

theorem step_length (e : Env L) (s s' : St L) (b : Bool) (h : step e s = .ok (s', b)) (hs : s.rest ≠ []) :
    s'.rest.length < s.rest.length := by
  have hpos : 0 < s.rest.length := List.length_pos_iff.2 hs
  have key : ∀ (f : ℝ) (t w : Option (Mom L)) (c d : Bool),
      (Except.ok ((⟨s.rest.drop 1, f, t, w, c⟩ : St L), d) : Except Err _) = .ok (s', b) → s'.rest.length < s.rest.length := by
    intro f t w c d h
    injection h with h
    injection h with h _
    rw [← h]; simp only [List.length_drop]; omega
  rw [step] at h
  obtain ⟨raw, h0, h⟩ := bind_ok h
  extract_lets line next at h
  by_cases c1 : has "create" line
  · rw [if_pos c1] at h
    obtain ⟨after, h1, h⟩ := bind_ok h
    rcases hw : words after with _ | ⟨name, tl⟩
    · rw [hw] at h; cases h
    · rw [hw] at h
      simp only at h
      rcases hmk : makeShape e s.fac s.rest name with _ | mk
      · rw [hmk] at h
        obtain ⟨rest, h2, h⟩ := bind_ok h
        injection h with h
        injection h with h _
        have := skip_length _ _ _ h2
        rw [← h]; simp only [List.length_drop]; omega
      · rw [hmk] at h
        obtain ⟨q, h2, h⟩ := bind_ok h
        obtain ⟨s2, h3, h⟩ := bind_ok h
        injection h with h
        injection h with h _
        rw [← h]
        exact finish_length e _ _ _ h3 hs
  rw [if_neg c1] at h
  by_cases c2 : has "rotate" line
  · rw [if_pos c2] at h
    obtain ⟨txt, h1, h⟩ := bind_ok h
    obtain ⟨v, h2, h⟩ := bind_ok h
    split at h
    · cases h
    · split at h
      · exact key _ _ _ _ _ h
      · cases h
  rw [if_neg c2] at h
  by_cases c3 : has "translate" line
  · rw [if_pos c3] at h
    split at h
    · cases h
    · obtain ⟨txt, h1, h⟩ := bind_ok h
      obtain ⟨v, h2, h⟩ := bind_ok h
      obtain ⟨q, h3, h⟩ := bind_ok h
      exact key _ _ _ _ _ h
  rw [if_neg c3] at h
  by_cases c4 : has "add" line
  · rw [if_pos c4] at h
    split at h
    · cases h
    · exact key _ _ _ _ _ h
  rw [if_neg c4] at h
  by_cases c5 : has "cmin" line
  · rw [if_pos c5] at h; exact key _ _ _ _ _ h
  rw [if_neg c5] at h
  by_cases c6 : has "inchin" line
  · rw [if_pos c6] at h; exact key _ _ _ _ _ h
  rw [if_neg c6] at h
  by_cases c7 : has "nsteps" line
  · rw [if_pos c7] at h; exact key _ _ _ _ _ h
  rw [if_neg c7] at h
  by_cases c8 : has "load" line
  · rw [if_pos c8] at h
    obtain ⟨txt, h1, h⟩ := bind_ok h
    extract_lets fname at h
    split at h
    · cases h
    · obtain ⟨r, h2, h⟩ := bind_ok h
      split at h
      · exact key _ _ _ _ _ h
      · cases h
  rw [if_neg c8] at h
  by_cases c9 : has "zeroqlm" line
  · rw [if_pos c9] at h; exact key _ _ _ _ _ h
  rw [if_neg c9] at h
  by_cases c10 : has "gettotal" line
  · rw [if_pos c10] at h; exact key _ _ _ _ _ h
  rw [if_neg c10] at h
  by_cases c11 : has "puttotal" line
  · rw [if_pos c11] at h; exact key _ _ _ _ _ h
  rw [if_neg c11] at h
  by_cases c12 : has "end" line
  · rw [if_pos c12] at h; exact key _ _ _ _ _ h
  rw [if_neg c12] at h
  exact key _ _ _ _ _ h

theorem loop_fuel (e : Env L) (n m : ℕ) (s : St L) (h : s.rest.length ≤ n) (h' : s.rest.length ≤ m) :
    loop e n s = loop e m s := by
  induction n generalizing m s with
  | zero =>
    have h0 : s.rest = [] := by simpa using h
    cases m with
    | zero => rfl
    | succ m => rw [loop, loop, if_pos h0]
  | succ n ih =>
    by_cases h0 : s.rest = []
    · cases m with
      | zero => rw [loop, loop, if_pos h0]
      | succ m => rw [loop, loop, if_pos h0, if_pos h0]
    · cases m with
      | zero => exact absurd (by simpa using h') h0
      | succ m =>
        rw [loop, loop, if_neg h0, if_neg h0]
        rcases hst : step e s with er | ⟨s', b⟩
        · rfl
        · have hl := step_length e s s' b hst h0
          simp only [Except.ok_bind]
          split_ifs
          · rfl
          · exact ih m s' (by omega) (by omega)
end Newt.Multi
