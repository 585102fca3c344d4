import Mathlib.Data.Complex.Basic
import Mathlib.Tactic

/-!
# Multipole-moment arrays

A moment array of maximum degree `L` is an `(L+1) x (2L+1)` complex ndarray; the Python cell
`q[l, L+m]` is `q.get l m`.
-/

namespace Newt

/-- An `(L+1) x (2L+1)` complex array (`np.zeros([L+1, 2*L+1], dtype='complex')` and friends),
newt/pg2Multi.py:125, newt/translations.py:45. -/
@[ext] structure Mom (L : ℕ) where
  cell : Fin (L + 1) → Fin (2 * L + 1) → ℂ

namespace Mom

variable {L : ℕ}

/-- The Python cell `q[l, L+m]`, for `l <= L` and `|m| <= L`; by convention `0` outside the array
(the model never reads outside it unless this is noted). -/
noncomputable def get (q : Mom L) (l : ℕ) (m : ℤ) : ℂ :=
  if h : l ≤ L ∧ m.natAbs ≤ L then
    q.cell ⟨l, by omega⟩ ⟨(L + m).toNat, by omega⟩
  else 0

/-- The array whose cell `[l, L+m]` is `f l m`. -/
def ofFn (L : ℕ) (f : ℕ → ℤ → ℂ) : Mom L := ⟨fun i j => f i ((j : ℤ) - L)⟩

theorem get_ofFn (f : ℕ → ℤ → ℂ) {l : ℕ} {m : ℤ} (hl : l ≤ L) (hm : m.natAbs ≤ L) :
    (ofFn L f).get l m = f l m := by
  simp only [get, ofFn, hl, hm, and_self, dite_true]
  congr 1
  omega

theorem get_out (q : Mom L) {l : ℕ} {m : ℤ} (h : ¬ (l ≤ L ∧ m.natAbs ≤ L)) : q.get l m = 0 := by
  simp [get, h]

theorem ext_get {p q : Mom L}
    (h : ∀ l m, l ≤ L → m.natAbs ≤ L → p.get l m = q.get l m) : p = q := by
  ext i j
  have h1 : (i : ℕ) ≤ L := by omega
  have h2 : ((j : ℤ) - L).natAbs ≤ L := by omega
  have := h i ((j : ℤ) - L) h1 h2
  simp only [get, h1, h2, and_self, dite_true] at this
  convert this using 2 <;> · ext; simp

/-- The block that ends every moment routine (newt/pg2Multi.py:142-146 and the copies in
newt/translations.py, newt/qlm.py, newt/multipoleLib.py):
`q += conj(fliplr(q)) * (-1)**abs(ms); q[:, L] /= 2`. -/
noncomputable def fillNeg (q : Mom L) : Mom L :=
  ofFn L fun l m =>
    let v := q.get l m + (starRingEnd ℂ) (q.get l (-m)) * (-1) ^ m.natAbs
    if m = 0 then v / 2 else v

theorem get_fillNeg (q : Mom L) {l : ℕ} {m : ℤ} (hl : l ≤ L) (hm : m.natAbs ≤ L) :
    q.fillNeg.get l m =
      let v := q.get l m + (starRingEnd ℂ) (q.get l (-m)) * (-1) ^ m.natAbs
      if m = 0 then v / 2 else v := get_ofFn _ hl hm

end Mom

end Newt
