import Verif.Model.ReadMulti
import Verif.Spec.Moments

/-!
# Specification vocabulary for the MULTI file readers
-/

namespace Newt.Multi

/-- The position of degree `l`, order `m` in the triangular order `(0,0), (1,0), (1,1), (2,0), ...`. -/
def triIdx (l m : ℕ) : ℕ := l * (l + 1) / 2 + m

/-- The number of `(l, m)` with `0 <= m <= l <= L`. -/
def triCount (L : ℕ) : ℕ := (L + 1) * (L + 2) / 2

/-- A data line holding the complex number `z`: its first two words are the numbers `re z`, `im z`
(anything may follow). -/
def DataLine (num : Str → Option ℝ) (line : Str) (z : ℂ) : Prop :=
  ∃ a b tl, words line = a :: b :: tl ∧ num a = some z.re ∧ num b = some z.im

/-- A header: nine lines, the second starting with the maximum degree. -/
def Header (int : Str → Option ℤ) (hdr : List Str) (L : ℕ) : Prop :=
  hdr.length = 9 ∧ ∃ line w tl, hdr[1]? = some line ∧ words line = w :: tl ∧ int w = some (L : ℤ)

end Newt.Multi
