import Verif.Spec.TorqueRounding

/-!
# Specification: the sizes that the rounding errors of `multipole_force` are measured against
-/

namespace Newt.Spec

/-- `(5/2)^l l! / ((l-|m|)! (l+|m|)!)`, zero for `|m| > l`: times `r^l` it bounds the numbers that occur in the recursion for the regular solid harmonics. -/
noncomputable def solidCoef (l : ℕ) (m : ℤ) : ℝ :=
  if m.natAbs ≤ l then (5 / 2) ^ l * (l.factorial / ((l - m.natAbs).factorial * (l + m.natAbs).factorial)) else 0

/-- The size of the derivatives of the solid harmonics at distance `r` from the origin. -/
noncomputable def gradMaj (r : ℝ) (l : ℕ) (m : ℤ) : ℝ := l * solidCoef l m * r ^ (l - 1)

/-- The force between two sets of moments of the sizes `wq` and `wQ`, displaced by a distance `r`, without regard to sign. -/
noncomputable def grossForceOf (G : ℝ) (L : ℕ) (wq wQ : ℕ → ℤ → ℝ) (r : ℝ) : ℝ :=
  4 * Real.pi * |G| * ∑ lo ∈ Finset.range (L + 1), ∑ mo ∈ Finset.Icc (-(lo : ℤ)) lo, ∑ l ∈ Finset.Icc (lo + 1) L,
    ∑ m ∈ Finset.Icc (mo - (l - lo : ℕ)) (mo + (l - lo : ℕ)), wq lo mo * wQ l m / Real.sqrt ((2 * l + 1) * (2 * lo + 1)) *
      Real.sqrt (((l + m).toNat.factorial * (l - m).toNat.factorial) / ((lo + mo).toNat.factorial * (lo - mo).toNat.factorial)) * gradMaj r (l - lo) (m - mo)

/-- The force between two sets of moments displaced by a distance `r`, without regard to sign. -/
noncomputable def grossForceLM (G : ℝ) {L : ℕ} (q Q : Mom L) (r : ℝ) : ℝ := grossForceOf G L (fun l m => ‖q.get l m‖) (fun l m => ‖Q.get l m‖) r

/-- The number of terms that `multipole_force` adds up. -/
def forceTerms (L : ℕ) : ℕ := ∑ lo ∈ Finset.range (L + 1), (2 * lo + 1) * ∑ j ∈ Finset.range (L - lo), (2 * j + 3)

/-- The relative error of `multipole_force` at degree `L`: `20 + 7 L` roundings in each term, one for each addition, and the logarithms of the
factorials, which are exact to `u` relative to their size before they are subtracted from each other and exponentiated. -/
noncomputable def forceErr (u : ℝ) (L : ℕ) : ℝ := Real.exp (relErr u 3 * (2 * Real.log ((2 * L).factorial))) * (1 + relErr u (20 + 7 * L + forceTerms L)) - 1

/-- The relative error of the whole calculation from `N` rows: the roundings of the moments and of the force (`13 L + 30` in each term, one for each
addition), of the angles of the rows (`d`, `8 u`) and of `sph_harm` (`eps` relative to its largest value). -/
noncomputable def forceBudget (u d eps : ℝ) (L N : ℕ) : ℝ :=
  Real.exp (relErr u 3 * (2 * Real.log ((2 * L).factorial))) * (1 + relErr u (13 * L + 30 + forceTerms L + N)) * (1 + (eps + L * (Real.pi * (d + 8 * u)))) ^ 2 - 1

end Newt.Spec
