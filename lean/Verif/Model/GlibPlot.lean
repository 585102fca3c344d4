import Verif.Model.Glib

/-!
# `newt/glib.py`: what `display_points` draws
-/

namespace Newt.Plot

/-- One call of `ax.scatter`: the positions and sizes of the markers. -/
abbrev Scatter := List (V3 × ℝ)

/-- The four groups of markers in the order of the calls: `(+) mass1`, `(-) mass1`, `(+) mass2`, `(-) mass2`.  newt/glib.py:261-268. -/
structure Figure where
  plus1 : Scatter
  minus1 : Scatter
  plus2 : Scatter
  minus2 : Scatter

/-- `ax.scatter(pm[sel, 1], pm[sel, 2], pm[sel, 3], s=s[sel])` for the selection of the rows whose mass satisfies `sel`
(`np.nonzero`, `np.where` keep the order of the rows).  newt/glib.py:252-268. -/
noncomputable def scatter (pm : PtArray) (sel : ℝ → Bool) (size : ℝ → ℝ) : Scatter :=
  (pm.filter fun p => sel p.mass).map fun p => (p.pos, size p.mass)

/-- The groups of one array.  With `scale_mass` the size is `100*len(pm)*mass` and all the nonzero masses are in the first group; without it
the size is 50.  newt/glib.py:244-260. -/
noncomputable def groups (pm : PtArray) (scale_mass : Bool) : Scatter × Scatter :=
  if scale_mass then (scatter pm (fun m => decide (m ≠ 0)) fun m => 100 * pm.length * m, [])
  else (scatter pm (fun m => decide (0 < m)) fun _ => 50, scatter pm (fun m => decide (m < 0)) fun _ => 50)

/-- `display_points(pm1, pm2, scale_mass)`.  newt/glib.py:222-270.  Simplification: colours, legend and the figure object itself are left out. -/
noncomputable def display_points (pm1 pm2 : PtArray) (scale_mass : Bool) : Figure :=
  ⟨(groups pm1 scale_mass).1, (groups pm1 scale_mass).2, (groups pm2 scale_mass).1, (groups pm2 scale_mass).2⟩

end Newt.Plot
