import Verif.Proofs.MpcLoop

/-!
# C40: `read_mpc`

`Renders` (Spec/Mpc.lean) says which statements the lines of a file stand for, `exec` what the
statements do to the total and the working body.
-/

namespace Newt.Multi

open Newt.Spec Newt.Qlm MeasureTheory

variable {L : ℕ}

theorem loop_cons (e : Env L) (n : ℕ) (line : Str) (rest : List Str) (fac : ℝ) (tot wrk : Option (Mom L)) (b : Bool)
    {s' : St L} {stop : Bool} (h : step e ⟨line :: rest, fac, tot, wrk, b⟩ = .ok (s', stop)) :
    loop e (n + 1) ⟨line :: rest, fac, tot, wrk, b⟩ = if stop then .ok s' else loop e n s' := by
  rw [loop, if_neg (by simp), h]; rfl

theorem inner_filled_zero (rho : ℝ) (S : Set V3) (hS : IsCompact S) :
    Mom.ofFn L ((Body.filled rho S hS).translate 0).inner = Mom.ofFn L (Body.filled rho S hS).inner := by
  apply Mom.ext_get
  intro l m hl hm
  rw [Mom.get_ofFn _ hl hm, Mom.get_ofFn _ hl hm]
  exact inner_filled_translate rho S S hS hS 0 (by simp) l m

theorem loop_renders (e : Env L) {fac : ℝ} {bound : Bool} {lines : List Str} {prog : List Stmt}
    (h : Renders e fac bound lines prog) : 0 < fac → ∀ n, lines.length ≤ n → ∀ tot wrk : Body,
      ∃ s, loop e n ⟨lines, fac, some (Mom.ofFn L tot.inner), some (Mom.ofFn L wrk.inner), bound⟩ = .ok s ∧
        s.tot = some (Mom.ofFn L (exec prog (tot, wrk)).inner) := by
  induction h with
  | nil fac bound =>
    intro _ n _ tot wrk
    refine ⟨⟨[], fac, some (Mom.ofFn L tot.inner), some (Mom.ofFn L wrk.inner), bound⟩, ?_, rfl⟩
    cases n <;> simp [loop]
  | stop fac bound line rest h =>
    intro hf n hn tot wrk
    obtain ⟨n, rfl⟩ : ∃ k, n = k + 1 := ⟨n - 1, by simp at hn; omega⟩
    rw [loop_cons e n _ _ _ _ _ _ (step_end e line rest fac _ _ bound h)]
    exact ⟨_, rfl, rfl⟩
  | other fac bound line rest prog h hr ih =>
    intro hf n hn tot wrk
    obtain ⟨n, rfl⟩ : ∃ k, n = k + 1 := ⟨n - 1, by simp at hn; omega⟩
    rw [loop_cons e n _ _ _ _ _ _ (step_none e line rest fac _ _ bound h)]
    exact ih hf n (by simpa using hn) tot wrk
  | cm fac bound line rest prog h hr ih =>
    intro hf n hn tot wrk
    obtain ⟨n, rfl⟩ : ∃ k, n = k + 1 := ⟨n - 1, by simp at hn; omega⟩
    rw [loop_cons e n _ _ _ _ _ _ (step_cm e line rest fac _ _ bound h)]
    exact ih (by norm_num) n (by simpa using hn) tot wrk
  | inch fac bound line rest prog h hr ih =>
    intro hf n hn tot wrk
    obtain ⟨n, rfl⟩ : ∃ k, n = k + 1 := ⟨n - 1, by simp at hn; omega⟩
    rw [loop_cons e n _ _ _ _ _ _ (step_inch e line rest fac _ _ bound h)]
    exact ih (by norm_num) n (by simpa using hn) tot wrk
  | rotate fac line rest prog txt a b c h ha hn' hr ih =>
    intro hf n hn tot wrk
    obtain ⟨n, rfl⟩ : ∃ k, n = k + 1 := ⟨n - 1, by simp at hn; omega⟩
    rw [loop_cons e n _ _ _ _ _ _ (step_rotate e line rest fac _ _ txt a b c h ha hn')]
    simp only [rotateO, Option.bind_some, C56_rotate]
    exact ih hf n (by simpa using hn) tot _
  | translate fac line rest prog txt x y z h ha hn' hr ih =>
    intro hf n hn tot wrk
    obtain ⟨n, rfl⟩ : ∃ k, n = k + 1 := ⟨n - 1, by simp at hn; omega⟩
    rw [loop_cons e n _ _ _ _ _ _ (step_translate e line rest fac _ _ txt x y z h ha hn')]
    simp only [Option.map_some, C56_translate]
    exact ih hf n (by simpa using hn) tot _
  | add fac line rest prog h hr ih =>
    intro hf n hn tot wrk
    obtain ⟨n, rfl⟩ : ∃ k, n = k + 1 := ⟨n - 1, by simp at hn; omega⟩
    rw [loop_cons e n _ _ _ _ _ _ (step_add e line rest fac _ _ h)]
    simp only [addO, Option.bind_some, Option.map_some, madd_inner]
    exact ih hf n (by simpa using hn) (tot ++ wrk) wrk
  | zero fac bound line rest prog h hr ih =>
    intro hf n hn tot wrk
    obtain ⟨n, rfl⟩ : ∃ k, n = k + 1 := ⟨n - 1, by simp at hn; omega⟩
    rw [loop_cons e n _ _ _ _ _ _ (step_zero e line rest fac _ _ bound h)]
    have e0 : (Mom.ofFn L fun _ _ => 0) = Mom.ofFn L (Body.inner []) := by
      congr
    simp only [Option.map_some, e0]
    exact ih hf n (by simpa using hn) [] wrk
  | get fac bound line rest prog h hr ih =>
    intro hf n hn tot wrk
    obtain ⟨n, rfl⟩ : ∃ k, n = k + 1 := ⟨n - 1, by simp at hn; omega⟩
    rw [loop_cons e n _ _ _ _ _ _ (step_get e line rest fac _ _ bound h)]
    exact ih hf n (by simpa using hn) tot tot
  | put fac bound line rest prog h hr ih =>
    intro hf n hn tot wrk
    obtain ⟨n, rfl⟩ : ∃ k, n = k + 1 := ⟨n - 1, by simp at hn; omega⟩
    rw [loop_cons e n _ _ _ _ _ _ (step_put e line rest fac _ _ bound h)]
    exact ih hf n (by simpa using hn) wrk wrk
  | load fac bound line rest prog txt fname lines b h ha hf0 hf1 hf2 hm hq hr ih =>
    intro hf n hn tot wrk
    obtain ⟨n, rfl⟩ : ∃ k, n = k + 1 := ⟨n - 1, by simp at hn; omega⟩
    rw [loop_cons e n _ _ _ _ _ _ (step_load e line rest fac _ _ bound txt fname lines _ h ha hf0 hf1 hf2 hm hq)]
    exact ih hf n (by simpa using hn) tot b
  | unknown fac bound l0 mid line rest prog txt name tl h ha hw hname hmid hline hr ih =>
    intro hf n hn tot wrk
    obtain ⟨n, rfl⟩ : ∃ k, n = k + 1 := ⟨n - 1, by simp at hn; omega⟩
    rw [loop_cons e n _ _ _ _ _ _ (step_unknown e fac _ _ bound l0 mid line rest txt name tl h ha hw hname hmid hline)]
    exact ih hf n (by simp at hn ⊢; omega) tot wrk
  | create fac bound l0 l1 l2 l3 rest prog txt name tl vals S hS dens x y z h ha hw hv hS' hd hp hnext hr ih =>
    intro hf n hn tot wrk
    obtain ⟨n, rfl⟩ : ∃ k, n = k + 1 := ⟨n - 1, by simp at hn; omega⟩
    have hst := step_create e fac hf (some (Mom.ofFn L tot.inner)) (some (Mom.ofFn L wrk.inner)) bound l0 l1 l2 l3 rest
      txt name tl vals S hS dens x y z h ha hw hv hS' hd
    have h3 : nth (l0 :: l1 :: l2 :: l3 :: rest) 3 = .ok l3 := rfl
    have hzero : (∀ a ∈ [x * fac, y * fac, z * fac], a = 0) ↔ x = 0 ∧ y = 0 ∧ z = 0 := by
      simp [hf.ne']
    have tr : translateO (some (Mom.ofFn L (Body.filled (dens * 1000) S hS).inner)) [x * fac, y * fac, z * fac]
        = .ok (some (Mom.ofFn L ((Body.filled (dens * 1000) S hS).translate ![x * fac, y * fac, z * fac]).inner)) := by
      simp [translateO, C56_translate]
    rw [finish] at hst
    simp only [h3, Except.ok_bind, floats_ok hp, List.map_cons, List.map_nil, hzero] at hst
    have hlen : rest.length ≤ n := by simp at hn; omega
    by_cases h0 : x = 0 ∧ y = 0 ∧ z = 0
    · obtain ⟨line, more, rfl, hadd⟩ := hnext h0
      have h4 : nth (l0 :: l1 :: l2 :: l3 :: line :: more) 4 = .ok line := rfl
      simp only [if_pos h0, h4, Except.ok_bind] at hst
      by_cases ha' : has "add" line
      · rw [if_pos ha'] at hst
        rw [loop_cons e n _ _ _ _ _ _ hst]
        have hv0 : (![x * fac, y * fac, z * fac] : V3) = 0 := by
          rw [h0.1, h0.2.1, h0.2.2]; funext i; fin_cases i <;> simp
        obtain ⟨s, hs, hs'⟩ := ih hf (n + 1) (by omega) tot
          ((Body.filled (dens * 1000) S hS).translate ![x * fac, y * fac, z * fac])
        refine ⟨s, ?_, hs'⟩
        rw [hv0, inner_filled_zero, loop_cons e n _ _ _ _ _ _ (step_add e line more fac _ _ (hadd ha'))] at hs
        simp only [Bool.false_eq_true, if_false] at hs ⊢
        simp only [List.drop_succ_cons, List.drop_zero]
        exact hs
      · rw [if_neg ha', tr] at hst
        rw [loop_cons e n _ _ _ _ _ _ hst]
        exact ih hf n hlen tot _
    · rw [if_neg h0, tr] at hst
      rw [loop_cons e n _ _ _ _ _ _ hst]
      exact ih hf n hlen tot _

/-- Every file that says a program yields the moments of the body the program builds. -/
theorem C40_program (e : Env L) (title : Str) (lines : List Str) (prog : List Stmt)
    (h : Renders e (1 / 100) false lines prog) :
    read_mpc e (title :: lines) = .ok (some (Mom.ofFn L (exec prog ([], [])).inner)) := by
  obtain ⟨s, hs, hs'⟩ := loop_renders e h (by norm_num) (lines.length + 1) (by omega) [] []
  have e0 : (Mom.ofFn L fun _ _ => 0) = Mom.ofFn L (Body.inner []) := by congr
  have hn : nth (title :: lines) 0 = .ok title := rfl
  rw [read_mpc, hn]
  simp only [Except.ok_bind, List.length_cons, List.drop_one, List.tail_cons, e0, hs, hs']

/-- The reader's loop ends on every file: each pass shortens the remaining lines, and giving the loop
more passes than there are lines changes nothing (neither result nor exception). -/
theorem C40_terminates (e : Env L) :
    (∀ s s' b, step e s = .ok (s', b) → s.rest ≠ [] → s'.rest.length < s.rest.length) ∧
      ∀ n s, s.rest.length ≤ n → loop e n s = loop e s.rest.length s :=
  ⟨fun s s' b h hs => step_length e s s' b h hs, fun n s h => loop_fuel e n _ s h le_rfl⟩

/-! ## Where the reader departs from what the file says -/

theorem loop_error (e : Env L) (n : ℕ) (line : Str) (rest : List Str) (fac : ℝ) (tot wrk : Option (Mom L)) (b : Bool)
    {er : Err} (h : step e ⟨line :: rest, fac, tot, wrk, b⟩ = .error er) :
    loop e (n + 1) ⟨line :: rest, fac, tot, wrk, b⟩ = .error er := by
  rw [loop, if_neg (by simp), h]; rfl

theorem loop_nil (e : Env L) (n : ℕ) (s : St L) (h : s.rest = []) : loop e n s = .ok s := by
  cases n with
  | zero => rfl
  | succ n => rw [loop, if_pos h]

theorem loop_comments (e : Env L) (pre rest : List Str) (hpre : ∀ l ∈ pre, command l = none) (n : ℕ) (fac : ℝ)
    (tot wrk : Option (Mom L)) (b : Bool) :
    loop e (pre.length + n) ⟨pre ++ rest, fac, tot, wrk, b⟩ = loop e n ⟨rest, fac, tot, wrk, b⟩ := by
  induction pre with
  | nil => simp
  | cons l pre ih =>
    rw [List.length_cons, Nat.add_right_comm, List.cons_append,
      loop_cons e _ _ _ _ _ _ _ (step_none e l _ fac tot wrk b (Or.inl (hpre l List.mem_cons_self)))]
    exact ih fun l hl => hpre l (List.mem_cons_of_mem _ hl)

theorem read_start (e : Env L) (title : Str) (pre rest : List Str) (hpre : ∀ l ∈ pre, command l = none) :
    read_mpc e (title :: (pre ++ rest)) = (do
      let s ← loop e (rest.length + 1) ⟨rest, 1 / 100, some (Mom.ofFn L fun _ _ => 0), some (Mom.ofFn L fun _ _ => 0), false⟩
      .ok s.tot) := by
  have hn : nth (title :: (pre ++ rest)) 0 = .ok title := rfl
  rw [read_mpc, hn]
  simp only [Except.ok_bind, List.length_cons, List.drop_one, List.tail_cons, List.length_append, add_assoc]
  rw [loop_comments e pre rest hpre]

/-- `add` or `translate` before any `create`, `load`, `gettotal` or `puttotal` raises
`UnboundLocalError` (the message printed names a shape that does not exist yet). -/
theorem C40_add_first (e : Env L) (title : Str) (pre rest : List Str) (line : Str)
    (hpre : ∀ l ∈ pre, command l = none) (h : command line = some "add" ∨ command line = some "translate") :
    read_mpc e (title :: (pre ++ line :: rest)) = .error .unboundLocal := by
  rw [read_start e title pre _ hpre, loop_error (er := .unboundLocal)]
  · rfl
  rcases h with h | h
  · obtain ⟨h1, h⟩ := command_some h
    simp only [step, nth_zero, Except.ok_bind]
    simp only [h "create" (by decide), h "rotate" (by decide), h "translate" (by decide), h1, if_false, if_true]
  · obtain ⟨h1, h⟩ := command_some h
    simp only [step, nth_zero, Except.ok_bind]
    simp only [h "create" (by decide), h "rotate" (by decide), h1, if_false, if_true]

/-- The same for `rotate`. -/
theorem C40_rotate_first (e : Env L) (title : Str) (pre rest : List Str) (line txt : Str) (v : List ℝ)
    (hpre : ∀ l ∈ pre, command l = none) (h : command line = some "rotate") (ha : Args line "rotate" txt)
    (hv : Numbers e.num txt v) :
    read_mpc e (title :: (pre ++ line :: rest)) = .error .unboundLocal := by
  rw [read_start e title pre _ hpre, loop_error (er := .unboundLocal)]
  · rfl
  obtain ⟨h1, h⟩ := command_some h
  simp only [step, nth_zero, Except.ok_bind]
  simp only [h "create" (by decide), h1, if_false, if_true, between_ok ha (by decide), Except.ok_bind, floats_ok hv]

/-- An unknown shape with neither `create` nor `end` in any later line raises `IndexError`, even if the lines
are otherwise in order. -/
theorem C40_unknown_last (e : Env L) (title : Str) (pre : List Str) (l0 : Str) (mid : List Str) (txt name : Str)
    (tl : List Str) (hpre : ∀ l ∈ pre, command l = none) (h : command l0 = some "create") (ha : Args l0 "create" txt)
    (hw : words txt = name :: tl) (hname : ∀ k ∈ knownShapes, name ≠ k.toList)
    (hmid : ∀ l ∈ mid, ¬ has "create" l ∧ ¬ has "end" l) :
    read_mpc e (title :: (pre ++ l0 :: mid)) = .error .indexError := by
  rw [read_start e title pre _ hpre, loop_error (er := .indexError)]
  · rfl
  exact step_unknown_end e _ _ _ _ l0 mid txt name tl h ha hw hname hmid

section block

variable (e : Env L) (title l0 l1 l2 l3 : Str) (txt : Str) (name : String) (tl : List Str) (vals : List ℝ) (S : Set V3)
  (hS : IsCompact S) (dens : ℝ) (h : command l0 = some "create") (ha : Args l0 "create" txt)
  (hw : words txt = name.toList :: tl) (hv : Numbers e.num l1 vals) (hd : FirstNumber e.num l2 dens)

include h ha hw hv hd

/-- A shape created at the origin in the last lines of a file raises `IndexError`, although nothing
is missing from the block. -/
theorem C40_create_last (hS' : Makes L (1 / 100) name vals S) (hp : Numbers e.num l3 [0, 0, 0]) :
    read_mpc e [title, l0, l1, l2, l3] = .error .indexError := by
  have hS : IsCompact S := by
    cases hS' with
    | cylinder => exact prism_compact _ _ (sector_compact _ _ _ _)
    | sphere => exact ball_compact _
    | cone LR H h1 => exact coneOver_compactV _ _ (disc_compact _ (by positivity))
    | triangle => exact prism_compact _ _ (triangle_compact _ _)
    | trapezoid w1 w2 h t h1 h2 h3 h4 => exact prism_compact _ _ (trapezoid_compact _ _ _ (by positivity))
    | partcylinder r d h h1 h2 => exact prism_compact _ _ (segment_compact _ _ (by nlinarith))
    | tetrahedron => exact coneOver_compactV _ _ (triangle_compact _ _)
    | platehole r t theta h0 h1 h2 h3 h4 =>
      have hpi := Real.pi_pos
      exact slab_compact _ _ _ (by positivity) (by positivity)
        (Real.cos_pos_of_mem_Ioo ⟨by nlinarith, by nlinarith⟩)
    | cylhole r R h1 h2 => exact ycyl_compact _ _ (by positivity) (by gcongr)
    | pyramid => exact coneOver_compactV _ _ (rectangle_compact _ _)
    | box => exact prism_compact _ _ (rectangle_compact _ _)
  have hst := step_create e (1 / 100) (by norm_num) (some (Mom.ofFn L fun _ _ => 0)) (some (Mom.ofFn L fun _ _ => 0)) false
    l0 l1 l2 l3 [] txt name tl vals S hS dens 0 0 0 h ha hw hv hS' hd
  have h3 : nth [l0, l1, l2, l3] 3 = .ok l3 := rfl
  have h4 : nth [l0, l1, l2, l3] 4 = .error .indexError := rfl
  rw [finish] at hst
  simp only [h3, Except.ok_bind, floats_ok hp, List.map_cons, List.map_nil, h4] at hst
  rw [if_pos (by simp)] at hst
  have := read_start e title [] [l0, l1, l2, l3] (by simp)
  rw [List.nil_append] at this
  rw [this, loop_error e _ _ _ _ _ _ _ hst]
  rfl

/-- The word `add` in a comment is obeyed on the line after a shape created at the origin: the shape is
added although the file does not say so. -/
theorem C40_add_in_comment (hS' : Makes L (1 / 100) name vals S) (hp : Numbers e.num l3 [0, 0, 0]) (line : Str)
    (hadd : has "add" line) :
    read_mpc e [title, l0, l1, l2, l3, line] = .ok (some (Mom.ofFn L (Body.filled (dens * 1000) S hS).inner)) := by
  have hst := step_create e (1 / 100) (by norm_num) (some (Mom.ofFn L fun _ _ => 0)) (some (Mom.ofFn L fun _ _ => 0)) false
    l0 l1 l2 l3 [line] txt name tl vals S hS dens 0 0 0 h ha hw hv hS' hd
  have h3 : nth [l0, l1, l2, l3, line] 3 = .ok l3 := rfl
  have h4 : nth [l0, l1, l2, l3, line] 4 = .ok line := rfl
  rw [finish] at hst
  simp only [h3, Except.ok_bind, floats_ok hp, List.map_cons, List.map_nil, h4] at hst
  rw [if_pos (by simp), if_pos hadd] at hst
  have := read_start e title [] [l0, l1, l2, l3, line] (by simp)
  rw [List.nil_append] at this
  have e0 : (Mom.ofFn L fun _ _ => 0) = Mom.ofFn L (Body.inner []) := by congr
  rw [this, loop_cons e _ _ _ _ _ _ _ hst]
  simp only [Bool.false_eq_true, if_false, List.drop_succ_cons, List.drop_zero]
  rw [loop_nil e _ _ rfl]
  simp only [Except.ok_bind, addO, Option.bind_some, Option.map_some, e0, madd_inner, List.nil_append]

end block

/-! ### Single blocks -/

theorem read_block (e : Env L) (title l0 l1 l2 l3 line : Str) (txt : Str) (name : String) (tl : List Str)
    (h : command l0 = some "create") (ha : Args l0 "create" txt)
    (hw : words txt = name.toList :: tl) (q : Option (Mom L))
    (hmk : makeShape e (1 / 100) [l0, l1, l2, l3, line] name.toList = some (.ok q))
    (hp : Numbers e.num l3 [0, 0, 0]) (hadd : has "add" line) :
    read_mpc e [title, l0, l1, l2, l3, line] = .ok (addO (some (Mom.ofFn L fun _ _ => 0)) q) := by
  obtain ⟨h1, h⟩ := command_some h
  have hst : step e ⟨[l0, l1, l2, l3, line], 1 / 100, some (Mom.ofFn L fun _ _ => 0), some (Mom.ofFn L fun _ _ => 0), false⟩
      = .ok (⟨[], 1 / 100, addO (some (Mom.ofFn L fun _ _ => 0)) q, q, true⟩, false) := by
    simp only [step, nth_zero, Except.ok_bind]
    simp only [h1, if_true, between_ok ha (by decide), Except.ok_bind, hw, hmk, finish]
    have h3 : nth [l0, l1, l2, l3, line] 3 = .ok l3 := rfl
    have h4 : nth [l0, l1, l2, l3, line] 4 = .ok line := rfl
    simp only [h3, h4, Except.ok_bind, floats_ok hp, List.map_cons, List.map_nil]
    rw [if_pos (by simp), if_pos hadd]
    rfl
  have := read_start e title [] [l0, l1, l2, l3, line] (by simp)
  rw [List.nil_append] at this
  rw [this, loop_cons e _ _ _ _ _ _ _ hst]
  simp only [Bool.false_eq_true, if_false]
  rw [loop_nil e _ _ rfl]
  rfl

theorem addO_zero (b : Body) : addO (some (Mom.ofFn L fun _ _ => 0)) (some (Mom.ofFn L b.inner))
    = some (Mom.ofFn L b.inner) := by
  have e0 : (Mom.ofFn L fun _ _ => 0) = Mom.ofFn L (Body.inner []) := by congr
  simp only [addO, Option.bind_some, Option.map_some, e0, madd_inner, List.nil_append]

section single

variable (e : Env L) (title l0 l1 l2 l3 line : Str) (txt : Str) (tl : List Str) (dens : ℝ)
  (h : command l0 = some "create") (ha : Args l0 "create" txt) (hd : FirstNumber e.num l2 dens)
  (hp : Numbers e.num l3 [0, 0, 0]) (hadd : has "add" line)

include h ha hd hp hadd

/-- The upper radius of a cone is read and ignored: a frustum comes out as the full cone with apex at
the given height. -/
theorem C40_cone_ignores_top (hw : words txt = "cone".toList :: tl) (LR UR H : ℝ) (h1 : 0 < LR) (h2 : 0 < H)
    (hv : Numbers e.num l1 [LR, UR, H]) (hS : IsCompact (coneOver (H * (1 / 100)) (disc (LR * (1 / 100))))) :
    read_mpc e [title, l0, l1, l2, l3, line] = .ok (some (Mom.ofFn L (Body.filled (dens * 1000) _ hS).inner)) := by
  rw [read_block e title l0 l1 l2 l3 line txt "cone" tl h ha hw _
    (make_cone e (1 / 100) (by norm_num) l0 l1 l2 [l3, line] dens hd LR H h1 h2 UR hv hS) hp hadd, addO_zero]

/-- A triangle that extends towards negative `x` (`d < 0`) is added with negative density. -/
theorem C40_triangle_negative (hw : words txt = "triangle".toList :: tl) (d y1 y2 t : ℝ) (h1 : d < 0) (h2 : y1 ≠ y2)
    (h3 : 0 < t) (hv : Numbers e.num l1 [d, y1, y2, t])
    (hS : IsCompact (prism (t * (1 / 100)) (triangle (d * (1 / 100), y1 * (1 / 100)) (d * (1 / 100), y2 * (1 / 100))))) :
    read_mpc e [title, l0, l1, l2, l3, line] = .ok (some (Mom.ofFn L (Body.filled (-(dens * 1000)) _ hS).inner)) := by
  set fac : ℝ := 1 / 100 with hf
  have hfac : 0 < fac := by rw [hf]; norm_num
  have ht : 0 < t * fac := by positivity
  have hd' : d * fac < 0 := mul_neg_of_neg_of_pos h1 hfac
  have hy : y1 * fac ≠ y2 * fac := fun h => h2 (mul_right_cancel₀ hfac.ne' h)
  have harea : (volume (triangle (d * fac, y1 * fac) (d * fac, y2 * fac))).toReal
      = -(d * fac) * |y2 * fac - y1 * fac| / 2 := by
    have : triangle (d * fac, y1 * fac) (d * fac, y2 * fac)
        = rotated Real.pi (triangle (-(d * fac), -(y1 * fac)) (-(d * fac), -(y2 * fac))) := by
      ext p
      simp only [triangle, rotated, Set.mem_setOf_eq, Real.cos_pi, Real.sin_pi]
      constructor
      · rintro ⟨s, t, a, b, c, e1, e2⟩
        exact ⟨(-p.1, -p.2), ⟨s, t, a, b, c, by simp [e1]; ring, by simp [e2]; ring⟩, by simp, by simp⟩
      · rintro ⟨q, ⟨s, t, a, b, c, e1, e2⟩, e3, e4⟩
        refine ⟨s, t, a, b, c, ?_, ?_⟩
        · rw [e3, e1]; ring
        · rw [e4, e2]; ring
    rw [this, vol_rotated, area_tri _ _ _ (by linarith), show -(y2 * fac) - -(y1 * fac) = -(y2 * fac - y1 * fac) by ring,
      abs_neg]
  have hmk : makeShape e fac [l0, l1, l2, l3, line] "triangle".toList
      = some (.ok (some (Mom.ofFn L (Body.filled (-(dens * 1000)) _ hS).inner))) := by
    rw [makeShape, if_neg (by decide), if_neg (by decide), if_neg (by decide), if_pos rfl, params_bind _ hv]
    simp only [List.map_cons, List.map_nil]
    rw [density_bind _ hd, C36_tri_prism L _ _ _ _ _ ht hd'.ne hy, Option.some.injEq]
    have hvol := prism_vol _ ht (triangle (d * fac, y1 * fac) (d * fac, y2 * fac))
    rw [harea] at hvol
    have : 0 < |y2 * fac - y1 * fac| := abs_pos.2 (sub_ne_zero.2 hy.symm)
    apply ofRes_filled
    · rw [hvol]
      have : 0 < -(d * fac) := by linarith
      positivity
    · rw [hvol]; ring
  rw [read_block e title l0 l1 l2 l3 line txt "triangle" tl h ha hw _ hmk hp hadd, addO_zero]

omit hp hadd in
/-- A trapezoid with equal parallel sides (a rectangle) raises `ZeroDivisionError`. -/
theorem C40_trapezoid_equal (hw : words txt = "trapezoid".toList :: tl) (w hh t : ℝ)
    (hv : Numbers e.num l1 [w, w, hh, t]) :
    read_mpc e [title, l0, l1, l2, l3, line] = .error .zeroDivision := by
  have hmk : makeShape e (1 / 100) [l0, l1, l2, l3, line] "trapezoid".toList = some (.error .zeroDivision) := by
    rw [makeShape, if_neg (by decide), if_neg (by decide), if_neg (by decide), if_neg (by decide), if_pos rfl,
      params_bind _ hv]
    simp only [List.map_cons, List.map_nil]
    rw [density_bind _ hd]
    simp
  obtain ⟨h1, h⟩ := command_some h
  have hst : step e ⟨[l0, l1, l2, l3, line], 1 / 100, some (Mom.ofFn L fun _ _ => 0), some (Mom.ofFn L fun _ _ => 0), false⟩
      = .error .zeroDivision := by
    simp only [step, nth_zero, Except.ok_bind]
    simp only [h1, if_true, between_ok ha (by decide), Except.ok_bind, hw, hmk]
    rfl
  have := read_start e title [] [l0, l1, l2, l3, line] (by simp)
  rw [List.nil_append] at this
  rw [this, loop_error e _ _ _ _ _ _ _ hst]
  rfl

/-- A `platehole` has moments of degree at most 5: whatever the degree asked for, the cells of degree 6 and
more are zero, the others are those of the region drilled out of the plate.  The tilt is given in degrees and
does not depend on the unit of length. -/
theorem C40_platehole_degree (hw : words txt = "platehole".toList :: tl) (r t theta : ℝ) (h1 : 0 < r) (h2 : 0 < t)
    (h3 : -90 < theta) (h4 : theta < 90) (hv : Numbers e.num l1 [r, t, theta]) :
    read_mpc e [title, l0, l1, l2, l3, line] = .ok (some (Mom.ofFn L fun l m => if l ≤ 5 then
      densityInner (dens * 1000) (drilledSlab (t * (1 / 100)) (r * (1 / 100)) (theta * (Real.pi / 180))) l m else 0)) := by
  have hpi := Real.pi_pos
  have hth : |theta * (Real.pi / 180)| < Real.pi / 2 := abs_lt.2 ⟨by nlinarith, by nlinarith⟩
  rw [read_block e title l0 l1 l2 l3 line txt "platehole" tl h ha hw _ (by
    rw [make_platehole e (1 / 100) (by norm_num) l0 l1 l2 [l3, line] dens hd r t theta hv,
      C68_platehole L _ _ _ _ (by positivity) (by positivity) hth, ofAch]) hp hadd]
  simp only [addO, Option.bind_some, Option.map_some, Except.ok.injEq, Option.some.injEq]
  apply Mom.ext_get
  intro l m hl hm
  rw [madd, Mom.get_ofFn _ hl hm, Mom.get_ofFn _ hl hm, Mom.get_ofFn _ hl hm, zero_add]

omit hp hadd in
/-- Refused `platehole` parameters raise `ValueError`. -/
theorem C40_platehole_refused (hw : words txt = "platehole".toList :: tl) (r t theta : ℝ)
    (hbad : r ≤ 0 ∨ t ≤ 0 ∨ 90 < |theta|) (hv : Numbers e.num l1 [r, t, theta]) :
    read_mpc e [title, l0, l1, l2, l3, line] = .error .valueError := by
  have hpi := Real.pi_pos
  have hb : r * (1 / 100) ≤ 0 ∨ t * (1 / 100) ≤ 0 ∨ |theta * (Real.pi / 180)| > Real.pi / 2 := by
    rcases hbad with h | h | h
    · left; linarith
    · right; left; linarith
    · right; right
      rw [abs_mul, abs_of_pos (show 0 < Real.pi / 180 by positivity)]
      nlinarith
  have hmk : makeShape e (1 / 100) [l0, l1, l2, l3, line] "platehole".toList = some (.error .valueError) := by
    rw [make_platehole e (1 / 100) (by norm_num) l0 l1 l2 [l3, line] dens hd r t theta hv, QlmACH.platehole, if_pos hb, ofAch]
  obtain ⟨h1, h⟩ := command_some h
  have hst : step e ⟨[l0, l1, l2, l3, line], 1 / 100, some (Mom.ofFn L fun _ _ => 0), some (Mom.ofFn L fun _ _ => 0), false⟩
      = .error .valueError := by
    simp only [step, nth_zero, Except.ok_bind]
    simp only [h1, if_true, between_ok ha (by decide), Except.ok_bind, hw, hmk]
    rfl
  have := read_start e title [] [l0, l1, l2, l3, line] (by simp)
  rw [List.nil_append] at this
  rw [this, loop_error e _ _ _ _ _ _ _ hst]
  rfl

/-- Clearing the total does not clear non-finite entries: after adding a `partcylinder` cut outside its radius,
`zeroqlm` (which multiplies by zero) leaves the total non-finite. -/
theorem C40_zero_keeps_nan (hw : words txt = "partcylinder".toList :: tl) (r d hh : ℝ) (h1 : 0 < r) (h2 : r < |d|)
    (h3 : 0 < hh) (hv : Numbers e.num l1 [r, d, hh]) (zeros : List Str) (hz : ∀ l ∈ zeros, command l = some "zeroqlm") :
    read_mpc e (title :: l0 :: l1 :: l2 :: l3 :: line :: zeros) = .ok none := by
  have hmk : makeShape e (1 / 100) (l0 :: l1 :: l2 :: l3 :: line :: zeros) "partcylinder".toList = some (.ok none) := by
    rw [makeShape, if_neg (by decide), if_neg (by decide), if_neg (by decide), if_neg (by decide), if_neg (by decide),
      if_pos rfl, params_bind _ hv]
    simp only [List.map_cons, List.map_nil]
    rw [density_bind _ hd, if_neg (by positivity), if_pos, if_neg (by push Not; constructor <;> positivity)]
    have e1 : d * (1 / 100) / (r * (1 / 100)) = d / r := by field_simp
    rw [e1]
    rcases le_total 0 d with h | h
    · right; rw [abs_of_nonneg h] at h2; rwa [one_lt_div h1]
    · left; rw [abs_of_nonpos h] at h2; rw [div_lt_iff₀ h1]; linarith
  obtain ⟨hc, h⟩ := command_some h
  have hst : step e ⟨l0 :: l1 :: l2 :: l3 :: line :: zeros, 1 / 100, some (Mom.ofFn L fun _ _ => 0),
      some (Mom.ofFn L fun _ _ => 0), false⟩ = .ok (⟨zeros, 1 / 100, none, none, true⟩, false) := by
    simp only [step, nth_zero, Except.ok_bind]
    simp only [hc, if_true, between_ok ha (by decide), Except.ok_bind, hw, hmk, finish]
    have h3 : nth (l0 :: l1 :: l2 :: l3 :: line :: zeros) 3 = .ok l3 := rfl
    have h4 : nth (l0 :: l1 :: l2 :: l3 :: line :: zeros) 4 = .ok line := rfl
    simp only [h3, h4, Except.ok_bind, floats_ok hp, List.map_cons, List.map_nil]
    rw [if_pos (by simp), if_pos hadd]
    rfl
  have key : ∀ (zs : List Str), (∀ l ∈ zs, command l = some "zeroqlm") → ∀ n,
      ∃ s, loop e n (⟨zs, 1 / 100, none, none, true⟩ : St L) = .ok s ∧ s.tot = none := by
    intro zs
    induction zs with
    | nil => intro _ n; exact ⟨_, loop_nil e n _ rfl, rfl⟩
    | cons l zs ih =>
      intro hzs n
      cases n with
      | zero => exact ⟨_, rfl, rfl⟩
      | succ n =>
        rw [loop_cons e n _ _ _ _ _ _ (step_zero e l zs _ _ _ _ (hzs l List.mem_cons_self))]
        simp only [Bool.false_eq_true, if_false, Option.map_none]
        exact ih (fun a ha => hzs a (List.mem_cons_of_mem _ ha)) n
  have := read_start e title [] (l0 :: l1 :: l2 :: l3 :: line :: zeros) (by simp)
  rw [List.nil_append] at this
  rw [this, loop_cons e _ _ _ _ _ _ _ hst]
  simp only [Bool.false_eq_true, if_false]
  obtain ⟨s, hs, hs'⟩ := key zeros hz (l0 :: l1 :: l2 :: l3 :: line :: zeros).length
  rw [hs, Except.ok_bind, hs']

end single

/-! ## Non-vacuity -/

/-- A number reader that knows a few numerals. -/
noncomputable def someNumerals (w : Str) : Option ℝ :=
  if w = "0".toList then some 0 else if w = "0\n".toList then some 0 else if w = "1".toList then some 1
  else if w = " 1".toList then some 1 else if w = "2\n".toList then some 2 else if w = "7.8".toList then some 7.8 else none

/-- A ball at the origin, added, then a copy of it 1 cm along x, added. -/
example (e : Env L) (he : e.num = someNumerals) (title : Str) (hS : IsCompact (ball (2 * (1 / 100)))) :
    read_mpc e [title, "% two balls\n".toList, "create sphere % the first\n".toList, "2\n".toList, "7.8,iron\n".toList,
        "0,0,0\n".toList, "add\n".toList, "translate 1,0,0\n".toList, "add\n".toList, "end\n".toList, "add\n".toList]
      = .ok (some (Mom.ofFn L (Body.inner ([] ++ (Body.filled (7.8 * 1000) _ hS).translate ![0 * (1 / 100), 0 * (1 / 100), 0 * (1 / 100)]
          ++ ((Body.filled (7.8 * 1000) _ hS).translate ![0 * (1 / 100), 0 * (1 / 100), 0 * (1 / 100)]).translate
            ![1 * (1 / 100), 0 * (1 / 100), 0 * (1 / 100)])))) := by
  refine C40_program e title _ [.create ((Body.filled (7.8 * 1000) _ hS).translate
    ![0 * (1 / 100), 0 * (1 / 100), 0 * (1 / 100)]), .add,
    .translate ![1 * (1 / 100), 0 * (1 / 100), 0 * (1 / 100)], .add] ?_
  have n0 : e.num "0".toList = some 0 := by rw [he]; simp [someNumerals]
  have n0' : e.num "0\n".toList = some 0 := by rw [he, someNumerals, if_neg (by decide), if_pos rfl]
  have n1 : e.num " 1".toList = some 1 := by
    rw [he, someNumerals, if_neg (by decide), if_neg (by decide), if_neg (by decide), if_pos rfl]
  have n2 : e.num "2\n".toList = some 2 := by
    rw [he, someNumerals, if_neg (by decide), if_neg (by decide), if_neg (by decide), if_neg (by decide), if_pos rfl]
  have n7 : e.num "7.8".toList = some 7.8 := by
    rw [he, someNumerals, if_neg (by decide), if_neg (by decide), if_neg (by decide), if_neg (by decide),
      if_neg (by decide), if_pos rfl]
  refine .other _ _ _ _ _ (Or.inl (by decide)) ?_
  refine .create _ _ _ _ _ _ _ _ " sphere ".toList "sphere" [] [2] _ hS 7.8 0 0 0 (by decide) ⟨[], by decide, by simp, by decide⟩
    (by decide) ⟨["2\n".toList], by decide, by simp, by decide, .cons n2 .nil⟩ (.sphere 2 (by norm_num))
    ⟨"7.8".toList, ["iron\n".toList], by decide, by decide, n7⟩
    ⟨["0".toList, "0".toList, "0\n".toList], by decide, by simp, by decide, .cons n0 (.cons n0 (.cons n0' .nil))⟩
    (fun _ => ⟨_, _, rfl, fun _ => by decide⟩) ?_
  refine .add _ _ _ _ (by decide) ?_
  refine .translate _ _ _ _ " 1,0,0\n".toList 1 0 0 (by decide) ⟨[], by decide, by simp, by decide⟩
    ⟨[" 1".toList, "0".toList, "0\n".toList], by decide, by simp, by decide, .cons n1 (.cons n0 (.cons n0' .nil))⟩ ?_
  refine .add _ _ _ _ (by decide) ?_
  exact .stop _ _ _ _ (by decide)

example (e : Env L) (title : Str) :
    read_mpc e [title, "% nothing yet\n".toList, "add\n".toList] = .error .unboundLocal :=
  C40_add_first e title ["% nothing yet\n".toList] [] "add\n".toList (by decide) (Or.inl (by decide))

/-- An unknown shape is passed over with its block; the next block, a hole through a cylinder, is read. -/
example (e : Env L) (he : e.num = someNumerals) (title : Str) (hS : IsCompact (drilledYCylinder (1 * (1 / 100)) (2 * (1 / 100)))) :
    read_mpc e [title, "create torus\n".toList, "2\n".toList, "add\n".toList, "create cylhole\n".toList, "1,2\n".toList,
        "7.8,iron\n".toList, "0,0,0\n".toList, "add\n".toList]
      = .ok (some (Mom.ofFn L (Body.inner ([] ++ (Body.filled (7.8 * 1000) _ hS).translate
          ![0 * (1 / 100), 0 * (1 / 100), 0 * (1 / 100)])))) := by
  refine C40_program e title _ [.create ((Body.filled (7.8 * 1000) _ hS).translate
    ![0 * (1 / 100), 0 * (1 / 100), 0 * (1 / 100)]), .add] ?_
  have n0 : e.num "0".toList = some 0 := by rw [he]; simp [someNumerals]
  have n0' : e.num "0\n".toList = some 0 := by rw [he, someNumerals, if_neg (by decide), if_pos rfl]
  have n1 : e.num "1".toList = some 1 := by
    rw [he, someNumerals, if_neg (by decide), if_neg (by decide), if_pos rfl]
  have n2 : e.num "2\n".toList = some 2 := by
    rw [he, someNumerals, if_neg (by decide), if_neg (by decide), if_neg (by decide), if_neg (by decide), if_pos rfl]
  have n7 : e.num "7.8".toList = some 7.8 := by
    rw [he, someNumerals, if_neg (by decide), if_neg (by decide), if_neg (by decide), if_neg (by decide),
      if_neg (by decide), if_pos rfl]
  refine .unknown _ _ _ ["2\n".toList, "add\n".toList] _ _ _ " torus\n".toList "torus".toList [] (by decide)
    ⟨[], by decide, by simp, by decide⟩ (by decide) (by decide) (by decide) (Or.inl (by decide)) ?_
  refine .create _ _ _ _ _ _ _ _ " cylhole\n".toList "cylhole" [] [1, 2] _ hS 7.8 0 0 0 (by decide)
    ⟨[], by decide, by simp, by decide⟩ (by decide)
    ⟨["1".toList, "2\n".toList], by decide, by simp, by decide, .cons n1 (.cons n2 .nil)⟩
    (.cylhole 1 2 (by norm_num) (by norm_num))
    ⟨"7.8".toList, ["iron\n".toList], by decide, by decide, n7⟩
    ⟨["0".toList, "0".toList, "0\n".toList], by decide, by simp, by decide, .cons n0 (.cons n0 (.cons n0' .nil))⟩
    (fun _ => ⟨_, _, rfl, fun _ => by decide⟩) ?_
  refine .add _ _ _ _ (by decide) ?_
  exact .nil _ _

end Newt.Multi
