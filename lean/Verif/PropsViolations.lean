import Verif.PropsSession
import Verif.PropsSolving
import Verif.OptCycle
import Verif.Examples

/-!
# Properties the code violates

Each theorem exhibits a concrete history that clingo can produce (no restriction on the literals, `AnyLits`, unless stated
otherwise) in which the English property fails. The histories are executed by the kernel on the model of the code.

Finding 1 (`update_lower`, solving.cc:198, and `undo`, solving.cc:838-842): if an equation `x = c` tightens both bounds of a
variable then only the old upper bound is stored on the trail, and `undo` assigns it to *both* bounds.

Finding 2 (`prepare`, solving.cc:298-327): constraints without variables are tested with inverted relations.

Finding 3 (`on_statistics`, solving.cc:1092-1104): the statistics of a step are those of the last thread.
-/

set_option linter.unusedSectionVars false

namespace Lpx.Props
open Lpx Lpx.Witness

/-! ### C01, C05, C07: an active constraint is ignored -/

/-- C01 is violated: `x >= 1` holds on level 0; after deciding `x = 5` and backtracking, the code accepts `x <= 0`, and the
reported values violate an active constraint although no conflict has been reported. -/
theorem C01_violation : ∃ p g, Reach .imath {} (AnyLits (V := ℚ)) p g ∧ ∃ gt, g.thrs[0]? = some gt ∧ gt.stuck = false ∧
    ∃ x ∈ p.prog.iqs, Act gt.frames x.lit ∧ ¬ x.holds (p.valueOf 0) := by
  obtain ⟨p, g, h1, -, h2⟩ := exists_reach (V := ℚ) (be := .imath) (mode := .any) (opts := {})
    [.init prog1 1, .prop 0 0 [1] true, .prop 1 0 [2] true, .undo 0, .prop 1 0 [3] true]
    (P := fun p g => atThr g 0 fun gt => !gt.stuck && p.prog.iqs.any fun x => decide (Act gt.frames x.lit ∧ ¬ x.holds (p.valueOf 0)))
    (by decide +kernel)
  obtain ⟨gt, h3, h4⟩ := atThr_spec h2
  rw [Bool.and_eq_true, List.any_eq_true] at h4
  obtain ⟨h4, x, hx, h5⟩ := h4
  obtain ⟨h5, h6⟩ := of_decide_eq_true h5
  exact ⟨p, g, h1, gt, h3, by simpa using h4, x, hx, h5, h6⟩

/-- C05 is violated: in the same history, `propagate` accepts although the active constraints have no solution. -/
theorem C05_accepts_unsatisfiable_violation : ∃ p g, Reach .imath {} (AnyLits (V := ℚ)) p g ∧ ∃ ctl gt p' fuel,
    MayPropagate AnyLits p g ctl 0 [3] gt ∧ p.propagate fuel ctl 0 [3] = some (p', true) ∧
    ¬ ∃ gv : Symbol → ℚ, Solves p.prog.iqs (fun l => l ∈ [3] ∨ Act gt.frames l) gv := by
  obtain ⟨p, g, p', gt, ok, h1, -, h2, h3, h4⟩ := exists_prop (V := ℚ) (be := .imath) (mode := .any) (opts := {})
    [.init prog1 1, .prop 0 0 [1] true, .prop 1 0 [2] true, .undo 0] 1 0 [3] true
    (P := fun p g _ ok => ok && decide ((⟨[⟨1, symX⟩], 1, .ge, 1⟩ : Ineq Symbol) ∈ p.prog.iqs) &&
      decide ((⟨[⟨1, symX⟩], 0, .le, 3⟩ : Ineq Symbol) ∈ p.prog.iqs) && atThr g 0 fun gt => decide (Act gt.frames 1))
    (by decide +kernel)
  simp only [Bool.and_eq_true, decide_eq_true_eq] at h4
  obtain ⟨⟨⟨rfl, h5⟩, h6⟩, h7⟩ := h4
  obtain ⟨gt', h8, h9⟩ := atThr_spec h7
  rw [h2.thr] at h8
  obtain rfl := Option.some.inj h8
  refine ⟨p, g, h1, _, gt, p', fuel, h2, h3, ?_⟩
  rintro ⟨gv, hs⟩
  have k1 := hs _ h5 (Or.inr (of_decide_eq_true h9))
  have k2 := hs _ h6 (Or.inl (by simp))
  simp only [Ineq.holds, Relation.holds, evalTerms, List.map_cons, List.map_nil, List.sum_cons, List.sum_nil] at k1 k2
  linarith

/-- C07 is violated: right after `undo`, the reported values violate a constraint of the remaining levels. -/
theorem C07_violation : ∃ p g, Reach .imath {} (AnyLits (V := ℚ)) p g ∧ ∃ gt fr frs p', g.thrs[0]? = some gt ∧
    gt.frames = fr :: frs ∧ fr.level ≠ 0 ∧ p.undo 0 = some p' ∧ ∃ x ∈ p'.prog.iqs, Act frs x.lit ∧ ¬ x.holds (p'.valueOf 0) := by
  obtain ⟨p, g, h1, -, h2⟩ := exists_reach (V := ℚ) (be := .imath) (mode := .any) (opts := {})
    [.init prog1 1, .prop 0 0 [1] true, .prop 1 0 [2] true, .undo 0, .prop 1 0 [3] true, .prop 2 0 [4] true]
    (P := fun p g => atThr g 0 fun gt =>
      match gt.frames, p.undo 0 with
      | fr :: frs, some p' => decide (fr.level ≠ 0) && p'.prog.iqs.any fun x => decide (Act frs x.lit ∧ ¬ x.holds (p'.valueOf 0))
      | _, _ => false)
    (by decide +kernel)
  obtain ⟨gt, h3, h4⟩ := atThr_spec h2
  split at h4
  · rename_i fr frs p' e1 e2
    rw [Bool.and_eq_true, List.any_eq_true, decide_eq_true_eq] at h4
    obtain ⟨h4, x, hx, h5⟩ := h4
    obtain ⟨h5, h6⟩ := of_decide_eq_true h5
    exact ⟨p, g, h1, gt, fr, frs, p', h3, e1, h4, e2, x, hx, h5, h6⟩
  · cases h4

/-! ### C02, C05, C12: a consistent model is excluded -/

/-- `x >= 0`, `x <= 10`, `x = 5`, `x <= 5`. -/
def prog2 : List TAtom := [sumAtom "x" ">=" 0 1, sumAtom "x" "<=" 10 2, sumAtom "x" "=" 5 3, sumAtom "x" "<=" 5 4]

/-- C05 is violated in the other direction: `propagate` reports a conflict although `x = 1` satisfies all active constraints. -/
theorem C05_rejects_satisfiable_violation : ∃ p g, Reach .imath {} (AnyLits (V := ℚ)) p g ∧ ∃ ctl gt p' fuel,
    MayPropagate AnyLits p g ctl 0 [4] gt ∧ p.propagate fuel ctl 0 [4] = some (p', false) ∧
    Solves p.prog.iqs (fun l => l ∈ [4] ∨ Act gt.frames l) (fun _ => 1) := by
  obtain ⟨p, g, p', gt, ok, h1, -, h2, h3, h4⟩ := exists_prop (V := ℚ) (be := .imath) (mode := .any) (opts := {})
    [.init prog2 1, .prop 0 0 [1, 2] true, .prop 1 0 [3] true, .undo 0] 1 0 [4] true
    (P := fun p g _ ok => !ok && atThr g 0 fun gt => p.prog.iqs.all fun x =>
      decide ((x.lit ∈ [4] ∨ Act gt.frames x.lit) → x.holds fun _ => 1))
    (by decide +kernel)
  simp only [Bool.and_eq_true, Bool.not_eq_true'] at h4
  obtain ⟨rfl, h7⟩ := h4
  obtain ⟨gt', h8, h9⟩ := atThr_spec h7
  rw [h2.thr] at h8
  obtain rfl := Option.some.inj h8
  rw [List.all_eq_true] at h9
  exact ⟨p, g, h1, _, gt, p', fuel, h2, h3, fun x hx => of_decide_eq_true (h9 x hx)⟩

/-- C02 is violated: a clause is added that excludes a truth assignment whose constraints have a common solution. -/
theorem C02_violation : ∃ p g, Reach .imath {} (AnyLits (V := ℚ)) p g ∧ ∃ c ∈ p.clausesOf 0, ∃ (tr : ℤ → Prop) (gv : Symbol → ℚ),
    (∀ l, tr l ∨ tr (-l)) ∧ (∀ x ∈ p.prog.iqs, ¬ (tr x.lit ∧ tr (-x.lit))) ∧ Solves p.prog.iqs tr gv ∧ ¬ ∃ l ∈ c, tr l := by
  obtain ⟨p, g, h1, -, h2⟩ := exists_reach (V := ℚ) (be := .imath) (mode := .any) (opts := {})
    [.init prog2 1, .prop 0 0 [1, 2] true, .prop 1 0 [3] true, .undo 0, .prop 1 0 [4] true]
    (P := fun p _ => decide ([-4, -2] ∈ p.clausesOf 0) && p.prog.iqs.all fun x =>
      decide (¬ (x.lit ∉ [-1, -2, 3, -4] ∧ -x.lit ∉ [-1, -2, 3, -4])) && decide (x.lit ∉ [-1, -2, 3, -4] → x.holds fun _ => 1))
    (by decide +kernel)
  simp only [Bool.and_eq_true, decide_eq_true_eq, List.all_eq_true] at h2
  obtain ⟨h3, h4⟩ := h2
  refine ⟨p, g, h1, _, h3, fun l => l ∉ [-1, -2, 3, -4], fun _ => 1, fun l => ?_, fun x hx => (h4 x hx).1, fun x hx => (h4 x hx).2, ?_⟩
  · simp only [List.mem_cons, List.not_mem_nil, or_false]; omega
  · rintro ⟨l, hl, hn⟩
    simp only [List.mem_cons, List.not_mem_nil, or_false] at hl hn
    omega

/-- C12 is violated: `propagate` (here with `--propagate-bounds=full`) adds a clause that is no consequence of the
constraints. -/
theorem C12_violation : ∃ p g, Reach .imath { propagateMode := .full } (AnyLits (V := ℚ)) p g ∧ ∃ ctl gt p' ok fuel,
    MayPropagate AnyLits p g ctl 0 [6] gt ∧ p.propagate fuel ctl 0 [6] = some (p', ok) ∧
    ∃ c ∈ p'.clausesOf 0, c ∉ p.clausesOf 0 ∧ ∃ gv : Symbol → ℚ, Solves p.prog.iqs (fun l => -l ∈ c) gv := by
  obtain ⟨p, g, p', gt, ok, h1, -, h2, h3, h4⟩ := exists_prop (V := ℚ) (be := .imath) (mode := .any) (opts := { propagateMode := .full })
    [.init (prog2 ++ [sum2Atom "x" "y" "<=" 12 5, sumAtom "y" ">=" 3 6]) 1, .prop 0 0 [1, 2] true, .prop 1 0 [3] true, .undo 0] 1 0 [6] true
    (P := fun p _ p' _ => (p'.clausesOf 0).any fun c => decide (c ∉ p.clausesOf 0) && p.prog.iqs.all fun x =>
      decide (-x.lit ∈ c → x.holds fun y => if y = symX then 1 else 3))
    (by decide +kernel)
  simp only [List.any_eq_true, Bool.and_eq_true, decide_eq_true_eq, List.all_eq_true] at h4
  obtain ⟨c, hc, h5, h6⟩ := h4
  exact ⟨p, g, h1, _, gt, p', ok, fuel, h2, h3, c, hc, h5, _, h6⟩

/-! ### C06: limits are not restored -/

/-- The lower and upper limit the solver of a thread enforces for a variable of the program. -/
def limits (p : Propagator ℚ) (th : ℕ) (y : Symbol) : Option ℚ × Option ℚ :=
  match p.thrs[th]?, p.lookup y with
  | some t, some j => (t.slv.lo j, t.slv.up j)
  | _, _ => (none, none)

/-- C06 is violated: entering a level with `x = 5` and leaving it again changes the limits of `x` from `0, 10` to `10, 10`. -/
theorem C06_violation : ∃ p g, Reach .imath {} (AnyLits (V := ℚ)) p g ∧ ∃ ctl gt p1 p2 fuel,
    MayPropagate AnyLits p g ctl 0 [3] gt ∧ (∀ fr ∈ gt.frames, fr.level < ctl.dl) ∧ p.propagate fuel ctl 0 [3] = some (p1, true) ∧
    p1.undo 0 = some p2 ∧ limits p 0 symX = (some 0, some 10) ∧ limits p2 0 symX = (some 10, some 10) := by
  obtain ⟨p, g, p', gt, ok, h1, -, h2, h3, h4⟩ := exists_prop (V := ℚ) (be := .imath) (mode := .any) (opts := {})
    [.init prog2 1, .prop 0 0 [1, 2] true] 1 0 [3] true
    (P := fun p g p1 ok => ok && decide (limits p 0 symX = (some 0, some 10)) && (atThr g 0 fun gt => gt.frames.all fun fr => decide (fr.level < 1)) &&
      (p1.undo 0).any fun p2 => decide (limits p2 0 symX = (some 10, some 10)))
    (by decide +kernel)
  simp only [Bool.and_eq_true, decide_eq_true_eq] at h4
  obtain ⟨⟨⟨rfl, h5⟩, h6⟩, h7⟩ := h4
  obtain ⟨gt', h8, h9⟩ := atThr_spec h6
  rw [h2.thr] at h8
  obtain rfl := Option.some.inj h8
  simp only [List.all_eq_true, decide_eq_true_eq] at h9
  cases hu : p'.undo 0 with
  | none => rw [hu] at h7; cases h7
  | some p2 =>
    rw [hu] at h7
    exact ⟨p, g, h1, _, gt, p', p2, fuel, h2, h9, h3, hu, h5, of_decide_eq_true h7⟩

/-- C06 is violated for another variable than the one of the equation: on a level with `x <= 7` and `y >= 3`, the equation
`x = 5` changes the stored bound of `y`, so that backtracking changes the limits of `y` from `1, 8` to `1, 1`. -/
theorem C06_other_variable_violation : ∃ p g, Reach .imath {} (AnyLits (V := ℚ)) p g ∧ limits p 0 symY = (some 1, some 8) ∧
    ∃ p1 g1 p2, Later .imath AnyLits p g p1 g1 ∧ (∃ gt1 fr frs gt, g1.thrs[0]? = some gt1 ∧ gt1.frames = fr :: frs ∧ fr.level ≠ 0 ∧
      g.thrs[0]? = some gt ∧ gt.frames = frs) ∧ p1.undo 0 = some p2 ∧ limits p2 0 symY = (some 1, some 1) := by
  let prog := [sumAtom "x" "<=" 7 1, sumAtom "y" ">=" 3 2, sumAtom "x" "=" 5 3, sumAtom "y" "<=" 8 4, sumAtom "y" ">=" 1 5]
  have key : ((runs (V := ℚ) .imath .any [.init prog 1, .prop 0 0 [4, 5] true] (start {})).any fun s =>
      (runs (V := ℚ) .imath .any [.prop 1 0 [1] true, .prop 1 0 [2] true, .prop 1 0 [3] true] s).any fun s1 =>
        decide (limits s.1 0 symY = (some 1, some 8)) && (s1.1.undo 0).any (fun p2 => decide (limits p2 0 symY = (some 1, some 1))) &&
        atThr s.2 0 fun gt => atThr s1.2 0 fun gt1 =>
          match gt1.frames with
          | fr :: frs => decide (fr.level ≠ 0) && decide (frs.map (fun f => (f.level, f.lits)) = gt.frames.map (fun f => (f.level, f.lits)))
          | [] => false) = true := by decide +kernel
  cases hr : runs (V := ℚ) .imath .any [.init prog 1, .prop 0 0 [4, 5] true] (start {}) with
  | none => rw [hr] at key; cases key
  | some s =>
    obtain ⟨p, g⟩ := s
    rw [hr] at key
    simp only [Option.any_some] at key
    obtain ⟨h1, h2⟩ := runs_reach hr
    cases hr1 : runs (V := ℚ) .imath .any [.prop 1 0 [1] true, .prop 1 0 [2] true, .prop 1 0 [3] true] (p, g) with
    | none => rw [hr1] at key; cases key
    | some s1 =>
      obtain ⟨p1, g1⟩ := s1
      rw [hr1] at key
      simp only [Option.any_some, Bool.and_eq_true, decide_eq_true_eq] at key
      obtain ⟨⟨h3, h4⟩, h5⟩ := key
      obtain ⟨h6, -⟩ := runs_later h1.weak h2 hr1 .refl
      obtain ⟨gt, hgt, h5⟩ := atThr_spec h5
      obtain ⟨gt1, hgt1, h5⟩ := atThr_spec h5
      split at h5
      · rename_i fr frs hf
        simp only [Bool.and_eq_true, decide_eq_true_eq] at h5
        have e : frs = gt.frames := by
          have hinj : Function.Injective (fun f : Frame => (f.level, f.lits)) := by
            rintro ⟨a, b⟩ ⟨c, d⟩ h; simp only [Prod.mk.injEq] at h; rw [h.1, h.2]
          exact (List.map_injective_iff.2 hinj) h5.2
        cases hu : p1.undo 0 with
        | none => rw [hu] at h4; cases h4
        | some p2 =>
          rw [hu] at h4
          exact ⟨p, g, h1, h3, p1, g1, p2, h6, ⟨gt1, fr, frs, gt, hgt1, hf, h5.1, hgt, e.symm⟩, hu, of_decide_eq_true h4⟩
      · cases h5

/-! ### C09, C10: wrong objective values -/

/-- C09 is violated: `-10` is reported as the (bounded) optimum of `&minimize { x }` although `x = 0` satisfies all active
constraints. -/
theorem C09_violation : ∃ p g, Reach .imath {} (AnyLits (V := ℚ)) p g ∧ ∃ gt, g.thrs[0]? = some gt ∧ gt.stuck = false ∧
    gt.checked = true ∧ ∃ v, p.objectiveOf 0 = [(v, true)] ∧ ∃ gv : Symbol → ℚ, Solves p.prog.iqs (Act gt.frames) gv ∧
    v < evalTerms gv p.prog.objective := by
  obtain ⟨p, g, h1, -, h2⟩ := exists_reach (V := ℚ) (be := .imath) (mode := .any) (opts := {})
    [.init [sumAtom "x" ">=" 0 1, sumAtom "x" "<=" 10 2, sumAtom "x" "=" 5 3, sumAtom "x" "<=" 20 4, minAtom "x"] 1,
      .prop 0 0 [1, 2] true, .prop 1 0 [3] true, .undo 0, .prop 1 0 [4] true, .check 1 true 0]
    (P := fun p g => decide (p.objectiveOf 0 = [(-10, true)]) && decide (-10 < evalTerms (fun _ => 0) p.prog.objective) &&
      atThr g 0 fun gt => !gt.stuck && gt.checked && p.prog.iqs.all fun x => decide (Act gt.frames x.lit → x.holds fun _ => 0))
    (by decide +kernel)
  simp only [Bool.and_eq_true, decide_eq_true_eq] at h2
  obtain ⟨⟨h3, h4⟩, h5⟩ := h2
  obtain ⟨gt, hgt, h5⟩ := atThr_spec h5
  simp only [Bool.and_eq_true, decide_eq_true_eq, List.all_eq_true, Bool.not_eq_true'] at h5
  exact ⟨p, g, h1, gt, hgt, h5.1.1, h5.1.2, -10, h3, _, fun x hx => h5.2 x hx, h4⟩

/-- C10 is violated: `&minimize { x }` is reported to be unbounded although `x >= 1` is active. -/
theorem C10_violation : ∃ p g, Reach .imath {} (AnyLits (V := ℚ)) p g ∧ ∃ gt, g.thrs[0]? = some gt ∧ gt.stuck = false ∧
    gt.checked = true ∧ ∃ v, p.objectiveOf 0 = [(v, false)] ∧ ∀ gv : Symbol → ℚ, Solves p.prog.iqs (Act gt.frames) gv →
    evalTerms gv p.prog.objective ≤ -1 := by
  obtain ⟨p, g, h1, -, h2⟩ := exists_reach (V := ℚ) (be := .imath) (mode := .any) (opts := {})
    [.init [sumAtom "x" ">=" 1 1, sumAtom "x" "=" 5 2, minAtom "x"] 1,
      .prop 0 0 [1] true, .prop 1 0 [2] true, .undo 0, .check 1 true 0]
    (P := fun p g => (p.objectiveOf 0).all (fun x => !x.2) && decide (p.objectiveOf 0 ≠ []) && decide ((p.objectiveOf 0).length = 1) && decide (p.prog.objective = [⟨-1, symX⟩]) &&
      decide ((⟨[⟨1, symX⟩], 1, .ge, 1⟩ : Ineq Symbol) ∈ p.prog.iqs) &&
      atThr g 0 fun gt => !gt.stuck && gt.checked && decide (Act gt.frames 1))
    (by decide +kernel)
  simp only [Bool.and_eq_true, decide_eq_true_eq] at h2
  obtain ⟨⟨⟨⟨⟨h3, -⟩, h3'⟩, h4⟩, h6⟩, h5⟩ := h2
  obtain ⟨gt, hgt, h5⟩ := atThr_spec h5
  simp only [Bool.and_eq_true, decide_eq_true_eq, List.all_eq_true, Bool.not_eq_true'] at h5 h3
  obtain ⟨⟨v, b⟩, hv⟩ := List.length_eq_one_iff.1 h3'
  have hb := h3 (v, b) (by rw [hv]; simp)
  simp only at hb
  subst hb
  refine ⟨p, g, h1, gt, hgt, h5.1.1, h5.1.2, v, hv, fun gv hs => ?_⟩
  have := hs _ h6 h5.2
  rw [h4]
  simp only [Ineq.holds, Relation.holds, evalTerms, List.map_cons, List.map_nil, List.sum_cons, List.sum_nil] at this ⊢
  linarith

/-! ### C20: constraints without variables -/

/-- C20 is violated: `&sum { } <= -1` is false, but its literal is not forced to be false: it is true in a total assignment
accepted by `check` (and C01 is violated, without using any equation). -/
theorem C20_false_constant_accepted_violation : ∃ p g, Reach .imath {} (Intact (V := ℚ)) p g ∧ ∃ gt, g.thrs[0]? = some gt ∧ gt.stuck = false ∧
    gt.checked = true ∧ ∃ x ∈ p.prog.iqs, x.lhs = [] ∧ Act gt.frames x.lit ∧ ¬ x.holds (p.valueOf 0) ∧ p.clausesOf 0 = [] := by
  obtain ⟨p, g, h1, -, h2⟩ := exists_reach (V := ℚ) (be := .imath) (mode := .intact) (opts := {})
    [.init [constAtom "<=" (-1) 1] 1, .prop 0 0 [1] true, .check 0 true 0]
    (P := fun p g => decide (p.clausesOf 0 = []) && atThr g 0 fun gt => !gt.stuck && gt.checked && p.prog.iqs.any fun x =>
      decide (x.lhs = [] ∧ Act gt.frames x.lit ∧ ¬ x.holds (p.valueOf 0)))
    (by decide +kernel)
  simp only [Bool.and_eq_true, decide_eq_true_eq] at h2
  obtain ⟨h3, h4⟩ := h2
  obtain ⟨gt, hgt, h5⟩ := atThr_spec h4
  simp only [Bool.and_eq_true, Bool.not_eq_true', List.any_eq_true] at h5
  obtain ⟨⟨h5, h6⟩, x, hx, h7⟩ := h5
  obtain ⟨h7, h8, h9⟩ := of_decide_eq_true h7
  exact ⟨p, g, h1, gt, hgt, h5, h6, x, hx, h7, h8, h9, h3⟩

/-- C20 is violated: `&sum { } >= -1` holds for all valuations, but its literal is forced to be false (so C02 is violated,
without using any equation). -/
theorem C20_true_constant_rejected_violation : ∃ p g, Reach .imath {} (Intact (V := ℚ)) p g ∧ ∃ x ∈ p.prog.iqs,
    x.lhs = [] ∧ (∀ gv, x.holds gv) ∧ [-x.lit] ∈ p.clausesOf 0 := by
  obtain ⟨p, g, h1, -, h2⟩ := exists_reach (V := ℚ) (be := .imath) (mode := .intact) (opts := {})
    [.init [constAtom ">=" (-1) 1] 1]
    (P := fun p g => p.prog.iqs.any fun x => decide (x.lhs = [] ∧ (x.holds fun _ => 0) ∧ [-x.lit] ∈ p.clausesOf 0))
    (by decide +kernel)
  simp only [List.any_eq_true] at h2
  obtain ⟨x, hx, h3⟩ := h2
  obtain ⟨h3, h4, h5⟩ := of_decide_eq_true h3
  refine ⟨p, g, h1, x, hx, h3, fun gv => ?_, h5⟩
  simp only [Ineq.holds, h3, evalTerms, List.map_nil, List.sum_nil] at h4 ⊢
  exact h4

/-! ### C38: statistics of a step -/

/-- C38 is violated: after one pivot in thread 0 of two threads, the number of pivots reported for the step is 0. -/
theorem C38_violation : ∃ p g, Reach .imath {} (Intact (V := ℚ)) p g ∧ g.thrs.length = 2 ∧
    (p.thrs.map fun t => t.slv.pivots).sum = 1 ∧ p.onStatistics (0, 0) (0, 0) = ((0, 0), (1, 0)) := by
  obtain ⟨p, g, h1, -, h2⟩ := exists_reach (V := ℚ) (be := .imath) (mode := .intact) (opts := {})
    [.init [sum2Atom "x" "y" ">=" 3 1] 2, .prop 0 0 [1] true]
    (P := fun p g => decide (g.thrs.length = 2) && decide ((p.thrs.map fun t => t.slv.pivots).sum = 1) &&
      decide (p.onStatistics (0, 0) (0, 0) = ((0, 0), (1, 0))))
    (by decide +kernel)
  simp only [Bool.and_eq_true, decide_eq_true_eq] at h2
  exact ⟨p, g, h1, h2.1.1, h2.1.2, h2.2⟩

/-! ### C03, C39 -/

/-- `x <= 7`, `y >= 3`, `x = 5`, `x <= 4`. -/
def prog10 : List TAtom := [sumAtom "x" "<=" 7 1, sumAtom "y" ">=" 3 2, sumAtom "x" "=" 5 3, sumAtom "x" "<=" 4 4]

/-- C03 is violated: the conflict clause contains the negation of a literal that is not true anymore, so the clause is not
falsified by the current assignment. -/
theorem C03_violation : ∃ p g, Reach .imath {} (AnyLits (V := ℚ)) p g ∧ ∃ ctl gt p' fuel,
    MayPropagate AnyLits p g ctl 0 [4] gt ∧ p.propagate fuel ctl 0 [4] = some (p', false) ∧
    ∃ c, p'.clausesOf 0 = p.clausesOf 0 ++ [c] ∧ ∃ l ∈ c, ¬ (-l ∈ [4] ∨ Act gt.frames (-l)) := by
  obtain ⟨p, g, p', gt, ok, h1, -, h2, h3, h4⟩ := exists_prop (V := ℚ) (be := .imath) (mode := .any) (opts := {})
    [.init prog10 1, .prop 1 0 [1, 2, 3] true, .undo 0] 1 0 [4] true
    (P := fun p g p' ok => !ok && decide (p'.clausesOf 0 = p.clausesOf 0 ++ [[-4, -3]]) &&
      atThr g 0 fun gt => decide (¬ Act gt.frames 3))
    (by decide +kernel)
  simp only [Bool.and_eq_true, Bool.not_eq_true', decide_eq_true_eq] at h4
  obtain ⟨⟨rfl, h5⟩, h7⟩ := h4
  obtain ⟨gt', h8, h9⟩ := atThr_spec h7
  rw [h2.thr] at h8
  obtain rfl := Option.some.inj h8
  refine ⟨p, g, h1, _, gt, p', fuel, h2, h3, [-4, -3], h5, -3, by simp, ?_⟩
  rintro (h | h)
  · simp at h
  · exact of_decide_eq_true h9 h

/-- `x >= 4`, `y <= 10`, `x >= 7`, `y = 3`, `x = 3`. -/
def prog11 : List TAtom := [sumAtom "x" ">=" 4 1, sumAtom "y" "<=" 10 2, sumAtom "x" ">=" 7 3, sumAtom "y" "=" 3 4, sumAtom "x" "=" 3 5]

/-- C39 is violated: `update_lower` reads the last element of the empty bound trail. -/
theorem C39_violation : ∃ p g, Reach .imath {} (AnyLits (V := ℚ)) p g ∧ ∃ t ∈ p.thrs, t.slv.ub = true := by
  obtain ⟨p, g, h1, -, h2⟩ := exists_reach (V := ℚ) (be := .imath) (mode := .any) (opts := {})
    [.init prog11 1, .prop 1 0 [1] true, .prop 2 0 [2, 3, 4] true, .undo 0, .undo 0, .prop 1 0 [5] true]
    (P := fun p _ => p.thrs.any fun t => t.slv.ub)
    (by decide +kernel)
  rw [List.any_eq_true] at h2
  obtain ⟨t, ht, h3⟩ := h2
  exact ⟨p, g, h1, t, ht, h3⟩

/-! ### C08 -/

/-- `x >= 1`, `x = 5`, `x + y >= -5`, `y <= 0`, minimize `x`. -/
def prog12 : List TAtom := [sumAtom "x" ">=" 1 1, sumAtom "x" "=" 5 2, sum2Atom "x" "y" ">=" (-5) 3, sumAtom "y" "<=" 0 4, minAtom "x"]

/-- C08 is violated: the values satisfy all active constraints before the optimization but not afterwards. -/
theorem C08_violation : ∃ p g, Reach .imath {} (AnyLits (V := ℚ)) p g ∧ ∃ ctl gt t p' fuel,
    MayCheck p g ctl 0 gt t ∧ ¬ p.needFacts ctl t ∧ p.check fuel ctl true 0 = some (p', true) ∧
    Solves p.prog.iqs (Act gt.frames) (p.valueOf 0) ∧ ¬ Solves p'.prog.iqs (Act gt.frames) (p'.valueOf 0) := by
  obtain ⟨p, g, h1, hn, h2⟩ := exists_reach (V := ℚ) (be := .imath) (mode := .any) (opts := {})
    [.init prog12 1, .prop 0 0 [1, 3, 4] true, .prop 1 0 [2] true, .undo 0]
    (P := fun p g => atThr g 0 fun gt => match p.thrs[0]? with
      | none => false
      | some t => let frs := p.checkFrames (ctlOf 1 [] true) t gt.frames
        let ctl := ctlOf 1 frs true
        (!gt.stuck && (gt.frames.all fun fr => decide (fr.level ≤ 1)) && lvlOK ctl frs && smallLits p.prog.iqs frs) &&
        decide (¬ p.needFacts ctl t) && (p.prog.iqs.all fun x => decide (Act gt.frames x.lit → x.holds (p.valueOf 0))) &&
        (p.check fuel ctl true 0).any fun r => r.2 && r.1.prog.iqs.any fun x => decide (Act gt.frames x.lit ∧ ¬ x.holds (r.1.valueOf 0)))
    (by decide +kernel)
  obtain ⟨gt, hgt, h3⟩ := atThr_spec h2
  split at h3
  · cases h3
  rename_i t ht
  simp only [Bool.and_eq_true] at h3
  obtain ⟨⟨⟨h3, h4⟩, h5⟩, h6⟩ := h3
  rw [Option.any_eq_true] at h6
  obtain ⟨⟨p', ok⟩, hr, h7⟩ := h6
  simp only [Bool.and_eq_true, List.any_eq_true] at h7
  obtain ⟨rfl, x, hx, h8⟩ := h7
  obtain ⟨h8, h9⟩ := of_decide_eq_true h8
  have hm := (check_step (be := .imath) (Q := AnyLits) hn hgt ht rfl (by simp only [Bool.and_eq_true]; exact h3) hr rfl).1
  refine ⟨p, g, h1, _, gt, t, p', fuel, hm, of_decide_eq_true h4, hr, ?_, fun h => h9 (h x hx h8)⟩
  rw [List.all_eq_true] at h5
  exact fun y hy => of_decide_eq_true (h5 y hy)
/-! ### C11: `check` does not terminate -/

/-- The bounds `a <= 3`, `c <= 3`, `d <= 3` (1-3), the equations `a = 0`, `c = 0`, `d = 0` (4-6), and (7, 8, 10, 11)
`b >= 0`, `a + 2b - c + 2d <= 1`, `2a + 3b + c <= 3`, `3a - 2b - c + d <= 0`, maximizing `a + 3b + 3c - 2d`. -/
def progCycle : List TAtom := [sumAtom "a" "<=" 3 1, sumAtom "c" "<=" 3 2, sumAtom "d" "<=" 3 3, sumAtom "a" "=" 0 4, sumAtom "c" "=" 0 5,
  sumAtom "d" "=" 0 6, sumAtom "b" ">=" 0 7, linAtom "sum" [(1, "a"), (2, "b"), (-1, "c"), (2, "d")] (some ("<=", .number 1)) 8,
  linAtom "sum" [(2, "a"), (3, "b"), (1, "c")] (some ("<=", .number 3)) 10,
  linAtom "sum" [(3, "a"), (-2, "b"), (-1, "c"), (1, "d")] (some ("<=", .number 0)) 11,
  linAtom "maximize" [(1, "a"), (3, "b"), (3, "c"), (-2, "d")] none 9]

/-- The state of the solver before the check: `a`, `c` and `d` have a lower bound 3, although no constraint says so. -/
def dictCycle : S.Dict where
  n := 4
  m := 4
  z := 3
  idx := [0, 1, 2, 3, 4, 5, 6, 7]
  val := [0, 0, 0, 0, 0, 0, 0, 0]
  A := [[1, 2, -1, 2], [2, 3, 1, 0], [3, -2, -1, 1], [1, 3, 3, -2]]
  lo := [some 3, some 0, some 3, some 3, none, none, none, none]
  up := [none, none, none, none, some 1, some 3, some 0, none]

/-- C11 is violated: `check` does not terminate. The bounds 1-3 are assigned on level 1 and the equations 4-6 on level 2. After
backtracking both levels the upper bounds have become lower bounds (Finding 1); the constraints 7, 8, 10, 11 are accepted, and
`optimize` starts with values that violate these bounds. After four pivots it repeats the same six pivots forever. -/
theorem C11_violation : ∃ p g, Reach .imath {} (AnyLits (V := ℚ)) p g ∧ ∃ ctl gt t, MayCheck p g ctl 0 gt t ∧
    ∀ fuel, p.check fuel ctl true 0 = none := by
  obtain ⟨p, g, gt, t, h1, -, h2, h3⟩ := exists_mayCheck (V := ℚ) (be := .imath) (mode := .any) (opts := {})
    [.init progCycle 1, .prop 1 0 [1, 2, 3] true, .prop 2 0 [4, 5, 6] true, .undo 0, .undo 0, .prop 1 0 [7, 8, 10, 11] true] 1 0
    (P := fun p g t gt => decide (S.Dict.ofS t.slv = dictCycle) && t.slv.obj.active && decide (t.slv.n ≤ t.slv.rindex t.slv.obj.var))
    (by decide +kernel)
  simp only [Bool.and_eq_true, decide_eq_true_eq] at h3
  obtain ⟨⟨h3, h4⟩, h5⟩ := h3
  refine ⟨p, g, h1, _, gt, t, h2, fun fuel => ?_⟩
  obtain ⟨t', ht', E0, base, hd⟩ := h1.weak.thr 0 gt h2.thr
  obtain rfl := Option.some.inj (h2.slv.symm.trans ht')
  have hs := hd.winv.struct
  have hf : S.Dict.Fits dictCycle t.slv := by rw [← h3]; exact S.Dict.fits_ofS hs h5
  have hrun : ∃ d, S.Dict.run [(2, 0), (0, 1), (1, 2), (2, 3)] dictCycle = some d ∧
      S.Dict.run [(0, 1), (1, 3), (2, 0), (0, 1), (1, 3), (2, 0)] d = some d := by
    have : ((S.Dict.run [(2, 0), (0, 1), (1, 2), (2, 3)] dictCycle).any fun d =>
      decide (S.Dict.run [(0, 1), (1, 3), (2, 0), (0, 1), (1, 3), (2, 0)] d = some d)) = true := by decide +kernel
    cases hd : S.Dict.run [(2, 0), (0, 1), (1, 2), (2, 3)] dictCycle with
    | none => rw [hd] at this; cases this
    | some d => rw [hd] at this; exact ⟨d, rfl, of_decide_eq_true this⟩
  obtain ⟨d, k1, k2⟩ := hrun
  have hloop : ∀ fuel, S.optLoop fuel t.slv = none := by
    intro fuel
    obtain ⟨u, l1, l2, l3⟩ := hf.run hs k1
    cases ho : S.optLoop fuel t.slv with
    | none => rfl
    | some w =>
      have := S.Dict.optLoop_mono (f' := fuel + [(2, 0), (0, 1), (1, 2), (2, 3)].length) (by omega) ho
      rw [l3 fuel, S.Dict.Fits.cycle (by simp) k2 fuel l2 l1] at this
      cases this
  unfold Propagator.check Propagator.checkFacts
  rw [h2.slv]
  simp only
  rw [if_neg (by unfold Propagator.needFacts; simp [ctlOf])]
  simp only [if_true]
  unfold Propagator.checkObj
  rw [h2.slv]
  simp only
  unfold S.checkObj S.integrate
  rw [show t.slv.opts.globalObjective = none by rw [hd.hopts]]
  simp only [Bool.not_true, Bool.false_eq_true, if_false, if_true]
  unfold S.checkTotal S.optimize
  rw [h4, if_pos rfl, hloop fuel]

end Lpx.Props
