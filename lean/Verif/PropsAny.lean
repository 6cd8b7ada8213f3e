import Verif.Steps
import Verif.SysSem
import Verif.Examples

/-!
# Properties that hold for arbitrary histories

The literals propagated are not restricted (`Q` is arbitrary), so Finding 1 of DESIGN.md does not matter here.
-/

set_option linter.unusedSectionVars false

namespace Lpx.Props
open Lpx Lpx.Witness

variable {V : Type} [LpFull V]
variable {be : Backend} {opts : Options} {Q : Restr V} {p p' : Propagator V} {g g' : Ghost V}

/-- C04. `propagate` terminates in every reachable state, for all literals, also if the limits are not those of the constraints
(Finding 1). It returns after at most `12 ^ n` iterations of its loop where `n` is the number of unknowns: the variables of the program, the
constraints over at least two variables, and two for an objective. The bound depends neither on the state nor on the numbers in the program.
(If an operation with undefined behaviour is reached then the model goes on with an arbitrary value.) -/
theorem C04_propagate_terminates (hr : Reach be opts Q p g) {ctl : Ctl} {th : ℕ} {lits : List ℤ}
    {gt : GThr} (hm : MayPropagate Q p g ctl th lits gt) :
    ∃ r, ∀ fuel, 12 ^ p.unknowns < fuel → p.propagate fuel ctl th lits = some r :=
  hr.weak.propagateReturns hm

/-- The hypotheses are met in a state whose values violate a constraint that is true (Finding 1). -/
example : ∃ (p : Propagator ℚ) (g : Ghost ℚ) (ctl : Ctl) (gt : GThr), Reach .imath {} AnyLits p g ∧ MayPropagate AnyLits p g ctl 0 [4] gt ∧
    ∃ x ∈ p.prog.iqs, Act gt.frames x.lit ∧ ¬ x.holds (p.valueOf 0) := by
  obtain ⟨p, g, p', gt, ok, h1, -, h2, h3, h4⟩ := exists_prop (V := ℚ) (be := .imath) (mode := .any) (opts := {})
    [.init prog1 1, .prop 0 0 [1] true, .prop 1 0 [2] true, .undo 0, .prop 1 0 [3] true] 2 0 [4] true
    (P := fun p g _ _ => atThr g 0 fun gt => p.prog.iqs.any fun x => decide (Act gt.frames x.lit ∧ ¬ x.holds (p.valueOf 0)))
    (by decide +kernel)
  obtain ⟨gt', h5, h6⟩ := atThr_spec h4
  rw [List.any_eq_true] at h6
  obtain ⟨x, hx, h6⟩ := h6
  obtain ⟨h6, h7⟩ := of_decide_eq_true h6
  obtain rfl := Option.some.inj (h2.thr.symm.trans h5)
  exact ⟨p, g, _, gt, h1, h2, x, hx, h6, h7⟩

/-- The objective value reported for a thread is the value of the objective under the values reported for the variables, in every
reachable state, also in conflict and also if the values violate constraints (Finding 1). -/
theorem C01_objective_value (hr : Reach be opts Q p g) {th : ℕ} {gt : GThr} (hgt : g.thrs[th]? = some gt)
    {v : V} {b : Bool} (ho : p.objectiveOf th = [(v, b)]) : v = evalV (p.valueOf th) p.prog.objective := by
  obtain ⟨t, ht, E0, base, hd⟩ := hr.weak.thr th gt hgt
  unfold Propagator.objectiveOf S.getObjective at ho
  simp only [ht] at ho
  split at ho
  · rename_i ha
    simp only [Option.toList_some, List.cons.injEq, Prod.mk.injEq, and_true] at ho
    have hne : p.prog.objective ≠ [] := by
      intro h0; rw [hd.active, h0] at ha; simp at ha
    rw [← ho.1]
    refine ((hd.set.ovar hne).2 t.slv.value hd.winv.e0).trans ?_
    exact evalV_congr fun u hu' => (valueOf_ix ht (hr.stat.onf (hr.stat.alive hgt)) hu').symm
  · simp at ho

/-- The hypotheses are met: the value 3 of `x` in a state in conflict. -/
example : ∃ (p : Propagator ℚ) (g : Ghost ℚ) (gt : GThr), Reach .imath {} AnyLits p g ∧ g.thrs[0]? = some gt ∧ gt.stuck = true ∧
    p.objectiveOf 0 = [(3, true)] := by
  obtain ⟨p, g, h1, -, h2⟩ := exists_reach (V := ℚ) (be := .imath) (mode := .any) (opts := {})
    [.init (prog4 ++ [maxAtom "x"]) 1, .prop 0 0 [1] true, .prop 1 0 [2, 3] true, .check 1 true 0, .prop 2 0 [4] true]
    (P := fun p g => decide (p.objectiveOf 0 = [(3, true)]) && atThr g 0 fun gt => gt.stuck) (by decide +kernel)
  rw [Bool.and_eq_true] at h2
  obtain ⟨gt, h5, h6⟩ := atThr_spec h2.2
  exact ⟨p, g, gt, h1, h5, h6, of_decide_eq_true h2.1⟩

/-- C11 for arbitrary histories (partial: assignments that are not total, or programs without an objective). `check` terminates
whatever literals have been propagated, after at most `12 ^ n` iterations. With an objective this is false, see `C11_violation`. -/
theorem C11_check_without_optimize_terminates_partial (hr : Reach be opts Q p g) {ctl : Ctl} {total : Bool} {th : ℕ} {gt : GThr} {t : Thr V}
    (hm : MayCheck p g ctl th gt t) (ho : total = false ∨ p.prog.objective = []) :
    ∃ r, ∀ fuel, 12 ^ p.unknowns < fuel → p.check fuel ctl total th = some r :=
  hr.weak.checkIdleReturns hm ho

/-- The hypotheses are met by a total assignment whose values violate a constraint (Finding 1). -/
example : ∃ (p : Propagator ℚ) (g : Ghost ℚ) (ctl : Ctl) (gt : GThr) (t : Thr ℚ), Reach .imath {} AnyLits p g ∧ MayCheck p g ctl 0 gt t ∧
    p.prog.objective = [] ∧ ∃ x ∈ p.prog.iqs, Act gt.frames x.lit ∧ ¬ x.holds (p.valueOf 0) := by
  obtain ⟨p, g, gt, t, h1, -, h2, h3⟩ := exists_mayCheck (V := ℚ) (be := .imath) (mode := .any) (opts := {})
    [.init prog1 1, .prop 0 0 [1] true, .prop 1 0 [2] true, .undo 0, .prop 1 0 [3] true] 1 0
    (P := fun p _ _ gt => decide (p.prog.objective = []) && p.prog.iqs.any fun x => decide (Act gt.frames x.lit ∧ ¬ x.holds (p.valueOf 0)))
    (by decide +kernel)
  rw [Bool.and_eq_true, List.any_eq_true] at h3
  obtain ⟨h3, x, hx, h6⟩ := h3
  obtain ⟨h6, h7⟩ := of_decide_eq_true h6
  exact ⟨p, g, _, gt, t, h1, h2, of_decide_eq_true h3, x, hx, h6, h7⟩

/-- C29: where cuts come from, for arbitrary histories. The value of a cut is a reported bounded objective value plus the step, or
an unbounded objective has been reported before. -/
theorem C29_cut_values (hr : Reach be opts Q p g) {th : ℕ} {gt : GThr} (hgt : g.thrs[th]? = some gt) {u : ℤ × V} (hu : u ∈ p.cutsOf th) :
    (∃ q d v, opts.globalObjective = some q ∧ LpFull.asValue q = some d ∧ (v, true) ∈ g.reported ∧ u.2 = v + d) ∨
      ∃ v, (v, false) ∈ g.reported := by
  obtain ⟨t, ht, E0, base, hd⟩ := hr.weak.thr th gt hgt
  obtain ⟨bd, hb, hne, rfl⟩ := (mem_cutsOf ht).1 hu
  obtain ⟨cs, hc1, hc2⟩ := hd.cuts
  rw [hc1, List.mem_append] at hb
  rcases hb with hb | hb
  · obtain ⟨x, hx, hrep⟩ := hd.set.src bd hb
    exact absurd hrep.lit.symm (hne x hx)
  · exact (hc2 bd hb).val

/-- The hypotheses are met: after a model with value 3 in thread 0, thread 1 adds a cut with value 4. -/
example : ∃ (p : Propagator ℚ) (g : Ghost ℚ) (gt : GThr), Reach .imath { globalObjective := some ⟨1, 0⟩ } AnyLits p g ∧
    g.thrs[1]? = some gt ∧ (1000, 4) ∈ p.cutsOf 1 ∧ (3, true) ∈ g.reported := by
  obtain ⟨p, g, h1, -, h2⟩ := exists_reach (V := ℚ) (be := .imath) (mode := .any) (opts := { globalObjective := some ⟨1, 0⟩ })
    [.init (prog4 ++ [maxAtom "x"]) 2, .prop 0 0 [1] true, .prop 1 0 [2, 3] true, .check 1 true 0, .model 0, .prop 0 1 [1] true, .check 0 false 1]
    (P := fun p g => decide ((1000, 4) ∈ p.cutsOf 1) && decide ((3, true) ∈ g.reported) && atThr g 1 fun _ => true)
    (by decide +kernel)
  simp only [Bool.and_eq_true] at h2
  obtain ⟨⟨h2, h3⟩, h4⟩ := h2
  obtain ⟨gt, h5, -⟩ := atThr_spec h4
  exact ⟨p, g, gt, h1, h5, of_decide_eq_true h2, of_decide_eq_true h3⟩

end Lpx.Props
