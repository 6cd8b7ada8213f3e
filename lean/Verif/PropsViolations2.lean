import Verif.PropsViolations
import Verif.PropsProgress
import Verif.PropsEnd

/-!
# More properties the code violates

Consequences of Finding 1 (see `PropsViolations`) for optimization, several threads, pairs of runs and whole programs.
-/

set_option linter.unusedSectionVars false

namespace Lpx.Props
open Lpx Lpx.Witness

/-- C42 is violated: the history of `C01_violation` in the second of two threads, while the first one does something else. -/
theorem C42_violation : ∃ p g, Reach .imath {} (AnyLits (V := ℚ)) p g ∧ g.thrs.length = 2 ∧ ∃ gt, g.thrs[1]? = some gt ∧ gt.stuck = false ∧
    ∃ x ∈ p.prog.iqs, x.lhs ≠ [] ∧ Act gt.frames x.lit ∧ ¬ x.holds (p.valueOf 1) := by
  obtain ⟨p, g, h1, -, h2⟩ := exists_reach (V := ℚ) (be := .imath) (mode := .any) (opts := {})
    [.init prog1 2, .prop 0 1 [1] true, .prop 1 0 [2] true, .prop 1 1 [2] true, .undo 1, .prop 1 1 [3] true]
    (P := fun p g => decide (g.thrs.length = 2) && atThr g 1 fun gt => !gt.stuck && p.prog.iqs.any fun x => decide (x.lhs ≠ [] ∧ Act gt.frames x.lit ∧ ¬ x.holds (p.valueOf 1)))
    (by decide +kernel)
  rw [Bool.and_eq_true] at h2
  obtain ⟨gt, h3, h4⟩ := atThr_spec h2.2
  rw [Bool.and_eq_true, List.any_eq_true] at h4
  obtain ⟨h4, x, hx, h5⟩ := h4
  exact ⟨p, g, h1, of_decide_eq_true h2.1, gt, h3, by simpa using h4, x, hx, of_decide_eq_true h5⟩

/-! ### C47, C48: two runs on the same task -/

/-- `x >= 0`, `x <= 10`, `x = 5`, `x <= 20`. -/
def vioIqs : List (Ineq Symbol) :=
  [⟨[⟨1, symX⟩], 0, .ge, 1⟩, ⟨[⟨1, symX⟩], 10, .le, 2⟩, ⟨[⟨1, symX⟩], 5, .eq, 3⟩, ⟨[⟨1, symX⟩], 20, .le, 4⟩]

/-- The program, and the constraints 1, 2 and 4 are the true ones. -/
def vioTask (a : Prog) (frames : List Frame) : Bool :=
  decide (a.iqs = vioIqs ∧ a.objective = [⟨-1, symX⟩] ∧ Act frames 1 ∧ Act frames 2 ∧ ¬ Act frames 3 ∧ Act frames 4)

theorem vioTask_same {a b : Prog} {fa fb : List Frame} (ha : vioTask a fa = true) (hb : vioTask b fb = true) :
    SameTask a b (Act fa) (Act fb) := by
  obtain ⟨a1, a2, a3, a4, a5, a6⟩ := of_decide_eq_true ha
  obtain ⟨b1, b2, b3, b4, b5, b6⟩ := of_decide_eq_true hb
  refine ⟨fun x => by rw [a1, b1], by rw [a2, b2], fun x hx => ?_⟩
  rw [a1] at hx
  unfold vioIqs at hx
  simp only [List.mem_cons, List.not_mem_nil, or_false] at hx
  rcases hx with rfl | rfl | rfl | rfl
  · exact ⟨fun _ => b3, fun _ => a3⟩
  · exact ⟨fun _ => b4, fun _ => a4⟩
  · exact ⟨fun h => absurd h a5, fun h => absurd h b5⟩
  · exact ⟨fun _ => b6, fun _ => a6⟩

/-- The thread is checked and has the task above. -/
def vioOK {V : Type} [LpFull V] (p : Propagator V) (g : Ghost V) : Bool := atThr g 0 fun gt => !gt.stuck && gt.checked && vioTask p.prog gt.frames

theorem vioOK_spec {V : Type} [LpFull V] {p : Propagator V} {g : Ghost V} (h : vioOK p g = true) :
    ∃ gt, g.thrs[0]? = some gt ∧ gt.stuck = false ∧ gt.checked = true ∧ vioTask p.prog gt.frames = true := by
  obtain ⟨gt, h1, h2⟩ := atThr_spec h
  simp only [Bool.and_eq_true, Bool.not_eq_true'] at h2
  exact ⟨gt, h1, h2.1.1, h2.1.2, h2.2⟩

def vioProg : List TAtom := [sumAtom "x" ">=" 0 1, sumAtom "x" "<=" 10 2, sumAtom "x" "=" 5 3, sumAtom "x" "<=" 20 4, minAtom "x"]

/-- The constraints become true without backtracking. -/
def vioRun1 : List Ev := [.init vioProg 1, .prop 0 0 [1, 2] true, .prop 1 0 [4] true, .check 1 true 0]

/-- `x = 5` is decided and undone in between. -/
def vioRun2 : List Ev := [.init vioProg 1, .prop 0 0 [1, 2] true, .prop 1 0 [3] true, .undo 0, .prop 1 0 [4] true, .check 1 true 0]

/-- C47 is violated: for the same true constraints, the same options and the same objective `&minimize{ x }`, the optimum is reported to be 0 or 10, depending
on the history. -/
theorem C47_violation : ∃ (p q : Propagator ℚ) (g g' : Ghost ℚ) (gt gt' : GThr), Reach .imath {} AnyLits p g ∧ Reach .imath {} AnyLits q g' ∧
    g.thrs[0]? = some gt ∧ g'.thrs[0]? = some gt' ∧ gt.stuck = false ∧ gt'.stuck = false ∧ gt.checked = true ∧ gt'.checked = true ∧
    SameTask p.prog q.prog (Act gt.frames) (Act gt'.frames) ∧ p.objectiveOf 0 = [(0, true)] ∧ q.objectiveOf 0 = [(-10, true)] := by
  obtain ⟨p, g, h1, -, h2⟩ := exists_reach (V := ℚ) (be := .imath) (mode := .any) (opts := {}) vioRun1
    (P := fun p g => vioOK p g && decide (p.objectiveOf 0 = [(0, true)])) (by decide +kernel)
  obtain ⟨q, g', k1, -, k2⟩ := exists_reach (V := ℚ) (be := .imath) (mode := .any) (opts := {}) vioRun2
    (P := fun p g => vioOK p g && decide (p.objectiveOf 0 = [(-10, true)])) (by decide +kernel)
  rw [Bool.and_eq_true] at h2 k2
  obtain ⟨gt, h3, h4, h5, h6⟩ := vioOK_spec h2.1
  obtain ⟨gt', k3, k4, k5, k6⟩ := vioOK_spec k2.1
  exact ⟨p, q, g, g', gt, gt', h1, k1, h3, k3, h4, k4, h5, k5, vioTask_same h6 k6, of_decide_eq_true h2.2, of_decide_eq_true k2.2⟩

/-- C48 is violated: as above, where one of the runs is in strict mode. -/
theorem C48_violation : ∃ (p : Propagator ℚ) (q : Propagator RatQ) (g : Ghost ℚ) (g' : Ghost RatQ) (gt gt' : GThr), Reach .imath {} AnyLits p g ∧
    Reach .imath {} AnyLits q g' ∧ (∀ x ∈ p.prog.iqs, Supports ℚ x.rel) ∧
    g.thrs[0]? = some gt ∧ g'.thrs[0]? = some gt' ∧ gt.stuck = false ∧ gt'.stuck = false ∧ gt.checked = true ∧ gt'.checked = true ∧
    SameTask p.prog q.prog (Act gt.frames) (Act gt'.frames) ∧ p.objectiveOf 0 = [(0, true)] ∧ q.objectiveOf 0 = [(⟨-10, 0⟩, true)] := by
  obtain ⟨p, g, h1, -, h2⟩ := exists_reach (V := ℚ) (be := .imath) (mode := .any) (opts := {}) vioRun1
    (P := fun p g => vioOK p g && decide (p.objectiveOf 0 = [(0, true)])) (by decide +kernel)
  obtain ⟨q, g', k1, -, k2⟩ := exists_reach (V := RatQ) (be := .imath) (mode := .any) (opts := {}) vioRun2
    (P := fun p g => vioOK p g && decide (p.objectiveOf 0 = [(⟨-10, 0⟩, true)])) (by decide +kernel)
  rw [Bool.and_eq_true] at h2 k2
  obtain ⟨gt, h3, h4, h5, h6⟩ := vioOK_spec h2.1
  obtain ⟨gt', k3, k4, k5, k6⟩ := vioOK_spec k2.1
  refine ⟨p, q, g, g', gt, gt', h1, k1, ?_, h3, k3, h4, k4, h5, k5, vioTask_same h6 k6, of_decide_eq_true h2.2, of_decide_eq_true k2.2⟩
  rw [(of_decide_eq_true h6).1]; unfold vioIqs; simp [Supports]

/-! ### C29, C46, C65: branch and bound -/

/-- C29 is violated: the check of an assignment with the literal 1000 of the cut `-x >= -4` true succeeds, and the objective value is `-10`. -/
theorem C29_violation : ∃ p g, Reach .imath globOpts (AnyLits (V := ℚ)) p g ∧ ∃ gt, g.thrs[0]? = some gt ∧ gt.stuck = false ∧ gt.checked = true ∧
    ∃ u ∈ p.cutsOf 0, Act gt.frames u.1 ∧ evalV (p.valueOf 0) p.prog.objective < u.2 := by
  obtain ⟨p, g, h1, -, h2⟩ := exists_reach (V := ℚ) (be := .imath) (mode := .any) (opts := globOpts)
    [.init [sumAtom "y" "<=" 0 6, sumAtom "x" ">=" 0 1, sumAtom "x" "<=" 10 2, sumAtom "x" "=" 4 3, sum2Atom "x" "y" ">=" 5 5, minAtom "x"] 1,
      .prop 0 0 [1, 2, 5] true, .prop 1 0 [6] true, .check 1 true 0, .model 0, .undo 0, .check 0 false 0, .prop 0 0 [1000] true, .prop 1 0 [3] true,
      .undo 0, .check 0 true 0]
    (P := fun p g => atThr g 0 fun gt => !gt.stuck && gt.checked && (p.cutsOf 0).any fun u => decide (Act gt.frames u.1 ∧ evalV (p.valueOf 0) p.prog.objective < u.2))
    (by decide +kernel)
  obtain ⟨gt, h3, h4⟩ := atThr_spec h2
  simp only [Bool.and_eq_true, Bool.not_eq_true', List.any_eq_true] at h4
  obtain ⟨⟨h4, h5⟩, u, hu, h6⟩ := h4
  exact ⟨p, g, h1, gt, h3, h4, h5, u, hu, of_decide_eq_true h6⟩

/-- C46 is violated: a model with objective value `-5` has been reported, the step is 1, and `x = 0` is a solution for the truth assignment in which 3 is false
and 1, 2, 4 are true; it is excluded by a clause. -/
theorem C46_violation : ∃ p g, Reach .imath globOpts (AnyLits (V := ℚ)) p g ∧ g.reported = [(-5, true)] ∧ (∃ gt, g.thrs[0]? = some gt) ∧
    ∃ (tr : ℤ → Prop) (gv : Symbol → ℚ), (∀ l, tr l ∨ tr (-l)) ∧ Solves p.prog.iqs tr gv ∧ BetterThanReported globOpts p.prog g.reported gv ∧
      ∃ c ∈ p.clausesOf 0, ¬ ∃ l ∈ c, withCuts (p.cutsOf 0) tr l := by
  obtain ⟨p, g, h1, -, h2⟩ := exists_reach (V := ℚ) (be := .imath) (mode := .any) (opts := globOpts)
    [.init (prog2 ++ [minAtom "x"]) 1, .prop 0 0 [1, 2] true, .prop 1 0 [3] true, .check 1 true 0, .model 0, .undo 0, .check 0 false 0,
      .prop 0 0 [1000] true, .prop 1 0 [4] true]
    (P := fun p g => decide (g.reported = [(-5, true)] ∧ [-4, -2] ∈ p.clausesOf 0 ∧ p.cutsOf 0 = [(1000, -4)] ∧ p.prog.objective = [⟨-1, symX⟩]) &&
      (p.prog.iqs.all fun x => decide (x.lit ∉ [-1, -2, 3, -4] → x.holds fun _ => 0)) && atThr g 0 fun _ => true)
    (by decide +kernel)
  simp only [Bool.and_eq_true, decide_eq_true_eq, List.all_eq_true] at h2
  obtain ⟨⟨⟨h3, h4, h5, h6⟩, h7⟩, h8⟩ := h2
  obtain ⟨gt, h9, -⟩ := atThr_spec h8
  refine ⟨p, g, h1, h3, ⟨gt, h9⟩, fun l => l ∉ [-1, -2, 3, -4], fun _ => 0, fun l => ?_, fun x hx => h7 x hx, ?_, _, h4, ?_⟩
  · simp only [List.mem_cons, List.not_mem_nil, or_false]; omega
  · intro x hx
    rw [h3, List.mem_singleton] at hx
    subst hx
    refine ⟨rfl, fun q d hq hd => ?_⟩
    obtain rfl := Option.some.inj hq
    have : d = 1 := (Option.some.inj hd).symm
    subst this
    rw [h6]
    show (-5 : ℚ) + 1 ≤ (evalTerms (fun _ => 0) [⟨-1, symX⟩] : ℚ)
    simp [evalTerms]
  · rw [h5]
    unfold withCuts
    rintro ⟨l, hl, hn⟩
    simp only [List.mem_cons, List.not_mem_nil, or_false] at hl hn
    rcases hl with rfl | rfl <;> revert hn <;> simp

/-- C65 is violated: after `x = 5` has been decided and undone, the constraint `x >= 0` is lost, and the same set of true constraints is reported again with
another value. -/
theorem C65_violation : ∃ (As : List (ℤ → Prop)) (p : Propagator ℚ) (g : Ghost ℚ), ModelRun .imath globOpts AnyLits As p g ∧
    p.prog.objective ≠ [] ∧ g.reported = [(0, true), (5, true)] ∧ ∃ A B, As = [A, B] ∧ ∀ x ∈ p.prog.iqs, A x.lit ↔ B x.lit := by
  obtain ⟨p, g, h1, h2, h3⟩ := exists_reach (V := ℚ) (be := .imath) (mode := .any) (opts := globOpts)
    [.init [sumAtom "x" ">=" 0 1, sum2Atom "x" "y" ">=" (-5) 2, sumAtom "x" "=" 5 3, sumAtom "y" "<=" 0 4, minAtom "x"] 1]
    (P := fun p g => decide (g.reported = []) && (modelRun .imath .any [([.prop 0 0 [1, 2, 4] true], 0, 0),
      ([.prop 1 0 [3] true, .undo 0, .check 0 false 0, .prop 0 0 [1000] true], 0, 0)] [] (p, g)).any fun (s : List (List Frame) × Propagator ℚ × Ghost ℚ) =>
        decide (s.2.1.prog.objective ≠ [] ∧ s.2.2.reported = [(0, true), (5, true)]) &&
        s.2.1.prog.iqs.all fun x => match s.1 with | [f, f'] => decide (Act f x.lit ↔ Act f' x.lit) | _ => false) (by decide +kernel)
  rw [Bool.and_eq_true] at h3
  obtain ⟨h3, h4⟩ := h3
  obtain ⟨⟨fs, s'⟩, h5, h6⟩ := (Option.any_eq_true _ _).1 h4
  rw [Bool.and_eq_true] at h6
  obtain ⟨k1, k2⟩ := modelRun_spec (fs := []) (s := (p, g)) (.start h1 (of_decide_eq_true h3)) h2 h5
  obtain ⟨f, f', rfl⟩ := List.length_eq_two.1 k1
  exact ⟨_, s'.1, s'.2, k2, (of_decide_eq_true h6.1).1, (of_decide_eq_true h6.1).2, Act f, Act f', rfl, fun x hx =>
    of_decide_eq_true (List.all_eq_true.1 h6.2 x hx)⟩

/-! ### C44: whole programs -/

/-- `&sum{ x } >= 0`, `&sum{ x } = 5` with a negative literal, `&sum{ x } <= -1`. -/
def endVio : List TAtom := [sumAtom "x" ">=" 0 1, sumAtom "x" "=" 5 (-2), sumAtom "x" "<=" (-1) 3]

/-- C44 is violated: all theory atoms except the equation are true in a checked total assignment, and the reported values do not satisfy them. -/
theorem C44_violation : ∃ (p1 p : Propagator ℚ) (g1 g : Ghost ℚ) (gt : GThr),
    (Propagator.fresh {} : Propagator ℚ).init .imath mapLit endVio (fun _ => env) 1 = .ok (p1, true) ∧
    Loaded .imath mapLit [] (Propagator.fresh {} : Propagator ℚ).prog ∧ Step .imath AnyLits (Propagator.fresh {}) {} p1 g1 ∧
    LaterInStep .imath AnyLits p1 g1 p g ∧ Covered ℚ p.prog ∧ g.thrs[0]? = some gt ∧ gt.stuck = false ∧
    gt.checked = true ∧ Guaranteed p1 p gt (fun _ => env) posTrue ∧ (∀ l, Act gt.frames l → posTrue l) ∧
    ¬ ∀ a ∈ endVio, IsConstraint a → posTrue (mapLit a.literal) → AtomHolds mapLit posTrue (p.valueOf 0) a := by
  obtain ⟨p1, p, g1, g, gt, h1, h2, h3, h4, h5, h6, h7, h8, h9, h10, h11⟩ := exists_end (mode := .any) endVio
    [.prop 0 0 [1] true, .prop 1 0 [-2] true, .undo 0, .prop 1 0 [3] true, .check 1 true 0] rfl
    (P := fun p => decide (p.valueOf 0 symX = -1) && decide ((⟨[⟨1, symX⟩], 0, .ge, 1⟩ : Ineq Symbol) ∈ p.prog.iqs)) (by decide +kernel)
  rw [Bool.and_eq_true] at h11
  refine ⟨p1, p, g1, g, gt, h1, .start, h2, h3, ⟨fun x hx h => absurd h (h4 x hx), h5⟩, h6, h7, h8, h9, h10, fun hall => ?_⟩
  have hl : Loaded .imath mapLit endVio p.prog := by
    have := init_loaded (be := .imath) .start h1
    rw [h3.same.1]
    exact this
  obtain ⟨g', k1, -, k2, -⟩ := C25_no_solution_lost _ _ _ _ hl posTrue posTrue_total mapLit_ne _ hall
  have := k2 _ (of_decide_eq_true h11.2) (by unfold posTrue; decide)
  simp only [Ineq.holds, Relation.holds, evalTerms, List.map_cons, List.map_nil, List.sum_cons, List.sum_nil] at this
  rw [k1 symX (by unfold UserSym symX; simp), of_decide_eq_true h11.1] at this
  norm_num at this

end Lpx.Props
