import Verif.PropsLimits
import Verif.PropsPrepare
import Verif.PropsParsing
import Verif.PropsViolations

/-!
# End to end: from the theory atoms of the program to the values in a model (C44)

The theorems of this file combine parsing, preparation and solving. `Loaded be mapper atoms prog` says that `prog` contains the
constraints of `atoms`, which may have been passed to `init` in several solving steps. The truth assignment `tr` is total; what
clingo guarantees about it is stated in `Guaranteed`.
-/

set_option linter.unusedSectionVars false

namespace Lpx.Props
open Lpx Lpx.Witness

variable {V : Type} [LpFull V] {be : Backend} {opts : Options} {p0 p1 p : Propagator V} {g0 g1 g : Ghost V} {mapper : ℤ → ℤ}
  {atoms more : List TAtom} {envs : ℕ → InitEnv} {n : ℕ}

/-- What clingo guarantees about a total assignment `tr` it is about to report as a model of a thread: all true literals of
constraints have been propagated, the clauses added by `init` are satisfied, and literals that were false during `init` are
false. -/
structure Guaranteed (p1 p : Propagator V) (gt : GThr) (envs : ℕ → InitEnv) (tr : ℤ → Prop) : Prop where
  total : Total tr
  propagated : ∀ x ∈ p.prog.iqs, tr x.lit → Act gt.frames x.lit
  clauses : ∀ c ∈ p1.clausesOf 0, ∃ l ∈ c, tr l
  dead : ∀ O l, O <+: p1.clausesOf 0 → (envs 0).isFalse O l = true → ¬ tr l
  nonzero : ∀ x ∈ p.prog.iqs, x.lit ≠ 0

/-- Programs covered: constraints without variables are equations or compare with zero (see C20), strict relations need strict
mode. -/
structure Covered (V : Type) [LpFull V] (prog : Prog) : Prop where
  const : ∀ x ∈ prog.iqs, x.lhs = [] → x.rel = .eq ∨ x.rhs = 0
  strict : ∀ x ∈ prog.iqs, Supports V x.rel

/-- The program after `init`. -/
theorem init_loaded (hload : Loaded be mapper atoms p0.prog) {ok : Bool} (hi : p0.init be mapper more envs n = .ok (p1, ok)) :
    Loaded be mapper (atoms ++ more) p1.prog := by
  unfold Propagator.init at hi
  simp only at hi
  split at hi
  · cases hi
  · rename_i prog he
    simp only [Except.ok.injEq, Prod.mk.injEq] at hi
    rw [← hi.1]
    exact .step atoms more _ _ hload he

/-- If all active constraints with variables hold under some values then all constraints whose literals are true hold. -/
theorem all_of_active (hr0 : Reach be opts Intact p0 g0) (hi : p0.init be mapper more envs n = .ok (p1, true))
    (hn : 0 < n) (hl : LaterInStep be Intact p1 g1 p g) (hcov : Covered V p.prog) {gt : GThr}
    {tr : ℤ → Prop} (htr : Guaranteed p1 p gt envs tr) {gv : Symbol → ℚ} (hs : Solves (withVars p.prog.iqs) (Act gt.frames) gv) :
    AllHold tr gv p.prog.iqs := by
  intro x hx hlit
  by_cases hv : x.lhs = []
  · by_contra hno
    have hf : ∀ gv, ¬ x.holds gv := by
      intro gv
      unfold Ineq.holds at hno ⊢
      rw [hv] at hno ⊢
      simpa [evalTerms] using hno
    have hx1 : x ∈ p1.prog.iqs := by rw [← hl.same.1]; exact hx
    rcases C20_false_constants_partial hr0 hi hn hx1 hv (hcov.const x hx hv) hf with h2 | ⟨O, h2, h3⟩
    · obtain ⟨l, hl', htl⟩ := htr.clauses _ h2
      simp only [List.mem_singleton] at hl'
      subst hl'
      exact (htr.total _ (htr.nonzero x hx)).1 htl hlit
    · exact htr.dead O _ h2 h3 hlit
  · exact hs x (mem_withVars.2 ⟨hx, hv⟩) (htr.propagated x hx hlit)

/-- All constraints whose literals are true hold under the reported values. -/
theorem all_hold (hq : StepOK V opts) (hr0 : Reach be opts Intact p0 g0) (hi : p0.init be mapper more envs n = .ok (p1, true))
    (hn : 0 < n) (h1 : Step be Intact p0 g0 p1 g1) (hl : LaterInStep be Intact p1 g1 p g)
    (hcov : Covered V p.prog) {th : ℕ} {gt : GThr} (hgt : g.thrs[th]? = some gt) (hst : gt.stuck = false)
    {tr : ℤ → Prop} (htr : Guaranteed p1 p gt envs tr) :
    Small fun e => AllHold tr (fun y => LpSem.conc e (p.valueOf th y)) p.prog.iqs :=
  (C01_active_constraints_hold_partial hq (hl.reach (hr0.step h1)) hcov.strict hgt hst).mono fun _ _ hs =>
    all_of_active hr0 hi hn hl hcov htr hs

/-- C44 (partial: `Intact`, `Covered`): soundness, for arbitrary conditional elements. Let a solving step begin with `init` and then
anything happen. Whenever a thread is not in conflict and its total assignment `tr` is about to be reported, then the values reported for
the variables satisfy every true `&sum`, `&diff` and `&dom` atom of all solving steps, where the constants in conditional elements are
multiplied by some factor (see `C25_exact`). -/
theorem C44_models_satisfy_the_constraints_partial (hq : StepOK V opts) (hr0 : Reach be opts Intact p0 g0)
    (hload : Loaded be mapper atoms p0.prog) (hi : p0.init be mapper more envs n = .ok (p1, true)) (hn : 0 < n) (hm : ∀ c, mapper c ≠ 0)
    (h1 : Step be Intact p0 g0 p1 g1) (hl : LaterInStep be Intact p1 g1 p g) (hcov : Covered V p.prog) {th : ℕ}
    {gt : GThr} (hgt : g.thrs[th]? = some gt) (hst : gt.stuck = false) {tr : ℤ → Prop} (htr : Guaranteed p1 p gt envs tr) :
    Small fun e => ∃ c, ∀ a ∈ atoms ++ more, IsConstraint a → tr (mapper a.literal) →
      AtomHoldsC mapper tr c (fun y => LpSem.conc e (p.valueOf th y)) a := by
  have hld : Loaded be mapper (atoms ++ more) p.prog := by rw [hl.same.1]; exact init_loaded hload hi
  exact (all_hold hq hr0 hi hn h1 hl hcov hgt hst htr).mono fun e _ h =>
    ⟨_, (C25_exact_solutions be mapper _ _ hld tr htr.total hm _ h).1⟩

/-- C44 (partial: `Intact`, `Covered`, no non-zero constants in conditional elements): soundness. Let a solving step begin with `init`
and then anything happen. Whenever a thread is not in conflict and its total assignment `tr` is about to be reported, then the values
reported for the variables satisfy every true `&sum`, `&diff` and `&dom` atom of all solving steps as written in the program. -/
theorem C44_models_satisfy_the_program_partial (hq : StepOK V opts) (hr0 : Reach be opts Intact p0 g0)
    (hload : Loaded be mapper atoms p0.prog) (hi : p0.init be mapper more envs n = .ok (p1, true)) (hn : 0 < n) (hm : ∀ c, mapper c ≠ 0)
    (h1 : Step be Intact p0 g0 p1 g1) (hl : LaterInStep be Intact p1 g1 p g) (hcov : Covered V p.prog)
    (hcc : ∀ a ∈ atoms ++ more, CondConstZero a) {th : ℕ}
    {gt : GThr} (hgt : g.thrs[th]? = some gt) (hst : gt.stuck = false) {tr : ℤ → Prop} (htr : Guaranteed p1 p gt envs tr) :
    Small fun e => ∀ a ∈ atoms ++ more, IsConstraint a → tr (mapper a.literal) →
      AtomHolds mapper tr (fun y => LpSem.conc e (p.valueOf th y)) a := by
  have hld : Loaded be mapper (atoms ++ more) p.prog := by rw [hl.same.1]; exact init_loaded hload hi
  exact (all_hold hq hr0 hi hn h1 hl hcov hgt hst htr).mono fun e _ h =>
    C25_solutions_partial be mapper _ _ hld hcc tr htr.total hm _ h

/-- C44 (partial: `Intact`, `Covered`, no global objective): completeness. If a total truth assignment and some values of the
variables satisfy all true atoms as written in the program then all clauses added by any thread are satisfied (0 is not a
literal; by convention it counts as true). -/
theorem C44_no_model_lost_partial (hg : opts.globalObjective = none) (hr : Reach be opts Intact p g) (hlv : g.failed = false)
    (hload : Loaded be mapper atoms p.prog) (hm : ∀ c, mapper c ≠ 0) (hcov : Covered V p.prog) {tr : ℤ → Prop} (htr : Total tr)
    (h0 : tr 0) {gv : Symbol → ℚ} (hsat : ∀ a ∈ atoms, IsConstraint a → tr (mapper a.literal) → AtomHolds mapper tr gv a) {th : ℕ}
    {c : List ℤ} (hc : c ∈ p.clausesOf th) : ∃ l ∈ c, tr l := by
  obtain ⟨gv', -, -, hall, -⟩ := C25_no_solution_lost be mapper atoms _ hload tr htr hm gv hsat
  refine C02_no_cuts_partial hg hr hlv hcov.strict hcov.const hc tr gv' (fun l => ?_) hall
  by_cases h : l = 0
  · subst h; exact .inl h0
  · by_cases h2 : tr l
    · exact .inl h2
    · exact .inr ((htr l h).2 h2)

/-- C44 (partial: `Intact`, no global objective and bound propagation): propagating true literals is never rejected if the true
atoms as written in the program have a common solution. -/
theorem C44_consistent_accepted_partial (hg : opts.globalObjective = none) (hpm : opts.propagateMode = .none)
    (hr : Reach be opts Intact p g) (hload : Loaded be mapper atoms p.prog) (hm : ∀ c, mapper c ≠ 0) (hs : ∀ x ∈ p.prog.iqs, Supports V x.rel)
    {tr : ℤ → Prop} (htr : Total tr) {gv : Symbol → ℚ}
    (hsat : ∀ a ∈ atoms, IsConstraint a → tr (mapper a.literal) → AtomHolds mapper tr gv a) {ctl : Ctl} {th : ℕ} {lits : List ℤ}
    {gt : GThr} (hmp : MayPropagate Intact p g ctl th lits gt) (hsub : ∀ l, l ∈ lits ∨ Act gt.frames l → tr l) {fuel : ℕ}
    {p' : Propagator V} {ok : Bool} (hc : p.propagate fuel ctl th lits = some (p', ok)) : ok = true := by
  obtain ⟨gv', -, -, hall, -⟩ := C25_no_solution_lost be mapper atoms _ hload tr htr hm gv hsat
  exact (C05_verdict_iff_partial hg hpm hr hs hmp hc).2
    ⟨gv', fun x hx ha => hall x (mem_withVars.1 hx).1 (hsub _ ha)⟩

/-- C44 (partial: `Intact`): the reported value is a bound, for arbitrary conditional elements. If the objective is reported as
bounded for a checked total assignment `tr` then its value is at least that of the `&maximize`/`&minimize` atoms under every solution of the
true atoms. -/
theorem C44_bound_partial (hq : StepOK V opts) (hr : Reach be opts Intact p g)
    (hld : Loaded be mapper atoms p.prog) (hm : ∀ c, mapper c ≠ 0) (hs : ∀ x ∈ p.prog.iqs, Supports V x.rel) {th : ℕ}
    {gt : GThr} (hgt : g.thrs[th]? = some gt) (hst : gt.stuck = false) (hck : gt.checked = true) {tr : ℤ → Prop}
    (htr : Total tr) (hact : ∀ l, Act gt.frames l → tr l) {v : V} (ho : p.objectiveOf th = [(v, true)])
    (gv : Symbol → ℚ) (w : ℚ) (hsat : ∀ a ∈ atoms, IsConstraint a → tr (mapper a.literal) → AtomHolds mapper tr gv a)
    (hw : ObjVal mapper tr gv atoms w) : LpValue.ofRat w ≤ v := by
  obtain ⟨-, hopt⟩ := C09_bounded_is_optimal_partial hq hr hs hgt hst hck ho
  obtain ⟨gv', -, -, hall, hx⟩ := C25_no_solution_lost be mapper _ _ hld tr htr hm gv hsat
  rw [hw.congr hx]
  exact hopt gv' fun x hx ha => hall x (mem_withVars.1 hx).1 (hact _ ha)

/-- C44 (partial as for soundness): optimality. If the objective is reported as bounded for a checked total assignment `tr` then its value
is at least that of the `&maximize`/`&minimize` atoms under every solution of the true atoms, and it is attained by the reported values. -/
theorem C44_optimal_partial (hq : StepOK V opts) (hr0 : Reach be opts Intact p0 g0)
    (hload : Loaded be mapper atoms p0.prog) (hi : p0.init be mapper more envs n = .ok (p1, true)) (hn : 0 < n) (hm : ∀ c, mapper c ≠ 0)
    (h1 : Step be Intact p0 g0 p1 g1) (hl : LaterInStep be Intact p1 g1 p g) (hcov : Covered V p.prog)
    (hcc : ∀ a ∈ atoms ++ more, CondConstZero a) {th : ℕ}
    {gt : GThr} (hgt : g.thrs[th]? = some gt) (hst : gt.stuck = false) (hck : gt.checked = true) {tr : ℤ → Prop}
    (htr : Guaranteed p1 p gt envs tr) (hact : ∀ l, Act gt.frames l → tr l) {v : V} (ho : p.objectiveOf th = [(v, true)]) :
    (Small fun e => ObjVal mapper tr (fun y => LpSem.conc e (p.valueOf th y)) (atoms ++ more) (LpSem.conc e v)) ∧
    ∀ (gv : Symbol → ℚ) (w : ℚ), (∀ a ∈ atoms ++ more, IsConstraint a → tr (mapper a.literal) → AtomHolds mapper tr gv a) →
      ObjVal mapper tr gv (atoms ++ more) w → LpValue.ofRat w ≤ v := by
  have hld : Loaded be mapper (atoms ++ more) p.prog := by rw [hl.same.1]; exact init_loaded hload hi
  have hr := hl.reach (hr0.step h1)
  obtain ⟨hv, -⟩ := C09_bounded_is_optimal_partial hq hr hcov.strict hgt hst hck ho
  constructor
  · refine (all_hold hq hr0 hi hn h1 hl hcov hgt hst htr).mono fun e _ h => ?_
    obtain ⟨x, hx, -, he⟩ := C26_objective_partial be mapper _ _ hld hcc tr htr.total hm _ h
    have : LpSem.conc e v = x := by rw [hv, evalV_conc, he]
    rw [this]; exact hx
  · exact C44_bound_partial hq hr hld hm hcov.strict hgt hst hck htr.total hact ho

/-- C44 (partial as for soundness): unboundedness. If the objective is reported as unbounded for a checked total assignment `tr` then there are
solutions of the true atoms with arbitrarily large values of the `&maximize`/`&minimize` atoms. -/
theorem C44_unbounded_partial (hq : StepOK V opts) (hr0 : Reach be opts Intact p0 g0)
    (hload : Loaded be mapper atoms p0.prog) (hi : p0.init be mapper more envs n = .ok (p1, true)) (hn : 0 < n) (hm : ∀ c, mapper c ≠ 0)
    (h1 : Step be Intact p0 g0 p1 g1) (hl : LaterInStep be Intact p1 g1 p g) (hcov : Covered V p.prog)
    (hcc : ∀ a ∈ atoms ++ more, CondConstZero a) {th : ℕ}
    {gt : GThr} (hgt : g.thrs[th]? = some gt) (hck : gt.checked = true) {tr : ℤ → Prop}
    (htr : Guaranteed p1 p gt envs tr) {v : V} (ho : p.objectiveOf th = [(v, false)]) (q : ℚ) :
    ∃ (gv : Symbol → ℚ) (w : ℚ), (∀ a ∈ atoms ++ more, IsConstraint a → tr (mapper a.literal) → AtomHolds mapper tr gv a) ∧
      ObjVal mapper tr gv (atoms ++ more) w ∧ q < w := by
  have hld : Loaded be mapper (atoms ++ more) p.prog := by rw [hl.same.1]; exact init_loaded hload hi
  have hr := hl.reach (hr0.step h1)
  obtain ⟨gv, hs, hlt⟩ := C10_unbounded_partial hq hr hcov.strict hgt hck ho q
  have hall := all_of_active hr0 hi hn hl hcov htr hs
  obtain ⟨w, hw, -, he⟩ := C26_objective_partial be mapper _ _ hld hcc tr htr.total hm _ hall
  exact ⟨gv, w, C25_solutions_partial be mapper _ _ hld hcc tr htr.total hm _ hall, hw, by rw [← he]; exact hlt⟩

/-! ### the hypotheses can be met -/

/-- `&sum{ x; 2*y : a } >= 3`, `&sum{ x } <= 2`, `&minimize{ x; 2*y : a }`, where `a` is literal 7. -/
def endProg : List TAtom := [exAtom, sumAtom "x" "<=" 2 1, exMin]

/-- A script for one solving step. -/
def endScript : List Ev := [.prop 0 0 [5, 7, 1] true, .check 0 true 0]

/-- Initialization succeeded and found no conflict. -/
def initOK {ε α : Type} : Except ε (α × Bool) → Bool
  | .ok r => r.2
  | .error _ => false

/-- A run of one solving step in which all positive literals of constraints are propagated at the end. -/
theorem exists_endV {V : Type} [LpFull V] {mode : Mode} (prog : List TAtom) (script : List Ev) (hscr : script.all Ev.inStep = true) {P : Propagator V → Bool}
    (key : ((runs (V := V) .imath mode [.init prog 1] (start {})).any fun s1 =>
      initOK ((Propagator.fresh {} : Propagator V).init .imath mapLit prog (fun _ => env) 1) &&
      decide (s1.1.clausesOf 0 = []) &&
      (runs (V := V) .imath mode script s1).any fun s => atThr s.2 0 fun gt => !gt.stuck && gt.checked &&
        (s.1.prog.iqs.all fun x => decide (x.lit ≤ 0 ∨ Act gt.frames x.lit) && decide (x.lhs ≠ []) && (decide (x.rel ≠ .lt ∧ x.rel ≠ .gt) ||
          LpSem.strict V) && decide (x.lit ≠ 0)) &&
        (gt.frames.all fun fr => fr.lits.all fun l => decide (0 < l)) && P s.1) = true) :
    ∃ (p1 p : Propagator V) (g1 g : Ghost V) (gt : GThr),
    (Propagator.fresh {} : Propagator V).init .imath mapLit prog (fun _ => env) 1 = .ok (p1, true) ∧
    Step .imath (restr mode) (Propagator.fresh {}) {} p1 g1 ∧
    LaterInStep .imath (restr mode) p1 g1 p g ∧ (∀ x ∈ p.prog.iqs, x.lhs ≠ []) ∧ (∀ x ∈ p.prog.iqs, Supports V x.rel) ∧
    g.thrs[0]? = some gt ∧ gt.stuck = false ∧
    gt.checked = true ∧ Guaranteed p1 p gt (fun _ => env) posTrue ∧ (∀ l, Act gt.frames l → posTrue l) ∧ P p = true := by
  cases h1 : runs (V := V) .imath mode [.init prog 1] (start {}) with
  | none => rw [h1] at key; cases key
  | some s1 =>
    obtain ⟨p1, g1⟩ := s1
    rw [h1] at key
    simp only [Option.any_some, Bool.and_eq_true] at key
    obtain ⟨⟨k1, k2⟩, k3⟩ := key
    cases h2 : runs (V := V) .imath mode script (p1, g1) with
    | none => rw [h2] at k3; cases k3
    | some s =>
      obtain ⟨p, g⟩ := s
      rw [h2] at k3
      simp only [Option.any_some] at k3
      obtain ⟨gt, hgt, k4⟩ := atThr_spec k3
      simp only [Bool.and_eq_true, Bool.not_eq_true', List.all_eq_true, decide_eq_true_eq] at k4
      obtain ⟨⟨⟨⟨k4, k5⟩, k6⟩, k7⟩, k8⟩ := k4
      rw [runs] at h1
      split at h1
      · cases h1
      rename_i s hs
      obtain ⟨q, gq⟩ := s
      simp only [runs, Option.some.injEq, Prod.mk.injEq] at h1
      obtain ⟨rfl, rfl⟩ := h1
      obtain ⟨hstep, hnd⟩ := Ev.run_step (WSys.start _) noDead_start hs
      have hinit : (Propagator.fresh {} : Propagator V).init .imath mapLit prog (fun _ => env) 1 = .ok (q, true) := by
        unfold Ev.run at hs
        simp only [start] at hs
        unfold initOK at k1
        split at k1
        · rename_i r hr
          rw [hr] at hs
          simp only [Option.some.injEq, Prod.mk.injEq] at hs
          rw [hr, ← hs.1, ← k1]
        · cases k1
      have hcl : q.clausesOf 0 = [] := of_decide_eq_true k2
      refine ⟨q, p, gq, g, gt, hinit, hstep, runs_inStep ((WSys.start _).step hstep) hnd hscr h2 .refl, fun x hx => (k6 x hx).1.1.2, ?_, hgt, k4, k5,
        ⟨posTrue_total, ?_, ?_, ?_, ?_⟩, ?_, k8⟩
      · intro x hx
        have := (k6 x hx).1.2
        rw [Bool.or_eq_true, decide_eq_true_eq] at this
        intro hh
        rcases this with this | this
        · rcases hh with hh | hh
          · exact absurd hh this.1
          · exact absurd hh this.2
        · exact this
      · intro x hx hp
        rcases (k6 x hx).1.1.1 with h | h
        · exact absurd hp (by unfold posTrue; omega)
        · exact h
      · rw [hcl]; intro c hc; simp at hc
      · intro O l _ h; cases h
      · exact fun x hx => (k6 x hx).2
      · rintro l ⟨fr, hfr, hl⟩; exact k7 fr hfr l hl

@[inherit_doc exists_endV]
theorem exists_end {mode : Mode} (prog : List TAtom) (script : List Ev) (hscr : script.all Ev.inStep = true) {P : Propagator ℚ → Bool}
    (key : ((runs (V := ℚ) .imath mode [.init prog 1] (start {})).any fun s1 =>
      initOK ((Propagator.fresh {} : Propagator ℚ).init .imath mapLit prog (fun _ => env) 1) &&
      decide (s1.1.clausesOf 0 = []) &&
      (runs (V := ℚ) .imath mode script s1).any fun s => atThr s.2 0 fun gt => !gt.stuck && gt.checked &&
        (s.1.prog.iqs.all fun x => decide (x.lit ≤ 0 ∨ Act gt.frames x.lit) && decide (x.lhs ≠ []) && (decide (x.rel ≠ .lt ∧ x.rel ≠ .gt) ||
          LpSem.strict ℚ) && decide (x.lit ≠ 0)) &&
        (gt.frames.all fun fr => fr.lits.all fun l => decide (0 < l)) && P s.1) = true) :
    ∃ (p1 p : Propagator ℚ) (g1 g : Ghost ℚ) (gt : GThr),
    (Propagator.fresh {} : Propagator ℚ).init .imath mapLit prog (fun _ => env) 1 = .ok (p1, true) ∧
    Step .imath (restr mode) (Propagator.fresh {}) {} p1 g1 ∧
    LaterInStep .imath (restr mode) p1 g1 p g ∧ (∀ x ∈ p.prog.iqs, x.lhs ≠ []) ∧ (∀ x ∈ p.prog.iqs, Supports ℚ x.rel) ∧
    g.thrs[0]? = some gt ∧ gt.stuck = false ∧
    gt.checked = true ∧ Guaranteed p1 p gt (fun _ => env) posTrue ∧ (∀ l, Act gt.frames l → posTrue l) ∧ P p = true :=
  exists_endV (V := ℚ) (P := P) prog script hscr key

/-- Conditional elements have no constants. -/
theorem endProg_zero : ∀ a ∈ [] ++ endProg, CondConstZero a := by
  have hy : ∀ d, Means (fun _ => 0) (.func ['*'] [.number 2, .symbol ['y']]) d → d = 0 := by
    have hts' : parseSum .imath (.func ['*'] [.number 2, .symbol ['y']]) = .ok [⟨2, .fn ['y'] [] true⟩] := by decide +kernel
    intro d hd
    rw [hd.unique ((parseSum_ok .imath _ hts').means _)]
    simp [evalTerms, ext, cst]
  intro a ha e he hc t ht
  simp only [List.nil_append, endProg, List.mem_cons, List.not_mem_nil, or_false] at ha
  rcases ha with rfl | rfl | rfl
  · simp only [exAtom, List.mem_cons, List.not_mem_nil, or_false] at he
    rcases he with rfl | rfl
    · exact absurd rfl hc
    · simp only [List.mem_singleton] at ht
      subst ht; exact hy
  · simp only [sumAtom, List.mem_cons, List.not_mem_nil, or_false] at he
    subst he; exact absurd rfl hc
  · simp only [exMin, List.mem_cons, List.not_mem_nil, or_false] at he
    rcases he with rfl | rfl
    · exact absurd rfl hc
    · simp only [List.mem_singleton] at ht
      subst ht; exact hy

/-- All hypotheses of the theorems above are met by a run on `endProg`, and the minimum is 3. -/
example : ∃ (p1 p : Propagator ℚ) (g1 g : Ghost ℚ) (gt : GThr),
    (Propagator.fresh {} : Propagator ℚ).init .imath mapLit endProg (fun _ => env) 1 = .ok (p1, true) ∧
    Loaded .imath mapLit [] (Propagator.fresh {} : Propagator ℚ).prog ∧ Step .imath Intact (Propagator.fresh {}) {} p1 g1 ∧
    LaterInStep .imath Intact p1 g1 p g ∧ Covered ℚ p.prog ∧ (∀ a ∈ [] ++ endProg, CondConstZero a) ∧ g.thrs[0]? = some gt ∧ gt.stuck = false ∧
    gt.checked = true ∧ Guaranteed p1 p gt (fun _ => env) posTrue ∧ (∀ l, Act gt.frames l → posTrue l) ∧
    p.objectiveOf 0 = [(-3, true)] ∧ p.prog.iqs.length = 4 := by
  obtain ⟨p1, p, g1, g, gt, h1, h2, h3, h4, h5, h6, h7, h8, h9, h10, h11⟩ := exists_end (mode := .intact) endProg endScript rfl
    (P := fun p => decide (p.objectiveOf 0 = [(-3, true)]) && decide (p.prog.iqs.length = 4)) (by decide +kernel)
  rw [Bool.and_eq_true] at h11
  refine ⟨p1, p, g1, g, gt, h1, .start, h2, h3, ⟨fun x hx h => absurd h (h4 x hx), h5⟩, endProg_zero, h6, h7, h8, h9, h10,
    of_decide_eq_true h11.1, of_decide_eq_true h11.2⟩

/-- `&sum{ x } >= 1`, `&maximize{ x }`. -/
def unbProg : List TAtom := [sumAtom "x" ">=" 1 1, maxAtom "x"]

/-- The hypotheses of `C44_unbounded_partial` are met by a run on `unbProg`. -/
example : ∃ (p1 p : Propagator ℚ) (g1 g : Ghost ℚ) (gt : GThr) (v : ℚ),
    (Propagator.fresh {} : Propagator ℚ).init .imath mapLit unbProg (fun _ => env) 1 = .ok (p1, true) ∧
    Loaded .imath mapLit [] (Propagator.fresh {} : Propagator ℚ).prog ∧ Step .imath Intact (Propagator.fresh {}) {} p1 g1 ∧
    LaterInStep .imath Intact p1 g1 p g ∧ Covered ℚ p.prog ∧ (∀ a ∈ [] ++ unbProg, CondConstZero a) ∧ g.thrs[0]? = some gt ∧
    gt.checked = true ∧ Guaranteed p1 p gt (fun _ => env) posTrue ∧ p.objectiveOf 0 = [(v, false)] := by
  obtain ⟨p1, p, g1, g, gt, h1, h2, h3, h4, h5, h6, h7, h8, h9, h10, h11⟩ := exists_end (mode := .intact) unbProg
    [.prop 0 0 [1] true, .check 0 true 0] rfl
    (P := fun p => decide ((p.objectiveOf 0).map (·.2) = [false])) (by decide +kernel)
  have h11 : (p.objectiveOf 0).map (·.2) = [false] := of_decide_eq_true h11
  obtain ⟨⟨v, b⟩, ho, hb⟩ := List.map_eq_singleton_iff.1 h11
  simp only at hb; subst hb
  refine ⟨p1, p, g1, g, gt, v, h1, .start, h2, h3, ⟨fun x hx h => absurd h (h4 x hx), h5⟩, ?_, h6, h8, h9, ho⟩
  intro a ha e he hc t ht
  simp only [List.nil_append, unbProg, List.mem_cons, List.not_mem_nil, or_false] at ha
  rcases ha with rfl | rfl
  · simp only [sumAtom, List.mem_cons, List.not_mem_nil, or_false] at he
    subst he; exact absurd rfl hc
  · simp only [maxAtom, List.mem_cons, List.not_mem_nil, or_false] at he
    subst he; exact absurd rfl hc

end Lpx.Props
