import Verif.PropsEnd

/-!
# Programs that are solved correctly whatever happens (C45)

Finding 1 of DESIGN.md needs a variable for which there is both an equation and an inequality over this variable alone that the equation
satisfies with slack. For programs without such variables, the properties of solving hold for all histories: the literals propagated are not restricted (`Q` is
arbitrary).
-/

set_option linter.unusedSectionVars false

namespace Lpx.Props
open Lpx Lpx.Witness

variable {V : Type} [LpFull V]

/-- No equation over a single variable satisfies an inequality over the same variable alone with slack. -/
def Unmixed (iqs : List (Ineq Symbol)) : Prop :=
  ∀ x ∈ iqs, ∀ x' ∈ iqs, ∀ y, OnVar x y → OnVar x' y → x.rel = .eq → ¬ Loose x x'

/-- A test for `Unmixed`. -/
def unmixedB (iqs : List (Ineq Symbol)) : Bool := iqs.all fun x => iqs.all fun x' => decide (x.rel ≠ .eq) || tightB x x'

theorem unmixedB_spec {iqs : List (Ineq Symbol)} (h : unmixedB iqs = true) : Unmixed iqs := by
  intro x hx x' hx' y hy hy' he
  unfold unmixedB at h
  simp only [List.all_eq_true, Bool.or_eq_true, decide_eq_true_eq] at h
  rcases h x hx x' hx' with h | h
  · exact absurd he h
  · exact tightB_spec h hy hy' he

section
variable {be : Backend} {opts : Options} {Q : Restr V} {p p' p0 p1 : Propagator V}
  {g g' g0 g1 : Ghost V}

theorem Unmixed.safe (h : Unmixed p.prog.iqs) (frames : List Frame) (ctl : Ctl) (lits : List ℤ) : SafeEqs.prop p frames ctl lits :=
  .inr fun x hx _ he y hy => .inl fun x' hx' hy' _ => h x hx x' hx' y hy hy' he

theorem Unmixed.mayPropagateSafe (h : Unmixed p.prog.iqs) {ctl : Ctl} {th : ℕ} {lits : List ℤ} {gt : GThr}
    (hm : MayPropagate Q p g ctl th lits gt) : MayPropagate SafeEqs p g ctl th lits gt :=
  ⟨hm.thr, hm.ready, hm.dl, hm.lvl, hm.dead, h.safe _ _ _⟩

/-- Callbacks do not remove constraints. -/
theorem step_iqs (hr : StatInv opts p g) (h : Step be Q p g p' g') : ∀ x ∈ p.prog.iqs, x ∈ p'.prog.iqs := by
  cases h with
  | init mapper atoms envs n hi =>
    obtain ⟨-, hres⟩ := hr.init hi
    obtain ⟨q, h1, h2, -⟩ := evaluateTheory_cases hres.eval
    obtain ⟨_, iqs, _, hk⟩ := parseAtoms_ok hr.pinv h1
    intro x hx
    rw [h2]
    show x ∈ q.iqs
    rw [hk.iqs]
    exact List.mem_append_left _ hx
  | fail mapper atoms envs n hi hab => exact fun x hx => ((hr.fail hi).2.inv hr.pinv).iqs.subset hx
  | propagate _ _ _ _ _ hc => rw [(propagate_same hc).1]; exact fun _ h => h
  | check _ _ _ _ _ hc => rw [(check_same hc).1]; exact fun _ h => h
  | undo _ _ _ _ hc _ => rw [(undo_same hc).1]; exact fun _ h => h
  | model _ _ _ hc => rw [(model_same hc).1]; exact fun _ h => h

theorem Unmixed.mono {a b : List (Ineq Symbol)} (h : Unmixed b) (hs : ∀ x ∈ a, x ∈ b) : Unmixed a :=
  fun x hx x' hx' => h x (hs x hx) x' (hs x' hx')

theorem Unmixed.stepSafe (hu : Unmixed p.prog.iqs) (h : Step be Q p g p' g') : Step be SafeEqs p g p' g' := by
  cases h with
  | init mapper atoms envs n hi => exact .init mapper atoms envs n hi
  | fail mapper atoms envs n hi hab => exact .fail mapper atoms envs n hi hab
  | propagate fuel ctl th lits hm hc => exact .propagate fuel ctl th lits (hu.mayPropagateSafe hm) hc
  | check fuel ctl total th hm hc => exact .check fuel ctl total th hm hc
  | undo th h1 h2 h3 hc _ => exact .undo th h1 h2 h3 hc trivial
  | model th h1 h2 hc => exact .model th h1 h2 hc

/-- Every history of such a program is harmless. -/
theorem Unmixed.reachSafe (hr : Reach be opts Q p g) (hu : Unmixed p.prog.iqs) : Reach be opts SafeEqs p g := by
  induction hr with
  | start => exact .start
  | step hr hs ih =>
    have hu' := hu.mono (step_iqs hr.stat hs)
    exact (ih hu').step (hu'.stepSafe hs)

theorem Unmixed.laterSafe (hl : LaterInStep be Q p g p' g') (hu : Unmixed p.prog.iqs) : LaterInStep be SafeEqs p g p' g' := by
  induction hl with
  | refl => exact .refl
  | step hl hs he ih => exact .step ih (Unmixed.stepSafe (by rw [hl.same.1]; exact hu) hs) he

theorem Unmixed.mayPropagate (_ : Unmixed p.prog.iqs) {ctl : Ctl} {th : ℕ} {lits : List ℤ} {gt : GThr}
    (hm : MayPropagate Q p g ctl th lits gt) : MayPropagate Intact p g ctl th lits gt := hm.intact

/-- In every history of such a program backtracking restores the limits. -/
theorem Unmixed.reach (hq : StepOK V opts) (hr : Reach be opts Q p g) (hu : Unmixed p.prog.iqs) : Reach be opts Intact p g :=
  (hu.reachSafe hr).intact hq

theorem Unmixed.step (hq : StepOK V opts) (hr : Reach be opts Q p g) (hu : Unmixed p.prog.iqs) (h : Step be Q p g p' g') :
    Step be Intact p g p' g' := (hu.stepSafe h).intact hq (hu.reachSafe hr)

theorem Unmixed.later (hq : StepOK V opts) (hr : Reach be opts Q p g) (hl : LaterInStep be Q p g p' g') (hu : Unmixed p.prog.iqs) :
    LaterInStep be Intact p g p' g' := (Unmixed.laterSafe hl hu).intact hq (hu.reachSafe hr)

/-- C45: the values of a thread that is not in conflict satisfy all constraints whose literals are true. -/
theorem C45_assignments (hq : StepOK V opts) (hr : Reach be opts Q p g) (hu : Unmixed p.prog.iqs)
    (hs : ∀ x ∈ p.prog.iqs, Supports V x.rel) {th : ℕ} {gt : GThr} (hgt : g.thrs[th]? = some gt) (hst : gt.stuck = false) :
    Small fun e => Solves (withVars p.prog.iqs) (Act gt.frames) fun y => LpSem.conc e (p.valueOf th y) :=
  C01_active_constraints_hold_partial hq (hu.reach hq hr) hs hgt hst

/-- C45: clauses added do not exclude consistent truth assignments (unless they are objective cuts). -/
theorem C45_clauses (hq : StepOK V opts) (hr : Reach be opts Q p g) (hlv : g.failed = false) (hu : Unmixed p.prog.iqs) (hs : ∀ x ∈ p.prog.iqs, Supports V x.rel)
    (hc : ∀ x ∈ p.prog.iqs, x.lhs = [] → x.rel = .eq ∨ x.rhs = 0) {th : ℕ} {c : List ℤ} (h : c ∈ p.clausesOf th) :
    (∃ u ∈ p.cutsOf th, c = [u.1]) ∨
      ∀ (tr : ℤ → Prop) (gv : Symbol → ℚ), (∀ l, tr l ∨ tr (-l)) → Solves p.prog.iqs tr gv →
        MeetsCuts (p.cutsOf th) tr p.prog.objective gv → ∃ l ∈ c, tr l :=
  C02_clauses_exclude_no_model_partial hq (hu.reach hq hr) hlv hs hc h

/-- C45: without bound propagation and global objective, literals are accepted if and only if the true constraints have a solution. -/
theorem C45_verdict (hg : opts.globalObjective = none) (hpm : opts.propagateMode = .none)
    (hr : Reach be opts Q p g) (hu : Unmixed p.prog.iqs) (hs : ∀ x ∈ p.prog.iqs, Supports V x.rel)
    {ctl : Ctl} {th : ℕ} {lits : List ℤ} {gt : GThr} (hm : MayPropagate Q p g ctl th lits gt) {fuel : ℕ}
    {ok : Bool} (hc : p.propagate fuel ctl th lits = some (p', ok)) :
    ok = true ↔ ∃ gv : Symbol → ℚ, Solves (withVars p.prog.iqs) (fun l => l ∈ lits ∨ Act gt.frames l) gv :=
  C05_verdict_iff_partial hg hpm (hu.reach (stepOK_none hg) hr) hs (hu.mayPropagate hm) hc

/-- C45: backtracking restores the limits of all variables. -/
theorem C45_backtracking (hq : StepOK V opts) (hr : Reach be opts Q p g) (hu : Unmixed p.prog.iqs) {th : ℕ} {gt gt' : GThr}
    (hgt : g.thrs[th]? = some gt) (hst : gt.stuck = false) (hl : LaterInStep be Q p g p' g') (hgt' : g'.thrs[th]? = some gt')
    (hst' : gt'.stuck = false) (hf : gt'.frames = gt.frames) {y : Symbol} (hy : (p.lookup y).isSome = true) :
    lowerLimit p' th y = lowerLimit p th y ∧ upperLimit p' th y = upperLimit p th y :=
  C06_backtracking_restores_limits_partial hq (hu.reachSafe hr) hgt hst (Unmixed.laterSafe hl hu) hgt' hst' hf hy

/-- C45: a bounded objective value is optimal. -/
theorem C45_optimal (hq : StepOK V opts) (hr : Reach be opts Q p g) (hu : Unmixed p.prog.iqs)
    (hs : ∀ x ∈ p.prog.iqs, Supports V x.rel) {th : ℕ} {gt : GThr} (hgt : g.thrs[th]? = some gt) (hst : gt.stuck = false)
    (hck : gt.checked = true) {v : V} (ho : p.objectiveOf th = [(v, true)]) :
    v = evalV (p.valueOf th) p.prog.objective ∧
    ∀ gv : Symbol → ℚ, Solves (withVars p.prog.iqs) (Act gt.frames) gv → LpValue.ofRat (evalTerms gv p.prog.objective) ≤ v :=
  C09_bounded_is_optimal_partial hq (hu.reach hq hr) hs hgt hst hck ho

/-- C45: an objective reported as unbounded is unbounded. -/
theorem C45_unbounded (hq : StepOK V opts) (hr : Reach be opts Q p g) (hu : Unmixed p.prog.iqs)
    (hs : ∀ x ∈ p.prog.iqs, Supports V x.rel) {th : ℕ} {gt : GThr} (hgt : g.thrs[th]? = some gt)
    (hck : gt.checked = true) {v : V} (ho : p.objectiveOf th = [(v, false)]) (q : ℚ) :
    ∃ gv : Symbol → ℚ, Solves (withVars p.prog.iqs) (Act gt.frames) gv ∧ q < evalTerms gv p.prog.objective :=
  C10_unbounded_partial hq (hu.reach hq hr) hs hgt hck ho q

/-- C45: `check` terminates. -/
theorem C45_terminates (hq : StepOK V opts) (hr : Reach be opts Q p g) (hu : Unmixed p.prog.iqs) {ctl : Ctl} {total : Bool} {th : ℕ}
    {gt : GThr} {t : Thr V} (hm : MayCheck p g ctl th gt t) :
    ∃ r, ∀ fuel, 12 ^ p.unknowns < fuel → p.check fuel ctl total th = some r :=
  C11_check_terminates_partial hq (hu.reach hq hr) hm

/-- C45: there is no undefined behaviour. -/
theorem C45_defined (hq : StepOK V opts) (hr : Reach be opts Q p g) (hu : Unmixed p.prog.iqs) {th : ℕ} {gt : GThr} {t : Thr V}
    (hgt : g.thrs[th]? = some gt) (ht : p.thrs[th]? = some t) : t.slv.ub = false :=
  C39_no_undefined_behaviour_partial hq (hu.reach hq hr) hgt ht

/-- The hypotheses are met by a history with an undone level, for a program with the constraints `x >= 1`, `x + y <= 5`, `y >= 2`,
`z = 3`, `z = 4` and `z >= 4`, and the objective to maximise `x`. -/
example : ∃ (p : Propagator ℚ) (g : Ghost ℚ) (gt : GThr), Reach .imath {} AnyLits p g ∧ Unmixed p.prog.iqs ∧ (∀ x ∈ p.prog.iqs, Supports ℚ x.rel) ∧
    g.thrs[0]? = some gt ∧ gt.stuck = false ∧ gt.checked = true ∧ p.objectiveOf 0 = [(3, true)] ∧ Act gt.frames 2 ∧ Act gt.frames 9 := by
  obtain ⟨p, g, h1, -, h2⟩ := exists_reach (V := ℚ) (be := .imath) (mode := .any) (opts := {})
    [.init (prog4 ++ [maxAtom "x", sumAtom "z" "=" 3 9, sumAtom "z" "=" 4 10, sumAtom "z" ">=" 4 11]) 1, .prop 0 0 [1] true, .prop 1 0 [11] true, .prop 2 0 [10] true, .undo 0, .undo 0,
      .prop 1 0 [2, 3] true, .prop 2 0 [9] true, .check 2 true 0]
    (P := fun p g => noStrict p.prog && decide (p.objectiveOf 0 = [(3, true)]) &&
      unmixedB p.prog.iqs &&
      atThr g 0 fun gt => !gt.stuck && gt.checked && decide (Act gt.frames 2 ∧ Act gt.frames 9)) (by decide +kernel)
  simp only [Bool.and_eq_true] at h2
  obtain ⟨⟨⟨h2, h3⟩, h4⟩, h5⟩ := h2
  obtain ⟨gt, h6, h7⟩ := atThr_spec h5
  simp only [Bool.and_eq_true, Bool.not_eq_true'] at h7
  refine ⟨p, g, gt, h1, ?_, noStrict_spec h2, h6, h7.1.1, h7.1.2, of_decide_eq_true h3, of_decide_eq_true h7.2⟩
  exact unmixedB_spec h4

end

/-! ### a condition on the atoms of the program -/

/-- An atom without conditions that is not an equation (`&dom` atoms are written with `=` but are no equations). -/
structure Plain (a : TAtom) : Prop where
  cond : ∀ e ∈ a.elements, e.cond = []
  guard : Named a "sum" ∨ Named a "diff" → ∀ gd, a.guard = some gd → gd.1 ≠ "="

section
variable {be : Backend} {mapper : ℤ → ℤ} {q q' : Prog}

theorem parseElems_plain : ∀ {es : List Elem} {q : Prog} {r : Prog × List (Term Symbol)}, (∀ e ∈ es, e.cond = []) →
    parseElems be mapper es q = .ok r → r.1 = q := by
  intro es
  induction es with
  | nil => intro q r _ h; rw [parseElems] at h; cases h; rfl
  | cons e es ih =>
    intro q r he h
    rw [parseElems] at h
    obtain ⟨r1, h1, h⟩ := bind_ok.mp h
    obtain ⟨r2, h2, h⟩ := bind_ok.mp h
    rw [pure_ok] at h; subst h
    have k2 := ih (fun e h => he e (by simp [h])) h2
    rw [k2]
    unfold parseElem at h1
    split at h1
    · obtain ⟨ts, h3, h1⟩ := bind_ok.mp h1
      have hc : e.cond = [] := he e (by simp)
      rw [hc] at h1
      simp only [List.isEmpty_nil, if_true] at h1
      rw [pure_ok] at h1; subst h1; rfl
    · cases h1

theorem addIneq_rel {a : TAtom} {gd : String × TTerm} {lhs : List (Term Symbol)} (hg : gd.1 ≠ "=")
    (h : addIneq be mapper a gd q lhs = .ok q') (hq : ∀ x ∈ q.iqs, x.rel ≠ .eq) : ∀ x ∈ q'.iqs, x.rel ≠ .eq := by
  unfold addIneq at h
  obtain ⟨t, -, h⟩ := bind_ok.mp h
  obtain ⟨rel, h2, h⟩ := bind_ok.mp h
  rw [pure_ok] at h; subst h
  intro x hx
  rcases List.mem_append.1 hx with hx | hx
  · exact hq x hx
  · rw [List.mem_singleton] at hx
    subst hx
    rw [evaluateCmp_iff] at h2
    rintro rfl
    simp only [relTable, List.mem_cons, Prod.mk.injEq, reduceCtorEq, and_false, and_true, List.not_mem_nil, or_false, false_or] at h2
    exact hg h2

theorem parseAtom_plain {a : TAtom} (ha : Plain a) (h : parseAtom be mapper q a = .ok q') (hq : ∀ x ∈ q.iqs, x.rel ≠ .eq) :
    ∀ x ∈ q'.iqs, x.rel ≠ .eq := by
  have obj : ∀ neg, parseObj be mapper q a neg = .ok q' → ∀ x ∈ q'.iqs, x.rel ≠ .eq := by
    intro neg h
    unfold parseObj at h
    obtain ⟨r, h1, h⟩ := bind_ok.mp h
    rw [pure_ok] at h; subst h
    rw [parseElems_plain ha.cond h1]; exact hq
  unfold parseAtom at h
  split at h
  · unfold parseDom at h
    repeat' split at h
    all_goals first | (cases h; done) | skip
    obtain ⟨s, h1, h⟩ := bind_ok.mp h
    obtain ⟨hi, h2, h⟩ := bind_ok.mp h
    obtain ⟨lo, h3, h⟩ := bind_ok.mp h
    rw [pure_ok] at h; subst h
    intro x hx
    rcases List.mem_append.1 hx with hx | hx
    · exact hq x hx
    · simp only [List.mem_cons, List.not_mem_nil, or_false] at hx
      rcases hx with rfl | rfl <;> simp
  split at h
  · rename_i hn
    have hn := (isName_iff a "diff").mp (by simpa using hn)
    unfold parseDiff at h
    repeat' split at h
    all_goals first | (cases h; done) | skip
    rename_i gd hgd _ _ _ _
    obtain ⟨lhs, h1, h⟩ := bind_ok.mp h
    exact addIneq_rel (ha.guard (.inr hn) _ (by assumption)) h hq
  split at h
  · rename_i hn
    have hn := (isName_iff a "sum").mp (by simpa using hn)
    unfold parseSumAtom at h
    split at h
    · obtain ⟨r, h1, h⟩ := bind_ok.mp h
      refine addIneq_rel (ha.guard (.inl hn) _ (by assumption)) h ?_
      rw [parseElems_plain ha.cond h1]; exact hq
    · cases h
  split at h
  · exact obj _ h
  split at h
  · exact obj _ h
  cases h; exact hq

theorem parseAtoms_plain : ∀ {atoms : List TAtom} {q q' : Prog}, (∀ a ∈ atoms, Plain a) → parseAtoms be mapper atoms q = .ok q' →
    (∀ x ∈ q.iqs, x.rel ≠ .eq) → ∀ x ∈ q'.iqs, x.rel ≠ .eq := by
  intro atoms
  induction atoms with
  | nil => intro q q' _ h hq; rw [parseAtoms] at h; cases h; exact hq
  | cons a as ih =>
    intro q q' ha h hq
    rw [parseAtoms] at h
    obtain ⟨q1, h1, h⟩ := bind_ok.mp h
    exact ih (fun b hb => ha b (by simp [hb])) h (parseAtom_plain (ha a (by simp)) h1 hq)

theorem loaded_plain {atoms : List TAtom} {q : Prog} (hl : Loaded be mapper atoms q) (ha : ∀ a ∈ atoms, Plain a) : ∀ x ∈ q.iqs, x.rel ≠ .eq := by
  induction hl with
  | start => simp
  | step as bs p p' _ he ih =>
    obtain ⟨r, h1, h2, -⟩ := evaluateTheory_cases he
    rw [h2]
    show ∀ x ∈ r.iqs, x.rel ≠ .eq
    exact parseAtoms_plain (fun a h => ha a (List.mem_append_right _ h)) h1 (ih fun a h => ha a (List.mem_append_left _ h))

/-- The constraints of plain atoms are unmixed. -/
theorem C45_plain_programs {atoms : List TAtom} {q : Prog} (hl : Loaded be mapper atoms q) (ha : ∀ a ∈ atoms, Plain a) : Unmixed q.iqs :=
  fun x hx _ _ _ _ _ he => absurd he (loaded_plain hl ha x hx)
end

/-- C45, end to end: for programs of plain atoms, in all solving steps and whatever happens. Let a solving step begin with `init`
and then anything happen. Whenever a thread is not in conflict and its total assignment `tr` is about to be reported, the values
reported for the variables satisfy every true `&sum`, `&diff` and `&dom` atom as written in the program. (Constraints without variables
have to compare with zero, see C20; strict relations need strict mode.) -/
theorem C45_models_satisfy_the_program {be : Backend} {opts : Options} {Q : Restr V}
    {p p0 p1 : Propagator V} {g g0 g1 : Ghost V} {mapper : ℤ → ℤ} {atoms more : List TAtom} {envs : ℕ → InitEnv} {n : ℕ}
    (hq : StepOK V opts) (hr0 : Reach be opts Q p0 g0) (hload : Loaded be mapper atoms p0.prog)
    (hi : p0.init be mapper more envs n = .ok (p1, true)) (hn : 0 < n) (hm : ∀ c, mapper c ≠ 0)
    (h1 : Step be Q p0 g0 p1 g1) (hl : LaterInStep be Q p1 g1 p g) (hplain : ∀ a ∈ atoms ++ more, Plain a)
    (hcst : ∀ x ∈ p.prog.iqs, x.lhs = [] → x.rhs = 0) (hs : ∀ x ∈ p.prog.iqs, Supports V x.rel) {th : ℕ}
    {gt : GThr} (hgt : g.thrs[th]? = some gt) (hst : gt.stuck = false) {tr : ℤ → Prop} (htr : Guaranteed p1 p gt envs tr) :
    Small fun e => ∀ a ∈ atoms ++ more, IsConstraint a → tr (mapper a.literal) →
      AtomHolds mapper tr (fun y => LpSem.conc e (p.valueOf th y)) a := by
  have hu1 : Unmixed p1.prog.iqs := C45_plain_programs (init_loaded hload hi) hplain
  have hu0 : Unmixed p0.prog.iqs := C45_plain_programs hload fun a h => hplain a (by simp [h])
  exact C44_models_satisfy_the_program_partial hq (hu0.reach hq hr0) hload hi hn hm (hu0.step hq hr0 h1) (Unmixed.later hq (hr0.step h1) hl hu1)
    ⟨fun x hx hx' => .inr (hcst x hx hx'), hs⟩ (fun a ha e he hc => absurd ((hplain a ha).cond e he) hc) hgt hst htr

section
variable {be : Backend} {opts : Options} {Q : Restr V}
  {p p0 p1 : Propagator V} {g g0 g1 : Ghost V} {mapper : ℤ → ℤ} {atoms more : List TAtom} {envs : ℕ → InitEnv} {n : ℕ}

/-- C45, end to end: if a total truth assignment and some values of the variables satisfy all true atoms as written in the program
then (without a global objective) all clauses added by any thread are satisfied. -/
theorem C45_no_model_lost (hg : opts.globalObjective = none) (hr : Reach be opts Q p g) (hlv : g.failed = false) (hload : Loaded be mapper atoms p.prog)
    (hm : ∀ c, mapper c ≠ 0) (hplain : ∀ a ∈ atoms, Plain a) (hcst : ∀ x ∈ p.prog.iqs, x.lhs = [] → x.rhs = 0)
    (hs : ∀ x ∈ p.prog.iqs, Supports V x.rel) {tr : ℤ → Prop} (htr : Total tr) (h0 : tr 0) {gv : Symbol → ℚ}
    (hsat : ∀ a ∈ atoms, IsConstraint a → tr (mapper a.literal) → AtomHolds mapper tr gv a) {th : ℕ}
    {c : List ℤ} (hc : c ∈ p.clausesOf th) : ∃ l ∈ c, tr l :=
  C44_no_model_lost_partial hg ((C45_plain_programs hload hplain).reach (stepOK_none hg) hr) hlv hload hm
    ⟨fun x hx hx' => .inr (hcst x hx hx'), hs⟩ htr h0 hsat hc

/-- C45, end to end: if the objective is reported as bounded for a checked total assignment `tr` then its value is at least that of the
`&maximize`/`&minimize` atoms under every solution of the true atoms, and it is attained by the reported values. -/
theorem C45_optimal_for_the_program (hq : StepOK V opts) (hr0 : Reach be opts Q p0 g0) (hload : Loaded be mapper atoms p0.prog)
    (hi : p0.init be mapper more envs n = .ok (p1, true)) (hn : 0 < n) (hm : ∀ c, mapper c ≠ 0)
    (h1 : Step be Q p0 g0 p1 g1) (hl : LaterInStep be Q p1 g1 p g) (hplain : ∀ a ∈ atoms ++ more, Plain a)
    (hcst : ∀ x ∈ p.prog.iqs, x.lhs = [] → x.rhs = 0) (hs : ∀ x ∈ p.prog.iqs, Supports V x.rel) {th : ℕ}
    {gt : GThr} (hgt : g.thrs[th]? = some gt) (hst : gt.stuck = false) (hck : gt.checked = true) {tr : ℤ → Prop}
    (htr : Guaranteed p1 p gt envs tr) (hact : ∀ l, Act gt.frames l → tr l) {v : V} (ho : p.objectiveOf th = [(v, true)]) :
    (Small fun e => ObjVal mapper tr (fun y => LpSem.conc e (p.valueOf th y)) (atoms ++ more) (LpSem.conc e v)) ∧
    ∀ (gv : Symbol → ℚ) (w : ℚ), (∀ a ∈ atoms ++ more, IsConstraint a → tr (mapper a.literal) → AtomHolds mapper tr gv a) →
      ObjVal mapper tr gv (atoms ++ more) w → LpValue.ofRat w ≤ v := by
  have hu1 : Unmixed p1.prog.iqs := C45_plain_programs (init_loaded hload hi) hplain
  have hu0 : Unmixed p0.prog.iqs := C45_plain_programs hload fun a h => hplain a (by simp [h])
  exact C44_optimal_partial hq (hu0.reach hq hr0) hload hi hn hm (hu0.step hq hr0 h1) (Unmixed.later hq (hr0.step h1) hl hu1)
    ⟨fun x hx hx' => .inr (hcst x hx hx'), hs⟩ (fun a ha e he hc => absurd ((hplain a ha).cond e he) hc) hgt hst hck htr hact ho

/-- C45, end to end: if the objective is reported as unbounded for a checked total assignment `tr` then there are solutions of the true
atoms with arbitrarily large values of the `&maximize`/`&minimize` atoms. -/
theorem C45_unbounded_for_the_program (hq : StepOK V opts) (hr0 : Reach be opts Q p0 g0) (hload : Loaded be mapper atoms p0.prog)
    (hi : p0.init be mapper more envs n = .ok (p1, true)) (hn : 0 < n) (hm : ∀ c, mapper c ≠ 0)
    (h1 : Step be Q p0 g0 p1 g1) (hl : LaterInStep be Q p1 g1 p g) (hplain : ∀ a ∈ atoms ++ more, Plain a)
    (hcst : ∀ x ∈ p.prog.iqs, x.lhs = [] → x.rhs = 0) (hs : ∀ x ∈ p.prog.iqs, Supports V x.rel) {th : ℕ}
    {gt : GThr} (hgt : g.thrs[th]? = some gt) (hck : gt.checked = true) {tr : ℤ → Prop}
    (htr : Guaranteed p1 p gt envs tr) {v : V} (ho : p.objectiveOf th = [(v, false)]) (q : ℚ) :
    ∃ (gv : Symbol → ℚ) (w : ℚ), (∀ a ∈ atoms ++ more, IsConstraint a → tr (mapper a.literal) → AtomHolds mapper tr gv a) ∧
      ObjVal mapper tr gv (atoms ++ more) w ∧ q < w := by
  have hu1 : Unmixed p1.prog.iqs := C45_plain_programs (init_loaded hload hi) hplain
  have hu0 : Unmixed p0.prog.iqs := C45_plain_programs hload fun a h => hplain a (by simp [h])
  exact C44_unbounded_partial hq (hu0.reach hq hr0) hload hi hn hm (hu0.step hq hr0 h1) (Unmixed.later hq (hr0.step h1) hl hu1)
    ⟨fun x hx hx' => .inr (hcst x hx hx'), hs⟩ (fun a ha e he hc => absurd ((hplain a ha).cond e he) hc) hgt hck htr ho q
end

/-- `&sum{ x } >= 1`, `&sum{ x; y } <= 5`, `&sum{ y } >= 2`, `&maximize{ x }`. -/
def plainProg : List TAtom := [sumAtom "x" ">=" 1 1, sum2Atom "x" "y" "<=" 5 2, sumAtom "y" ">=" 2 3, maxAtom "x"]

theorem plainProg_plain : ∀ a ∈ plainProg, Plain a := by
  intro a ha
  simp only [plainProg, List.mem_cons, List.not_mem_nil, or_false] at ha
  rcases ha with rfl | rfl | rfl | rfl <;>
    refine ⟨fun e he => ?_, fun _ gd hgd => ?_⟩ <;>
    simp_all [sumAtom, sum2Atom, maxAtom]
  all_goals first
    | (rcases he with rfl | rfl <;> rfl)
    | (subst hgd; decide)

/-- All hypotheses are met by a run on this program with a level that is undone. -/
example : ∃ (p1 p : Propagator ℚ) (g1 g : Ghost ℚ) (gt : GThr),
    (Propagator.fresh {} : Propagator ℚ).init .imath mapLit plainProg (fun _ => env) 1 = .ok (p1, true) ∧
    Loaded .imath mapLit [] (Propagator.fresh {} : Propagator ℚ).prog ∧ Step .imath AnyLits (Propagator.fresh {}) {} p1 g1 ∧
    LaterInStep .imath AnyLits p1 g1 p g ∧ (∀ a ∈ [] ++ plainProg, Plain a) ∧ (∀ x ∈ p.prog.iqs, x.lhs = [] → x.rhs = 0) ∧
    (∀ x ∈ p.prog.iqs, Supports ℚ x.rel) ∧ g.thrs[0]? = some gt ∧ gt.stuck = false ∧ gt.checked = true ∧
    Guaranteed p1 p gt (fun _ => env) posTrue ∧ (∀ l, Act gt.frames l → posTrue l) ∧ p.objectiveOf 0 = [(3, true)] := by
  obtain ⟨p1, p, g1, g, gt, h1, h2, h3, h4, h5, h6, h7, h8, h9, h10, h11⟩ := exists_end (mode := .any) plainProg
    [.prop 0 0 [1] true, .prop 1 0 [2] true, .undo 0, .prop 1 0 [2, 3] true, .check 1 true 0] rfl
    (P := fun p => decide (p.objectiveOf 0 = [(3, true)])) (by decide +kernel)
  exact ⟨p1, p, g1, g, gt, h1, .start, h2, h3, plainProg_plain, fun x hx h => absurd h (h4 x hx), h5, h6, h7, h8, h9, h10, of_decide_eq_true h11⟩

end Lpx.Props
