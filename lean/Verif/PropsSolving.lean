import Verif.PropsAny

/-!
# Properties of solving: C01-C05, C07-C12, C29, C42

All statements are about reachable states (`Reach`, see `SysSpec.lean`) of a propagator with any number of threads and any
interleaving of callbacks. Common hypotheses:

* `StepOK V opts`: the step of `--objective=global,step` can be converted (guaranteed by `validate_options`, see C37);
* `Supports V x.rel`: strict constraints only occur in strict mode;
* `Intact`: the restriction explained by Finding 1 of DESIGN.md (suffix `_partial`). `PropsViolations.lean` shows that the
  properties fail without it.

Values of strict mode contain an infinitesimal: "for all small enough `e`" (`Small`) replaces it by a positive rational.
-/

set_option linter.unusedSectionVars false

namespace Lpx.Props
open Lpx Lpx.Witness

variable {V : Type} [LpFull V]

section
variable {be : Backend} {opts : Options} {p : Propagator V} {g : Ghost V}

/-- C01 (partial: only harmless equations above level 0, constraints with variables). In every reachable state, the values
reported for a thread that is not in conflict satisfy all constraints whose literals are true. -/
theorem C01_active_constraints_hold_partial (hq : StepOK V opts) (hr : Reach be opts Intact p g)
    (hs : ∀ x ∈ p.prog.iqs, Supports V x.rel) {th : ℕ} {gt : GThr} (hgt : g.thrs[th]? = some gt) (hst : gt.stuck = false) :
    Small fun e => Solves (withVars p.prog.iqs) (Act gt.frames) fun y => LpSem.conc e (p.valueOf th y) := by
  have hi := hr.inv hq
  obtain ⟨t, E0, base, hu⟩ := hi.unpack hgt
  exact hu.values hi hs hst

/-- The hypotheses are met by a state with two decision levels and three active constraints (also in strict mode below). -/
example : ∃ (p : Propagator ℚ) (g : Ghost ℚ) (gt : GThr), StepOK ℚ {} ∧ Reach .imath {} Intact p g ∧ (∀ x ∈ p.prog.iqs, Supports ℚ x.rel) ∧
    g.thrs[0]? = some gt ∧ gt.stuck = false ∧ gt.frames.length = 2 ∧ Act gt.frames 1 ∧ Act gt.frames 2 ∧ Act gt.frames 3 := by
  obtain ⟨p, g, h1, -, h2⟩ := exists_reach (V := ℚ) (be := .imath) (mode := .intact) (opts := {})
    [.init prog4 1, .prop 0 0 [1] true, .prop 1 0 [2, 3] true]
    (P := fun p g => noStrict p.prog && atThr g 0 fun gt => !gt.stuck && decide (gt.frames.length = 2 ∧ Act gt.frames 1 ∧ Act gt.frames 2 ∧ Act gt.frames 3))
    (by decide +kernel)
  rw [Bool.and_eq_true] at h2
  obtain ⟨gt, h3, h4⟩ := atThr_spec h2.2
  rw [Bool.and_eq_true, Bool.not_eq_true'] at h4
  exact ⟨p, g, gt, stepOK_none rfl, h1, noStrict_spec h2.1, h3, h4.1, of_decide_eq_true h4.2⟩

/-- The same in strict mode, with two threads. -/
example : ∃ (p : Propagator RatQ) (g : Ghost RatQ) (gt : GThr), StepOK RatQ {} ∧ Reach .imath {} Intact p g ∧ (∀ x ∈ p.prog.iqs, Supports RatQ x.rel) ∧
    g.thrs[1]? = some gt ∧ gt.stuck = false ∧ gt.frames.length = 2 ∧ Act gt.frames 1 ∧ Act gt.frames 2 ∧ Act gt.frames 3 := by
  obtain ⟨p, g, h1, -, h2⟩ := exists_reach (V := RatQ) (be := .imath) (mode := .intact) (opts := {})
    [.init prog4s 2, .prop 0 1 [1] true, .prop 1 0 [4] true, .prop 1 1 [2, 3] true]
    (P := fun p g => atThr g 1 fun gt => !gt.stuck && decide (gt.frames.length = 2 ∧ Act gt.frames 1 ∧ Act gt.frames 2 ∧ Act gt.frames 3))
    (by decide +kernel)
  obtain ⟨gt, h3, h4⟩ := atThr_spec h2
  rw [Bool.and_eq_true, Bool.not_eq_true'] at h4
  exact ⟨p, g, gt, stepOK_none rfl, h1, fun x _ => supports_ratq _, h3, h4.1, of_decide_eq_true h4.2⟩

/-- C01 for one callback: if `propagate` does not report a conflict then the new values satisfy all constraints that are
true now, including those just propagated. -/
theorem C01_propagate_partial (hq : StepOK V opts) (hr : Reach be opts Intact p g) (hs : ∀ x ∈ p.prog.iqs, Supports V x.rel)
    {ctl : Ctl} {th : ℕ} {lits : List ℤ} {gt : GThr} (hm : MayPropagate Intact p g ctl th lits gt) {fuel : ℕ} {p' : Propagator V}
    (hc : p.propagate fuel ctl th lits = some (p', true)) :
    Small fun e => Solves (withVars p'.prog.iqs) (fun l => l ∈ lits ∨ Act gt.frames l) fun y => LpSem.conc e (p'.valueOf th y) := by
  have hprog : p'.prog = p.prog := by
    obtain ⟨t, s', E0, base, hu, h1, h2, h3, h4⟩ := (hr.inv hq).call hm hc
    rw [h3]
  have hr' := hr.step (.propagate fuel ctl th lits hm hc)
  have := C01_active_constraints_hold_partial hq hr' (by rw [hprog]; exact hs) (th := th) (getElem?_set_some hm.thr) rfl
  refine this.mono fun e _ h x hx ha => h x hx ?_
  exact act_nextFrames.2 ha

/-- The hypotheses are met: `x + y <= 5` and `y >= 2` are accepted after `x >= 1`. -/
example : ∃ (p p' : Propagator ℚ) (g : Ghost ℚ) (ctl : Ctl) (gt : GThr) (fuel : ℕ), Reach .imath {} Intact p g ∧ (∀ x ∈ p.prog.iqs, Supports ℚ x.rel) ∧
    MayPropagate Intact p g ctl 0 [2, 3] gt ∧ p.propagate fuel ctl 0 [2, 3] = some (p', true) ∧ Act gt.frames 1 := by
  obtain ⟨p, g, p', gt, ok, h1, -, h2, h3, h4⟩ := exists_prop (V := ℚ) (be := .imath) (mode := .intact) (opts := {})
    [.init prog4 1, .prop 0 0 [1] true] 1 0 [2, 3] true
    (P := fun p g _ ok => ok && noStrict p.prog && atThr g 0 fun gt => decide (Act gt.frames 1)) (by decide +kernel)
  simp only [Bool.and_eq_true] at h4
  obtain ⟨⟨rfl, h5⟩, h6⟩ := h4
  obtain ⟨gt', h7, h8⟩ := atThr_spec h6
  obtain rfl := Option.some.inj (h2.thr.symm.trans h7)
  exact ⟨p, p', g, _, gt, fuel, h1, noStrict_spec h5, h2, h3, of_decide_eq_true h8⟩

/-- C02 (partial: `Intact`; constraints without variables are equations or compare with zero, see C20). A clause added by a thread is an
objective cut (C29), or it is satisfied by every truth assignment for which the constraints of its true literals and the
true cuts have a common solution. `g.failed = false`: the last `init` did not throw; if it did, there is no program to be solved
until the next `init` (see C74). -/
theorem C02_clauses_exclude_no_model_partial (hq : StepOK V opts) (hr : Reach be opts Intact p g) (hlv : g.failed = false)
    (hs : ∀ x ∈ p.prog.iqs, Supports V x.rel) (hc : ∀ x ∈ p.prog.iqs, x.lhs = [] → x.rel = .eq ∨ x.rhs = 0) {th : ℕ} {c : List ℤ}
    (hcl : c ∈ p.clausesOf th) :
    (∃ u ∈ p.cutsOf th, c = [u.1]) ∨
      ∀ (tr : ℤ → Prop) (gv : Symbol → ℚ), (∀ l, tr l ∨ tr (-l)) → Solves p.prog.iqs tr gv →
        MeetsCuts (p.cutsOf th) tr p.prog.objective gv → ∃ l ∈ c, tr l := by
  rcases (hr.inv hq).clause hlv hs hc hcl with h | h
  · exact Or.inl h
  · right
    intro tr gv ht hsol hm
    by_contra hno
    push Not at hno
    have key : ∀ l, -l ∈ c → tr l := by
      intro l hl
      rcases ht l with h1 | h1
      · exact h1
      · exact absurd h1 (hno _ hl)
    exact h gv ⟨fun x hx ha => hsol x hx (key _ ha), fun u hu ha => hm u hu (key _ ha)⟩

/-- C02 without a global objective: all clauses are satisfied by all consistent truth assignments. -/
theorem C02_no_cuts_partial (hg : opts.globalObjective = none) (hr : Reach be opts Intact p g) (hlv : g.failed = false)
    (hs : ∀ x ∈ p.prog.iqs, Supports V x.rel) (hc : ∀ x ∈ p.prog.iqs, x.lhs = [] → x.rel = .eq ∨ x.rhs = 0) {th : ℕ} {c : List ℤ}
    (hcl : c ∈ p.clausesOf th) (tr : ℤ → Prop) (gv : Symbol → ℚ) (ht : ∀ l, tr l ∨ tr (-l)) (hsol : Solves p.prog.iqs tr gv) :
    ∃ l ∈ c, tr l := by
  have hq : StepOK V opts := by intro q h; rw [hg] at h; cases h
  have hno := (hr.inv hq).noCuts hlv hg th
  rcases C02_clauses_exclude_no_model_partial hq hr hlv hs hc hcl with ⟨u, hu, -⟩ | h
  · rw [hno] at hu; simp at hu
  · exact h tr gv ht hsol (by rw [hno]; intro u hu; simp at hu)

/-- The hypotheses are met: the conflict between `x + y <= 5`, `y >= 2` and `x >= 4` adds a clause. -/
example : ∃ (p : Propagator ℚ) (g : Ghost ℚ) (c : List ℤ), Reach .imath {} Intact p g ∧ g.failed = false ∧ (∀ x ∈ p.prog.iqs, Supports ℚ x.rel) ∧
    (∀ x ∈ p.prog.iqs, x.lhs = [] → x.rel = .eq ∨ x.rhs = 0) ∧ c ∈ p.clausesOf 0 ∧ c.length = 3 := by
  obtain ⟨p, g, h1, -, h2⟩ := exists_reach (V := ℚ) (be := .imath) (mode := .intact) (opts := {})
    [.init prog4 1, .prop 0 0 [1] true, .prop 1 0 [2, 3] true, .prop 2 0 [4] true]
    (P := fun p g => !g.failed && noStrict p.prog && (p.prog.iqs.all fun x => decide (x.lhs ≠ [])) && (p.clausesOf 0).any fun c => decide (c.length = 3))
    (by decide +kernel)
  simp only [Bool.and_eq_true, List.all_eq_true, List.any_eq_true, decide_eq_true_eq, Bool.not_eq_true'] at h2
  obtain ⟨⟨⟨h0, h2⟩, h3⟩, c, h4, h5⟩ := h2
  exact ⟨p, g, c, h1, h0, noStrict_spec h2, fun x hx hl => absurd hl (h3 x hx), h4, h5⟩

/-- C03 (partial: `Intact`). If `propagate` reports a conflict then it added a clause all of whose literals are false (their
negations have been propagated) and are negated literals of constraints or cuts, or clingo rejected a clause of the bound
propagation. -/
theorem C03_conflict_clause_false_partial (hq : StepOK V opts) (hr : Reach be opts Intact p g) {ctl : Ctl} {th : ℕ} {lits : List ℤ}
    {gt : GThr} (hm : MayPropagate Intact p g ctl th lits gt) {fuel : ℕ} {p' : Propagator V}
    (hc : p.propagate fuel ctl th lits = some (p', false)) :
    (∃ c, p'.clausesOf th = p.clausesOf th ++ [c] ∧ ∀ l ∈ c, (-l ∈ lits ∨ Act gt.frames (-l)) ∧
      ((∃ x ∈ p.prog.iqs, -l = x.lit) ∨ ∃ u ∈ p.cutsOf th, -l = u.1)) ∨
    (opts.propagateMode ≠ .none ∧ ctl.ok (p'.clausesOf th) = false) := by
  obtain ⟨t, s', E0, base, hu, h1, h2, h3, h4⟩ := (hr.inv hq).call hm hc
  rw [clausesOf_eq h4, clausesOf_eq hu.ht]
  generalize hok : (s', false) = r at h1
  cases h1 with
  | sat t1 ok _ _ _ hpm hrej =>
    obtain ⟨rfl, rfl⟩ := Prod.mk.inj hok
    refine Or.inr ⟨fun hn => ?_, hrej rfl⟩
    have := hpm (by rw [hu.dyn.hopts]; exact hn)
    cases this
  | unsat t1 c _ _ _ hout _ hfrom =>
    obtain ⟨rfl, -⟩ := Prod.mk.inj hok
    refine Or.inl ⟨c, hout, fun l hl => ?_⟩
    obtain ⟨bd, hbd, rfl, hact⟩ := hfrom l hl
    rw [neg_neg]
    refine ⟨act_nextFrames.1 hact, ?_⟩
    by_cases hx : ∃ x ∈ p.prog.iqs, bd.lit = x.lit
    · exact Or.inl hx
    · push Not at hx
      exact Or.inr ⟨(bd.lit, bd.value), (mem_cutsOf hu.ht).2 ⟨bd, hbd, fun x hx' => (hx x hx').symm, rfl⟩, rfl⟩

/-- The hypotheses are met: `x >= 4` is in conflict with `x + y <= 5` and `y >= 2`. The theorems C04, C05 and C12 have the same
hypotheses. -/
example : ∃ (p p' : Propagator ℚ) (g : Ghost ℚ) (ctl : Ctl) (gt : GThr) (fuel : ℕ), Reach .imath {} Intact p g ∧ (∀ x ∈ p.prog.iqs, Supports ℚ x.rel) ∧
    MayPropagate Intact p g ctl 0 [4] gt ∧ p.propagate fuel ctl 0 [4] = some (p', false) ∧ p.clausesOf 0 = [] ∧ p'.clausesOf 0 ≠ [] := by
  obtain ⟨p, g, p', gt, ok, h1, -, h2, h3, h4⟩ := exists_prop (V := ℚ) (be := .imath) (mode := .intact) (opts := {})
    [.init prog4 1, .prop 0 0 [1] true, .prop 1 0 [2, 3] true] 2 0 [4] true
    (P := fun p _ p' ok => !ok && noStrict p.prog && decide (p.clausesOf 0 = []) && decide (p'.clausesOf 0 ≠ [])) (by decide +kernel)
  simp only [Bool.and_eq_true, Bool.not_eq_true', decide_eq_true_eq] at h4
  obtain ⟨⟨⟨rfl, h5⟩, h6⟩, h7⟩ := h4
  exact ⟨p, p', g, _, gt, fuel, h1, noStrict_spec h5, h2, h3, h6, h7⟩

/-- C05 (partial: `Intact`, constraints with variables; cuts with rational values, which is always so without strict mode).
`propagate` accepts only if the constraints (and cuts) that are true have a rational solution; if it rejects then they have
none, or clingo rejected a clause of the bound propagation. -/
theorem C05_verdict_partial (hq : StepOK V opts) (hr : Reach be opts Intact p g) (hs : ∀ x ∈ p.prog.iqs, Supports V x.rel)
    {ctl : Ctl} {th : ℕ} {lits : List ℤ} {gt : GThr} (hm : MayPropagate Intact p g ctl th lits gt) {fuel : ℕ} {p' : Propagator V}
    {ok : Bool} (hc : p.propagate fuel ctl th lits = some (p', ok)) (hcut : ∀ u ∈ p.cutsOf th, ∃ q, u.2 = LpValue.ofRat q) :
    (ok = true → ∃ gv : Symbol → ℚ, Solves (withVars p.prog.iqs) (fun l => l ∈ lits ∨ Act gt.frames l) gv ∧
      MeetsCuts (p.cutsOf th) (fun l => l ∈ lits ∨ Act gt.frames l) p.prog.objective gv) ∧
    (ok = false → (¬ ∃ gv : Symbol → ℚ, Solves (withVars p.prog.iqs) (fun l => l ∈ lits ∨ Act gt.frames l) gv ∧
      MeetsCuts (p.cutsOf th) (fun l => l ∈ lits ∨ Act gt.frames l) p.prog.objective gv) ∨
      (opts.propagateMode ≠ .none ∧ ctl.ok (p'.clausesOf th) = false)) := by
  have hi := hr.inv hq
  obtain ⟨t, s', E0, base, hu, h1, h2, h3, h4⟩ := hi.call hm hc
  have hprog : p'.prog = p.prog := by rw [h3]
  constructor
  · rintro rfl
    have hr' := hr.step (.propagate fuel ctl th lits hm hc)
    have hi' := hr'.inv hq
    obtain ⟨t2, E2, base2, hu2⟩ := hi'.unpack (th := th) (getElem?_set_some hm.thr)
    have hsi := hu2.dyn.sinv rfl
    have hcuts : p'.cutsOf th = p.cutsOf th := cutsOf_congr hu.ht h4 hprog h2.bounds
    have k1 := hu2.small (by rw [hprog]; exact hs) hsi.good.val hsi.holds
    have k2 : Small fun e => ∀ u ∈ p.cutsOf th, Act (nextFrames ctl.dl lits gt.frames) u.1 →
        LpSem.conc e u.2 ≤ evalTerms (fun y => LpSem.conc e (t2.slv.value (ix p'.lookup y))) p.prog.objective := by
      refine Small.list _ fun u hu' => ?_
      by_cases ha : Act (nextFrames ctl.dl lits gt.frames) u.1
      · have := conc_le (hu2.cuts hsi.good.val hsi.holds (c := u) (by rw [hcuts]; exact hu') ha)
        refine this.mono fun e _ h _ => ?_
        rw [evalV_conc, hprog] at h; exact h
      · exact Small.of_all fun _ _ h => absurd h ha
    obtain ⟨e, he, j1, j2⟩ := (k1.and k2).exists
    refine ⟨fun y => LpSem.conc e (t2.slv.value (ix p'.lookup y)), fun x hx ha => ?_, fun u hu' ha => ?_⟩
    · exact j1 x (by rw [hprog]; exact hx) (act_nextFrames.2 ha)
    · obtain ⟨q, hq'⟩ := hcut u hu'
      have := j2 u hu' (act_nextFrames.2 ha)
      rw [hq', LpSem.conc_ofRat] at this
      rw [hq', ofRat_le_iff]; exact this
  · rintro rfl
    generalize hok : (s', false) = r at h1
    cases h1 with
    | sat t1 ok _ _ _ hpm hrej =>
      obtain ⟨rfl, rfl⟩ := Prod.mk.inj hok
      refine Or.inr ⟨fun hn => ?_, by rw [clausesOf_eq h4]; exact hrej rfl⟩
      have := hpm (by rw [hu.dyn.hopts]; exact hn)
      cases this
    | unsat t1 c _ _ _ hout hval hfrom =>
      left
      rintro ⟨gv, hsol, hmeet⟩
      obtain ⟨asg, hE, hasg⟩ := hu.lift hi gv
      have hcomp := hu.competitor hi hs hsol hmeet hE hasg
      refine hval.spec asg hE fun bd hbd hneg => hcomp bd hbd ?_
      obtain ⟨bd', -, heq, hact⟩ := hfrom _ hneg
      rw [neg_inj.1 heq]
      exact act_nextFrames.1 hact

/-- C05 without bound propagation and global objective: the verdict is exactly the satisfiability of the true constraints. -/
theorem C05_verdict_iff_partial (hg : opts.globalObjective = none) (hpm : opts.propagateMode = .none)
    (hr : Reach be opts Intact p g) (hs : ∀ x ∈ p.prog.iqs, Supports V x.rel)
    {ctl : Ctl} {th : ℕ} {lits : List ℤ} {gt : GThr} (hm : MayPropagate Intact p g ctl th lits gt) {fuel : ℕ} {p' : Propagator V}
    {ok : Bool} (hc : p.propagate fuel ctl th lits = some (p', ok)) :
    ok = true ↔ ∃ gv : Symbol → ℚ, Solves (withVars p.prog.iqs) (fun l => l ∈ lits ∨ Act gt.frames l) gv := by
  have hq : StepOK V opts := by intro q h; rw [hg] at h; cases h
  have hno := (hr.inv hq).noCuts ((hr.inv hq).alive hm.thr) hg th
  obtain ⟨h1, h2⟩ := C05_verdict_partial hq hr hs hm hc (by rw [hno]; simp)
  constructor
  · intro h; obtain ⟨gv, h3, -⟩ := h1 h; exact ⟨gv, h3⟩
  · rintro ⟨gv, h3⟩
    cases ok
    · rcases h2 rfl with h4 | ⟨h4, -⟩
      · exact absurd ⟨gv, h3, by rw [hno]; intro u hu; simp at hu⟩ h4
      · exact absurd hpm h4
    · rfl

/-- C05: histories do not matter. Two propagators with the same constraints, whatever their options for storing assignments,
selection and back end, and whatever happened before, give the same answer if the same constraints are true. -/
theorem C05_history_irrelevant_partial {be' : Backend} {opts' : Options} {q : Propagator V} {g' : Ghost V}
    (hg : opts.globalObjective = none) (hpm : opts.propagateMode = .none) (hg' : opts'.globalObjective = none)
    (hpm' : opts'.propagateMode = .none) (hr : Reach be opts Intact p g) (hr' : Reach be' opts' Intact q g')
    (hs : ∀ x ∈ p.prog.iqs, Supports V x.rel) (hsame : ∀ x, x ∈ q.prog.iqs ↔ x ∈ p.prog.iqs)
    {ctl ctl' : Ctl} {th th' : ℕ} {lits lits' : List ℤ} {gt gt' : GThr} (hm : MayPropagate Intact p g ctl th lits gt)
    (hm' : MayPropagate Intact q g' ctl' th' lits' gt')
    (hact : ∀ x ∈ p.prog.iqs, (x.lit ∈ lits ∨ Act gt.frames x.lit) ↔ (x.lit ∈ lits' ∨ Act gt'.frames x.lit))
    {fuel fuel' : ℕ} {p1 q1 : Propagator V} {ok ok' : Bool} (hc : p.propagate fuel ctl th lits = some (p1, ok))
    (hc' : q.propagate fuel' ctl' th' lits' = some (q1, ok')) : ok = ok' := by
  have h1 := C05_verdict_iff_partial hg hpm hr hs hm hc
  have h2 := C05_verdict_iff_partial hg' hpm' hr' (fun x hx => hs x ((hsame x).1 hx)) hm' hc'
  rw [Bool.eq_iff_iff, h1, h2]
  constructor
  · rintro ⟨gv, h⟩
    refine ⟨gv, fun x hx ha => ?_⟩
    obtain ⟨hx1, hx2⟩ := mem_withVars.1 hx
    have hx1 := (hsame x).1 hx1
    exact h x (mem_withVars.2 ⟨hx1, hx2⟩) ((hact x hx1).2 ha)
  · rintro ⟨gv, h⟩
    refine ⟨gv, fun x hx ha => ?_⟩
    obtain ⟨hx1, hx2⟩ := mem_withVars.1 hx
    exact h x (mem_withVars.2 ⟨(hsame x).2 hx1, hx2⟩) ((hact x hx1).1 ha)

/-- The hypotheses of the C05 theorems are met by an accepted and by a rejected propagation, the former after a conflict has been undone. -/
example : (∃ (p p' : Propagator ℚ) (g : Ghost ℚ) (ctl : Ctl) (gt : GThr), StepOK ℚ {} ∧ Reach .imath {} Intact p g ∧ (∀ x ∈ p.prog.iqs, Supports ℚ x.rel) ∧
      MayPropagate Intact p g ctl 0 [3] gt ∧ p.propagate fuel ctl 0 [3] = some (p', true) ∧ p.cutsOf 0 = [] ∧ p.clausesOf 0 ≠ [] ∧ Act gt.frames 2) ∧
    ∃ (p p' : Propagator ℚ) (g : Ghost ℚ) (ctl : Ctl) (gt : GThr), StepOK ℚ {} ∧ Reach .imath {} Intact p g ∧ (∀ x ∈ p.prog.iqs, Supports ℚ x.rel) ∧
      MayPropagate Intact p g ctl 0 [4] gt ∧ p.propagate fuel ctl 0 [4] = some (p', false) ∧ p.cutsOf 0 = [] ∧ Act gt.frames 2 ∧ Act gt.frames 3 := by
  constructor
  · obtain ⟨p, g, p', gt, ok, h1, -, h2, h3, h4⟩ := exists_prop (V := ℚ) (be := .imath) (mode := .intact) (opts := {})
      [.init prog4 1, .prop 0 0 [1] true, .prop 1 0 [2] true, .prop 2 0 [3, 4] true, .undo 0] 2 0 [3] true
      (P := fun p g _ ok => ok && noStrict p.prog && decide (p.cutsOf 0 = [] ∧ p.clausesOf 0 ≠ []) && g.thrs.all fun gt => decide (Act gt.frames 2)) (by decide +kernel)
    simp only [Bool.and_eq_true] at h4
    obtain ⟨⟨⟨rfl, h5⟩, h6⟩, h7⟩ := h4
    exact ⟨p, p', g, _, gt, stepOK_none rfl, h1, noStrict_spec h5, h2, h3, (of_decide_eq_true h6).1, (of_decide_eq_true h6).2,
      of_decide_eq_true (List.all_eq_true.1 h7 gt (List.mem_of_getElem? h2.thr))⟩
  · obtain ⟨p, g, p', gt, ok, h1, -, h2, h3, h4⟩ := exists_prop (V := ℚ) (be := .imath) (mode := .intact) (opts := {})
      [.init prog4 1, .prop 0 0 [1] true, .prop 1 0 [2, 3] true] 2 0 [4] true
      (P := fun p g _ ok => !ok && noStrict p.prog && decide (p.cutsOf 0 = []) && g.thrs.all fun gt => decide (Act gt.frames 2 ∧ Act gt.frames 3)) (by decide +kernel)
    simp only [Bool.and_eq_true, Bool.not_eq_true'] at h4
    obtain ⟨⟨⟨rfl, h5⟩, h6⟩, h7⟩ := h4
    exact ⟨p, p', g, _, gt, stepOK_none rfl, h1, noStrict_spec h5, h2, h3, of_decide_eq_true h6,
      of_decide_eq_true (List.all_eq_true.1 h7 gt (List.mem_of_getElem? h2.thr))⟩

/-- C07 (partial: `Intact` before the call, constraints with variables). Right after `undo`, even after a conflict and whether or not this call restored
the limits, the reported values satisfy the constraints of the remaining levels, and the objective value is that of the reported values. -/
theorem C07_undo_restores_solution_partial (hq : StepOK V opts) (hr : Reach be opts Intact p g)
    (hs : ∀ x ∈ p.prog.iqs, Supports V x.rel) {th : ℕ} {gt : GThr} {fr : Frame} {frs : List Frame} (hgt : g.thrs[th]? = some gt)
    (hf : gt.frames = fr :: frs) (hl : fr.level ≠ 0) {p' : Propagator V} (hu : p.undo th = some p') :
    (Small fun e => Solves (withVars p'.prog.iqs) (Act frs) fun y => LpSem.conc e (p'.valueOf th y)) ∧
    ∀ v b, p'.objectiveOf th = [(v, b)] → v = evalV (p'.valueOf th) p'.prog.objective := by
  have hr' := hr.any.step (.undo th hgt hf hl hu trivial)
  refine ⟨?_, fun v b ho => C01_objective_value hr' (getElem?_set_some hgt) ho⟩
  have hi := hr.inv hq
  obtain ⟨t, E0, base, hun⟩ := hi.unpack hgt
  have hc := hun.dyn.cinv
  rw [hf] at hc
  obtain ⟨w, hg, hv⟩ := S.undo_values hc hl
  unfold Propagator.undo at hu
  rw [hun.ht] at hu
  obtain rfl := Option.some.inj hu
  refine Small.list _ fun x hx => ?_
  have hx : x ∈ withVars p.prog.iqs := hx
  by_cases ha : Act frs x.lit
  swap
  · exact Small.of_all fun _ _ h => absurd h ha
  have ha' : Act gt.frames x.lit := by
    obtain ⟨f, h1, h2⟩ := ha
    exact ⟨f, by rw [hf]; exact List.mem_cons_of_mem _ h1, h2⟩
  obtain ⟨bd, h1, h2⟩ := hun.bound hx ha'
  have hh := h2.small (hs x (mem_withVars.1 hx).1) hg.val (hg.holds bd h1 (by rw [h2.lit]; exact ha))
  refine hh.mono fun e _ hh _ => ?_
  refine (holds_congr fun u hu => ?_).1 hh
  show LpSem.conc e _ = _
  rw [valueOf_ix (p := p.setThr th { t with slv := t.slv.undo }) (t := { t with slv := t.slv.undo }) (getElem?_set_some hun.ht)
    (hi.nf hun.live x (mem_withVars.1 hx).1) hu, hv]
  rfl

/-- The hypotheses are met: the level of a conflict is undone. -/
example : ∃ (p p' : Propagator ℚ) (g : Ghost ℚ) (gt : GThr) (fr : Frame) (frs : List Frame), Reach .imath {} Intact p g ∧
    (∀ x ∈ p.prog.iqs, Supports ℚ x.rel) ∧ g.thrs[0]? = some gt ∧ gt.frames = fr :: frs ∧ fr.level ≠ 0 ∧ p.undo 0 = some p' ∧ gt.stuck = true ∧
    Act frs 1 ∧ Act frs 2 := by
  obtain ⟨p, g, h1, -, h2⟩ := exists_reach (V := ℚ) (be := .imath) (mode := .intact) (opts := {})
    [.init prog4 1, .prop 0 0 [1] true, .prop 1 0 [2, 3] true, .prop 2 0 [4] true]
    (P := fun p g => noStrict p.prog && (p.undo 0).isSome && atThr g 0 fun gt => gt.stuck &&
      match gt.frames with
      | fr :: frs => decide (fr.level ≠ 0 ∧ Act frs 1 ∧ Act frs 2)
      | [] => false)
    (by decide +kernel)
  simp only [Bool.and_eq_true] at h2
  obtain ⟨⟨h2, h3⟩, h4⟩ := h2
  obtain ⟨p', h3⟩ := Option.isSome_iff_exists.1 h3
  obtain ⟨gt, h5, h6⟩ := atThr_spec h4
  rw [Bool.and_eq_true] at h6
  obtain ⟨h6, h7⟩ := h6
  cases hf : gt.frames with
  | nil => rw [hf] at h7; cases h7
  | cons fr frs =>
    rw [hf] at h7
    obtain ⟨h7, h8, h9⟩ := of_decide_eq_true h7
    exact ⟨p, p', g, gt, fr, frs, h1, noStrict_spec h2, h5, hf, h7, h3, h6, h8, h9⟩

/-- C09 (partial: `Intact`, competitors have to satisfy constraints with variables only). After a `check` of a total
assignment, if the objective is reported as bounded then no rational solution of the true constraints has a larger objective
value than the reported one (which is the value of the objective under the reported values). -/
theorem C09_bounded_is_optimal_partial (hq : StepOK V opts) (hr : Reach be opts Intact p g)
    (hs : ∀ x ∈ p.prog.iqs, Supports V x.rel) {th : ℕ} {gt : GThr} (hgt : g.thrs[th]? = some gt) (hst : gt.stuck = false)
    (hck : gt.checked = true) {v : V} (ho : p.objectiveOf th = [(v, true)]) :
    v = evalV (p.valueOf th) p.prog.objective ∧
    ∀ gv : Symbol → ℚ, Solves (withVars p.prog.iqs) (Act gt.frames) gv → LpValue.ofRat (evalTerms gv p.prog.objective) ≤ v := by
  have hi := hr.inv hq
  have hv := C01_objective_value hr hgt ho
  refine ⟨hv, fun gv hsol => ?_⟩
  obtain ⟨t, E0, base, hu⟩ := hi.unpack hgt
  have hsi := hu.dyn.sinv hst
  unfold Propagator.objectiveOf S.getObjective at ho
  simp only [hu.ht] at ho
  split at ho
  swap
  · simp at ho
  rename_i ha
  simp only [Option.toList_some, List.cons.injEq, Prod.mk.injEq, and_true] at ho
  have hne : p.prog.objective ≠ [] := by
    intro h0; rw [hu.dyn.active, h0] at ha; simp at ha
  obtain ⟨asg, hE, hasg⟩ := hu.lift hi gv
  have hval : asg t.slv.obj.var = LpValue.ofRat (evalTerms gv p.prog.objective) := by
    rw [(hu.dyn.set.ovar hne).2 asg hE, lift_eval hasg (hi.onf hu.live)]
  by_cases hm : MeetsCuts (p.cutsOf th) (Act gt.frames) p.prog.objective gv
  · have := ((hu.dyn.optm hck) ha).1 ho.2 asg hE (hu.competitor hi hs hsol hm hE hasg)
    rw [← hval, ← ho.1]; exact this
  · unfold MeetsCuts at hm
    push Not at hm
    obtain ⟨u, hu', hact, hlt⟩ := hm
    have := hu.cuts hsi.good.val hsi.holds hu' hact
    refine hlt.le.trans (this.trans (le_of_eq ?_))
    rw [hv]
    exact evalV_congr fun w hw => (valueOf_ix hu.ht (hi.onf hu.live) hw).symm

/-- The hypotheses are met: maximising `x` subject to `x + y <= 5` and `y >= 2` gives 3. -/
example : ∃ (p : Propagator ℚ) (g : Ghost ℚ) (gt : GThr), Reach .imath {} Intact p g ∧ (∀ x ∈ p.prog.iqs, Supports ℚ x.rel) ∧
    g.thrs[0]? = some gt ∧ gt.stuck = false ∧ gt.checked = true ∧ p.objectiveOf 0 = [(3, true)] := by
  obtain ⟨p, g, h1, -, h2⟩ := exists_reach (V := ℚ) (be := .imath) (mode := .intact) (opts := {})
    [.init (prog4 ++ [maxAtom "x"]) 1, .prop 0 0 [1] true, .prop 1 0 [2, 3] true, .check 1 true 0]
    (P := fun p g => noStrict p.prog && decide (p.objectiveOf 0 = [(3, true)]) && atThr g 0 fun gt => !gt.stuck && gt.checked)
    (by decide +kernel)
  simp only [Bool.and_eq_true] at h2
  obtain ⟨⟨h2, h3⟩, h4⟩ := h2
  obtain ⟨gt, h5, h6⟩ := atThr_spec h4
  rw [Bool.and_eq_true, Bool.not_eq_true'] at h6
  exact ⟨p, g, gt, h1, noStrict_spec h2, h5, h6.1, h6.2, of_decide_eq_true h3⟩

/-- C10 (partial: `Intact`, constraints with variables). After a `check` of a total assignment, if the objective is reported
as unbounded then there are rational solutions of the true constraints with arbitrarily large objective values. -/
theorem C10_unbounded_partial (hq : StepOK V opts) (hr : Reach be opts Intact p g)
    (hs : ∀ x ∈ p.prog.iqs, Supports V x.rel) {th : ℕ} {gt : GThr} (hgt : g.thrs[th]? = some gt)
    (hck : gt.checked = true) {v : V} (ho : p.objectiveOf th = [(v, false)]) (q : ℚ) :
    ∃ gv : Symbol → ℚ, Solves (withVars p.prog.iqs) (Act gt.frames) gv ∧ q < evalTerms gv p.prog.objective := by
  have hi := hr.inv hq
  obtain ⟨t, E0, base, hu⟩ := hi.unpack hgt
  unfold Propagator.objectiveOf S.getObjective at ho
  simp only [hu.ht] at ho
  split at ho
  swap
  · simp at ho
  rename_i ha
  simp only [Option.toList_some, List.cons.injEq, Prod.mk.injEq, and_true] at ho
  have hne : p.prog.objective ≠ [] := by
    intro h0; rw [hu.dyn.active, h0] at ha; simp at ha
  obtain ⟨asg, hE, hall, hlt⟩ := ((hu.dyn.optm hck) ha).2 ho.2 q
  have k1 := hu.small hs hE hall
  have k2 : Small fun e => LpSem.conc e (LpValue.ofRat q : V) < LpSem.conc e (asg t.slv.obj.var) := LpSem.conc_lt _ _ hlt
  obtain ⟨e, he, j1, j2⟩ := (k1.and k2).exists
  refine ⟨_, j1, ?_⟩
  rw [LpSem.conc_ofRat, (hu.dyn.set.ovar hne).2 asg hE, evalV_conc] at j2
  exact j2

/-- The hypotheses are met: maximising `y` subject to `x >= 1` and `y >= 2`. -/
example : ∃ (p : Propagator ℚ) (g : Ghost ℚ) (gt : GThr) (v : ℚ), Reach .imath {} Intact p g ∧ (∀ x ∈ p.prog.iqs, Supports ℚ x.rel) ∧
    g.thrs[0]? = some gt ∧ gt.checked = true ∧ Act gt.frames 3 ∧ p.objectiveOf 0 = [(v, false)] := by
  obtain ⟨p, g, h1, -, h2⟩ := exists_reach (V := ℚ) (be := .imath) (mode := .intact) (opts := {})
    [.init (prog4 ++ [maxAtom "y"]) 1, .prop 0 0 [1] true, .prop 1 0 [3] true, .check 1 true 0]
    (P := fun p g => noStrict p.prog && decide (p.objectiveOf 0 = [(2, false)]) && atThr g 0 fun gt => gt.checked && decide (Act gt.frames 3))
    (by decide +kernel)
  simp only [Bool.and_eq_true] at h2
  obtain ⟨⟨h2, h3⟩, h4⟩ := h2
  obtain ⟨gt, h5, h6⟩ := atThr_spec h4
  rw [Bool.and_eq_true] at h6
  exact ⟨p, g, gt, 2, h1, noStrict_spec h2, h5, h6.1, of_decide_eq_true h6.2, of_decide_eq_true h3⟩

/-- C11 (partial: `Intact`). `check`, including the optimization, terminates in every reachable state. The loop over the facts and the loop
of the optimization both end after at most `12 ^ n` iterations where `n` is the number of unknowns. -/
theorem C11_check_terminates_partial (hq : StepOK V opts) (hr : Reach be opts Intact p g) {ctl : Ctl} {total : Bool} {th : ℕ}
    {gt : GThr} {t : Thr V} (hm : MayCheck p g ctl th gt t) :
    ∃ r, ∀ fuel, 12 ^ p.unknowns < fuel → p.check fuel ctl total th = some r :=
  (hr.inv hq).checkReturns hr.weak hq hm total

/-- C12 (partial: `Intact`). Every clause added by a call of `propagate` (by bound propagation or because of a conflict)
states a consequence: the constraints and cuts whose literals it negates have no common solution. -/
theorem C12_propagated_clauses_partial (hq : StepOK V opts) (hr : Reach be opts Intact p g)
    (hs : ∀ x ∈ p.prog.iqs, Supports V x.rel) {ctl : Ctl} {th : ℕ} {lits : List ℤ} {gt : GThr}
    (hm : MayPropagate Intact p g ctl th lits gt) {fuel : ℕ} {p' : Propagator V} {ok : Bool}
    (hc : p.propagate fuel ctl th lits = some (p', ok)) :
    ∃ cs, p'.clausesOf th = p.clausesOf th ++ cs ∧ ∀ c ∈ cs, ∀ gv : Symbol → ℚ,
      ¬ (Solves (withVars p.prog.iqs) (fun l => -l ∈ c) gv ∧ MeetsCuts (p.cutsOf th) (fun l => -l ∈ c) p.prog.objective gv) := by
  have hi := hr.inv hq
  obtain ⟨t, s', E0, base, hu, h1, h2, h3, h4⟩ := hi.call hm hc
  have key : ∀ c, ClauseValid t.slv.bounds E0 c → ∀ gv : Symbol → ℚ,
      ¬ (Solves (withVars p.prog.iqs) (fun l => -l ∈ c) gv ∧ MeetsCuts (p.cutsOf th) (fun l => -l ∈ c) p.prog.objective gv) := by
    rintro c hv gv ⟨hsol, hmeet⟩
    obtain ⟨asg, hE, hasg⟩ := hu.lift hi gv
    exact hv.spec asg hE (hu.competitor hi hs hsol hmeet hE hasg)
  rw [clausesOf_eq h4, clausesOf_eq hu.ht]
  generalize hok : (s', ok) = r at h1
  cases h1 with
  | sat t1 ok1 _ _ hout _ _ =>
    obtain ⟨rfl, rfl⟩ := Prod.mk.inj hok
    obtain ⟨cs, ho, hv, -⟩ := hout
    exact ⟨cs, ho, fun c hc => key c (hv c hc)⟩
  | unsat t1 c _ _ _ hout hval _ =>
    obtain ⟨rfl, -⟩ := Prod.mk.inj hok
    refine ⟨[c], hout, fun c' hc' => ?_⟩
    simp only [List.mem_singleton] at hc'
    subst hc'; exact key c' hval

/-- The hypotheses are met with bound propagation: `x >= 1` and `y >= 2` imply that `x + y <= 2` is false. -/
example : ∃ (p p' : Propagator ℚ) (g : Ghost ℚ) (ctl : Ctl) (gt : GThr) (fuel : ℕ), Reach .imath { propagateMode := .full } Intact p g ∧
    (∀ x ∈ p.prog.iqs, Supports ℚ x.rel) ∧ MayPropagate Intact p g ctl 0 [3] gt ∧ p.propagate fuel ctl 0 [3] = some (p', true) ∧
    p.clausesOf 0 = [] ∧ p'.clausesOf 0 = [[-1, -3, -2]] := by
  obtain ⟨p, g, p', gt, ok, h1, -, h2, h3, h4⟩ := exists_prop (V := ℚ) (be := .imath) (mode := .intact) (opts := { propagateMode := .full })
    [.init [sumAtom "x" ">=" 1 1, sum2Atom "x" "y" "<=" 2 2, sumAtom "y" ">=" 2 3] 1, .prop 0 0 [1] true] 1 0 [3] true
    (P := fun p _ p' ok => ok && noStrict p.prog && decide (p.clausesOf 0 = []) && decide (p'.clausesOf 0 = [[-1, -3, -2]])) (by decide +kernel)
  simp only [Bool.and_eq_true] at h4
  obtain ⟨⟨⟨rfl, h5⟩, h6⟩, h7⟩ := h4
  exact ⟨p, p', g, _, gt, fuel, h1, noStrict_spec h5, h2, h3, of_decide_eq_true h6, of_decide_eq_true h7⟩

/-- C29: an accepted assignment with the literal of a cut true has an objective value of at least the value of the cut. -/
theorem C29_cuts_enforced_partial (hq : StepOK V opts) (hr : Reach be opts Intact p g) {th : ℕ} {gt : GThr} (hgt : g.thrs[th]? = some gt)
    (hst : gt.stuck = false) {u : ℤ × V} (hu : u ∈ p.cutsOf th) (ha : Act gt.frames u.1) :
    u.2 ≤ evalV (p.valueOf th) p.prog.objective := by
  have hi := hr.inv hq
  obtain ⟨t, E0, base, hun⟩ := hi.unpack hgt
  have hsi := hun.dyn.sinv hst
  have := hun.cuts hsi.good.val hsi.holds hu ha
  rw [evalV_congr (g' := p.valueOf th) fun w hw => (valueOf_ix hun.ht (hi.onf hun.live) hw).symm] at this
  exact this

/-- The hypotheses are met: after a model with value 3 in thread 0, thread 1 adds a cut with value 4, whose literal 1000 is
propagated and enforced. -/
example : ∃ (p : Propagator ℚ) (g : Ghost ℚ) (gt : GThr), StepOK ℚ { globalObjective := some ⟨1, 0⟩ } ∧
    Reach .imath { globalObjective := some ⟨1, 0⟩ } Intact p g ∧ g.thrs[1]? = some gt ∧ gt.stuck = false ∧ (1000, 4) ∈ p.cutsOf 1 ∧
    Act gt.frames 1000 ∧ (3, true) ∈ g.reported := by
  obtain ⟨p, g, h1, -, h2⟩ := exists_reach (V := ℚ) (be := .imath) (mode := .intact) (opts := { globalObjective := some ⟨1, 0⟩ })
    [.init (prog4 ++ [maxAtom "x"]) 2, .prop 0 0 [1] true, .prop 1 0 [2, 3] true, .check 1 true 0, .model 0, .prop 0 1 [1] true, .check 0 false 1,
     .prop 0 1 [1000] true]
    (P := fun p g => decide ((1000, 4) ∈ p.cutsOf 1) && decide ((3, true) ∈ g.reported) && atThr g 1 fun gt => !gt.stuck && decide (Act gt.frames 1000))
    (by decide +kernel)
  simp only [Bool.and_eq_true] at h2
  obtain ⟨⟨h2, h3⟩, h4⟩ := h2
  obtain ⟨gt, h5, h6⟩ := atThr_spec h4
  rw [Bool.and_eq_true, Bool.not_eq_true'] at h6
  refine ⟨p, g, gt, ?_, h1, h5, h6.1, of_decide_eq_true h2, of_decide_eq_true h6.2, of_decide_eq_true h3⟩
  intro q hq
  obtain rfl := Option.some.inj hq
  exact ⟨1, rfl⟩

end

end Lpx.Props
