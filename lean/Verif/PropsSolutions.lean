import Verif.PropsMore

/-!
# The results depend only on the set of solutions (C82)

Two propagators whose true constraints have the same solutions, in the weak sense that for each solution of one there is a solution of the other with the same value of the
objective: the formulations may differ by scaling, implied constraints, substitutions, auxiliary variables and the names of variables.
-/

set_option linter.unusedSectionVars false

namespace Lpx.Props
open Lpx Lpx.Witness

/-- For each rational solution of the true constraints of `b` there is one of the true constraints of `a`, where the objective of `a` is at least that of `b`. -/
def AtLeast (a b : Prog) (fa fb : ℤ → Prop) : Prop :=
  ∀ gb : Symbol → ℚ, (∀ x ∈ b.iqs, x.lhs ≠ [] → fb x.lit → x.holds gb) →
    ∃ ga : Symbol → ℚ, (∀ x ∈ a.iqs, x.lhs ≠ [] → fa x.lit → x.holds ga) ∧ evalTerms gb b.objective ≤ evalTerms ga a.objective

/-- The same with more true constraints (see C80). -/
theorem Stronger.atLeast {a b : Prog} {fa fb : ℤ → Prop} (h : Stronger a b fa fb) : AtLeast a b fa fb := by
  intro gb hb
  refine ⟨gb, fun x hx hne hf => ?_, ?_⟩
  · obtain ⟨y, hy, hfy, hp, hr, hv⟩ := h.iqs x hx hf
    have hy' := hb y hy (fun h0 => hne (by rw [h0] at hp; exact List.nil_perm.1 hp)) hfy
    unfold Ineq.holds at *
    rw [hr, hv] at hy'
    rw [show evalTerms gb x.lhs = evalTerms gb y.lhs from ((hp.map _).sum_eq).symm]
    exact hy'
  · exact le_of_eq ((h.obj.map _).sum_eq)

/-- Each true constraint of `a` is one of `b` up to a factor (negative ones turn the relation around), the names of variables and the order of summands. -/
structure Reformulated (φ : Symbol → Symbol) (a b : Prog) (fa fb : ℤ → Prop) : Prop where
  obj : b.objective.Perm (a.objective.map fun t => ⟨t.co, φ t.var⟩)
  iqs : ∀ x ∈ a.iqs, fa x.lit → ∃ y ∈ b.iqs, ∃ k : ℚ, k ≠ 0 ∧ fb y.lit ∧ y.lhs.Perm (x.lhs.map fun t => ⟨k * t.co, φ t.var⟩) ∧
    y.rel = (if k < 0 then x.rel.invert else x.rel) ∧ y.rhs = k * x.rhs

theorem evalTerms_scaled (φ : Symbol → Symbol) (k : ℚ) (gb : Symbol → ℚ) (ts : List (Term Symbol)) :
    evalTerms gb (ts.map fun t => ⟨k * t.co, φ t.var⟩) = k * evalTerms (fun y => gb (φ y)) ts := by
  unfold evalTerms
  induction ts with
  | nil => simp
  | cons t ts ih =>
    simp only [List.map_cons, List.sum_cons] at ih ⊢
    rw [ih]; ring

/-- Scaled and renamed constraints have corresponding solutions, so that the theorems below apply. -/
theorem Reformulated.atLeast {φ : Symbol → Symbol} {a b : Prog} {fa fb : ℤ → Prop} (h : Reformulated φ a b fa fb) : AtLeast a b fa fb := by
  intro gb hb
  refine ⟨fun y => gb (φ y), fun x hx hne hf => ?_, ?_⟩
  · obtain ⟨y, hy, k, hk, hfy, hp, hr, hv⟩ := h.iqs x hx hf
    have hy' := hb y hy (fun h0 => hne (by rw [h0] at hp; exact List.map_eq_nil_iff.1 (List.nil_perm.1 hp))) hfy
    unfold Ineq.holds at *
    rw [show evalTerms gb y.lhs = _ from (hp.map _).sum_eq, show ((x.lhs.map fun t => (⟨k * t.co, φ t.var⟩ : Term Symbol)).map fun t => t.co * gb t.var).sum = _ from
      evalTerms_scaled φ k gb x.lhs, hr, hv] at hy'
    have key := Relation.div_holds x.rel (inv_ne_zero hk) (k * evalTerms (fun y => gb (φ y)) x.lhs) x.rhs
    rw [← mul_assoc, inv_mul_cancel₀ hk, one_mul, div_inv_eq_mul, mul_comm x.rhs k] at key
    refine key.1 ?_
    simpa only [inv_lt_zero] using hy'
  · have := evalTerms_scaled φ 1 gb a.objective
    rw [one_mul] at this
    rw [← this]
    refine le_of_eq ((h.obj.map _).sum_eq.trans ?_)
    simp only [one_mul]
    rfl

/-- C82: formulations that are equal up to factors of constraints, names of variables, and the order of summands and constraints have the same solutions in the sense of
the theorems below. -/
theorem C82_reformulated {φ ψ : Symbol → Symbol} {a b : Prog} {fa fb : ℤ → Prop} (h : Reformulated φ a b fa fb) (h' : Reformulated ψ b a fb fa) :
    AtLeast a b fa fb ∧ AtLeast b a fb fa := ⟨h.atLeast, h'.atLeast⟩

theorem solves_withVars {iqs : List (Ineq Symbol)} {f : ℤ → Prop} {gv : Symbol → ℚ} :
    Solves (withVars iqs) f gv ↔ ∀ x ∈ iqs, x.lhs ≠ [] → f x.lit → x.holds gv :=
  ⟨fun h x hx hne hf => h x (mem_withVars.2 ⟨hx, hne⟩) hf, fun h x hx hf => h x (mem_withVars.1 hx).1 (mem_withVars.1 hx).2 hf⟩

section
variable {V V' : Type} [LpFull V] [LpFull V']
variable {be be' : Backend} {opts opts' : Options} {Q : Restr V} {Q' : Restr V'} {p p1 : Propagator V} {q q1 : Propagator V'} {g : Ghost V} {g' : Ghost V'}

/-- C82 (partial: `Intact`; with `--strict` or without strict relations): if the solutions of the second propagator can be turned into solutions of the first one,
then the first one accepts if the second one does. The first one runs without bound propagation and global objective. -/
theorem C82_verdict_monotone_partial (hg : opts.globalObjective = none) (hpm : opts.propagateMode = .none) (hq' : StepOK V' opts')
    (hr : Reach be opts Intact p g) (hr' : Reach be' opts' Intact q g') (hs : ∀ x ∈ p.prog.iqs, Supports V x.rel)
    (hs' : ∀ x ∈ q.prog.iqs, Supports V' x.rel) {ctl ctl' : Ctl} {th th' : ℕ} {lits lits' : List ℤ} {gt gt' : GThr} (hm : MayPropagate Intact p g ctl th lits gt)
    (hm' : MayPropagate Intact q g' ctl' th' lits' gt')
    (hsol : AtLeast p.prog q.prog (fun l => l ∈ lits ∨ Act gt.frames l) (fun l => l ∈ lits' ∨ Act gt'.frames l)) {fuel fuel' : ℕ} {ok : Bool}
    (hc : p.propagate fuel ctl th lits = some (p1, ok)) (hc' : q.propagate fuel' ctl' th' lits' = some (q1, true)) : ok = true := by
  have hprog : q1.prog = q.prog := by
    obtain ⟨t, s', E0, base, hu, h1, h2, h3, h4⟩ := (hr'.inv hq').call hm' hc'
    rw [h3]
  obtain ⟨e, -, h1⟩ := (C01_propagate_partial hq' hr' hs' hm' hc').exists
  rw [hprog] at h1
  obtain ⟨ga, h2, -⟩ := hsol _ (solves_withVars.1 h1)
  exact (C05_verdict_iff_partial hg hpm hr hs hm hc).2 ⟨ga, solves_withVars.2 h2⟩

/-- C82 for programs without mixed equations (see C45): all histories. -/
theorem C82_unmixed_verdict_monotone (hg : opts.globalObjective = none) (hpm : opts.propagateMode = .none) (hq' : StepOK V' opts')
    (hr : Reach be opts Q p g) (hr' : Reach be' opts' Q' q g') (hu : Unmixed p.prog.iqs) (hu' : Unmixed q.prog.iqs) (hs : ∀ x ∈ p.prog.iqs, Supports V x.rel)
    (hs' : ∀ x ∈ q.prog.iqs, Supports V' x.rel) {ctl ctl' : Ctl} {th th' : ℕ} {lits lits' : List ℤ} {gt gt' : GThr} (hm : MayPropagate Q p g ctl th lits gt)
    (hm' : MayPropagate Q' q g' ctl' th' lits' gt')
    (hsol : AtLeast p.prog q.prog (fun l => l ∈ lits ∨ Act gt.frames l) (fun l => l ∈ lits' ∨ Act gt'.frames l)) {fuel fuel' : ℕ} {ok : Bool}
    (hc : p.propagate fuel ctl th lits = some (p1, ok)) (hc' : q.propagate fuel' ctl' th' lits' = some (q1, true)) : ok = true :=
  C82_verdict_monotone_partial hg hpm hq' (hu.reach (by intro q h; rw [hg] at h; cases h) hr) (hu'.reach hq' hr') hs hs' (hu.mayPropagate hm) (hu'.mayPropagate hm')
    hsol hc hc'

/-- C82 (partial: as above): two propagators whose true constraints have the same solutions give the same verdict. -/
theorem C82_verdict_partial (hg : opts.globalObjective = none) (hpm : opts.propagateMode = .none) (hg' : opts'.globalObjective = none)
    (hpm' : opts'.propagateMode = .none) (hr : Reach be opts Intact p g) (hr' : Reach be' opts' Intact q g') (hs : ∀ x ∈ p.prog.iqs, Supports V x.rel)
    (hs' : ∀ x ∈ q.prog.iqs, Supports V' x.rel) {ctl ctl' : Ctl} {th th' : ℕ} {lits lits' : List ℤ} {gt gt' : GThr} (hm : MayPropagate Intact p g ctl th lits gt)
    (hm' : MayPropagate Intact q g' ctl' th' lits' gt')
    (hsol : AtLeast p.prog q.prog (fun l => l ∈ lits ∨ Act gt.frames l) (fun l => l ∈ lits' ∨ Act gt'.frames l))
    (hsol' : AtLeast q.prog p.prog (fun l => l ∈ lits' ∨ Act gt'.frames l) (fun l => l ∈ lits ∨ Act gt.frames l)) {fuel fuel' : ℕ} {ok ok' : Bool}
    (hc : p.propagate fuel ctl th lits = some (p1, ok)) (hc' : q.propagate fuel' ctl' th' lits' = some (q1, ok')) : ok = ok' := by
  rw [Bool.eq_iff_iff]
  constructor
  · rintro rfl; exact C82_verdict_monotone_partial hg' hpm' (by intro q h; rw [hg] at h; cases h) hr' hr hs' hs hm' hm hsol' hc' hc
  · rintro rfl; exact C82_verdict_monotone_partial hg hpm (by intro q h; rw [hg'] at h; cases h) hr hr' hs hs' hm hm' hsol hc hc'

/-- C82 for programs without mixed equations (see C45): all histories. -/
theorem C82_unmixed_verdict (hg : opts.globalObjective = none) (hpm : opts.propagateMode = .none) (hg' : opts'.globalObjective = none)
    (hpm' : opts'.propagateMode = .none) (hr : Reach be opts Q p g) (hr' : Reach be' opts' Q' q g') (hu : Unmixed p.prog.iqs) (hu' : Unmixed q.prog.iqs)
    (hs : ∀ x ∈ p.prog.iqs, Supports V x.rel)
    (hs' : ∀ x ∈ q.prog.iqs, Supports V' x.rel) {ctl ctl' : Ctl} {th th' : ℕ} {lits lits' : List ℤ} {gt gt' : GThr} (hm : MayPropagate Q p g ctl th lits gt)
    (hm' : MayPropagate Q' q g' ctl' th' lits' gt')
    (hsol : AtLeast p.prog q.prog (fun l => l ∈ lits ∨ Act gt.frames l) (fun l => l ∈ lits' ∨ Act gt'.frames l))
    (hsol' : AtLeast q.prog p.prog (fun l => l ∈ lits' ∨ Act gt'.frames l) (fun l => l ∈ lits ∨ Act gt.frames l)) {fuel fuel' : ℕ} {ok ok' : Bool}
    (hc : p.propagate fuel ctl th lits = some (p1, ok)) (hc' : q.propagate fuel' ctl' th' lits' = some (q1, ok')) : ok = ok' :=
  C82_verdict_partial hg hpm hg' hpm' (hu.reach (by intro q h; rw [hg] at h; cases h) hr) (hu'.reach (by intro q h; rw [hg'] at h; cases h) hr') hs hs'
    (hu.mayPropagate hm) (hu'.mayPropagate hm') hsol hsol' hc hc'

/-- C82 (partial: `Intact`; with `--strict` or without strict relations): if the first objective is reported to be bounded, then so is the second one, and
the reported value is below (at most) each rational number that the first one is below (at most). -/
theorem C82_optimum_monotone_partial (hq : StepOK V opts) (hq' : StepOK V' opts') (hr : Reach be opts Intact p g) (hr' : Reach be' opts' Intact q g')
    (hs : ∀ x ∈ p.prog.iqs, Supports V x.rel) (hs' : ∀ x ∈ q.prog.iqs, Supports V' x.rel)
    {th th' : ℕ} {gt gt' : GThr} (hgt : g.thrs[th]? = some gt) (hgt' : g'.thrs[th']? = some gt') (hst : gt.stuck = false)
    (hst' : gt'.stuck = false) (hck : gt.checked = true) (hck' : gt'.checked = true)
    (hsol : AtLeast p.prog q.prog (Act gt.frames) (Act gt'.frames)) {v : V} {w : V'} {b b' : Bool}
    (ho : p.objectiveOf th = [(v, b)]) (ho' : q.objectiveOf th' = [(w, b')]) (hb : b = true) :
    b' = true ∧ ∀ r : ℚ, (v ≤ LpValue.ofRat r → w ≤ LpValue.ofRat r) ∧ (v < LpValue.ofRat r → w < LpValue.ofRat r) := by
  subst hb
  obtain ⟨-, h1⟩ := C09_bounded_is_optimal_partial hq hr hs hgt hst hck ho
  have h2 : ∀ gb : Symbol → ℚ, Solves (withVars q.prog.iqs) (Act gt'.frames) gb → LpValue.ofRat (evalTerms gb q.prog.objective) ≤ v := fun gb hb => by
    obtain ⟨ga, h3, h4⟩ := hsol gb (solves_withVars.1 hb)
    exact ((ofRat_le_iff _ _).2 h4).trans (h1 ga (solves_withVars.2 h3))
  cases b' with
  | false =>
    obtain ⟨B, hB⟩ := LpValue.archimedean v
    obtain ⟨gb, h3, h4⟩ := C10_unbounded_partial hq' hr' hs' hgt' hck' ho' B
    exact absurd ((((ofRat_le_iff (V := V) _ _).2 h4.le).trans (h2 gb h3))) (not_le.2 hB)
  | true =>
    obtain ⟨hw, -⟩ := C09_bounded_is_optimal_partial hq' hr' hs' hgt' hst' hck' ho'
    have h3 : Small fun e => (LpValue.ofRat (LpSem.conc e w) : V) ≤ v :=
      (C01_active_constraints_hold_partial hq' hr' hs' hgt' hst').mono fun e _ h => by
        have := h2 _ h
        rwa [← evalV_conc, ← hw] at this
    refine ⟨rfl, fun r => ⟨fun hv => ?_, fun hv => ?_⟩⟩
    · by_contra hlt
      obtain ⟨e, -, k1, k2⟩ := (h3.and (LpSem.conc_lt _ _ (not_le.1 hlt))).exists
      rw [LpSem.conc_ofRat] at k2
      exact absurd k2 (not_lt.2 ((ofRat_le_iff (V := V) _ _).1 (k1.trans hv)))
    · by_contra hlt
      obtain ⟨e, -, k1, k2⟩ := (h3.and (conc_le (not_lt.1 hlt))).exists
      rw [LpSem.conc_ofRat] at k2
      exact absurd ((ofRat_lt_iff (V := V) _ _).1 (k1.trans_lt hv)) (not_lt.2 k2)

/-- C82 for programs without mixed equations (see C45): all histories. -/
theorem C82_unmixed_optimum_monotone (hq : StepOK V opts) (hq' : StepOK V' opts') (hr : Reach be opts Q p g) (hr' : Reach be' opts' Q' q g')
    (hu : Unmixed p.prog.iqs) (hu' : Unmixed q.prog.iqs) (hs : ∀ x ∈ p.prog.iqs, Supports V x.rel) (hs' : ∀ x ∈ q.prog.iqs, Supports V' x.rel)
    {th th' : ℕ} {gt gt' : GThr} (hgt : g.thrs[th]? = some gt) (hgt' : g'.thrs[th']? = some gt') (hst : gt.stuck = false)
    (hst' : gt'.stuck = false) (hck : gt.checked = true) (hck' : gt'.checked = true)
    (hsol : AtLeast p.prog q.prog (Act gt.frames) (Act gt'.frames)) {v : V} {w : V'} {b b' : Bool}
    (ho : p.objectiveOf th = [(v, b)]) (ho' : q.objectiveOf th' = [(w, b')]) (hb : b = true) :
    b' = true ∧ ∀ r : ℚ, (v ≤ LpValue.ofRat r → w ≤ LpValue.ofRat r) ∧ (v < LpValue.ofRat r → w < LpValue.ofRat r) :=
  C82_optimum_monotone_partial hq hq' (hu.reach hq hr) (hu'.reach hq' hr') hs hs' hgt hgt' hst hst' hck hck' hsol ho ho' hb

/-- C82 (partial: as above): two propagators whose true constraints have the same solutions agree on whether the objective is bounded and on the position of the
reported value among the rational numbers: they are the same up to the infinitesimal part, which has the same sign. -/
theorem C82_optimum_partial (hq : StepOK V opts) (hq' : StepOK V' opts') (hr : Reach be opts Intact p g) (hr' : Reach be' opts' Intact q g')
    (hs : ∀ x ∈ p.prog.iqs, Supports V x.rel) (hs' : ∀ x ∈ q.prog.iqs, Supports V' x.rel)
    {th th' : ℕ} {gt gt' : GThr} (hgt : g.thrs[th]? = some gt) (hgt' : g'.thrs[th']? = some gt') (hst : gt.stuck = false)
    (hst' : gt'.stuck = false) (hck : gt.checked = true) (hck' : gt'.checked = true)
    (hsol : AtLeast p.prog q.prog (Act gt.frames) (Act gt'.frames)) (hsol' : AtLeast q.prog p.prog (Act gt'.frames) (Act gt.frames)) {v : V} {w : V'} {b b' : Bool}
    (ho : p.objectiveOf th = [(v, b)]) (ho' : q.objectiveOf th' = [(w, b')]) :
    b = b' ∧ (b = true → ∀ r : ℚ, (v ≤ LpValue.ofRat r ↔ w ≤ LpValue.ofRat r) ∧ (v < LpValue.ofRat r ↔ w < LpValue.ofRat r)) := by
  have h1 := C82_optimum_monotone_partial hq hq' hr hr' hs hs' hgt hgt' hst hst' hck hck' hsol ho ho'
  have h2 := C82_optimum_monotone_partial hq' hq hr' hr hs' hs hgt' hgt hst' hst hck' hck hsol' ho' ho
  have hb : b = b' := by rw [Bool.eq_iff_iff]; exact ⟨fun h => (h1 h).1, fun h => (h2 h).1⟩
  exact ⟨hb, fun h r => ⟨⟨((h1 h).2 r).1, ((h2 (hb ▸ h)).2 r).1⟩, ((h1 h).2 r).2, ((h2 (hb ▸ h)).2 r).2⟩⟩

/-- C82 for programs without mixed equations (see C45): all histories. -/
theorem C82_unmixed_optimum (hq : StepOK V opts) (hq' : StepOK V' opts') (hr : Reach be opts Q p g) (hr' : Reach be' opts' Q' q g')
    (hu : Unmixed p.prog.iqs) (hu' : Unmixed q.prog.iqs) (hs : ∀ x ∈ p.prog.iqs, Supports V x.rel) (hs' : ∀ x ∈ q.prog.iqs, Supports V' x.rel)
    {th th' : ℕ} {gt gt' : GThr} (hgt : g.thrs[th]? = some gt) (hgt' : g'.thrs[th']? = some gt') (hst : gt.stuck = false)
    (hst' : gt'.stuck = false) (hck : gt.checked = true) (hck' : gt'.checked = true)
    (hsol : AtLeast p.prog q.prog (Act gt.frames) (Act gt'.frames)) (hsol' : AtLeast q.prog p.prog (Act gt'.frames) (Act gt.frames)) {v : V} {w : V'} {b b' : Bool}
    (ho : p.objectiveOf th = [(v, b)]) (ho' : q.objectiveOf th' = [(w, b')]) :
    b = b' ∧ (b = true → ∀ r : ℚ, (v ≤ LpValue.ofRat r ↔ w ≤ LpValue.ofRat r) ∧ (v < LpValue.ofRat r ↔ w < LpValue.ofRat r)) :=
  C82_optimum_partial hq hq' (hu.reach hq hr) (hu'.reach hq' hr') hs hs' hgt hgt' hst hst' hck hck' hsol hsol' ho ho'

end

/-- Values that compare alike with the rational numbers are equal up to the infinitesimal part, which has the same sign. -/
theorem C82_same_position {v w : RatQ} (h : ∀ r : ℚ, (v ≤ LpValue.ofRat r ↔ w ≤ LpValue.ofRat r) ∧ (v < LpValue.ofRat r ↔ w < LpValue.ofRat r)) :
    v.c = w.c ∧ (v.k < 0 ↔ w.k < 0) ∧ (0 < v.k ↔ 0 < w.k) := by
  have key : ∀ (u : RatQ) (r : ℚ), ((u ≤ LpValue.ofRat r) ↔ u.c < r ∨ u.c = r ∧ u.k ≤ 0) ∧ ((u < LpValue.ofRat r) ↔ u.c < r ∨ u.c = r ∧ u.k < 0) := fun u r =>
    ⟨RatQ.le_def _ _, RatQ.lt_def _ _⟩
  have h' : ∀ r : ℚ, ((v.c < r ∨ v.c = r ∧ v.k ≤ 0) ↔ (w.c < r ∨ w.c = r ∧ w.k ≤ 0)) ∧ ((v.c < r ∨ v.c = r ∧ v.k < 0) ↔ (w.c < r ∨ w.c = r ∧ w.k < 0)) := fun r => by
    obtain ⟨h1, h2⟩ := h r
    rw [(key v r).1, (key w r).1] at h1
    rw [(key v r).2, (key w r).2] at h2
    exact ⟨h1, h2⟩
  have hc : v.c = w.c := by
    rcases lt_trichotomy v.c w.c with hlt | heq | hgt
    · have := ((h' ((v.c + w.c) / 2)).1.1 (Or.inl (by linarith)))
      rcases this with h | ⟨h, -⟩ <;> linarith
    · exact heq
    · have := ((h' ((v.c + w.c) / 2)).1.2 (Or.inl (by linarith)))
      rcases this with h | ⟨h, -⟩ <;> linarith
  have h1 := h' v.c
  rw [← hc] at h1
  simp only [lt_irrefl, false_or, true_and] at h1
  exact ⟨hc, h1.2, by rw [← not_le, ← not_le, h1.1]⟩

/-! ### the hypotheses can be met -/

/-- `x + y < 5`, `y >= 2`, `&maximize{ x }`. -/
def solProg : List TAtom := [sum2Atom "x" "y" "<" 5 1, sumAtom "y" ">=" 2 2, maxAtom "x"]
/-- The same with a scaled constraint, other names, and a redundant constraint: `2*a + 2*b < 10`, `b >= 2`, `b >= 1`, `&maximize{ a }`. -/
def solProg' : List TAtom := [linAtom "sum" [(2, "a"), (2, "b")] (some ("<", .number 10)) 1, sumAtom "b" ">=" 2 2, sumAtom "b" ">=" 1 3, maxAtom "a"]

/-- The variable `a`. -/
def symA : Symbol := .fn ['a'] [] true
/-- The variable `b`. -/
def symB : Symbol := .fn ['b'] [] true

/-- What has been read for `solProg`. -/
def solTask (a : Prog) (fr : List Frame) : Bool :=
  decide (a.iqs = [⟨[⟨1, symX⟩, ⟨1, symY⟩], 5, .lt, 1⟩, ⟨[⟨1, symY⟩], 2, .ge, 2⟩] ∧ a.objective = [⟨1, symX⟩] ∧ Act fr 1 ∧ Act fr 2)
/-- What has been read for `solProg'`. -/
def solTask' (a : Prog) (fr : List Frame) : Bool :=
  decide (a.iqs = [⟨[⟨2, symA⟩, ⟨2, symB⟩], 10, .lt, 1⟩, ⟨[⟨1, symB⟩], 2, .ge, 2⟩, ⟨[⟨1, symB⟩], 1, .ge, 3⟩] ∧ a.objective = [⟨1, symA⟩] ∧ Act fr 1 ∧ Act fr 2)

/-- The state of thread 0 after a check. -/
def solOK (p : Propagator RatQ) (g : Ghost RatQ) (task : Prog → List Frame → Bool) (o : RatQ) : Bool :=
  g.thrs[0]?.any fun gt => !gt.stuck && gt.checked && decide (p.objectiveOf 0 = [(o, true)]) && task p.prog gt.frames

theorem solOK_spec {p : Propagator RatQ} {g : Ghost RatQ} {task : Prog → List Frame → Bool} {o : RatQ} (h : solOK p g task o = true) :
    ∃ gt, g.thrs[0]? = some gt ∧ gt.stuck = false ∧ gt.checked = true ∧ p.objectiveOf 0 = [(o, true)] ∧ task p.prog gt.frames = true := by
  unfold solOK at h
  cases hg : g.thrs[0]? with
  | none => rw [hg] at h; cases h
  | some gt =>
    rw [hg] at h
    simp only [Option.any_some, Bool.and_eq_true, Bool.not_eq_true', decide_eq_true_eq] at h
    exact ⟨gt, rfl, h.1.1.1, h.1.1.2, h.1.2, h.2⟩

theorem solTask_atLeast {a b : Prog} {fa fb : List Frame} (ha : solTask a fa = true) (hb : solTask' b fb = true) :
    AtLeast a b (Act fa) (Act fb) ∧ AtLeast b a (Act fb) (Act fa) := by
  obtain ⟨a1, a2, a3, a4⟩ := of_decide_eq_true ha
  obtain ⟨b1, b2, b3, b4⟩ := of_decide_eq_true hb
  have hxy : (symX = symY) = False := by decide
  have hyx : (symY = symX) = False := by decide
  have hab : (symA = symB) = False := by decide
  have hba : (symB = symA) = False := by decide
  constructor
  · intro gb hs
    have h1 := hs ⟨[⟨2, symA⟩, ⟨2, symB⟩], 10, .lt, 1⟩ (by rw [b1]; simp) (by simp) b3
    have h2 := hs ⟨[⟨1, symB⟩], 2, .ge, 2⟩ (by rw [b1]; simp) (by simp) b4
    simp only [Ineq.holds, Relation.holds, evalTerms, List.map_cons, List.map_nil, List.sum_cons, List.sum_nil] at h1 h2
    refine ⟨fun y => if y = symX then gb symA else gb symB, fun x hx _ _ => ?_, ?_⟩
    · rw [a1] at hx
      simp only [List.mem_cons, List.not_mem_nil, or_false] at hx
      rcases hx with rfl | rfl <;>
        simp only [Ineq.holds, Relation.holds, evalTerms, List.map_cons, List.map_nil, List.sum_cons, List.sum_nil, if_true, hyx, if_false] <;> linarith
    · rw [a2, b2]
      simp [evalTerms]
  · intro ga hs
    have h1 := hs ⟨[⟨1, symX⟩, ⟨1, symY⟩], 5, .lt, 1⟩ (by rw [a1]; simp) (by simp) a3
    have h2 := hs ⟨[⟨1, symY⟩], 2, .ge, 2⟩ (by rw [a1]; simp) (by simp) a4
    simp only [Ineq.holds, Relation.holds, evalTerms, List.map_cons, List.map_nil, List.sum_cons, List.sum_nil] at h1 h2
    refine ⟨fun y => if y = symA then ga symX else ga symY, fun x hx _ _ => ?_, ?_⟩
    · rw [b1] at hx
      simp only [List.mem_cons, List.not_mem_nil, or_false] at hx
      rcases hx with rfl | rfl | rfl <;>
        simp only [Ineq.holds, Relation.holds, evalTerms, List.map_cons, List.map_nil, List.sum_cons, List.sum_nil, if_true, hba, if_false] <;> linarith
    · rw [a2, b2]
      simp [evalTerms]

/-- `Reformulated` is met with a factor and other names: the constraints of `solProg` are among those of `solProg'`. -/
theorem solTask_reformulated {a b : Prog} {fa fb : List Frame} (ha : solTask a fa = true) (hb : solTask' b fb = true) :
    Reformulated (fun y => if y = symX then symA else symB) a b (Act fa) (Act fb) := by
  obtain ⟨a1, a2, a3, a4⟩ := of_decide_eq_true ha
  obtain ⟨b1, b2, b3, b4⟩ := of_decide_eq_true hb
  have hyx : (symY = symX) = False := by decide
  refine ⟨by rw [a2, b2]; simp, fun x hx _ => ?_⟩
  rw [a1] at hx
  simp only [List.mem_cons, List.not_mem_nil, or_false] at hx
  rcases hx with rfl | rfl
  · exact ⟨_, by rw [b1]; exact List.mem_cons_self, 2, by norm_num, b3, by simp [hyx], by norm_num, by norm_num⟩
  · exact ⟨⟨[⟨1, symB⟩], 2, .ge, 2⟩, by rw [b1]; simp, 1, by norm_num, b4, by simp [hyx], by norm_num, by norm_num⟩

/-- And the other way round if the redundant constraint is not true. -/
theorem solTask_reformulated' {a b : Prog} {fa fb : List Frame} (ha : solTask a fa = true) (hb : solTask' b fb = true) (hn : ¬ Act fb 3) :
    Reformulated (fun y => if y = symA then symX else symY) b a (Act fb) (Act fa) := by
  obtain ⟨a1, a2, a3, a4⟩ := of_decide_eq_true ha
  obtain ⟨b1, b2, b3, b4⟩ := of_decide_eq_true hb
  have hba : (symB = symA) = False := by decide
  refine ⟨by rw [a2, b2]; simp, fun x hx hf => ?_⟩
  rw [b1] at hx
  simp only [List.mem_cons, List.not_mem_nil, or_false] at hx
  rcases hx with rfl | rfl | rfl
  · exact ⟨_, by rw [a1]; exact List.mem_cons_self, 1/2, by norm_num, a3, by simp [hba], by norm_num, by norm_num⟩
  · exact ⟨⟨[⟨1, symY⟩], 2, .ge, 2⟩, by rw [a1]; simp, 1, by norm_num, a4, by simp [hba], by norm_num, by norm_num⟩
  · exact absurd hf hn

/-- The hypotheses of `C82_reformulated` are met by states as in `C82_optimum_partial`. -/
example : ∃ (p q : Propagator RatQ) (g g' : Ghost RatQ) (gt gt' : GThr), Reach .imath {} Intact p g ∧ Reach .imath agreeOpts Intact q g' ∧
    g.thrs[0]? = some gt ∧ g'.thrs[0]? = some gt' ∧ (∃ φ, Reformulated φ p.prog q.prog (Act gt.frames) (Act gt'.frames)) ∧
    (∃ ψ, Reformulated ψ q.prog p.prog (Act gt'.frames) (Act gt.frames)) := by
  obtain ⟨p, g, h1, -, h2⟩ := exists_reach (V := RatQ) (be := .imath) (mode := .intact) (opts := {}) [.init solProg 1, .prop 0 0 [1, 2] true, .check 0 true 0]
    (P := fun p g => solOK p g solTask ⟨3, -1⟩) (by decide +kernel)
  obtain ⟨q, g', k1, -, k2⟩ := exists_reach (V := RatQ) (be := .imath) (mode := .intact) (opts := agreeOpts)
    [.init solProg' 1, .prop 0 0 [2] true, .prop 1 0 [1] true, .check 1 true 0]
    (P := fun p g => solOK p g (fun a fr => solTask' a fr && decide (¬ Act fr 3)) ⟨3, -1/2⟩) (by decide +kernel)
  obtain ⟨gt, h3, -, -, -, h7⟩ := solOK_spec h2
  obtain ⟨gt', k3, -, -, -, k7⟩ := solOK_spec k2
  rw [Bool.and_eq_true, decide_eq_true_eq] at k7
  exact ⟨p, q, g, g', gt, gt', h1, k1, h3, k3, ⟨_, solTask_reformulated h7 k7.1⟩, ⟨_, solTask_reformulated' h7 k7.1 k7.2⟩⟩

/-- The hypotheses of `C82_optimum_partial` and `C82_unmixed_optimum` are met: the reported values are `3 - epsilon` and `3 - epsilon/2`. -/
example : ∃ (p q : Propagator RatQ) (g g' : Ghost RatQ) (gt gt' : GThr), Reach .imath {} Intact p g ∧ Reach .imath agreeOpts Intact q g' ∧
    g.thrs[0]? = some gt ∧ g'.thrs[0]? = some gt' ∧ gt.stuck = false ∧ gt'.stuck = false ∧ gt.checked = true ∧ gt'.checked = true ∧
    AtLeast p.prog q.prog (Act gt.frames) (Act gt'.frames) ∧ AtLeast q.prog p.prog (Act gt'.frames) (Act gt.frames) ∧
    p.objectiveOf 0 = [(⟨3, -1⟩, true)] ∧ q.objectiveOf 0 = [(⟨3, -1/2⟩, true)] ∧ Unmixed p.prog.iqs ∧ Unmixed q.prog.iqs := by
  obtain ⟨p, g, h1, -, h2⟩ := exists_reach (V := RatQ) (be := .imath) (mode := .intact) (opts := {}) [.init solProg 1, .prop 0 0 [1, 2] true, .check 0 true 0]
    (P := fun p g => solOK p g solTask ⟨3, -1⟩) (by decide +kernel)
  obtain ⟨q, g', k1, -, k2⟩ := exists_reach (V := RatQ) (be := .imath) (mode := .intact) (opts := agreeOpts)
    [.init solProg' 1, .prop 0 0 [2] true, .prop 1 0 [1, 3] true, .check 1 true 0] (P := fun p g => solOK p g solTask' ⟨3, -1/2⟩) (by decide +kernel)
  obtain ⟨gt, h3, h4, h5, h6, h7⟩ := solOK_spec h2
  obtain ⟨gt', k3, k4, k5, k6, k7⟩ := solOK_spec k2
  obtain ⟨j1, j2⟩ := solTask_atLeast h7 k7
  exact ⟨p, q, g, g', gt, gt', h1, k1, h3, k3, h4, k4, h5, k5, j1, j2, h6, k6, by rw [(of_decide_eq_true h7).1]; unfold Unmixed; simp,
    by rw [(of_decide_eq_true k7).1]; unfold Unmixed; simp⟩

theorem act_next {l : ℤ} {lits : List ℤ} {fr : List Frame} : Act (⟨7, lits⟩ :: fr) l ↔ l ∈ lits ∨ Act fr l := by
  unfold Act; simp

/-- What the example below needs to know. -/
def solLive (p : Propagator RatQ) (g : Ghost RatQ) (task : Prog → List Frame → Bool) (lits : List ℤ) : Bool :=
  g.thrs[0]?.any fun gt => task p.prog (⟨7, lits⟩ :: gt.frames)

theorem solLive_spec {p : Propagator RatQ} {g : Ghost RatQ} {task : Prog → List Frame → Bool} {lits : List ℤ} (h : solLive p g task lits = true) :
    ∀ gt, g.thrs[0]? = some gt → task p.prog (⟨7, lits⟩ :: gt.frames) = true := by
  intro gt hg
  unfold solLive at h
  rwa [hg] at h

/-- The hypotheses of `C82_verdict_partial` are met. -/
example : ∃ (p q p1 q1 : Propagator RatQ) (g g' : Ghost RatQ) (ctl ctl' : Ctl) (gt gt' : GThr), Reach .imath {} Intact p g ∧ Reach .imath { select := .conflict } Intact q g' ∧
    MayPropagate Intact p g ctl 0 [1, 2] gt ∧ MayPropagate Intact q g' ctl' 0 [1, 3] gt' ∧
    AtLeast p.prog q.prog (fun l => l ∈ [1, 2] ∨ Act gt.frames l) (fun l => l ∈ [1, 3] ∨ Act gt'.frames l) ∧
    AtLeast q.prog p.prog (fun l => l ∈ [1, 3] ∨ Act gt'.frames l) (fun l => l ∈ [1, 2] ∨ Act gt.frames l) ∧
    p.propagate fuel ctl 0 [1, 2] = some (p1, true) ∧ q.propagate fuel ctl' 0 [1, 3] = some (q1, true) := by
  obtain ⟨p, g, p1, gt, ok, h1, -, h2, h3, h4⟩ := Witness.exists_prop (V := RatQ) (be := .imath) (mode := .intact) (opts := {}) [.init solProg 1] 0 0 [1, 2] true
    (P := fun p g _ ok => ok && solLive p g solTask [1, 2]) (by decide +kernel)
  obtain ⟨q, g', q1, gt', ok', k1, -, k2, k3, k4⟩ := Witness.exists_prop (V := RatQ) (be := .imath) (mode := .intact) (opts := { select := .conflict })
    [.init solProg' 1, .prop 0 0 [2] true] 1 0 [1, 3] true (P := fun p g _ ok => ok && solLive p g solTask' [1, 3]) (by decide +kernel)
  rw [Bool.and_eq_true] at h4 k4
  obtain ⟨rfl, h4⟩ := h4
  obtain ⟨rfl, k4⟩ := k4
  obtain ⟨j1, j2⟩ := solTask_atLeast (solLive_spec h4 gt h2.thr) (solLive_spec k4 gt' k2.thr)
  refine ⟨p, q, p1, q1, g, g', _, _, gt, gt', h1, k1, h2, k2, ?_, ?_, h3, k3⟩
  · simpa only [AtLeast, act_next] using j1
  · simpa only [AtLeast, act_next] using j2

end Lpx.Props
