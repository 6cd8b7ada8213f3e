import Verif.PropsExactly
import Verif.PropsEnd

/-!
# The end of the search (C66)

The threads of a search exchange clauses. Clauses over literals of cuts are not exchanged, because these literals are local to the solver of a thread
(clasp does not share clauses with auxiliary variables); the same number may mean different cuts in different threads. If some thread finds that its own
clauses and those it may have received exclude everything then the search ends: without a global objective the program is unsatisfiable and with one the
best value reported is final.
-/

set_option linter.unusedSectionVars false

namespace Lpx.Props
open Lpx Lpx.Witness

variable {V : Type} [LpFull V]

/-- The clauses a thread may know: those it added and those of other threads in which no literal of a cut of the other thread occurs. -/
def MayKnow (p : Propagator V) (th : ℕ) (c : List ℤ) : Prop :=
  c ∈ p.clausesOf th ∨ ∃ th', c ∈ p.clausesOf th' ∧ ∀ u ∈ p.cutsOf th', u.1 ∉ c ∧ -u.1 ∉ c

/-- The search of a thread has ended: none of the truth assignments `M` clingo searches through satisfies all clauses. -/
def Exhausted (p : Propagator V) (th : ℕ) (M : (ℤ → Prop) → Prop) : Prop :=
  ¬ ∃ tr, M tr ∧ ∀ c, MayKnow p th c → ∃ l ∈ c, tr l

section
variable {be : Backend} {opts : Options} {Q : Restr V} {p : Propagator V} {g : Ghost V}

/-- A clause without literals of cuts is satisfied by all truth assignments with solutions. -/
theorem shared_satisfied (hq : StepOK V opts) (hr : Reach be opts Intact p g) (hlv : g.failed = false) (hs : ∀ x ∈ p.prog.iqs, Supports V x.rel) {th : ℕ} {c : List ℤ}
    (hc : c ∈ p.clausesOf th) (hno : ∀ u ∈ p.cutsOf th, u.1 ∉ c ∧ -u.1 ∉ c) {tr : ℤ → Prop} (ht : ∀ l, tr l ∨ tr (-l)) {gv : Symbol → ℚ}
    (hsol : SolvesDecided p.prog.iqs tr gv) : ∃ l ∈ c, tr l := by
  rcases (hr.inv hq).clauseDecided hlv hs hc with ⟨u, hu, rfl⟩ | h
  · exact absurd (List.mem_singleton.2 rfl) (hno u hu).1
  · by_contra hn
    push Not at hn
    refine h gv ⟨fun x hx ha => hsol x hx ?_, fun u hu ha => absurd ha (hno u hu).2⟩
    rcases ht x.lit with h1 | h1
    · exact h1
    · exact absurd h1 (hn _ ha)

/-- Extending a total truth assignment by cuts keeps it total. -/
theorem withCuts_total {cuts : List (ℤ × V)} {tr : ℤ → Prop} (ht : ∀ l, tr l ∨ tr (-l)) (l : ℤ) : withCuts cuts tr l ∨ withCuts cuts tr (-l) := by
  by_cases h1 : ∃ u ∈ cuts, u.1 = l
  · exact Or.inl (Or.inl h1)
  · by_cases h2 : ∃ u ∈ cuts, u.1 = -l
    · exact Or.inr (Or.inl h2)
    · rcases ht l with h3 | h3
      · exact Or.inl (Or.inr ⟨h3, h2⟩)
      · exact Or.inr (Or.inr ⟨h3, by rw [neg_neg]; exact h1⟩)

/-- A solution that meets all cuts of a thread satisfies everything the thread may know. -/
theorem known_satisfied (hq : StepOK V opts) (hr : Reach be opts Intact p g) (hs : ∀ x ∈ p.prog.iqs, Supports V x.rel) {th : ℕ} {gt : GThr}
    (hgt : g.thrs[th]? = some gt) {tr : ℤ → Prop} (ht : ∀ l, tr l ∨ tr (-l)) {gv : Symbol → ℚ}
    (hsol : SolvesDecided p.prog.iqs tr gv) (hmeet : ∀ u ∈ p.cutsOf th, u.2 ≤ LpValue.ofRat (evalTerms gv p.prog.objective)) {c : List ℤ}
    (hc : MayKnow p th c) : ∃ l ∈ c, withCuts (p.cutsOf th) tr l := by
  have hsol' : SolvesDecided p.prog.iqs (withCuts (p.cutsOf th) tr) gv := fun x hx hl => hsol x hx ((withCuts_iff hr hgt tr hx).1.1 hl)
  rcases hc with hc | ⟨th', hc, hno⟩
  · rcases C02_exactly_partial hq hr (hr.stat.alive hgt) hs hc with ⟨u, hu, rfl⟩ | h
    · exact ⟨u.1, by simp, Or.inl ⟨u, hu, rfl⟩⟩
    · exact h _ gv (withCuts_total ht) hsol' fun u hu _ => hmeet u hu
  · exact shared_satisfied hq hr (hr.stat.alive hgt) hs hc hno (withCuts_total ht) hsol'

/-- C66 (partial: `Intact`), no global objective: if the search of a thread ends then no truth assignment clingo searches through has a
solution. Constraints without variables count as the program decides them (Finding 2, see `C66_unsat_program_partial`). -/
theorem C66_unsat_partial (hg : opts.globalObjective = none) (hr : Reach be opts Intact p g) (hlv : g.failed = false) (hs : ∀ x ∈ p.prog.iqs, Supports V x.rel) {th : ℕ}
    {M : (ℤ → Prop) → Prop} (hex : Exhausted p th M) {tr : ℤ → Prop} (hm : M tr) (ht : ∀ l, tr l ∨ tr (-l)) (gv : Symbol → ℚ) :
    ¬ SolvesDecided p.prog.iqs tr gv := by
  intro hsol
  have hq : StepOK V opts := by intro q h; rw [hg] at h; cases h
  have hno := (hr.inv hq).noCuts hlv hg
  refine hex ⟨tr, hm, fun c hc => ?_⟩
  rcases hc with hc | ⟨th', hc, -⟩
  · exact shared_satisfied hq hr hlv hs hc (by rw [hno]; simp) ht hsol
  · exact shared_satisfied hq hr hlv hs hc (by rw [hno]; simp) ht hsol

/-- C66 (partial: `Intact`, `Covered`), no global objective, in terms of the program: if the search of a thread ends then no truth assignment
clingo searches through satisfies the true theory atoms as written (0 is not a literal; by convention it counts as true). -/
theorem C66_unsat_program_partial {mapper : ℤ → ℤ} {atoms : List TAtom} (hg : opts.globalObjective = none) (hr : Reach be opts Intact p g)
    (hlv : g.failed = false) (hload : Loaded be mapper atoms p.prog) (hmap : ∀ c, mapper c ≠ 0) (hcov : Covered V p.prog) {th : ℕ} {M : (ℤ → Prop) → Prop}
    (hex : Exhausted p th M) {tr : ℤ → Prop} (hm : M tr) (htr : Total tr) (h0 : tr 0) (gv : Symbol → ℚ) :
    ¬ ∀ a ∈ atoms, IsConstraint a → tr (mapper a.literal) → AtomHolds mapper tr gv a := by
  intro hsat
  obtain ⟨gv', -, -, hall, -⟩ := C25_no_solution_lost be mapper atoms _ hload tr htr hmap gv hsat
  refine C66_unsat_partial hg hr hlv hcov.strict hex hm (fun l => ?_) gv' fun x hx hl => (decided_iff (hcov.const x hx)).2 (hall x hx hl)
  by_cases h : l = 0
  · subst h; exact .inl h0
  · by_cases h2 : tr l
    · exact .inl h2
    · exact .inr ((htr l h).2 h2)

/-- The largest value in a list of pairs. -/
theorem exists_best (l : List (V × Bool)) (hl : l ≠ []) : ∃ v ∈ l, ∀ w ∈ l, w.1 ≤ v.1 := by
  induction l with
  | nil => exact absurd rfl hl
  | cons a l ih =>
    by_cases h : l = []
    · subst h; exact ⟨a, by simp, by simp⟩
    · obtain ⟨v, hv, hw⟩ := ih h
      rcases le_total a.1 v.1 with h | h
      · exact ⟨v, by simp [hv], by simp only [List.mem_cons, forall_eq_or_imp]; exact ⟨h, hw⟩⟩
      · exact ⟨a, by simp, by simp only [List.mem_cons, forall_eq_or_imp]; exact ⟨le_rfl, fun w hm => (hw w hm).trans h⟩⟩

/-- C66 (partial: `Intact`), global objective with step `d`: if the search of a thread ends then an unbounded objective has been reported, or nothing has
been reported and there is no solution, or there is a largest value `v` reported and the objective is below `v + d` in all solutions of all
truth assignments clingo searches through. The literals of cuts do not occur in the program, so clingo may make them true (`hM`). -/
theorem C66_optimum_partial {q : RatQ} {d : V} (hgo : opts.globalObjective = some q) (hd : LpFull.asValue q = some d)
    (hr : Reach be opts Intact p g) (hs : ∀ x ∈ p.prog.iqs, Supports V x.rel) {th : ℕ} {gt : GThr} (hgt : g.thrs[th]? = some gt)
    {M : (ℤ → Prop) → Prop} (hM : ∀ tr, M tr → M (withCuts (p.cutsOf th) tr)) (hex : Exhausted p th M) :
    (∃ v, (v, false) ∈ g.reported) ∨
    (g.reported = [] ∧ ∀ tr gv, M tr → (∀ l, tr l ∨ tr (-l)) → ¬ SolvesDecided p.prog.iqs tr gv) ∨
    ∃ v, (v, true) ∈ g.reported ∧ (∀ w ∈ g.reported, w.1 ≤ v) ∧
      ∀ tr gv, M tr → (∀ l, tr l ∨ tr (-l)) → SolvesDecided p.prog.iqs tr gv → LpValue.ofRat (evalTerms gv p.prog.objective) < v + d := by
  have hq : StepOK V opts := by
    intro q' h
    obtain rfl := Option.some.inj (hgo.symm.trans h)
    exact ⟨d, hd⟩
  have key : ∀ tr gv, M tr → (∀ l, tr l ∨ tr (-l)) → SolvesDecided p.prog.iqs tr gv →
      ¬ ∀ u ∈ p.cutsOf th, u.2 ≤ LpValue.ofRat (evalTerms gv p.prog.objective) := fun tr gv hm ht hsol hmeet =>
    hex ⟨_, hM tr hm, fun c hc => known_satisfied hq hr hs hgt ht hsol hmeet hc⟩
  by_cases hu : ∃ v, (v, false) ∈ g.reported
  · exact .inl hu
  have hval : ∀ u ∈ p.cutsOf th, ∃ v, (v, true) ∈ g.reported ∧ u.2 = v + d := by
    intro u hmem
    rcases C29_cut_values hr hgt hmem with ⟨q', d', v, h1, h2, h3, h4⟩ | ⟨v, h1⟩
    · obtain rfl := Option.some.inj (hgo.symm.trans h1)
      obtain rfl := Option.some.inj (hd.symm.trans h2)
      exact ⟨v, h3, h4⟩
    · exact absurd ⟨v, h1⟩ hu
  by_cases hne : g.reported = []
  · refine .inr (.inl ⟨hne, fun tr gv hm ht hsol => key tr gv hm ht hsol fun u hmem => ?_⟩)
    obtain ⟨v, hv, -⟩ := hval u hmem
    rw [hne] at hv; simp at hv
  · obtain ⟨⟨v, b⟩, hv, hbest⟩ := exists_best _ hne
    have hb : b = true := by
      cases b
      · exact absurd ⟨v, hv⟩ hu
      · rfl
    subst hb
    refine .inr (.inr ⟨v, hv, hbest, fun tr gv hm ht hsol => ?_⟩)
    by_contra hlt
    refine key tr gv hm ht hsol fun u hmem => ?_
    obtain ⟨w, hw, he⟩ := hval u hmem
    rw [he]
    exact (add_le_add_left (hbest _ hw) d).trans (not_lt.1 hlt)

/-- C66 (partial: `Intact`, `Covered`), global objective with step `d`, in terms of the program: as above, where the solutions are those of the true
theory atoms as written and their values those of the `&maximize` and `&minimize` atoms as written. -/
theorem C66_optimum_program_partial {mapper : ℤ → ℤ} {atoms : List TAtom} {q : RatQ} {d : V} (hgo : opts.globalObjective = some q)
    (hd : LpFull.asValue q = some d) (hr : Reach be opts Intact p g) (hload : Loaded be mapper atoms p.prog) (hmap : ∀ c, mapper c ≠ 0)
    (hcov : Covered V p.prog) {th : ℕ} {gt : GThr} (hgt : g.thrs[th]? = some gt)
    {M : (ℤ → Prop) → Prop} (hM : ∀ tr, M tr → M (withCuts (p.cutsOf th) tr)) (hex : Exhausted p th M) :
    (∃ v, (v, false) ∈ g.reported) ∨
    (g.reported = [] ∧ ∀ tr gv, M tr → Total tr → tr 0 → ¬ ∀ a ∈ atoms, IsConstraint a → tr (mapper a.literal) → AtomHolds mapper tr gv a) ∨
    ∃ v, (v, true) ∈ g.reported ∧ (∀ w ∈ g.reported, w.1 ≤ v) ∧
      ∀ tr gv w, M tr → Total tr → tr 0 → (∀ a ∈ atoms, IsConstraint a → tr (mapper a.literal) → AtomHolds mapper tr gv a) →
        ObjVal mapper tr gv atoms w → LpValue.ofRat w < v + d := by
  have tot : ∀ {tr : ℤ → Prop}, Total tr → tr 0 → ∀ l, tr l ∨ tr (-l) := by
    intro tr htr h0 l
    by_cases h : l = 0
    · subst h; exact .inl h0
    · by_cases h2 : tr l
      · exact .inl h2
      · exact .inr ((htr l h).2 h2)
  rcases C66_optimum_partial hgo hd hr hcov.strict hgt hM hex with h | ⟨h, hno⟩ | ⟨v, h1, h2, h3⟩
  · exact .inl h
  · refine .inr (.inl ⟨h, fun tr gv hm htr h0 hsat => ?_⟩)
    obtain ⟨gv', -, -, hall, -⟩ := C25_no_solution_lost be mapper atoms _ hload tr htr hmap gv hsat
    exact hno tr gv' hm (tot htr h0) fun x hx hl => (decided_iff (hcov.const x hx)).2 (hall x hx hl)
  · refine .inr (.inr ⟨v, h1, h2, fun tr gv w hm htr h0 hsat hw => ?_⟩)
    obtain ⟨gv', -, -, hall, hx⟩ := C25_no_solution_lost be mapper atoms _ hload tr htr hmap gv hsat
    rw [hw.congr hx]
    exact h3 tr gv' hm (tot htr h0) fun x hx hl => (decided_iff (hcov.const x hx)).2 (hall x hx hl)

/-- C66 for programs without mixed equations (see C45): all histories. -/
theorem C66_unmixed_unsat (hg : opts.globalObjective = none) (hr : Reach be opts Q p g) (hlv : g.failed = false) (hu : Unmixed p.prog.iqs)
    (hs : ∀ x ∈ p.prog.iqs, Supports V x.rel) {th : ℕ} {M : (ℤ → Prop) → Prop} (hex : Exhausted p th M) {tr : ℤ → Prop} (hm : M tr)
    (ht : ∀ l, tr l ∨ tr (-l)) (gv : Symbol → ℚ) : ¬ SolvesDecided p.prog.iqs tr gv :=
  C66_unsat_partial hg (hu.reach (stepOK_none hg) hr) hlv hs hex hm ht gv

/-- C66 for programs without mixed equations (see C45): all histories. -/
theorem C66_unmixed_optimum {q : RatQ} {d : V} (hgo : opts.globalObjective = some q) (hd : LpFull.asValue q = some d)
    (hr : Reach be opts Q p g) (hu : Unmixed p.prog.iqs) (hs : ∀ x ∈ p.prog.iqs, Supports V x.rel) {th : ℕ} {gt : GThr}
    (hgt : g.thrs[th]? = some gt) {M : (ℤ → Prop) → Prop} (hM : ∀ tr, M tr → M (withCuts (p.cutsOf th) tr)) (hex : Exhausted p th M) :
    (∃ v, (v, false) ∈ g.reported) ∨
    (g.reported = [] ∧ ∀ tr gv, M tr → (∀ l, tr l ∨ tr (-l)) → ¬ SolvesDecided p.prog.iqs tr gv) ∨
    ∃ v, (v, true) ∈ g.reported ∧ (∀ w ∈ g.reported, w.1 ≤ v) ∧
      ∀ tr gv, M tr → (∀ l, tr l ∨ tr (-l)) → SolvesDecided p.prog.iqs tr gv → LpValue.ofRat (evalTerms gv p.prog.objective) < v + d :=
  C66_optimum_partial hgo hd (hu.reach (fun _ h => ⟨d, by rw [hgo] at h; obtain rfl := Option.some.inj h; exact hd⟩) hr) hs hgt hM hex

end

/-! ### C66 is violated in general -/

/-- C66 is violated: clingo searches through the truth assignments where 1, 2 and 4 are true and 3 is false. The clauses exclude all of them although `1` is a
solution. -/
theorem C66_violation : ∃ p g, Reach .imath {} (AnyLits (V := ℚ)) p g ∧ ∃ (M : (ℤ → Prop) → Prop) (tr : ℤ → Prop) (gv : Symbol → ℚ),
    Exhausted p 0 M ∧ M tr ∧ (∀ l, tr l ∨ tr (-l)) ∧ (∀ x ∈ p.prog.iqs, ¬ (tr x.lit ∧ tr (-x.lit))) ∧ SolvesDecided p.prog.iqs tr gv := by
  obtain ⟨p, g, h1, -, h2⟩ := exists_reach (V := ℚ) (be := .imath) (mode := .any) (opts := {})
    [.init prog2 1, .prop 0 0 [1, 2] true, .prop 1 0 [3] true, .undo 0, .prop 1 0 [4] true]
    (P := fun p _ => decide ([-4, -2] ∈ p.clausesOf 0) && p.prog.iqs.all fun x =>
      decide (¬ (x.lit ∉ [-1, -2, 3, -4] ∧ -x.lit ∉ [-1, -2, 3, -4])) && decide (x.lhs ≠ []) && decide (x.lit ∉ [-1, -2, 3, -4] → x.holds fun _ => 1))
    (by decide +kernel)
  simp only [Bool.and_eq_true, decide_eq_true_eq, List.all_eq_true] at h2
  obtain ⟨h3, h4⟩ := h2
  refine ⟨p, g, h1, fun tr => tr 2 ∧ tr 4 ∧ ¬ tr (-2) ∧ ¬ tr (-4), fun l => l ∉ [-1, -2, 3, -4], fun _ => 1, ?_, by decide, fun l => ?_, fun x hx => (h4 x hx).1.1,
    fun x hx hl => (decided_iff fun h => absurd h (h4 x hx).1.2).2 ((h4 x hx).2 hl)⟩
  · rintro ⟨tr, ⟨-, -, k1, k2⟩, h⟩
    have := h _ (.inl h3)
    simp only [List.mem_cons, List.not_mem_nil, or_false, exists_eq_or_imp, exists_eq_left] at this
    tauto
  · simp only [List.mem_cons, List.not_mem_nil, or_false]; omega

/-! ### the hypotheses can be met -/

/-- The hypotheses of `C66_unsat_partial` and `C66_unsat_program_partial` are met by two threads: `x <= 1`, `x >= 2` and `x >= 3`, where 1 and one of the
others are true. Each thread adds one of the two conflict clauses, and no thread alone has all of them. -/
example : ∃ (p : Propagator ℚ) (g : Ghost ℚ), Reach .imath {} Intact p g ∧ g.failed = false ∧ (∀ x ∈ p.prog.iqs, Supports ℚ x.rel) ∧ Covered ℚ p.prog ∧
    p.clausesOf 0 = [[-1, -2]] ∧ p.clausesOf 1 = [[-1, -3]] ∧ Exhausted p 0 (fun tr => tr 1 ∧ (tr 2 ∨ tr 3) ∧ ∀ l, tr (-l) ↔ ¬ tr l) ∧
    ∃ tr : ℤ → Prop, tr 1 ∧ (tr 2 ∨ tr 3) ∧ ∀ l ≠ 0, tr (-l) ↔ ¬ tr l := by
  obtain ⟨p, g, h1, -, h2⟩ := exists_reach (V := ℚ) (be := .imath) (mode := .intact) (opts := {})
    [.init [sumAtom "x" "<=" 1 1, sumAtom "x" ">=" 2 2, sumAtom "x" ">=" 3 3] 2, .prop 1 0 [1, 2] true, .prop 1 1 [1, 3] true]
    (P := fun p g => !g.failed && noStrict p.prog && (p.prog.iqs.all fun x => decide (x.lhs ≠ [])) && decide (p.clausesOf 0 = [[-1, -2]] ∧ p.clausesOf 1 = [[-1, -3]] ∧ p.cutsOf 1 = [])) (by decide +kernel)
  simp only [Bool.and_eq_true, List.all_eq_true, Bool.not_eq_true'] at h2
  obtain ⟨⟨⟨h0, h2⟩, h3⟩, h4⟩ := h2
  obtain ⟨h5, h6, h7⟩ := of_decide_eq_true h4
  refine ⟨p, g, h1, h0, noStrict_spec h2, ⟨fun x hx he => absurd he (of_decide_eq_true (h3 x hx)), noStrict_spec h2⟩, h5, h6, ?_,
    fun l => 0 < l, by decide, by decide, fun l hl => by simp only; omega⟩
  rintro ⟨tr, ⟨ha, hb, hn⟩, hc⟩
  have k1 : tr (-1) ∨ tr (-2) := by simpa using hc [-1, -2] (.inl (by rw [h5]; simp))
  have k2 : tr (-1) ∨ tr (-3) := by simpa using hc [-1, -3] (.inr ⟨1, by rw [h6]; simp, by rw [h7]; simp⟩)
  rw [hn] at k1 k2
  rw [hn] at k1 k2
  tauto

/-- The hypotheses of `C66_optimum_partial` are met by two threads: after the models with values 3 and 7 of the first thread and a conflict between
`x <= 7` and `x >= 9` of the second thread everything is excluded. -/
example : ∃ (p : Propagator ℚ) (g : Ghost ℚ) (gt : GThr), Reach .imath globOpts Intact p g ∧ (∀ x ∈ p.prog.iqs, Supports ℚ x.rel) ∧
    g.thrs[0]? = some gt ∧ g.reported = [(3, true), (7, true)] ∧ p.clausesOf 1 = [[-2, -3]] ∧
    (∀ tr : ℤ → Prop, ((tr 1 ∨ tr 2) ∧ (tr (-1) → tr 3) ∧ ∀ l, tr (-l) ↔ ¬ tr l) →
      ((withCuts (p.cutsOf 0) tr 1 ∨ withCuts (p.cutsOf 0) tr 2) ∧ (withCuts (p.cutsOf 0) tr (-1) → withCuts (p.cutsOf 0) tr 3) ∧
        ∀ l, withCuts (p.cutsOf 0) tr (-l) ↔ ¬ withCuts (p.cutsOf 0) tr l)) ∧
    Exhausted p 0 (fun tr => (tr 1 ∨ tr 2) ∧ (tr (-1) → tr 3) ∧ ∀ l, tr (-l) ↔ ¬ tr l) := by
  obtain ⟨p, g, h1, -, h2⟩ := exists_reach (V := ℚ) (be := .imath) (mode := .intact) (opts := globOpts)
    ([.init [sumAtom "x" "<=" 3 1, sumAtom "x" "<=" 7 2, maxAtom "x", sumAtom "x" ">=" 9 3] 2, .prop 1 1 [2, 3] true, .prop 1 0 [1] true, .check 1 true 0, .model 0, .undo 0, .check 0 false 0, .prop 0 0 [1000] true, .prop 1 0 [2] true,
      .check 1 true 0, .model 0, .undo 0, .check 0 false 0, .prop 0 0 [2001] true, .prop 1 0 [1] true])
    (P := fun p g => noStrict p.prog &&
      decide (g.reported = [(3, true), (7, true)] ∧ p.cutsOf 0 = [(1000, 4), (2001, 8)] ∧ p.cutsOf 1 = [] ∧ p.clausesOf 0 = [[1000], [2001], [-1, -2001]] ∧ p.clausesOf 1 = [[-2, -3]]) &&
      atThr g 0 fun _ => true) (by decide +kernel)
  simp only [Bool.and_eq_true] at h2
  obtain ⟨⟨h2, h4⟩, h5⟩ := h2
  obtain ⟨h6, h7, h7', h8, h8'⟩ := of_decide_eq_true h4
  obtain ⟨gt, h9, -⟩ := atThr_spec h5
  refine ⟨p, g, gt, h1, noStrict_spec h2, h9, h6, h8', ?_, ?_⟩
  · rintro tr ⟨ha, hc, hb⟩
    rw [h7]
    refine ⟨?_, fun h => ?_, fun l => withCuts_consistent (by simp) (hb l)⟩
    · unfold withCuts
      rcases ha with ha | ha
      · exact Or.inl (Or.inr ⟨ha, by simp⟩)
      · exact Or.inr (Or.inr ⟨ha, by simp⟩)
    · unfold withCuts at h ⊢
      rcases h with h | h
      · simp at h
      · exact Or.inr ⟨hc h.1, by simp⟩
  · rintro ⟨tr, ⟨ha, hd, hb⟩, hc⟩
    have k1 : tr 2001 := by simpa using hc [2001] (.inl (by rw [h8]; simp))
    have k2 : tr (-1) ∨ tr (-2001) := by simpa using hc [-1, -2001] (.inl (by rw [h8]; simp))
    have k3 : tr (-2) ∨ tr (-3) := by simpa using hc [-2, -3] (.inr ⟨1, by rw [h8']; simp, by rw [h7']; simp⟩)
    rw [hb 1] at k2 hd
    rw [hb] at k2 k3
    rw [hb] at k3
    tauto

end Lpx.Props
