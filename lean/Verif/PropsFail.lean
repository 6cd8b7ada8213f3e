import Verif.PropsEnd
import Verif.ParsingLeft
import Verif.Witness
import Verif.Examples

/-!
# C74: rejected programs

If `init` throws because a theory atom is rejected, the application may catch the exception, and ground and solve again. Ideally the rejected program
has no effect. This does not hold (Finding 9): `evaluate_theory` fills the constraints and the objective in place. Here it is shown what remains and
what can be relied upon nevertheless.
-/

set_option linter.unusedSectionVars false

open Lpx.Witness

namespace Lpx.Props

/-- Specification: the data after a sequence of programs. `acc` are the atoms of the accepted programs, `rej` those of the rejected ones. -/
inductive Tried (be : Backend) (mapper : ℤ → ℤ) : List TAtom → List TAtom → Prog → Prop
  | start : Tried be mapper [] [] {}
  | accepted (acc rej bs p p') : Tried be mapper acc rej p → evaluateTheory be mapper bs p = .ok p' → Tried be mapper (acc ++ bs) rej p'
  | rejected (acc rej bs p er) : Tried be mapper acc rej p → evaluateTheory be mapper bs p = .error er →
      Tried be mapper acc (rej ++ bs) (evaluateLeft be mapper bs p)

/-- Specification: `taken` are atoms that have an effect: those of the accepted programs and some of the rejected ones; `halves` are upper bounds of
rejected `&dom` atoms. -/
structure Kept (mapper : ℤ → ℤ) (acc rej taken : List TAtom) (halves : List (Ineq Symbol)) : Prop where
  all : acc.Sublist taken
  only : ∀ a ∈ taken, a ∈ acc ∨ a ∈ rej
  half : ∀ iq ∈ halves, ∃ a ∈ rej, HalfDom mapper a iq

/-- Specification: what is known about the data after a sequence of programs. -/
structure TriedOK (mapper : ℤ → ℤ) (acc rej : List TAtom) (p : Prog) (taken : List TAtom) (halves : List (Ineq Symbol)) (d : ℚ) : Prop where
  inv : PInv p
  kept : Kept mapper acc rej taken halves
  sat : ∀ tr g, Total tr → (∀ c, mapper c ≠ 0) → (AllHold tr g p.iqs ↔
    (AuxC mapper tr g p.aux ∧ (∀ a ∈ taken, IsConstraint a → tr (mapper a.literal) → AtomHoldsC mapper tr (g cst) g a) ∧ AllHold tr g halves))
  obj : ∀ tr g, AuxC mapper tr g p.aux → ObjValC mapper tr (g cst) g taken (evalTerms (ext g) p.objective + d)
  terms : ∀ a ∈ taken, TermsOK a

theorem allHold_append {tr : ℤ → Prop} {g : Symbol → ℚ} {a b : List (Ineq Symbol)} : AllHold tr g (a ++ b) ↔ AllHold tr g a ∧ AllHold tr g b :=
  Sat.append

/-- Reading accepted atoms. -/
theorem TriedOK.atoms {be : Backend} {mapper : ℤ → ℤ} {acc rej taken good : List TAtom} {p q : Prog} {halves : List (Ineq Symbol)} {d : ℚ}
    (h : TriedOK mapper acc rej p taken halves d) (hq : parseAtoms be mapper good p = .ok q) {acc' rej' : List TAtom}
    (hk : Kept mapper acc' rej' (taken ++ good) halves) : TriedOK mapper acc' rej' q (taken ++ good) halves d := by
  obtain ⟨auxs, iqs, obj, k⟩ := parseAtomsC h.inv hq
  obtain ⟨_, _, _, k0⟩ := parseAtoms_ok h.inv hq
  refine ⟨k0.inv, hk, fun tr g ht hm => ?_, fun tr g hax => ?_, fun a ha => ?_⟩
  · rw [k.iqs, k.aux, allHold_append, h.sat tr g ht hm, AuxC.append]
    constructor
    · rintro ⟨⟨h1, h2, h3⟩, h4⟩
      have := (k.sat tr g ht hm h1).1 h4
      refine ⟨⟨h1, this.1⟩, fun a ha => ?_, h3⟩
      rcases List.mem_append.1 ha with ha | ha
      · exact h2 a ha
      · exact this.2 a ha
    · rintro ⟨⟨h1, h2⟩, h3, h4⟩
      exact ⟨⟨h1, fun a ha => h3 a (List.mem_append_left _ ha), h4⟩,
        (k.sat tr g ht hm h1).2 ⟨h2, fun a ha => h3 a (List.mem_append_right _ ha)⟩⟩
  · have h1 := k.objVal tr g hax
    rw [k.aux, AuxC.append] at hax
    have h2 := h.obj tr g hax.1
    rw [k.obj, evalTerms_append]
    have := objValC_append h1 h2
    rw [show evalTerms (ext g) p.objective + evalTerms (ext g) obj + d = evalTerms (ext g) p.objective + d + evalTerms (ext g) obj by ring]
    exact this
  · rcases List.mem_append.1 ha with ha | ha
    · exact h.terms a ha
    · exact parseAtoms_terms hq a ha

/-- Simplifying the objective. -/
theorem TriedOK.simplify {mapper : ℤ → ℤ} {acc rej taken : List TAtom} {p : Prog} {halves : List (Ineq Symbol)} {d : ℚ}
    (h : TriedOK mapper acc rej p taken halves d) :
    TriedOK mapper acc rej { p with objective := (Lpx.simplify p.objective).1 } taken halves (d - (Lpx.simplify p.objective).2) := by
  refine ⟨⟨h.inv.vals, h.inv.key⟩, h.kept, h.sat, fun tr g hax => ?_, h.terms⟩
  have h1 := h.obj tr g hax
  have h2 := simplify_value g p.objective
  have h3 : evalTerms (ext g) (Lpx.simplify p.objective).1 = evalTerms g (Lpx.simplify p.objective).1 :=
    evalTerms_congr fun t ht => ext_ne g (simplify_vars _ t ht).1
  show ObjValC mapper tr (g cst) g taken (evalTerms (ext g) (Lpx.simplify p.objective).1 + _)
  rw [h3]
  convert h1 using 1
  linarith

theorem TriedOK.weaken {mapper : ℤ → ℤ} {acc rej taken : List TAtom} {p : Prog} {halves : List (Ineq Symbol)} {d : ℚ}
    (h : TriedOK mapper acc rej p taken halves d) {acc' rej' : List TAtom} (hk : Kept mapper acc' rej' taken halves) :
    TriedOK mapper acc' rej' p taken halves d := ⟨h.inv, hk, h.sat, h.obj, h.terms⟩

theorem Kept.reject {mapper : ℤ → ℤ} {acc rej taken good bs : List TAtom} {halves : List (Ineq Symbol)} (h : Kept mapper acc rej taken halves)
    (hg : ∀ a ∈ good, a ∈ bs) : Kept mapper acc (rej ++ bs) (taken ++ good) halves := by
  refine ⟨h.all.trans (List.sublist_append_left _ _), fun a ha => ?_, fun iq hiq => ?_⟩
  · rcases List.mem_append.1 ha with ha | ha
    · exact (h.only a ha).imp_right (List.mem_append_left _)
    · exact .inr (List.mem_append_right _ (hg a ha))
  · obtain ⟨a, h1, h2⟩ := h.half iq hiq
    exact ⟨a, List.mem_append_left _ h1, h2⟩

theorem Tried.ok {be : Backend} {mapper : ℤ → ℤ} {acc rej : List TAtom} {p : Prog} (h : Tried be mapper acc rej p) :
    ∃ taken halves d, TriedOK mapper acc rej p taken halves d := by
  induction h with
  | start =>
    refine ⟨[], [], 0, .empty, ⟨by simp, by simp, by simp⟩, fun tr g _ _ => by simp [AuxC, AllHold], fun tr g _ => ?_, by simp⟩
    simpa [evalTerms] using ObjValC.nil
  | accepted acc rej bs p p' _ he ih =>
    obtain ⟨taken, halves, d, k⟩ := ih
    obtain ⟨q, h1, rfl, -⟩ := evaluateTheory_cases he
    have hk : Kept mapper (acc ++ bs) rej (taken ++ bs) halves := by
      refine ⟨k.kept.all.append (List.Sublist.refl _), fun a ha => ?_, k.kept.half⟩
      rcases List.mem_append.1 ha with ha | ha
      · exact (k.kept.only a ha).imp_left (List.mem_append_left _)
      · exact .inl (List.mem_append_right _ ha)
    exact ⟨_, _, _, (k.atoms h1 hk).simplify⟩
  | rejected acc rej bs p er _ he ih =>
    obtain ⟨taken, halves, d, k⟩ := ih
    cases evaluateLeft_spec he with
    | atom good a more q auxs iqs er' h1 h2 h3 h4 =>
      have k1 := k.atoms h2 (k.kept.reject (good := good) (bs := bs) fun b hb => by rw [h1]; simp [hb])
      refine ⟨taken ++ good, halves, d, h4.inv k1.inv, k1.kept, fun tr g ht hm => ?_, fun tr g hax => ?_, k1.terms⟩
      · rw [h4.iqs, h4.aux, allHold_append, k1.sat tr g ht hm, AuxC.append]
        have := h4.extC.sat tr g ht hm
        unfold AllHold
        unfold Sat at this
        rw [this]
        constructor
        · rintro ⟨⟨a, b, c⟩, d⟩; exact ⟨⟨a, d⟩, b, c⟩
        · rintro ⟨⟨a, d⟩, b, c⟩; exact ⟨⟨a, b, c⟩, d⟩
      · rw [h4.aux, AuxC.append] at hax
        rw [h4.obj]
        exact k1.obj tr g hax.1
    | half good a more q iq er' h1 h2 h3 h4 h5 =>
      have k1 := k.atoms h2 (k.kept.reject (good := good) (bs := bs) fun b hb => by rw [h1]; simp [hb])
      rw [h5]
      refine ⟨taken ++ good, halves ++ [iq], d, ⟨k1.inv.vals, k1.inv.key⟩, ⟨k1.kept.all, k1.kept.only, fun x hx => ?_⟩, fun tr g ht hm => ?_, k1.obj, k1.terms⟩
      · rcases List.mem_append.1 hx with hx | hx
        · exact k1.kept.half x hx
        · obtain rfl : x = iq := by simpa using hx
          exact ⟨a, by rw [h1]; simp, h4⟩
      · show AllHold tr g (q.iqs ++ [iq]) ↔ _
        rw [allHold_append, allHold_append, k1.sat tr g ht hm]
        constructor
        · rintro ⟨⟨a, b, c⟩, d⟩; exact ⟨a, b, c, d⟩
        · rintro ⟨a, b, c, d⟩; exact ⟨⟨a, b, c⟩, d⟩
    | objective q h1 h2 h3 =>
      rw [h3]
      have k1 := k.atoms h1 (k.kept.reject (good := bs) (bs := bs) fun b hb => hb)
      exact ⟨_, _, _, k1.simplify⟩

/-- The upper bound of a `&dom` atom only constrains a variable of the user. -/
theorem _root_.Lpx.HalfDom.congr {mapper : ℤ → ℤ} {a : TAtom} {iq : Ineq Symbol} (h : HalfDom mapper a iq) {g g' : Symbol → ℚ} (hg : ∀ s, UserSym s → g' s = g s) :
    iq.holds g' ↔ iq.holds g := by
  obtain ⟨op, t, e, l, u, s, hi, -, -, -, hs, -, -, rfl⟩ := h.shape
  unfold Ineq.holds
  simp only [evalTerms, List.map_cons, List.map_nil, List.sum_cons, List.sum_nil]
  rw [hg s hs.userSym]

/-- C74 (partial): what remains, exactly. After any sequence of accepted and rejected programs, the constraints mean: the true atoms of all accepted
programs and of some atoms of the rejected programs hold (with the reading of constants in conditional elements of `C25_exact`), and the upper bounds of
some rejected `&dom` atoms hold if these atoms are true. Nothing else of the rejected programs remains. -/
theorem C74_constraints_partial {be : Backend} {mapper : ℤ → ℤ} {acc rej : List TAtom} {p : Prog} (h : Tried be mapper acc rej p) (hm : ∀ c, mapper c ≠ 0) :
    ∃ taken halves, Kept mapper acc rej taken halves ∧ ∀ (tr : ℤ → Prop) (g : Symbol → ℚ), Total tr →
      ((∃ g', (∀ s, UserSym s → g' s = g s) ∧ AllHold tr g' p.iqs) ↔
        (∃ c, ∀ a ∈ taken, IsConstraint a → tr (mapper a.literal) → AtomHoldsC mapper tr c g a) ∧ AllHold tr g halves) := by
  obtain ⟨taken, halves, d, k⟩ := h.ok
  refine ⟨taken, halves, k.kept, fun tr g ht => ?_⟩
  have hhalf : ∀ {g' : Symbol → ℚ}, (∀ s, UserSym s → g' s = g s) → (AllHold tr g' halves ↔ AllHold tr g halves) := by
    intro g' hg
    refine forall₂_congr fun iq hiq => imp_congr_right fun _ => ?_
    obtain ⟨a, -, ha⟩ := k.kept.half iq hiq
    exact ha.congr hg
  constructor
  · rintro ⟨g', hg', hh⟩
    rw [k.sat tr g' ht hm] at hh
    exact ⟨⟨g' cst, fun a ha hc hl => (hh.2.1 a ha hc hl).congr hg'⟩, (hhalf hg').1 hh.2.2⟩
  · rintro ⟨⟨c, hh⟩, h2⟩
    refine ⟨auxValC mapper tr c g p.aux, fun s hs => auxValC_user k.inv hs, ?_⟩
    rw [k.sat tr _ ht hm, auxValC_cst k.inv]
    exact ⟨auxValC_ok k.inv, fun a ha hc hl => (hh a ha hc hl).congr fun s hs => (auxValC_user k.inv hs).symm, (hhalf fun s hs => auxValC_user k.inv hs).2 h2⟩

/-- C74 (partial): rejected programs never make wrong solutions right: in all later solving steps the true atoms of the accepted programs hold. -/
theorem C74_accepted_atoms_hold_partial {be : Backend} {mapper : ℤ → ℤ} {acc rej : List TAtom} {p : Prog} (h : Tried be mapper acc rej p)
    (hm : ∀ c, mapper c ≠ 0) (hcc : ∀ a ∈ acc, CondConstZero a) {tr : ℤ → Prop} (ht : Total tr) {g : Symbol → ℚ} (hg : AllHold tr g p.iqs) :
    ∀ a ∈ acc, IsConstraint a → tr (mapper a.literal) → AtomHolds mapper tr g a := by
  obtain ⟨taken, halves, d, k⟩ := h.ok
  rw [k.sat tr g ht hm] at hg
  intro a ha hc hl
  exact ((hg.2.1 a (k.kept.all.subset ha) hc hl).zero (hcc a ha)).one

/-- C74 (partial): a rejected program has no effect as long as its atoms are false: then the constraints mean exactly that the true atoms of the accepted
programs hold, as after the accepted programs alone (`C25_exact`). -/
theorem C74_false_atoms_partial {be : Backend} {mapper : ℤ → ℤ} {acc rej : List TAtom} {p : Prog} (h : Tried be mapper acc rej p)
    (hm : ∀ c, mapper c ≠ 0) {tr : ℤ → Prop} (ht : Total tr) (hf : ∀ a ∈ rej, ¬ tr (mapper a.literal)) (g : Symbol → ℚ) :
    (∃ g', (∀ s, UserSym s → g' s = g s) ∧ AllHold tr g' p.iqs) ↔
      ∃ c, ∀ a ∈ acc, IsConstraint a → tr (mapper a.literal) → AtomHoldsC mapper tr c g a := by
  obtain ⟨taken, halves, hk, hs⟩ := C74_constraints_partial h hm
  rw [hs tr g ht]
  constructor
  · rintro ⟨⟨c, h1⟩, -⟩
    exact ⟨c, fun a ha => h1 a (hk.all.subset ha)⟩
  · rintro ⟨c, h1⟩
    refine ⟨⟨c, fun a ha hc hl => ?_⟩, fun iq hiq hl => ?_⟩
    · rcases hk.only a ha with h2 | h2
      · exact h1 a h2 hc hl
      · exact absurd hl (hf a h2)
    · obtain ⟨a, h2, h3⟩ := hk.half iq hiq
      obtain ⟨op, t, e, l, u, s, hi, -, -, -, -, -, -, rfl⟩ := h3.shape
      exact absurd hl (hf a h2)

/-- C74 (partial): the objective is, up to a constant, the one of the accepted programs and of some `&maximize` and `&minimize` atoms of the rejected
ones. -/
theorem C74_objective_partial {be : Backend} {mapper : ℤ → ℤ} {acc rej : List TAtom} {p : Prog} (h : Tried be mapper acc rej p) (hm : ∀ c, mapper c ≠ 0) :
    ∃ taken d, acc.Sublist taken ∧ (∀ a ∈ taken, a ∈ acc ∨ a ∈ rej) ∧ ∀ (tr : ℤ → Prop) (g : Symbol → ℚ), Total tr → g (.num 0) = 1 → AllHold tr g p.iqs →
      ObjVal mapper tr g taken (evalTerms g p.objective + d) := by
  obtain ⟨taken, halves, d, k⟩ := h.ok
  refine ⟨taken, d, k.kept.all, k.kept.only, fun tr g ht h1 hg => ?_⟩
  rw [k.sat tr g ht hm] at hg
  have h2 := k.obj tr g hg.1
  have h3 : ext g = g := by
    funext s
    unfold ext
    split
    · rename_i h; rw [h]; exact h1.symm
    · rfl
  rw [h3, show g cst = 1 from h1] at h2
  exact h2.one

/-! ### sessions -/

section
variable {V : Type} [LpFull V] {be : Backend} {opts : Options} {Q : Restr V} {p p0 p1 : Propagator V} {g g0 g1 : Ghost V} {mapper : ℤ → ℤ}
  {acc rej more : List TAtom} {envs : ℕ → InitEnv} {n : ℕ}

/-- A successful `init` after a sequence of programs. -/
theorem tried_init (h : Tried be mapper acc rej p0.prog) {ok : Bool} (hi : p0.init be mapper more envs n = .ok (p1, ok)) :
    Tried be mapper (acc ++ more) rej p1.prog := by
  unfold Propagator.init at hi
  simp only at hi
  split at hi
  · cases hi
  · rename_i prog he
    simp only [Except.ok.injEq, Prod.mk.injEq] at hi
    rw [← hi.1]
    exact .accepted _ _ _ _ _ h he

/-- An `init` that throws after a sequence of programs. -/
theorem tried_fail (h : Tried be mapper acc rej p0.prog) {er : Err} (hi : p0.init be mapper more envs n = .error er) :
    Tried be mapper acc (rej ++ more) (p0.initFail be mapper more).prog := by
  unfold Propagator.init at hi
  simp only at hi
  split at hi
  · rename_i e he
    exact .rejected _ _ _ _ _ h he
  · cases hi

/-- C74 (partial: `Intact`, `Covered`): a session goes on after rejected programs. Let a solving step begin with a successful `init` after any sequence
of accepted and rejected programs. Whenever a thread is not in conflict and its total assignment `tr` is about to be reported, then the values reported for
the variables satisfy every true `&sum`, `&diff` and `&dom` atom of the accepted programs as written. -/
theorem C74_models_partial (hq : StepOK V opts) (hr0 : Reach be opts Intact p0 g0)
    (htry : Tried be mapper acc rej p0.prog) (hi : p0.init be mapper more envs n = .ok (p1, true)) (hn : 0 < n) (hm : ∀ c, mapper c ≠ 0)
    (h1 : Step be Intact p0 g0 p1 g1) (hl : LaterInStep be Intact p1 g1 p g) (hcov : Covered V p.prog)
    (hcc : ∀ a ∈ acc ++ more, CondConstZero a) {th : ℕ}
    {gt : GThr} (hgt : g.thrs[th]? = some gt) (hst : gt.stuck = false) {tr : ℤ → Prop} (htr : Guaranteed p1 p gt envs tr) :
    Small fun e => ∀ a ∈ acc ++ more, IsConstraint a → tr (mapper a.literal) →
      AtomHolds mapper tr (fun y => LpSem.conc e (p.valueOf th y)) a := by
  have hld : Tried be mapper (acc ++ more) rej p.prog := by rw [hl.same.1]; exact tried_init htry hi
  exact (all_hold hq hr0 hi hn h1 hl hcov hgt hst htr).mono fun e _ h => C74_accepted_atoms_hold_partial hld hm hcc htr.total h

/-- C74: an `init` that throws keeps the symbol table, the values, the objective and the clauses, and no constraint, no auxiliary variable and no fact is
lost. -/
theorem C74_kept (hr : Reach be opts Q p g) {er : Err} (hi : p.init be mapper more envs n = .error er) (hab : er ≠ .abort) :
    ∃ g', Reach be opts Q (p.initFail be mapper more) g' ∧
      (∀ y, (p.initFail be mapper more).apiLookup y = p.apiLookup y) ∧ (∀ i, (p.initFail be mapper more).apiSymbol i = p.apiSymbol i) ∧
      (∀ th y, (p.initFail be mapper more).valueOf th y = p.valueOf th y) ∧ (∀ th, (p.initFail be mapper more).objectiveOf th = p.objectiveOf th) ∧
      (∀ th, (p.initFail be mapper more).clausesOf th = p.clausesOf th) ∧
      p.prog.iqs <+: (p.initFail be mapper more).prog.iqs ∧ p.prog.aux <+: (p.initFail be mapper more).prog.aux ∧
      (p.initFail be mapper more).facts = p.facts := by
  have k := (hr.stat.fail hi).2.inv hr.stat.pinv
  exact ⟨_, hr.step (.fail mapper more envs n hi hab), fun _ => rfl, fun _ => rfl, fun _ _ => rfl, fun _ => rfl, fun _ => rfl, k.iqs, k.aux, rfl⟩

end

/-! ### violations -/

/-- Not part of the code, an example: `&dom { y .. 5 } = x`, where the lower bound is not a number. -/
def badDom (lit : ℤ) : TAtom where
  term := .symbol "dom".toList
  elements := [⟨[.func ['.', '.'] [.symbol ['y'], .number 5]], [], 0⟩]
  guard := some ("=", .symbol ['x'])
  literal := lit

/-- Not part of the code, an example: `&maximize { x + 1 }`, which is rejected because of the constant. -/
def maxPlus : TAtom where
  term := .symbol "maximize".toList
  elements := [⟨[.func ['+'] [.symbol ['x'], .number 1]], [], 0⟩]
  guard := none
  literal := 1

/-- Not part of the code, an example: the data after `&dom { y .. 5 } = x` has been rejected and `&sum { x } >= 10` accepted, both facts. -/
def leftDom : Prog := { iqs := [⟨[⟨1, symX⟩], 5, .le, 1⟩, ⟨[⟨1, symX⟩], 10, .ge, 1⟩] }

/-- Not part of the code: a test for equality of the data. -/
def sameProg (p q : Prog) : Bool := decide (p.aux = q.aux) && decide (p.iqs = q.iqs) && decide (p.objective = q.objective)

theorem sameProg_spec {p q : Prog} (h : sameProg p q = true) : p = q := by
  unfold sameProg at h
  simp only [Bool.and_eq_true, decide_eq_true_eq] at h
  cases p; cases q
  simp only at h
  rw [h.1.1, h.1.2, h.2]

/-- Not part of the code: does reading the program succeed with the given data? -/
def reads (mapper : ℤ → ℤ) (atoms : List TAtom) (p q : Prog) : Bool :=
  match evaluateTheory .imath mapper atoms p with
  | .ok r => sameProg r q
  | .error _ => false

theorem reads_spec {mapper : ℤ → ℤ} {atoms : List TAtom} {p q : Prog} (h : reads mapper atoms p q = true) : evaluateTheory .imath mapper atoms p = .ok q := by
  unfold reads at h
  split at h
  · rename_i r hr
    rw [hr, sameProg_spec h]
  · cases h

/-- Not part of the code: does reading the program fail with a syntax error? -/
def rejects (mapper : ℤ → ℤ) (atoms : List TAtom) (p : Prog) : Bool :=
  match evaluateTheory .imath mapper atoms p with
  | .ok _ => false
  | .error e => decide (e = .syntax)

theorem rejects_spec {mapper : ℤ → ℤ} {atoms : List TAtom} {p : Prog} (h : rejects mapper atoms p = true) :
    evaluateTheory .imath mapper atoms p = .error .syntax := by
  unfold rejects at h
  split at h
  · cases h
  · rename_i e he
    rw [he, of_decide_eq_true h]

theorem tried_leftDom : Tried .imath mapLit [sumAtom "x" ">=" 10 1] [badDom 1] leftDom := by
  have h1 : evaluateTheory .imath mapLit [badDom 1] {} = .error .syntax := rejects_spec (by decide +kernel)
  have h2 := Tried.rejected [] [] [badDom 1] {} .syntax .start h1
  exact Tried.accepted [] [badDom 1] [sumAtom "x" ">=" 10 1] _ leftDom h2 (reads_spec (by decide +kernel))

/-- C74 is violated for constraints: a program with the fact `&dom { y .. 5 } = x` is rejected; after the program with the fact `&sum { x } >= 10` has been
accepted, asserting the facts is a conflict, although the accepted atom has a solution and the same callback is no conflict if the first program has not
been tried. -/
theorem C74_dom_violation :
    (∃ (p p' : Propagator ℚ) (g : Ghost ℚ) (ctl : Ctl) (gt : GThr), Reach .imath {} Intact p g ∧ Tried .imath mapLit [sumAtom "x" ">=" 10 1] [badDom 1] p.prog ∧
      MayPropagate Intact p g ctl 0 [1] gt ∧ p.propagate fuel ctl 0 [1] = some (p', false)) ∧
    (∃ (p p' : Propagator ℚ) (g : Ghost ℚ) (ctl : Ctl) (gt : GThr), Reach .imath {} Intact p g ∧ Tried .imath mapLit [sumAtom "x" ">=" 10 1] [] p.prog ∧
      MayPropagate Intact p g ctl 0 [1] gt ∧ p.propagate fuel ctl 0 [1] = some (p', true)) := by
  constructor
  · obtain ⟨p, g, p', gt, ok, h1, -, h2, h3, h4⟩ := exists_prop (V := ℚ) (be := .imath) (mode := .intact) (opts := {})
      [.init [badDom 1] 1, .init [sumAtom "x" ">=" 10 1] 1] 0 0 [1] true (P := fun p _ _ ok => !ok && sameProg p.prog leftDom) (by decide +kernel)
    simp only [Bool.and_eq_true, Bool.not_eq_true'] at h4
    obtain ⟨rfl, h5⟩ := h4
    exact ⟨p, p', g, _, gt, h1, by rw [sameProg_spec h5]; exact tried_leftDom, h2, h3⟩
  · obtain ⟨p, g, p', gt, ok, h1, -, h2, h3, h4⟩ := exists_prop (V := ℚ) (be := .imath) (mode := .intact) (opts := {})
      [.init [sumAtom "x" ">=" 10 1] 1] 0 0 [1] true (P := fun p _ _ ok => ok && sameProg p.prog { iqs := [⟨[⟨1, symX⟩], 10, .ge, 1⟩] }) (by decide +kernel)
    simp only [Bool.and_eq_true] at h4
    obtain ⟨rfl, h5⟩ := h4
    refine ⟨p, p', g, _, gt, h1, ?_, h2, h3⟩
    rw [sameProg_spec h5]
    exact Tried.accepted [] [] [sumAtom "x" ">=" 10 1] {} _ .start (reads_spec (by decide +kernel))

/-- C74 is violated for the objective: `&maximize { x + 1 }` is rejected because of the constant; after the program with the fact `&sum { x } <= 3` has been
accepted, `x` is maximised and an objective value is reported, although no accepted program contains an objective. -/
theorem C74_objective_violation : ∃ (p : Propagator ℚ) (g : Ghost ℚ), Reach .imath {} Intact p g ∧ Tried .imath mapLit [sumAtom "x" "<=" 3 1] [maxPlus] p.prog ∧
    p.objectiveOf 0 = [(3, true)] ∧ p.valueOf 0 symX = 3 := by
  obtain ⟨p, g, h1, -, h2⟩ := exists_reach (V := ℚ) (be := .imath) (mode := .intact) (opts := {})
    [.init [maxPlus] 1, .init [sumAtom "x" "<=" 3 1] 1, .prop 0 0 [1] true, .check 0 true 0]
    (P := fun p _ => sameProg p.prog { iqs := [⟨[⟨1, symX⟩], 3, .le, 1⟩], objective := [⟨1, symX⟩] } && decide (p.objectiveOf 0 = [(3, true)] ∧ p.valueOf 0 symX = 3))
    (by decide +kernel)
  simp only [Bool.and_eq_true] at h2
  obtain ⟨h2, h3⟩ := h2
  obtain ⟨h3, h4⟩ := of_decide_eq_true h3
  refine ⟨p, g, h1, ?_, h3, h4⟩
  rw [sameProg_spec h2]
  exact Tried.accepted [] [maxPlus] [sumAtom "x" "<=" 3 1] _ _ (Tried.rejected [] [] [maxPlus] {} .syntax .start (rejects_spec (by decide +kernel)))
    (reads_spec (by decide +kernel))

/-- C74 is violated for acceptance: after `&maximize { x + 1 }` and `&dom { y .. 5 } = x` have been rejected (because of the second atom), the program
`&sum { x } <= 3` is rejected, too, although it is accepted by a new propagator. -/
theorem C74_acceptance_violation : ∃ left : Prog, Tried .imath mapLit [] [maxPlus, badDom 1] left ∧
    evaluateTheory .imath mapLit [sumAtom "x" "<=" 3 1] left = .error .syntax ∧ ∃ q, evaluateTheory .imath mapLit [sumAtom "x" "<=" 3 1] {} = .ok q := by
  exact ⟨_, Tried.rejected [] [] [maxPlus, badDom 1] {} .syntax .start (rejects_spec (by decide +kernel)), rejects_spec (by decide +kernel),
    _, reads_spec (q := { iqs := [⟨[⟨1, symX⟩], 3, .le, 1⟩] }) (by decide +kernel)⟩

/-! ### the hypotheses are met -/

/-- Not part of the code, an example: the data after `&dom { y .. 5 } = x`, where the atom has literal 2, has been rejected and the fact `&sum { x } >= 10` accepted. -/
def leftDom2 : Prog := { iqs := [⟨[⟨1, symX⟩], 5, .le, 2⟩, ⟨[⟨1, symX⟩], 10, .ge, 1⟩] }

/-- Not part of the code, an example of an assignment: 2 is false, all other atoms are true. -/
def not2 (l : ℤ) : Prop := 0 < l ∧ l ≠ 2 ∨ l = -2

/-- One half of `&dom { y .. 5 } = x` is kept after the program has been rejected. In the assignment `not2` the atom of the rejected program is false, and
the value 12 for `x` satisfies the constraints. -/
example : Tried .imath mapLit [sumAtom "x" ">=" 10 1] [badDom 2] leftDom2 ∧ (∀ c, mapLit c ≠ 0) ∧ (∀ a ∈ [sumAtom "x" ">=" 10 1], CondConstZero a) ∧
    Total not2 ∧ (∀ a ∈ [badDom 2], ¬ not2 (mapLit a.literal)) ∧ (∀ a ∈ [sumAtom "x" ">=" 10 1], IsConstraint a ∧ not2 (mapLit a.literal)) ∧
    AllHold not2 (fun _ => 12) leftDom2.iqs := by
  refine ⟨?_, mapLit_ne, ?_, ?_, ?_, ?_, ?_⟩
  · have h1 : evaluateTheory .imath mapLit [badDom 2] {} = .error .syntax := rejects_spec (by decide +kernel)
    have h2 := Tried.rejected [] [] [badDom 2] {} .syntax .start h1
    exact Tried.accepted [] [badDom 2] [sumAtom "x" ">=" 10 1] _ leftDom2 h2 (reads_spec (by decide +kernel))
  · intro a ha e he hc
    simp only [List.mem_singleton] at ha
    subst ha
    simp only [sumAtom, List.mem_singleton] at he
    subst he
    exact absurd rfl hc
  · intro l hl; simp only [not2]; omega
  · intro a ha
    simp only [List.mem_singleton] at ha
    subst ha
    show ¬ (0 < mapLit 2 ∧ mapLit 2 ≠ 2 ∨ mapLit 2 = -2)
    decide
  · intro a ha
    simp only [List.mem_singleton] at ha
    subst ha
    refine ⟨.inl (.inl rfl), ?_⟩
    show (0 < mapLit 1 ∧ mapLit 1 ≠ 2 ∨ mapLit 1 = -2)
    decide
  · intro x hx hl
    simp only [leftDom2, List.mem_cons, List.not_mem_nil, or_false] at hx
    rcases hx with rfl | rfl
    · simp [not2] at hl
    · norm_num [Ineq.holds, evalTerms, Relation.holds]

/-- A run of one solving step after a script; compare `exists_end`. -/
theorem exists_end_after {mode : Mode} (pre : List Ev) (prog : List TAtom) (script : List Ev) (hscr : script.all Ev.inStep = true)
    {P0 P : Propagator ℚ → Bool}
    (key : ((runs (V := ℚ) .imath mode pre (start {})).any fun s0 => P0 s0.1 && ((runs (V := ℚ) .imath mode [.init prog 1] s0).any fun s1 =>
      (match s0.1.init .imath mapLit prog (fun _ => env) 1 with | .ok r => r.2 | .error _ => false) &&
      decide (s1.1.clausesOf 0 = []) &&
      (runs (V := ℚ) .imath mode script s1).any fun s => atThr s.2 0 fun gt => !gt.stuck && gt.checked &&
        (s.1.prog.iqs.all fun x => decide (x.lit ≤ 0 ∨ Act gt.frames x.lit) && decide (x.lhs ≠ []) && decide (x.rel ≠ .lt) &&
          decide (x.rel ≠ .gt) && decide (x.lit ≠ 0)) && P s.1)) = true) :
    ∃ (p0 p1 p : Propagator ℚ) (g0 g1 g : Ghost ℚ) (gt : GThr), Reach .imath {} (restr mode) p0 g0 ∧ P0 p0 = true ∧
    p0.init .imath mapLit prog (fun _ => env) 1 = .ok (p1, true) ∧ Step .imath (restr mode) p0 g0 p1 g1 ∧
    LaterInStep .imath (restr mode) p1 g1 p g ∧ (∀ x ∈ p.prog.iqs, x.lhs ≠ []) ∧ (∀ x ∈ p.prog.iqs, Supports ℚ x.rel) ∧
    g.thrs[0]? = some gt ∧ gt.stuck = false ∧ gt.checked = true ∧ Guaranteed p1 p gt (fun _ => env) posTrue ∧ P p = true := by
  cases h0 : runs (V := ℚ) .imath mode pre (start {}) with
  | none => rw [h0] at key; cases key
  | some s0 =>
  obtain ⟨p0, g0⟩ := s0
  rw [h0] at key
  simp only [Option.any_some, Bool.and_eq_true] at key
  obtain ⟨key0, key⟩ := key
  obtain ⟨hr0, hnd0⟩ := runs_reach h0
  cases h1 : runs (V := ℚ) .imath mode [.init prog 1] (p0, g0) with
  | none => rw [h1] at key; cases key
  | some s1 =>
    obtain ⟨p1, g1⟩ := s1
    rw [h1] at key
    simp only [Option.any_some, Bool.and_eq_true] at key
    obtain ⟨⟨k1, k2⟩, k3⟩ := key
    cases h2 : runs (V := ℚ) .imath mode script (p1, g1) with
    | none => rw [h2] at k3; cases k3
    | some s =>
      obtain ⟨p, g⟩ := s
      rw [h2] at k3
      simp only [Option.any_some] at k3
      obtain ⟨gt, hgt, k4⟩ := atThr_spec k3
      simp only [Bool.and_eq_true, Bool.not_eq_true', List.all_eq_true, decide_eq_true_eq] at k4
      obtain ⟨⟨⟨k4, k5⟩, k6⟩, k8⟩ := k4
      rw [runs] at h1
      split at h1
      · cases h1
      rename_i s hs
      obtain ⟨q, gq⟩ := s
      simp only [runs, Option.some.injEq, Prod.mk.injEq] at h1
      obtain ⟨rfl, rfl⟩ := h1
      obtain ⟨hstep, hnd⟩ := Ev.run_step hr0.weak hnd0 hs
      have hinit : p0.init .imath mapLit prog (fun _ => env) 1 = .ok (q, true) := by
        unfold Ev.run at hs
        simp only at hs
        split at k1
        · rename_i r hr
          rw [hr] at hs
          simp only [Option.some.injEq, Prod.mk.injEq] at hs
          rw [hr, ← hs.1, ← k1]
        · cases k1
      have hcl : q.clausesOf 0 = [] := of_decide_eq_true k2
      refine ⟨p0, q, p, g0, gq, g, gt, hr0, key0, hinit, hstep, runs_inStep (hr0.weak.step hstep) hnd hscr h2 .refl,
        fun x hx => (k6 x hx).1.1.1.2, ?_, hgt, k4, k5, ⟨posTrue_total, ?_, ?_, ?_, ?_⟩, k8⟩
      · intro x hx
        have := k6 x hx
        intro hh
        rcases hh with hh | hh
        · exact absurd hh this.1.1.2
        · exact absurd hh this.1.2
      · intro x hx hp
        rcases (k6 x hx).1.1.1.1 with h | h
        · exact absurd hp (by unfold posTrue; omega)
        · exact h
      · rw [hcl]; intro c hc; simp at hc
      · intro O l _ h; cases h
      · exact fun x hx => (k6 x hx).2

/-- The session goes on after the rejected program `&maximize { x + 1 }`: with `&sum { x } <= 3`, a total assignment is checked, and a model is about to be
reported. -/
example : ∃ (p0 p1 p : Propagator ℚ) (g0 g1 g : Ghost ℚ) (gt : GThr), Reach .imath {} Intact p0 g0 ∧ Tried .imath mapLit [] [maxPlus] p0.prog ∧
    p0.init .imath mapLit [sumAtom "x" "<=" 3 1] (fun _ => env) 1 = .ok (p1, true) ∧ Step .imath Intact p0 g0 p1 g1 ∧
    LaterInStep .imath Intact p1 g1 p g ∧ Covered ℚ p.prog ∧ (∀ a ∈ [] ++ [sumAtom "x" "<=" 3 1], CondConstZero a) ∧
    g.thrs[0]? = some gt ∧ gt.stuck = false ∧ gt.checked = true ∧ Guaranteed p1 p gt (fun _ => env) posTrue ∧ p.valueOf 0 symX = 3 := by
  obtain ⟨p0, p1, p, g0, g1, g, gt, h0, h00, h1, h2, h3, h4, h5, h6, h7, h8, h9, h10⟩ := exists_end_after (mode := .intact) [.init [maxPlus] 1]
    [sumAtom "x" "<=" 3 1] [.prop 0 0 [1] true, .check 0 true 0] rfl (P0 := fun p => sameProg p.prog { objective := [⟨1, symX⟩] })
    (P := fun p => decide (p.valueOf 0 symX = 3)) (by decide +kernel)
  refine ⟨p0, p1, p, g0, g1, g, gt, h0, ?_, h1, h2, h3, ⟨fun x hx h => absurd h (h4 x hx), h5⟩, ?_, h6, h7, h8, h9, of_decide_eq_true h10⟩
  · have k := Tried.rejected [] [] [maxPlus] {} .syntax .start (mapper := mapLit) (be := .imath) (rejects_spec (by decide +kernel))
    rw [sameProg_spec (p := evaluateLeft .imath mapLit [maxPlus] {}) (q := { objective := [⟨1, symX⟩] }) (by decide +kernel)] at k
    rw [sameProg_spec h00]
    exact k
  · intro a ha e he hc
    simp only [List.nil_append, List.mem_singleton] at ha
    subst ha
    simp only [sumAtom, List.mem_singleton] at he
    subst he
    exact absurd rfl hc

/-- A second program is rejected after a solving step. -/
example : ∃ (p : Propagator ℚ) (g : Ghost ℚ), Reach .imath {} Intact p g ∧ p.init .imath mapLit [badDom 1] (fun _ => env) 1 = .error .syntax ∧
    Err.syntax ≠ Err.abort ∧ p.prog.iqs.length = 2 ∧ p.valueOf 0 symX = 3 := by
  obtain ⟨p, g, h1, -, h2⟩ := exists_reach (V := ℚ) (be := .imath) (mode := .intact) (opts := {})
    [.init [sumAtom "x" ">=" 3 1, sumAtom "x" "<=" 5 5] 1, .prop 0 0 [1] true, .check 0 true 0]
    (P := fun p _ => rejects mapLit [badDom 1] p.prog && decide (p.prog.iqs.length = 2 ∧ p.valueOf 0 symX = 3))
    (by decide +kernel)
  simp only [Bool.and_eq_true] at h2
  obtain ⟨h3, h4⟩ := h2
  have h5 := of_decide_eq_true h4
  refine ⟨p, g, h1, ?_, by decide, h5⟩
  unfold Propagator.init
  simp only [rejects_spec h3]

end Lpx.Props
