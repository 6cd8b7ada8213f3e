import Verif.PropsParsing
import Verif.PropsAsserts
import Verif.Witness
import Verif.Examples

/-!
# C59: the two arithmetic libraries

The back ends differ in how they report a division by zero (IMath throws `domain_error`, FLINT aborts the process) and in nothing else.
-/

set_option linter.unusedSectionVars false

open Lpx.Witness

namespace Lpx.Props

/-- Specification: the results of the same computation with FLINT and with IMath. Either both return the same value or throw the
same exception (a syntax error or an overflow), or there was a division by zero, at which the FLINT build aborts and the IMath build
throws `domain_error`. -/
inductive SameResult {α : Type} : Except Err α → Except Err α → Prop
  | value (a : α) : SameResult (.ok a) (.ok a)
  | syn : SameResult (.error .syntax) (.error .syntax)
  | overflow : SameResult (.error .overflow) (.error .overflow)
  | division : SameResult (.error .abort) (.error .domain)

namespace SameResult
variable {α β : Type}

theorem bind {x y : Except Err α} {f g : α → Except Err β} (h : SameResult x y) (k : ∀ a, SameResult (f a) (g a)) :
    SameResult (x >>= f) (y >>= g) := by
  cases h with
  | value a => exact k a
  | syn => exact .syn
  | overflow => exact .overflow
  | division => exact .division

theorem ok_iff {x y : Except Err α} (h : SameResult x y) (a : α) : x = .ok a ↔ y = .ok a := by
  cases h <;> simp

end SameResult

theorem binNum_same {f g : ℚ → ℚ → Except Err ℚ} {a a' b b' : Except Err Val} (hf : ∀ x y, SameResult (f x y) (g x y))
    (ha : SameResult a a') (hb : SameResult b b') : SameResult (binNum f a b) (binNum g a' b') := by
  cases ha with
  | syn => exact .syn
  | overflow => exact .overflow
  | division => exact .division
  | value a =>
    cases hb with
    | syn => unfold binNum; cases a <;> exact .syn
    | overflow => unfold binNum; cases a <;> exact .overflow
    | division => unfold binNum; cases a <;> exact .division
    | value b =>
      unfold binNum
      cases a with
      | sym s => cases b <;> exact .syn
      | rat x =>
        cases b with
        | sym s => exact .syn
        | rat y =>
          show SameResult ((f x y).map Val.rat) ((g x y).map Val.rat)
          have h := hf x y
          generalize f x y = u at h ⊢
          generalize g x y = v at h ⊢
          cases h
          · exact .value _
          · exact .syn
          · exact .overflow
          · exact .division

theorem divNum_same (x y : ℚ) : SameResult (divNum .flint x y) (divNum .imath x y) := by
  unfold divNum
  split
  · exact .division
  · exact .value _

theorem asSyms_same : ∀ {rs rs' : List (Except Err Val)}, List.Forall₂ SameResult rs rs' → SameResult (asSyms rs) (asSyms rs') := by
  intro rs rs' h
  induction h with
  | nil => exact .value _
  | cons h _ ih =>
    rw [asSyms, asSyms]
    refine .bind ?_ fun _ => .bind ih fun _ => .value _
    cases h with
    | syn => exact .syn
    | overflow => exact .overflow
    | division => exact .division
    | value a =>
      cases hv : asSym (.ok a) with
      | ok s => exact .value _
      | error e =>
        unfold asSym at hv
        split at hv
        · rename_i he; cases he
        · split at hv
          · cases hv
          · cases hv; exact .syn
        · cases hv

theorem mkFn_same {name : List Char} {rs rs' : List (Except Err Val)} (h : List.Forall₂ SameResult rs rs') :
    SameResult (mkFn name rs) (mkFn name rs') := .bind (asSyms_same h) fun _ => .value _

theorem negVal_same {a a' : Except Err Val} (h : SameResult a a') : SameResult (negVal a) (negVal a') := by
  cases h with
  | syn => exact .syn
  | overflow => exact .overflow
  | division => exact .division
  | value a =>
    unfold negVal
    split
    · rename_i he; cases he
    · exact .value _
    · split
      · exact .syn
      · exact .value _
    · exact .syn

theorem evaluate_same (t : TTerm) : ∀ ns, SameResult (evaluate .flint ns t) (evaluate .imath ns t) := by
  induction t using TTerm.ind with
  | h1 n => intro ns; rw [evaluate, evaluate]; exact .value _
  | h2 name =>
    intro ns; rw [evaluate, evaluate]
    split
    · split <;> exact .value _
    · exact .value _
  | h3 name args ih =>
    intro ns
    have hall : ∀ ns, List.Forall₂ SameResult (evaluates .flint ns args) (evaluates .imath ns args) := by
      intro ns
      rw [evaluates_eq, evaluates_eq]
      clear * - ih
      induction args with
      | nil => exact .nil
      | cons a as ih2 => exact .cons (ih a (by simp) ns) (ih2 fun b hb => ih b (by simp [hb]))
    rw [evaluate, evaluate]
    have h0 := mkFn_same (name := name) (hall false)
    have h1 := hall ns
    generalize evaluates .flint ns args = rs at h1
    generalize evaluates .imath ns args = rs' at h1
    cases h1 with
    | nil => exact h0
    | cons ha h1 =>
      cases h1 with
      | nil =>
        unfold evalFn
        dsimp only
        split
        · exact negVal_same ha
        · exact h0
      | cons hb h1 =>
        cases h1 with
        | cons hc h1 => exact h0
        | nil =>
          unfold evalFn
          dsimp only
          repeat' split
          · exact binNum_same (fun _ _ => .value _) ha hb
          · exact binNum_same (fun _ _ => .value _) ha hb
          · exact binNum_same (fun _ _ => .value _) ha hb
          · exact binNum_same divNum_same ha hb
          · exact .syn
          · exact h0
  | h4 args ih =>
    intro ns
    rw [evaluate, evaluate]
    refine mkFn_same ?_
    rw [evaluates_eq, evaluates_eq]
    clear * - ih
    induction args with
    | nil => exact .nil
    | cons a as ih2 => exact .cons (ih a (by simp) false) (ih2 fun b hb => ih b (by simp [hb]))
  | h5 args ih => intro ns; rw [evaluate, evaluate]; exact .syn
  | h6 args ih => intro ns; rw [evaluate, evaluate]; exact .syn

theorem evaluateVar_same (t : TTerm) : SameResult (evaluateVar .flint t) (evaluateVar .imath t) := by
  have := evaluate_same t false
  unfold evaluateVar
  cases hf : evaluate .flint false t <;> cases hi : evaluate .imath false t <;> rw [hf, hi] at this <;> cases this
  · exact .syn
  · exact .overflow
  · exact .division
  · rename_i v; cases v
    · exact .syn
    · exact .value _

theorem evaluateNum_same (t : TTerm) : SameResult (evaluateNum .flint t) (evaluateNum .imath t) := by
  have := evaluate_same t true
  unfold evaluateNum
  cases hf : evaluate .flint true t <;> cases hi : evaluate .imath true t <;> rw [hf, hi] at this <;> cases this
  · exact .syn
  · exact .overflow
  · exact .division
  · rename_i v; cases v
    · exact .value _
    · exact .syn

theorem SameResult.refl {α : Type} {x : Except Err α} (h : ∀ e, x = .error e → e = .syntax ∨ e = .overflow) : SameResult x x := by
  cases x with
  | ok a => exact .value a
  | error e => rcases h e rfl with rfl | rfl <;> constructor

theorem mulTerms_same (ls rs : List (Term Symbol)) : SameResult (mulTerms ls rs) (mulTerms ls rs) := by
  have hrow : ∀ l rs, SameResult (mulRow l rs) (mulRow l rs) := by
    intro l rs
    induction rs with
    | nil => exact .value _
    | cons r rs ih =>
      rw [mulRow]
      split
      · exact .bind ih fun _ => .value _
      · exact .syn
  induction ls with
  | nil => exact .value _
  | cons l ls ih => rw [mulTerms]; exact .bind (hrow l rs) fun _ => .bind ih fun _ => .value _

/-- C59, terms: reading a linear term gives the same terms or the same exception with both libraries, except for the report of a division
by zero. -/
theorem parseSum_same (t : TTerm) : SameResult (parseSum .flint t) (parseSum .imath t) := by
  have hv : ∀ t, SameResult (do let v ← evaluateVar .flint t; return [⟨1, v⟩] : Except Err (List (Term Symbol)))
      (do let v ← evaluateVar .imath t; return [⟨1, v⟩]) := fun t => .bind (evaluateVar_same t) fun _ => .value _
  induction t using TTerm.ind with
  | h1 n => rw [parseSum, parseSum]; exact .value _
  | h2 name =>
    rw [parseSum, parseSum]
    split
    · exact .value _
    · exact hv _
  | h3 name args ih =>
    rw [parseSum, parseSum, parseSums_eq, parseSums_eq]
    match args, ih with
    | [], _ => exact hv _
    | [a], ih =>
      have h1 := ih a (by simp)
      unfold sumFn
      simp only [List.map_cons, List.map_nil]
      repeat' split
      · exact .bind h1 fun _ => .value _
      · exact h1
      · exact hv _
    | [a, b], ih =>
      have h1 := ih a (by simp)
      have h2 := ih b (by simp)
      unfold sumFn
      simp only [List.map_cons, List.map_nil]
      repeat' split
      · exact .bind h1 fun _ => .bind h2 fun _ => .value _
      · exact .bind h1 fun _ => .bind h2 fun _ => .value _
      · exact .bind h1 fun _ => .bind h2 fun _ => mulTerms_same _ _
      · refine .bind h1 fun _ => .bind (evaluateNum_same b) fun q => ?_
        split
        · exact .syn
        · exact .value _
      · exact hv _
    | a :: b :: c :: as, _ => exact hv _
  | h4 args ih => rw [parseSum, parseSum]; exact hv _
  | h5 args ih => rw [parseSum, parseSum]; exact .syn
  | h6 args ih => rw [parseSum, parseSum]; exact .syn

theorem parseElems_same (mapper : ℤ → ℤ) : ∀ (es : List Elem) (p : Prog),
    SameResult (parseElems .flint mapper es p) (parseElems .imath mapper es p) := by
  have hc : ∀ c (ts : List (Term Symbol)) (p : Prog), SameResult (condTerms mapper c ts p) (condTerms mapper c ts p) := by
    intro c ts
    induction ts with
    | nil => intro p; exact .value _
    | cons t ts ih =>
      intro p
      rw [condTerms]
      refine .bind ?_ fun r => .bind (ih r.1) fun _ => .value _
      unfold condTerm
      refine .bind ?_ fun n => ?_
      · unfold castInt
        split
        · exact .value _
        · exact .overflow
      · split <;> exact .value _
  intro es
  induction es with
  | nil => intro p; exact .value _
  | cons e es ih =>
    intro p
    rw [parseElems, parseElems]
    refine .bind ?_ fun r => .bind (ih r.1) fun _ => .value _
    unfold parseElem
    split
    · refine .bind (parseSum_same _) fun ts => ?_
      split
      · exact .value _
      · exact hc _ _ _
    · exact .syn

theorem evaluateCmp_same (op : String) : SameResult (evaluateCmp op) (evaluateCmp op) := by
  unfold evaluateCmp
  repeat' split
  all_goals first | exact .value _ | exact .syn

theorem addIneq_same (mapper : ℤ → ℤ) (a : TAtom) (gd : String × TTerm) (p : Prog) (lhs : List (Term Symbol)) :
    SameResult (addIneq .flint mapper a gd p lhs) (addIneq .imath mapper a gd p lhs) :=
  .bind (parseSum_same _) fun _ => .bind (evaluateCmp_same _) fun _ => .value _

theorem parseAtom_same (mapper : ℤ → ℤ) (p : Prog) (a : TAtom) : SameResult (parseAtom .flint mapper p a) (parseAtom .imath mapper p a) := by
  have hobj : ∀ neg, SameResult (parseObj .flint mapper p a neg) (parseObj .imath mapper p a neg) :=
    fun neg => .bind (parseElems_same mapper _ _) fun _ => .value _
  unfold parseAtom
  split
  · unfold parseDom
    split
    · split
      · split
        · exact .bind (evaluateVar_same _) fun _ => .bind (evaluateNum_same _) fun _ => .bind (evaluateNum_same _) fun _ => .value _
        · exact .syn
      · exact .syn
    · exact .syn
  split
  · unfold parseDiff
    split
    · split
      · split
        · refine .bind ?_ fun _ => addIneq_same _ _ _ _ _
          unfold parseDiffElem
          have hd : ∀ sgn t, SameResult (diffArg sgn (evaluate .flint true t)) (diffArg sgn (evaluate .imath true t)) := by
            intro sgn t
            have := evaluate_same t true
            cases hf : evaluate .flint true t <;> cases hi : evaluate .imath true t <;> rw [hf, hi] at this <;> cases this
            · exact .syn
            · exact .overflow
            · exact .division
            · rename_i v; cases v <;> exact .value _
          split
          · split
            · exact .bind (hd _ _) fun _ => .bind (hd _ _) fun _ => .value _
            · exact .syn
          · exact .syn
        · exact .syn
      · exact .syn
    · exact .syn
  split
  · unfold parseSumAtom
    split
    · exact .bind (parseElems_same mapper _ _) fun _ => addIneq_same _ _ _ _ _
    · exact .syn
  split
  · exact hobj _
  split
  · exact hobj _
  exact .value _

/-- C59, programs: with both libraries the same constraints and the same objective are read from a program, or it is rejected with the same
exception, except for the report of a division by zero. -/
theorem C59_programs (mapper : ℤ → ℤ) (atoms : List TAtom) (p : Prog) :
    SameResult (evaluateTheory .flint mapper atoms p) (evaluateTheory .imath mapper atoms p) := by
  unfold evaluateTheory
  refine .bind ?_ fun q => ?_
  · induction atoms generalizing p with
    | nil => exact .value _
    | cons a as ih => rw [parseAtoms, parseAtoms]; exact .bind (parseAtom_same mapper p a) fun q => ih q
  · dsimp only
    split
    · exact .value _
    · exact .syn

section
variable {V : Type} [LpFull V] {opts : Options} {Q : Restr V}

/-- C59: `init` has the same effect with both libraries. -/
theorem C59_init (p : Propagator V) (mapper : ℤ → ℤ) (atoms : List TAtom) (envs : ℕ → InitEnv) (n : ℕ) :
    SameResult (p.init .flint mapper atoms envs n) (p.init .imath mapper atoms envs n) := by
  have h := C59_programs mapper atoms p.prog
  unfold Propagator.init
  cases hf : evaluateTheory .flint mapper atoms p.prog <;> cases hi : evaluateTheory .imath mapper atoms p.prog <;>
    rw [hf, hi] at h <;> cases h
  · exact .syn
  · exact .overflow
  · exact .division
  · exact .value _

/-- C59, rejected programs: the same data is left behind with both libraries (see C74). -/
theorem C59_left (mapper : ℤ → ℤ) (atoms : List TAtom) (p : Prog) : evaluateLeft .flint mapper atoms p = evaluateLeft .imath mapper atoms p := by
  have helem : ∀ (e : Elem) (p : Prog), SameResult (parseElem .flint mapper p e) (parseElem .imath mapper p e) := by
    intro e p
    have h := parseElems_same mapper [e] p
    rw [parseElems, parseElems] at h
    have : ∀ {be : Backend}, (parseElem be mapper p e >>= fun r => (parseElems be mapper [] r.1 >>= fun s => pure (s.1, r.2 ++ s.2))) = parseElem be mapper p e := by
      intro be
      cases parseElem be mapper p e with
      | error _ => rfl
      | ok r => show Except.ok (r.1, r.2 ++ []) = _; rw [List.append_nil]
    rwa [this, this] at h
  have hleft1 : ∀ (e : Elem) (p : Prog), parseElemLeft .flint mapper p e = parseElemLeft .imath mapper p e := by
    intro e p
    unfold parseElemLeft
    split
    · rename_i t _
      have h := parseSum_same t
      generalize parseSum .flint t = x at h ⊢
      generalize parseSum .imath t = y at h ⊢
      cases h <;> rfl
    · rfl
  have hleft : ∀ (es : List Elem) (p : Prog), parseElemsLeft .flint mapper es p = parseElemsLeft .imath mapper es p := by
    intro es
    induction es with
    | nil => intro p; rfl
    | cons e es ih =>
      intro p
      rw [parseElemsLeft, parseElemsLeft, hleft1 e p]
      have h := helem e p
      generalize parseElem .flint mapper p e = x at h ⊢
      generalize parseElem .imath mapper p e = y at h ⊢
      cases h
      · exact ih _
      · rfl
      · rfl
      · rfl
  have hatom : ∀ (a : TAtom) (p : Prog), parseAtomLeft .flint mapper p a = parseAtomLeft .imath mapper p a := by
    intro a p
    unfold parseAtomLeft
    split
    · unfold parseDomLeft
      split
      · rename_i e g he hg
        split
        · rename_i name l u ht
          split
          · have h1 := evaluateVar_same g.2
            have h2 := evaluateNum_same u
            generalize evaluateVar .flint g.2 = x at h1 ⊢
            generalize evaluateVar .imath g.2 = y at h1 ⊢
            generalize evaluateNum .flint u = x' at h2 ⊢
            generalize evaluateNum .imath u = y' at h2 ⊢
            cases h1 <;> cases h2 <;> rfl
          · rfl
        · rfl
      · rfl
    · split
      · rfl
      · split
        · unfold parseSumAtomLeft
          split
          · exact hleft _ _
          · rfl
        · split
          · exact hleft _ _
          · split
            · exact hleft _ _
            · rfl
  have hatoms : ∀ (as : List TAtom) (p : Prog), SameResult (parseAtoms .flint mapper as p) (parseAtoms .imath mapper as p) ∧
      parseAtomsLeft .flint mapper as p = parseAtomsLeft .imath mapper as p := by
    intro as
    induction as with
    | nil => intro p; exact ⟨.value _, rfl⟩
    | cons a as ih =>
      intro p
      rw [parseAtoms, parseAtoms, parseAtomsLeft, parseAtomsLeft, hatom a p]
      have h := parseAtom_same mapper p a
      refine ⟨.bind h fun q => (ih q).1, ?_⟩
      generalize parseAtom .flint mapper p a = x at h ⊢
      generalize parseAtom .imath mapper p a = y at h ⊢
      cases h
      · exact (ih _).2
      · rfl
      · rfl
      · rfl
  obtain ⟨h1, h2⟩ := hatoms atoms p
  unfold evaluateLeft
  rw [h2]
  generalize parseAtoms .flint mapper atoms p = x at h1 ⊢
  generalize parseAtoms .imath mapper atoms p = y at h1 ⊢
  cases h1 <;> rfl

theorem step_flint_imath {p p' : Propagator V} {g g' : Ghost V} (h : Step .flint Q p g p' g') : Step .imath Q p g p' g' := by
  cases h with
  | init mapper atoms envs n h => exact .init mapper atoms envs n (((C59_init p mapper atoms envs n).ok_iff _).1 h)
  | @fail mapper atoms envs n er h hab =>
    have hs := C59_init p mapper atoms envs n
    rw [h] at hs
    have he : p.init .imath mapper atoms envs n = .error er := by
      generalize p.init .imath mapper atoms envs n = y at hs ⊢
      cases hs
      · rfl
      · rfl
      · exact absurd rfl hab
    have : p.initFail .flint mapper atoms = p.initFail .imath mapper atoms := by unfold Propagator.initFail; rw [C59_left]
    rw [this]
    exact .fail mapper atoms envs n he hab
  | propagate fuel ctl th lits h1 h2 => exact .propagate fuel ctl th lits h1 h2
  | check fuel ctl total th h1 h2 => exact .check fuel ctl total th h1 h2
  | undo th h1 h2 h3 h4 h5 => exact .undo th h1 h2 h3 h4 h5
  | model th h1 h2 h3 => exact .model th h1 h2 h3

theorem step_imath_flint {p p' : Propagator V} {g g' : Ghost V} (h : Step .imath Q p g p' g') :
    Step .flint Q p g p' g' ∨ ∃ mapper atoms envs n, p.init .flint mapper atoms envs n = .error .abort ∧ p.init .imath mapper atoms envs n = .error .domain := by
  cases h with
  | init mapper atoms envs n h => exact .inl (.init mapper atoms envs n (((C59_init p mapper atoms envs n).ok_iff _).2 h))
  | @fail mapper atoms envs n er h hab =>
    have hs := C59_init p mapper atoms envs n
    have : p.initFail .imath mapper atoms = p.initFail .flint mapper atoms := by unfold Propagator.initFail; rw [C59_left]
    rw [this]
    rw [h] at hs
    cases hf : p.init .flint mapper atoms envs n with
    | ok r => rw [hf] at hs; cases hs
    | error e =>
      rw [hf] at hs
      cases hs
      · exact .inl (.fail mapper atoms envs n hf hab)
      · exact .inl (.fail mapper atoms envs n hf hab)
      · exact .inr ⟨mapper, atoms, envs, n, hf, h⟩
  | propagate fuel ctl th lits h1 h2 => exact .inl (.propagate fuel ctl th lits h1 h2)
  | check fuel ctl total th h1 h2 => exact .inl (.check fuel ctl total th h1 h2)
  | undo th h1 h2 h3 h4 h5 => exact .inl (.undo th h1 h2 h3 h4 h5)
  | model th h1 h2 h3 => exact .inl (.model th h1 h2 h3)

/-- C59, sessions: whatever can happen with FLINT can happen with IMath: the same states, hence the same clauses, verdicts,
assignments, objective values and statistics. -/
theorem C59_sessions (p : Propagator V) (g : Ghost V) (h : Reach .flint opts Q p g) : Reach .imath opts Q p g := by
  induction h with
  | start => exact .start
  | step _ h ih => exact .step ih (step_flint_imath h)

/-- C59, sessions: whatever can happen with IMath can happen with FLINT, unless a program with a division by zero was rejected, at which FLINT aborts
the process. -/
theorem C59_sessions_back (p : Propagator V) (g : Ghost V) (h : Reach .imath opts Q p g) :
    Reach .flint opts Q p g ∨ ∃ p0 g0, Reach .flint opts Q p0 g0 ∧ Later .imath Q p0 g0 p g ∧
      ∃ mapper atoms envs n, p0.init .flint mapper atoms envs n = .error .abort ∧ p0.init .imath mapper atoms envs n = .error .domain := by
  induction h with
  | start => exact .inl .start
  | step _ h ih =>
    rcases ih with ih | ⟨p0, g0, h1, h2, h3⟩
    · rcases step_imath_flint h with h' | h'
      · exact .inl (ih.step h')
      · exact .inr ⟨_, _, ih, .step .refl h, h'⟩
    · exact .inr ⟨p0, g0, h1, h2.step h, h3⟩

end

/-! ### the process only aborts at divisions by zero (C43) -/

theorem Denotes.with_strings {t : TTerm} : ∀ {y : ℚ}, Denotes false t (.rat y) → Denotes true t (.rat y) := by
  induction t using TTerm.ind with
  | h1 n => intro y h; cases h; exact .number _ _
  | h2 name => intro y h; cases h
  | h3 name args ih =>
    intro y h
    cases h with
    | add _ a b x z h1 h2 => exact .add _ a b x z (ih a (by simp) h1) (ih b (by simp) h2)
    | sub _ a b x z h1 h2 => exact .sub _ a b x z (ih a (by simp) h1) (ih b (by simp) h2)
    | mul _ a b x z h1 h2 => exact .mul _ a b x z (ih a (by simp) h1) (ih b (by simp) h2)
    | div _ a b x z h1 h2 h3 => exact .div _ a b x z (ih a (by simp) h1) (ih b (by simp) h2) h3
    | neg _ a x h1 => exact .neg _ a x (ih a (by simp) h1)
  | h4 args ih => intro y h; cases h
  | h5 args ih => intro y h; cases h
  | h6 args ih => intro y h; cases h

theorem divFunc {name : List Char} {args : List TTerm} {a : TTerm} (ha : a ∈ args) (h : DivByZero a) :
    DivByZero (.func name args) := by
  obtain ⟨x, y, h1, h2⟩ := h
  exact ⟨x, y, .func _ _ _ ha h1, h2⟩

theorem divTuple {args : List TTerm} {a : TTerm} (ha : a ∈ args) (h : DivByZero a) : DivByZero (.tuple args) := by
  obtain ⟨x, y, h1, h2⟩ := h
  exact ⟨x, y, .tuple _ _ ha h1, h2⟩

theorem asSyms_abort : ∀ {rs : List (Except Err Val)}, asSyms rs = .error .abort → ∃ r ∈ rs, r = .error .abort := by
  intro rs
  induction rs with
  | nil => intro h; cases h
  | cons r rs ih =>
    intro h
    rw [asSyms] at h
    cases hs : asSym r with
    | error e =>
      rw [hs] at h
      have : e = .abort := by injection h
      subst this
      unfold asSym at hs
      split at hs
      · cases hs; exact ⟨_, by simp, rfl⟩
      · split at hs <;> cases hs
      · cases hs
    | ok s =>
      rw [hs] at h
      cases hss : asSyms rs with
      | error e =>
        rw [hss] at h
        have : e = .abort := by injection h
        subst this
        obtain ⟨r', h1, h2⟩ := ih hss
        exact ⟨r', by simp [h1], h2⟩
      | ok ss => rw [hss] at h; cases h

theorem mkFn_abort {name : List Char} {rs : List (Except Err Val)} (h : mkFn name rs = .error .abort) : ∃ r ∈ rs, r = .error .abort := by
  unfold mkFn at h
  cases hs : asSyms rs with
  | error e =>
    rw [hs] at h
    have : e = .abort := by injection h
    subst this
    exact asSyms_abort hs
  | ok s => rw [hs] at h; cases h

theorem binNum_abort {f : ℚ → ℚ → Except Err ℚ} {a b : Except Err Val} (h : binNum f a b = .error .abort) :
    a = .error .abort ∨ b = .error .abort ∨ ∃ x y, a = .ok (.rat x) ∧ b = .ok (.rat y) ∧ f x y = .error .abort := by
  unfold binNum at h
  split at h
  · injection h with h; subst h; exact .inl rfl
  · injection h with h; subst h; exact .inr (.inl rfl)
  · rename_i x y
    refine .inr (.inr ⟨x, y, rfl, rfl, ?_⟩)
    cases hf : f x y with
    | error e => rw [hf] at h; injection h with h; rw [h]
    | ok z => rw [hf] at h; cases h
  · cases h

theorem evaluate_abort (t : TTerm) : ∀ ns, evaluate .flint ns t = .error .abort → DivByZero t := by
  induction t using TTerm.ind with
  | h1 n => intro ns h; rw [evaluate] at h; cases h
  | h2 name =>
    intro ns h; rw [evaluate] at h
    split at h
    · split at h <;> cases h
    · cases h
  | h3 name args ih =>
    intro ns h
    have hm : mkFn name (evaluates .flint false args) = .error .abort → DivByZero (.func name args) := by
      intro h
      obtain ⟨r, h1, h2⟩ := mkFn_abort h
      rw [evaluates_eq] at h1
      obtain ⟨t, ht, rfl⟩ := List.mem_map.mp h1
      exact divFunc ht (ih t ht false h2)
    rw [evaluate] at h
    match args, ih, hm, h with
    | [], _, hm, h => exact hm h
    | [a], ih, hm, h =>
      simp only [evaluates, evalFn] at h
      split at h
      · unfold negVal at h
        split at h
        · rename_i he; injection h with h; subst h; exact divFunc (by simp) (ih a (by simp) ns he)
        · cases h
        · split at h <;> cases h
        · cases h
      · exact hm h
    | [a, b], ih, hm, h =>
      simp only [evaluates, evalFn] at h
      have key : ∀ f, binNum f (evaluate .flint ns a) (evaluate .flint ns b) = .error .abort →
          (∀ x y, evaluate .flint ns a = .ok (.rat x) → evaluate .flint ns b = .ok (.rat y) → f x y = .error .abort → DivByZero (.func name [a, b])) →
          DivByZero (.func name [a, b]) := by
        intro f h hf
        rcases binNum_abort h with h | h | ⟨x, y, h1, h2, h3⟩
        · exact divFunc (by simp) (ih a (by simp) ns h)
        · exact divFunc (by simp) (ih b (by simp) ns h)
        · exact hf x y h1 h2 h3
      split at h
      · exact key _ h fun x y _ _ h => by cases h
      split at h
      · exact key _ h fun x y _ _ h => by cases h
      split at h
      · exact key _ h fun x y _ _ h => by cases h
      split at h
      · rename_i hn
        refine key _ h fun x y _ h2 h => ?_
        unfold divNum at h
        split at h
        · rename_i hy
          subst hy hn
          refine ⟨a, b, .refl, ?_⟩
          have := (evaluate_iff .flint b ns _).mp h2
          cases ns
          · exact Denotes.with_strings this
          · exact this
        · cases h
      split at h
      · cases h
      · exact hm h
    | a :: b :: c :: as, _, hm, h => exact hm h
  | h4 args ih =>
    intro ns h
    rw [evaluate] at h
    obtain ⟨r, h1, h2⟩ := mkFn_abort h
    rw [evaluates_eq] at h1
    obtain ⟨t, ht, rfl⟩ := List.mem_map.mp h1
    exact divTuple ht (ih t ht false h2)
  | h5 args ih => intro ns h; rw [evaluate] at h; cases h
  | h6 args ih => intro ns h; rw [evaluate] at h; cases h

theorem bind_abort {α β : Type} {x : Except Err α} {f : α → Except Err β} (h : x >>= f = .error .abort) :
    x = .error .abort ∨ ∃ a, x = .ok a ∧ f a = .error .abort := by
  cases x with
  | error e => injection h with h; subst h; exact .inl rfl
  | ok a => exact .inr ⟨a, rfl, h⟩

theorem evaluateVar_abort {t : TTerm} (h : evaluateVar .flint t = .error .abort) : DivByZero t := by
  unfold evaluateVar at h
  split at h
  · cases h
  · cases h
  · rename_i he; injection h with h; subst h; exact evaluate_abort t _ he

theorem evaluateNum_abort {t : TTerm} (h : evaluateNum .flint t = .error .abort) : DivByZero t := by
  unfold evaluateNum at h
  split at h
  · cases h
  · cases h
  · rename_i he; injection h with h; subst h; exact evaluate_abort t _ he

/-- C43: reading a term with the FLINT back end aborts the process only at a division by zero in the term. -/
theorem C43_flint_aborts_only_at_division_by_zero (t : TTerm) (h : parseSum .flint t = .error .abort) : DivByZero t := by
  have hv : ∀ t, (evaluateVar .flint t >>= fun v => pure [⟨1, v⟩] : Except Err (List (Term Symbol))) = .error .abort → DivByZero t := by
    intro t h
    rcases bind_abort h with h | ⟨v, -, h⟩
    · exact evaluateVar_abort h
    · cases h
  have hmul : ∀ ls rs, mulTerms ls rs ≠ .error .abort := fun ls rs => mulTerms_noAbort ls rs
  induction t using TTerm.ind with
  | h1 n => rw [parseSum] at h; cases h
  | h2 name =>
    rw [parseSum] at h
    split at h
    · cases h
    · exact hv _ h
  | h3 name args ih =>
    rw [parseSum, parseSums_eq] at h
    match args, ih, h with
    | [], _, h => exact hv _ h
    | [a], ih, h =>
      unfold sumFn at h
      simp only [List.map_cons, List.map_nil] at h
      split at h
      · rcases bind_abort h with h | ⟨v, -, h⟩
        · exact divFunc (by simp) (ih a (by simp) h)
        · cases h
      split at h
      · exact divFunc (by simp) (ih a (by simp) h)
      · exact hv _ h
    | [a, b], ih, h =>
      have h1 := ih a (by simp)
      have h2 := ih b (by simp)
      unfold sumFn at h
      simp only [List.map_cons, List.map_nil] at h
      have two : ∀ (f : List (Term Symbol) → List (Term Symbol) → Except Err (List (Term Symbol))), (∀ x y, f x y ≠ .error .abort) →
          (parseSum .flint a >>= fun x => parseSum .flint b >>= fun y => f x y) = .error .abort → DivByZero (.func name [a, b]) := by
        intro f hf h
        rcases bind_abort h with h | ⟨x, -, h⟩
        · exact divFunc (by simp) (h1 h)
        rcases bind_abort h with h | ⟨y, -, h⟩
        · exact divFunc (by simp) (h2 h)
        · exact absurd h (hf x y)
      split at h
      · exact two _ (fun _ _ h => by cases h) h
      split at h
      · exact two _ (fun _ _ h => by cases h) h
      split at h
      · exact two _ hmul h
      split at h
      · rcases bind_abort h with h | ⟨x, -, h⟩
        · exact divFunc (by simp) (h1 h)
        rcases bind_abort h with h | ⟨q, -, h⟩
        · exact divFunc (by simp) (evaluateNum_abort h)
        · split at h <;> cases h
      · exact hv _ h
    | a :: b :: c :: as, _, h => exact hv _ h
  | h4 args ih => rw [parseSum] at h; exact hv _ h
  | h5 args ih => rw [parseSum] at h; cases h
  | h6 args ih => rw [parseSum] at h; cases h

/-- `x / 0`: the divisor of the outermost division is checked. -/
example : parseSum .flint (.func ['/'] [.symbol ['x'], .number 0]) = .error .syntax := by decide +kernel

/-- `&sum { x } <= 1` is read by both; division by zero is reported differently. -/
example : SameResult (evaluateTheory .flint id [sumAtom "x" "<=" 1 1] {}) (evaluateTheory .imath id [sumAtom "x" "<=" 1 1] {}) ∧
    (∃ p, evaluateTheory .flint id [sumAtom "x" "<=" 1 1] {} = .ok p ∧ p.iqs.length = 1) ∧
    parseSum .flint divTerm = .error .abort ∧ parseSum .imath divTerm = .error .domain := by
  refine ⟨C59_programs _ _ _, ?_, by decide +kernel, by decide +kernel⟩
  have h : (match evaluateTheory .flint id [sumAtom "x" "<=" 1 1] {} with
    | .ok p => decide (p.iqs.length = 1) | .error _ => false) = true := by decide +kernel
  cases he : evaluateTheory .flint id [sumAtom "x" "<=" 1 1] {} with
  | ok p => rw [he] at h; exact ⟨p, rfl, by simpa using h⟩
  | error e => rw [he] at h; cases h

/-- A session with constraints that is reached with both libraries. -/
example : ∃ (p : Propagator ℚ) (g : _), Reach .flint {} Intact p g ∧ Reach .imath {} Intact p g ∧ p.prog.iqs.length = 1 := by
  obtain ⟨p, g, h1, -, h2⟩ := exists_reach (V := ℚ) (be := .flint) (mode := .intact) (opts := {})
    [.init [sum2Atom "x" "y" ">=" 3 1] 1, .prop 0 0 [1] true, .check 0 true 0]
    (P := fun p _ => decide (p.prog.iqs.length = 1)) (by decide +kernel)
  exact ⟨p, g, h1, C59_sessions p g h1, by simpa using h2⟩

end Lpx.Props
