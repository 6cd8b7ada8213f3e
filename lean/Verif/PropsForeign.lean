import Verif.PropsEnd

/-!
# Atoms of other theories are ignored (C79)
-/

namespace Lpx.Props
open Lpx Lpx.Witness

variable {V : Type} [LpFull V] {be : Backend} {mapper : ℤ → ℤ} {a : TAtom}

theorem not_isName (ha : ¬ IsTheoryAtom a) : isName a.term "dom".toList = false ∧ isName a.term "diff".toList = false ∧ isName a.term "sum".toList = false ∧
    isName a.term "minimize".toList = false ∧ isName a.term "maximize".toList = false := by
  have key : ∀ n : String, ¬ Named a n → isName a.term n.toList = false := fun n h => by
    cases hn : isName a.term n.toList with
    | false => rfl
    | true => exact absurd ((isName_iff a n).1 hn) h
  unfold IsTheoryAtom IsConstraint at ha
  push Not at ha
  exact ⟨key _ ha.1.2.2, key _ ha.1.2.1, key _ ha.1.1, key _ ha.2.1, key _ ha.2.2⟩

theorem parseAtom_foreign (ha : ¬ IsTheoryAtom a) (p : Prog) : parseAtom be mapper p a = .ok p := by
  obtain ⟨h1, h2, h3, h4, h5⟩ := not_isName ha
  rw [show "dom".toList = ['d', 'o', 'm'] by decide] at h1
  rw [show "diff".toList = ['d', 'i', 'f', 'f'] by decide] at h2
  rw [show "sum".toList = ['s', 'u', 'm'] by decide] at h3
  unfold parseAtom
  rw [h1, h2, h3, h4, h5]
  rfl

theorem parseAtoms_foreign (ha : ¬ IsTheoryAtom a) (as bs : List TAtom) : ∀ p : Prog,
    parseAtoms be mapper (as ++ a :: bs) p = parseAtoms be mapper (as ++ bs) p := by
  induction as with
  | nil =>
    intro p
    rw [List.nil_append, List.nil_append, parseAtoms, parseAtom_foreign ha]
    rfl
  | cons b as ih =>
    intro p
    rw [List.cons_append, List.cons_append, parseAtoms, parseAtoms]
    cases parseAtom be mapper p b with
    | error e => rfl
    | ok q => exact ih q

theorem parseAtomsLeft_foreign (ha : ¬ IsTheoryAtom a) (as bs : List TAtom) : ∀ p : Prog,
    parseAtomsLeft be mapper (as ++ a :: bs) p = parseAtomsLeft be mapper (as ++ bs) p := by
  induction as with
  | nil =>
    intro p
    rw [List.nil_append, List.nil_append, parseAtomsLeft, parseAtom_foreign ha]
  | cons b as ih =>
    intro p
    rw [List.cons_append, List.cons_append, parseAtomsLeft, parseAtomsLeft]
    cases parseAtom be mapper p b with
    | error e => rfl
    | ok q => exact ih q

/-- C79: an atom whose name is not one of those of the theory has no effect: `init` gives the same result, the same state and the same error without it. -/
theorem C79_other_theories (ha : ¬ IsTheoryAtom a) (as bs : List TAtom) (envs : ℕ → InitEnv) (n : ℕ) (p : Propagator V) :
    p.init be mapper (as ++ a :: bs) envs n = p.init be mapper (as ++ bs) envs n ∧
    p.initFail be mapper (as ++ a :: bs) = p.initFail be mapper (as ++ bs) := by
  constructor
  · unfold Propagator.init evaluateTheory
    rw [parseAtoms_foreign ha]
  · unfold Propagator.initFail evaluateLeft
    rw [parseAtoms_foreign ha, parseAtomsLeft_foreign ha]

/-- C79: nor do any number of them, wherever they are. -/
theorem C79_filter (atoms : List TAtom) (keep : TAtom → Bool) (hk : ∀ a ∈ atoms, IsTheoryAtom a → keep a = true) (envs : ℕ → InitEnv) (n : ℕ) (p : Propagator V) :
    p.init be mapper (atoms.filter keep) envs n = p.init be mapper atoms envs n ∧
    p.initFail be mapper (atoms.filter keep) = p.initFail be mapper atoms := by
  suffices h : ∀ (bs as : List TAtom), (∀ a ∈ bs, IsTheoryAtom a → keep a = true) →
      p.init be mapper (as ++ bs.filter keep) envs n = p.init be mapper (as ++ bs) envs n ∧
      p.initFail be mapper (as ++ bs.filter keep) = p.initFail be mapper (as ++ bs) by
    simpa using h atoms [] hk
  intro bs
  induction bs with
  | nil => intro as _; simp
  | cons b bs ih =>
    intro as hk
    have hk' : ∀ a ∈ bs, IsTheoryAtom a → keep a = true := fun a h => hk a (List.mem_cons_of_mem _ h)
    cases hb : keep b with
    | true =>
      rw [List.filter_cons_of_pos hb]
      have := ih (as ++ [b]) hk'
      simpa using this
    | false =>
      rw [List.filter_cons_of_neg (by simp [hb])]
      have hf : ¬ IsTheoryAtom b := fun h => by
        have := hk b List.mem_cons_self h
        rw [hb] at this
        cases this
      obtain ⟨h1, h2⟩ := ih as hk'
      obtain ⟨k1, k2⟩ := C79_other_theories (be := be) (mapper := mapper) hf as bs envs n p
      exact ⟨h1.trans k1.symm, h2.trans k2.symm⟩

/-- `&leave{ 3 }`, an atom of another theory with a name of its own. -/
def foreign : TAtom where
  term := .symbol "leave".toList
  elements := [⟨[.number 3], [], 0⟩]
  guard := none
  literal := 9

/-- The hypothesis is met, also by a name of the theory with arguments. -/
example : ¬ IsTheoryAtom foreign ∧ ¬ IsTheoryAtom { foreign with term := .func "sum".toList [.number 1] } ∧ IsTheoryAtom { foreign with term := .func "sum".toList [] } := by
  refine ⟨?_, ?_, ?_⟩
  · simp only [IsTheoryAtom, IsConstraint, ← isName_iff]; decide
  · simp only [IsTheoryAtom, IsConstraint, ← isName_iff]; decide
  · exact Or.inl (Or.inl (Or.inr rfl))

end Lpx.Props
