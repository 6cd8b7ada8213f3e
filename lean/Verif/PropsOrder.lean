import Verif.PropsAccept
import Verif.PropsEnd
import Verif.PropsUnmixed

/-!
# The order of atoms, elements and solving steps does not matter (C78)
-/

set_option linter.unusedSectionVars false

namespace Lpx.Props
open Lpx Lpx.Witness

/-! ### specification -/

/-- The same atom with its elements in another order. -/
structure Reordered (a a' : TAtom) : Prop where
  term : a'.term = a.term
  guard : a'.guard = a.guard
  literal : a'.literal = a.literal
  elements : a.elements.Perm a'.elements

/-- The same atoms in another order, each with its elements in some order. -/
def SameProgram (as as' : List TAtom) : Prop := ∃ bs, as.Perm bs ∧ List.Forall₂ Reordered bs as'

/-- Two truth assignments to the literals of two runs agree on the literals of the program. -/
def AgreeOn (mapper : ℤ → ℤ) (tr : ℤ → Prop) (mapper' : ℤ → ℤ) (tr' : ℤ → Prop) : Prop := ∀ k, tr' (mapper' k) ↔ tr (mapper k)

/-! ### proofs -/

theorem Reordered.symm {a a' : TAtom} (h : Reordered a a') : Reordered a' a := ⟨h.term.symm, h.guard.symm, h.literal.symm, h.elements.symm⟩
theorem Reordered.named {a a' : TAtom} (h : Reordered a a') {n : String} : Named a' n ↔ Named a n := by unfold Named; rw [h.term]
theorem Reordered.constraint {a a' : TAtom} (h : Reordered a a') : IsConstraint a' ↔ IsConstraint a := by unfold IsConstraint; rw [h.named, h.named, h.named]

theorem SameProgram.symm {as as' : List TAtom} (h : SameProgram as as') : SameProgram as' as := by
  obtain ⟨bs, h1, h2⟩ := h
  have h3 : List.Forall₂ Reordered as' bs := h2.flip.imp fun _ _ h => Reordered.symm h
  have h4 : Relation.Comp (List.Forall₂ Reordered) List.Perm as' as := ⟨bs, h3, h1.symm⟩
  rw [List.forall₂_comp_perm_eq_perm_comp_forall₂] at h4
  exact h4

theorem SameProgram.mem {as as' : List TAtom} (h : SameProgram as as') {a' : TAtom} (ha : a' ∈ as') : ∃ a ∈ as, Reordered a a' := by
  obtain ⟨bs, h1, h2⟩ := h
  obtain ⟨i, hi, rfl⟩ := List.getElem_of_mem ha
  have hi' : i < bs.length := by rw [h2.length_eq]; exact hi
  exact ⟨bs[i], h1.symm.subset (List.getElem_mem hi'), List.Forall₂.get h2 hi' hi⟩

theorem elemVals_perm {R : Elem → ℚ → Prop} {es es' : List Elem} {xs : List ℚ} (hp : es.Perm es') (h : List.Forall₂ R es xs) :
    ∃ xs', List.Forall₂ R es' xs' ∧ xs'.sum = xs.sum := by
  obtain ⟨ys, h1, h2⟩ := List.perm_comp_forall₂ hp.symm h
  exact ⟨ys, h1, h2.sum_eq⟩

variable {mapper : ℤ → ℤ} {tr : ℤ → Prop} {c : ℚ} {g : Symbol → ℚ}

theorem single_perm {α : Type} {es : List α} {e : α} {es' : List α} (h : es.Perm es') (he : es = [e]) : es' = [e] := by
  subst he; exact (List.singleton_perm.1 h).symm

theorem AtomHolds.reordered {a a' : TAtom} (h : Reordered a a') (k : AtomHolds mapper tr g a) : AtomHolds mapper tr g a' := by
  cases k with
  | sum op t rel xs y hn hg hr hx hy hh =>
    obtain ⟨xs', h1, h2⟩ := elemVals_perm h.elements hx
    exact .sum op t rel xs' y (h.named.2 hn) (h.guard.trans hg) hr h1 hy (by rw [h2]; exact hh)
  | diff op t rel e l r v w y hn hg hr he ht hv hw hy hh =>
    exact .diff op t rel e l r v w y (h.named.2 hn) (h.guard.trans hg) hr (single_perm h.elements he) ht hv hw hy hh
  | dom op t e l u lo hi s hn hg he ht hl hu hs hh =>
    exact .dom op t e l u lo hi s (h.named.2 hn) (h.guard.trans hg) (single_perm h.elements he) ht hl hu hs hh

theorem AtomHoldsC.reordered {a a' : TAtom} (h : Reordered a a') (k : AtomHoldsC mapper tr c g a) : AtomHoldsC mapper tr c g a' := by
  cases k with
  | sum op t rel xs y hn hg hr hx hy hh =>
    obtain ⟨xs', h1, h2⟩ := elemVals_perm h.elements hx
    exact .sum op t rel xs' y (h.named.2 hn) (h.guard.trans hg) hr h1 hy (by rw [h2]; exact hh)
  | other hn hh => exact .other (fun x => hn (h.named.1 x)) (AtomHolds.reordered h hh)

/-- What an atom contributes to the objective. -/
inductive Adds (mapper : ℤ → ℤ) (tr : ℤ → Prop) (c : ℚ) (g : Symbol → ℚ) (a : TAtom) : ℚ → Prop
  | max (xs) : Named a "maximize" → List.Forall₂ (ElemValC mapper tr c g) a.elements xs → Adds mapper tr c g a xs.sum
  | min (xs) : Named a "minimize" → List.Forall₂ (ElemValC mapper tr c g) a.elements xs → Adds mapper tr c g a (-xs.sum)
  | other : ¬ Named a "maximize" → ¬ Named a "minimize" → Adds mapper tr c g a 0

theorem objValC_cons {a : TAtom} {as : List TAtom} {x : ℚ} : ObjValC mapper tr c g (a :: as) x ↔ ∃ u y, Adds mapper tr c g a u ∧ ObjValC mapper tr c g as y ∧ x = u + y := by
  constructor
  · intro h
    cases h with
    | max _ _ xs y h1 h2 h3 => exact ⟨_, y, .max xs h1 h2, h3, rfl⟩
    | min _ _ xs y h1 h2 h3 => exact ⟨_, y, .min xs h1 h2, h3, rfl⟩
    | other _ _ _ h1 h2 h3 => exact ⟨_, x, .other h1 h2, h3, (zero_add x).symm⟩
  · rintro ⟨u, y, h, k, rfl⟩
    cases h with
    | max xs h1 h2 => exact .max _ _ xs y h1 h2 k
    | min xs h1 h2 => exact .min _ _ xs y h1 h2 k
    | other h1 h2 => rw [zero_add]; exact .other _ _ y h1 h2 k

theorem Adds.reordered {a a' : TAtom} (h : Reordered a a') {u : ℚ} (k : Adds mapper tr c g a u) : Adds mapper tr c g a' u := by
  cases k with
  | max xs h1 h2 =>
    obtain ⟨xs', k1, k2⟩ := elemVals_perm h.elements h2
    rw [← k2]; exact .max xs' (h.named.2 h1) k1
  | min xs h1 h2 =>
    obtain ⟨xs', k1, k2⟩ := elemVals_perm h.elements h2
    rw [← k2]; exact .min xs' (h.named.2 h1) k1
  | other h1 h2 => exact .other (fun x => h1 (h.named.1 x)) fun x => h2 (h.named.1 x)

theorem objValC_perm {as as' : List TAtom} (hp : as.Perm as') : ∀ {x : ℚ}, ObjValC mapper tr c g as x → ObjValC mapper tr c g as' x := by
  induction hp with
  | nil => exact fun h => h
  | cons a _ ih =>
    intro x h
    obtain ⟨u, y, h1, h2, h3⟩ := objValC_cons.1 h
    exact objValC_cons.2 ⟨u, y, h1, ih h2, h3⟩
  | swap a b as =>
    intro x h
    obtain ⟨u, y, h1, h2, rfl⟩ := objValC_cons.1 h
    obtain ⟨v, z, k1, k2, rfl⟩ := objValC_cons.1 h2
    exact objValC_cons.2 ⟨v, u + z, k1, objValC_cons.2 ⟨u, z, h1, k2, rfl⟩, by ring⟩
  | trans _ _ ih1 ih2 => exact fun h => ih2 (ih1 h)

theorem objValC_same {as as' : List TAtom} (h : SameProgram as as') {x : ℚ} (k : ObjValC mapper tr c g as x) : ObjValC mapper tr c g as' x := by
  obtain ⟨bs, h1, h2⟩ := h
  replace k := objValC_perm h1 k
  clear h1
  induction h2 generalizing x with
  | nil => exact k
  | cons hr _ ih =>
    obtain ⟨u, y, k1, k2, k3⟩ := objValC_cons.1 k
    exact objValC_cons.2 ⟨u, y, Adds.reordered hr k1, ih k2, k3⟩

theorem adds_unique {a : TAtom} {u v : ℚ} (h : Adds mapper tr c g a u) (k : Adds mapper tr c g a v) : u = v := by
  cases h with
  | max xs h1 h2 =>
    cases k with
    | max ys k1 k2 => rw [ElemValsC.unique h2 k2]
    | min ys k1 k2 => exact absurd (h1.inj k1) (by decide)
    | other k1 k2 => exact absurd h1 k1
  | min xs h1 h2 =>
    cases k with
    | max ys k1 k2 => exact absurd (h1.inj k1) (by decide)
    | min ys k1 k2 => rw [ElemValsC.unique h2 k2]
    | other k1 k2 => exact absurd h1 k2
  | other h1 h2 =>
    cases k with
    | max ys k1 k2 => exact absurd k1 h1
    | min ys k1 k2 => exact absurd k1 h2
    | other k1 k2 => rfl

theorem objValC_unique {as : List TAtom} : ∀ {x y : ℚ}, ObjValC mapper tr c g as x → ObjValC mapper tr c g as y → x = y := by
  induction as with
  | nil => intro x y h k; cases h; cases k; rfl
  | cons a as ih =>
    intro x y h k
    obtain ⟨u, w, h1, h2, rfl⟩ := objValC_cons.1 h
    obtain ⟨u', w', k1, k2, rfl⟩ := objValC_cons.1 k
    rw [adds_unique h1 k1, ih h2 k2]

section
variable {mapper' : ℤ → ℤ} {tr' : ℤ → Prop}

theorem AgreeOn.symm (h : AgreeOn mapper tr mapper' tr') : AgreeOn mapper' tr' mapper tr := fun k => (h k).symm

theorem elemVal_rename (h : AgreeOn mapper tr mapper' tr') {e : Elem} {x : ℚ} (k : ElemVal mapper tr g e x) : ElemVal mapper' tr' g e x := by
  obtain ⟨t, y, k1, k2, k3⟩ := k
  exact ⟨t, y, k1, k2, by rw [h e.condId]; exact k3⟩

theorem elemValC_rename (h : AgreeOn mapper tr mapper' tr') {e : Elem} {x : ℚ} (k : ElemValC mapper tr c g e x) : ElemValC mapper' tr' c g e x := by
  obtain ⟨t, y, d, k1, k2, k3, k4⟩ := k
  exact ⟨t, y, d, k1, k2, k3, by rw [h e.condId]; exact k4⟩

theorem atomHolds_rename (h : AgreeOn mapper tr mapper' tr') {a : TAtom} (k : AtomHolds mapper tr g a) : AtomHolds mapper' tr' g a := by
  cases k with
  | sum op t rel xs y hn hg hr hx hy hh => exact .sum op t rel xs y hn hg hr (hx.imp fun _ _ => elemVal_rename h) hy hh
  | diff op t rel e l r v w y hn hg hr he ht hv hw hy hh => exact .diff op t rel e l r v w y hn hg hr he ht hv hw hy hh
  | dom op t e l u lo hi s hn hg he ht hl hu hs hh => exact .dom op t e l u lo hi s hn hg he ht hl hu hs hh

theorem atomHoldsC_rename (h : AgreeOn mapper tr mapper' tr') {a : TAtom} (k : AtomHoldsC mapper tr c g a) : AtomHoldsC mapper' tr' c g a := by
  cases k with
  | sum op t rel xs y hn hg hr hx hy hh => exact .sum op t rel xs y hn hg hr (hx.imp fun _ _ => elemValC_rename h) hy hh
  | other hn hh => exact .other hn (atomHolds_rename h hh)

theorem objVal_rename (h : AgreeOn mapper tr mapper' tr') {as : List TAtom} {x : ℚ} (k : ObjVal mapper tr g as x) : ObjVal mapper' tr' g as x := by
  induction k with
  | nil => exact .nil
  | max a as xs y h1 h2 _ ih => exact .max a as xs y h1 (h2.imp fun _ _ => elemVal_rename h) ih
  | min a as xs y h1 h2 _ ih => exact .min a as xs y h1 (h2.imp fun _ _ => elemVal_rename h) ih
  | other a as y h1 h2 _ ih => exact .other a as y h1 h2 ih

theorem objValC_rename (h : AgreeOn mapper tr mapper' tr') {as : List TAtom} {x : ℚ} (k : ObjValC mapper tr c g as x) : ObjValC mapper' tr' c g as x := by
  induction k with
  | nil => exact .nil
  | max a as xs y h1 h2 _ ih => exact .max a as xs y h1 (h2.imp fun _ _ => elemValC_rename h) ih
  | min a as xs y h1 h2 _ ih => exact .min a as xs y h1 (h2.imp fun _ _ => elemValC_rename h) ih
  | other a as y h1 h2 _ ih => exact .other a as y h1 h2 ih

end

variable {mapper' : ℤ → ℤ} {tr' : ℤ → Prop}

/-- The solutions and their objective values in terms of the atoms. -/
theorem loaded_meaning {be : Backend} {atoms : List TAtom} {p : Prog} (h : Loaded be mapper atoms p) (htr : Total tr) (hm : ∀ c, mapper c ≠ 0) {v : ℚ} :
    (∃ g', (∀ s, UserSym s → g' s = g s) ∧ AllHold tr g' p.iqs ∧ evalTerms g' p.objective = v) ↔
      ∃ c, (∀ a ∈ atoms, IsConstraint a → tr (mapper a.literal) → AtomHoldsC mapper tr c g a) ∧ ObjValC mapper tr c g atoms v := by
  have k := h.okC
  constructor
  · rintro ⟨g', hg', hh, rfl⟩
    rw [k.sat tr g' htr hm] at hh
    exact ⟨g' cst, fun a ha hc hl => (hh.2 a ha hc hl).congr hg', (k.obj tr g' hh.1).congr hg'⟩
  · rintro ⟨c, hh, ho⟩
    have hp := h.ok.inv
    refine ⟨auxValC mapper tr c g p.aux, fun s hs => auxValC_user hp hs, ?_, ?_⟩
    · rw [k.sat tr _ htr hm, auxValC_cst hp]
      exact ⟨auxValC_ok hp, fun a ha hc hl => (hh a ha hc hl).congr fun s hs => (auxValC_user hp hs).symm⟩
    · have := k.obj tr _ (auxValC_ok (mapper := mapper) (tr := tr) (c := c) (g := g) hp)
      rw [auxValC_cst hp] at this
      exact objValC_unique (this.congr fun s hs => auxValC_user hp hs) ho

/-- C78: the order of the atoms, the order of the elements in them, the distribution of the atoms over solving steps, the numbers of the literals in the solver and the
library for numbers do not matter: the same values of the user's variables are solutions, with the same values of the objective, for every truth assignment. -/
theorem C78_same_solutions {be be' : Backend} {atoms atoms' : List TAtom} {p p' : Prog} (h : Loaded be mapper atoms p) (h' : Loaded be' mapper' atoms' p')
    (hs : SameProgram atoms atoms') (ha : AgreeOn mapper tr mapper' tr') (htr : Total tr) (hm : ∀ c, mapper c ≠ 0) (htr' : Total tr') (hm' : ∀ c, mapper' c ≠ 0)
    (g : Symbol → ℚ) (v : ℚ) :
    (∃ g', (∀ s, UserSym s → g' s = g s) ∧ AllHold tr g' p.iqs ∧ evalTerms g' p.objective = v) ↔
      ∃ g', (∀ s, UserSym s → g' s = g s) ∧ AllHold tr' g' p'.iqs ∧ evalTerms g' p'.objective = v := by
  rw [loaded_meaning h htr hm, loaded_meaning h' htr' hm']
  have key : ∀ {mapper mapper' : ℤ → ℤ} {tr tr' : ℤ → Prop} {as as' : List TAtom}, SameProgram as as' → AgreeOn mapper tr mapper' tr' →
      (∃ c, (∀ a ∈ as, IsConstraint a → tr (mapper a.literal) → AtomHoldsC mapper tr c g a) ∧ ObjValC mapper tr c g as v) →
      ∃ c, (∀ a ∈ as', IsConstraint a → tr' (mapper' a.literal) → AtomHoldsC mapper' tr' c g a) ∧ ObjValC mapper' tr' c g as' v := by
    rintro mapper mapper' tr tr' as as' hs ha ⟨c, h1, h2⟩
    refine ⟨c, fun a' ha' hc hl => ?_, objValC_rename ha (objValC_same hs h2)⟩
    obtain ⟨a, ham, hr⟩ := hs.mem ha'
    exact atomHoldsC_rename ha (AtomHoldsC.reordered hr (h1 a ham (hr.constraint.1 hc) (by rw [← hr.literal]; exact (ha _).1 hl)))
  exact ⟨key hs ha, key hs.symm ha.symm⟩

theorem WellFormed.reordered {a a' : TAtom} (h : Reordered a a') (k : WellFormed a) : WellFormed a' := by
  cases k with
  | sum op t rel hn hg hr ht he => exact .sum op t rel (h.named.2 hn) (h.guard.trans hg) hr ht fun e hm => he e (h.elements.symm.subset hm)
  | diff op t rel e l r v w hn hg hr ht he hc htu hl hrr =>
    exact .diff op t rel e l r v w (h.named.2 hn) (h.guard.trans hg) hr ht (single_perm h.elements he) hc htu hl hrr
  | dom op t e l u lo hi s hn hg hs he hc htu hl hu =>
    exact .dom op t e l u lo hi s (h.named.2 hn) (h.guard.trans hg) hs (single_perm h.elements he) hc htu hl hu
  | obj hn he => exact .obj (by rwa [h.named, h.named]) fun e hm => he e (h.elements.symm.subset hm)
  | other hn => exact .other (by unfold IsTheoryAtom at hn ⊢; rwa [h.constraint, h.named, h.named])

/-- C78: whether the atoms of a solving step are accepted depends neither on their order nor on the order of their elements (and neither on the earlier steps nor on
the library for numbers): if they are accepted in one order then also in another one, or there are too many auxiliary variables (see C56). -/
theorem C78_same_acceptance {be be' : Backend} {as as' bs bs' : List TAtom} {p p' q : Prog} (h : Loaded be mapper as p) (h' : Loaded be' mapper' as' p')
    (hs : SameProgram bs bs') (ha : evaluateTheory be mapper bs p = .ok q) :
    (∃ q', evaluateTheory be' mapper' bs' p' = .ok q') ∨
      (evaluateTheory be' mapper' bs' p' = .error .overflow ∧ TooMany (as' ++ bs') ∧ ∃ b ∈ bs', ∃ e ∈ b.elements, e.cond ≠ []) := by
  obtain ⟨h1, h2⟩ := C56_accepted_is_wellformed be mapper as bs p q h ha
  refine C56_wellformed_is_accepted be' mapper' as' bs' p' h' (fun b' hb' => ?_) ?_
  · obtain ⟨b, hb, hr⟩ := hs.mem hb'
    exact WellFormed.reordered hr (h1 b hb)
  · have hl : Loaded be mapper (as ++ bs) q := .step as bs p q h ha
    exact objVal_rename (mapper := mapper) (tr := fun _ => False) (mapper' := mapper') (tr' := fun _ => False) (fun _ => Iff.rfl) (objValC_same hs (ObjVal.toC (fun b hb => hl.okC.terms b (List.mem_append_right _ hb)) h2)).one

/-- C78: without conditional elements, acceptance does not depend on the order at all. -/
theorem C78_same_acceptance_plain {be be' : Backend} {as as' bs bs' : List TAtom} {p p' : Prog} (h : Loaded be mapper as p) (h' : Loaded be' mapper' as' p')
    (hs : SameProgram bs bs') (hun : ∀ b ∈ bs, ∀ e ∈ b.elements, e.cond = []) :
    (∃ q, evaluateTheory be mapper bs p = .ok q) ↔ ∃ q', evaluateTheory be' mapper' bs' p' = .ok q' := by
  have hun' : ∀ b ∈ bs', ∀ e ∈ b.elements, e.cond = [] := fun b' hb' e he => by
    obtain ⟨b, hb, hr⟩ := hs.mem hb'
    exact hun b hb e (hr.elements.symm.subset he)
  constructor
  · rintro ⟨q, hq⟩
    rcases C78_same_acceptance h h' hs hq with h1 | ⟨-, -, b, hb, e, he, hc⟩
    · exact h1
    · exact absurd (hun' b hb e he) hc
  · rintro ⟨q, hq⟩
    rcases C78_same_acceptance h' h hs.symm hq with h1 | ⟨-, -, b, hb, e, he, hc⟩
    · exact h1
    · exact absurd (hun b hb e he) hc

/-! ### reported objective values -/

/-- The objective reported for a total assignment after a successful check, in a run of the program `atoms`, where the atoms `old` have
been passed in earlier solving steps. `Q` restricts the histories. -/
structure Shows {V : Type} [LpFull V] (be : Backend) (opts : Options) (Q : Restr V) (mapper : ℤ → ℤ) (atoms : List TAtom) (tr : ℤ → Prop) (o : V × Bool) : Prop where
  ex : ∃ (p0 p1 p : Propagator V) (g0 g1 g : Ghost V) (old new : List TAtom) (envs : ℕ → InitEnv) (n th : ℕ) (gt : GThr),
    Reach be opts Q p0 g0 ∧ Loaded be mapper old p0.prog ∧ p0.init be mapper new envs n = .ok (p1, true) ∧ 0 < n ∧ atoms = old ++ new ∧
    Step be Q p0 g0 p1 g1 ∧ LaterInStep be Q p1 g1 p g ∧ Covered V p.prog ∧ g.thrs[th]? = some gt ∧ gt.stuck = false ∧ gt.checked = true ∧
    Guaranteed p1 p gt envs tr ∧ (∀ l, Act gt.frames l → tr l) ∧ p.objectiveOf th = [o]

/-- For programs of plain atoms, all histories are harmless. -/
theorem Shows.plain {V : Type} [LpFull V] {be : Backend} {opts : Options} {Q : Restr V} {atoms : List TAtom} {o : V × Bool} (hq : StepOK V opts) (hp : ∀ a ∈ atoms, Plain a)
    (h : Shows be opts Q mapper atoms tr o) : Shows be opts Intact mapper atoms tr o := by
  obtain ⟨p0, p1, p, g0, g1, g, old, new, envs, n, th, gt, hr0, hload, hi, hn, rfl, h1, hl, k⟩ := h
  have hu1 : Unmixed p1.prog.iqs := C45_plain_programs (init_loaded hload hi) hp
  have hu0 : Unmixed p0.prog.iqs := C45_plain_programs hload fun a h => hp a (by simp [h])
  exact ⟨p0, p1, p, g0, g1, g, old, new, envs, n, th, gt, hu0.reach hq hr0, hload, hi, hn, rfl, hu0.step hq hr0 h1, Unmixed.later hq (hr0.step h1) hl hu1, k⟩

/-- The atoms hold as written, and the objective has the value `w`. -/
def SolvesAs (mapper : ℤ → ℤ) (atoms : List TAtom) (tr : ℤ → Prop) (w : ℚ) (gv : Symbol → ℚ) : Prop :=
  (∀ a ∈ atoms, IsConstraint a → tr (mapper a.literal) → AtomHolds mapper tr gv a) ∧ ObjVal mapper tr gv atoms w

theorem SolvesAs.same {be : Backend} {atoms atoms' : List TAtom} {p : Prog} (h : Loaded be mapper atoms p) (hs : SameProgram atoms atoms') (ha : AgreeOn mapper tr mapper' tr') {w : ℚ}
    (k : SolvesAs mapper atoms tr w g) : SolvesAs mapper' atoms' tr' w g := by
  refine ⟨fun a' ha' hc hl => ?_, objVal_rename ha (objValC_same hs (ObjVal.toC h.okC.terms k.2)).one⟩
  obtain ⟨a, ham, hr⟩ := hs.mem ha'
  exact atomHolds_rename ha (AtomHolds.reordered hr (k.1 a ham (hr.constraint.1 hc) (by rw [← hr.literal]; exact (ha _).1 hl)))

theorem Shows.spec {V : Type} [LpFull V] {be : Backend} {opts : Options} {atoms : List TAtom} {o : V × Bool} (hq : StepOK V opts) (hm : ∀ c, mapper c ≠ 0)
    (hcc : ∀ a ∈ atoms, CondConstZero a) (h : Shows be opts Intact mapper atoms tr o) :
    (∃ p, Loaded be mapper atoms p) ∧
    (o.2 = true → (Small fun e => ∃ gv, SolvesAs mapper atoms tr (LpSem.conc e o.1) gv) ∧ ∀ gv w, SolvesAs mapper atoms tr w gv → LpValue.ofRat w ≤ o.1) ∧
    (o.2 = false → ∀ q, ∃ gv w, SolvesAs mapper atoms tr w gv ∧ q < w) := by
  obtain ⟨p0, p1, p, g0, g1, g, old, new, envs, n, th, gt, hr0, hload, hi, hn, rfl, h1, hl, hcov, hgt, hst, hck, htr, hact, ho⟩ := h
  obtain ⟨v, b⟩ := o
  refine ⟨⟨_, init_loaded hload hi⟩, ?_, ?_⟩
  · rintro ⟨⟩
    obtain ⟨k1, k2⟩ := C44_optimal_partial hq hr0 hload hi hn hm h1 hl hcov hcc hgt hst hck htr hact ho
    have k3 := C44_models_satisfy_the_program_partial hq hr0 hload hi hn hm h1 hl hcov hcc hgt hst htr
    exact ⟨(k1.and k3).mono fun e _ k => ⟨_, k.2, k.1⟩, fun gv w hw => k2 gv w hw.1 hw.2⟩
  · rintro ⟨⟩ q
    obtain ⟨gv, w, k1, k2, k3⟩ := C44_unbounded_partial hq hr0 hload hi hn hm h1 hl hcov hcc hgt hck htr ho q
    exact ⟨gv, w, ⟨k1, k2⟩, k3⟩

/-- A bound on all values is one on what is reported, apart from the infinitesimal part. -/
theorem Shows.compare {V V' : Type} [LpFull V] [LpFull V'] {be be' : Backend} {opts opts' : Options} {atoms atoms' : List TAtom} {o : V × Bool} {o' : V' × Bool}
    (hq : StepOK V opts) (hq' : StepOK V' opts')
    (hm : ∀ c, mapper c ≠ 0) (hm' : ∀ c, mapper' c ≠ 0) (hcc : ∀ a ∈ atoms, CondConstZero a) (hcc' : ∀ a ∈ atoms', CondConstZero a) (hs : SameProgram atoms atoms')
    (ha : AgreeOn mapper tr mapper' tr') (h : Shows be opts Intact mapper atoms tr o) (h' : Shows be' opts' Intact mapper' atoms' tr' o') (hb : o'.2 = true) :
    o.2 = true ∧ Small fun e => LpValue.ofRat (LpSem.conc e o.1) ≤ o'.1 := by
  obtain ⟨⟨p, hp⟩, h1, h2⟩ := h.spec hq hm hcc
  obtain ⟨-, h1', -⟩ := h'.spec hq' hm' hcc'
  obtain ⟨-, k2'⟩ := h1' hb
  cases hb0 : o.2 with
  | true => exact ⟨rfl, (h1 hb0).1.mono fun e _ ⟨gv, k⟩ => k2' gv _ (k.same hp hs ha)⟩
  | false =>
    exfalso
    have key : ∀ q : ℚ, (LpValue.ofRat q : V') ≤ o'.1 := fun q => by
      obtain ⟨gv, w, k1, k4⟩ := h2 hb0 q
      exact ((ofRat_le_iff _ _).2 k4.le).trans (k2' gv w (k1.same hp hs ha))
    obtain ⟨B, hB⟩ := LpValue.archimedean o'.1
    exact absurd (key B) (not_le.2 hB)

theorem small_c {v v' : RatQ} (h : Small fun e => (LpValue.ofRat (LpSem.conc e v) : RatQ) ≤ v') : v.c ≤ v'.c := by
  obtain ⟨δ, hδ, h⟩ := h
  by_contra hlt
  push Not at hlt
  have hk : 0 < |v.k| + 1 := by positivity
  have h1 : 0 < (v.c - v'.c) / 2 / (|v.k| + 1) := by
    have : 0 < v.c - v'.c := by linarith
    positivity
  have h2 := h (min δ ((v.c - v'.c) / 2 / (|v.k| + 1))) (lt_min hδ h1) (min_le_left _ _)
  generalize he : min δ ((v.c - v'.c) / 2 / (|v.k| + 1)) = e at h2
  have he0 : 0 < e := he ▸ lt_min hδ h1
  have he1 : e * (|v.k| + 1) ≤ (v.c - v'.c) / 2 := by
    rw [← le_div_iff₀ hk, ← he]; exact min_le_right _ _
  have h3 : v.c + v.k * e ≤ v'.c := by
    rcases (RatQ.le_def _ _).1 h2 with h4 | ⟨h4, -⟩
    · exact h4.le
    · exact h4.le
  have h5 : -(v.k * e) ≤ |v.k| * e := by nlinarith [neg_abs_le v.k]
  nlinarith

theorem Plain.same {atoms atoms' : List TAtom} (hs : SameProgram atoms atoms') (h : ∀ a ∈ atoms, Plain a) : ∀ a ∈ atoms', Plain a := fun a' ha' => by
  obtain ⟨a, ha, hr⟩ := hs.mem ha'
  refine ⟨fun e he => (h a ha).cond e (hr.elements.symm.subset he), fun hn gd hg => (h a ha).guard ?_ gd (by rw [← hr.guard]; exact hg)⟩
  rwa [hr.named, hr.named] at hn

theorem CondConstZero.same {atoms atoms' : List TAtom} (hs : SameProgram atoms atoms') (hcc : ∀ a ∈ atoms, CondConstZero a) : ∀ a ∈ atoms', CondConstZero a := fun a' ha' e he => by
  obtain ⟨a, ha, hr⟩ := hs.mem ha'
  exact hcc a ha e (hr.elements.symm.subset he)

/-- C78 (partial: `Intact`, `Covered`, no non-zero constants in conditional elements, without `--strict`): two runs of the same program with the atoms and
elements in different orders, distributed over solving steps in different ways, with different numbers of literals, options and libraries, agree for each total assignment on
whether the objective is bounded and on its optimum. -/
theorem C78_same_optimum_partial {be be' : Backend} {opts opts' : Options} {atoms atoms' : List TAtom} {o o' : ℚ × Bool} (hq : StepOK ℚ opts) (hq' : StepOK ℚ opts')
    (hm : ∀ c, mapper c ≠ 0) (hm' : ∀ c, mapper' c ≠ 0) (hcc : ∀ a ∈ atoms, CondConstZero a) (hs : SameProgram atoms atoms') (ha : AgreeOn mapper tr mapper' tr')
    (h : Shows be opts Intact mapper atoms tr o) (h' : Shows be' opts' Intact mapper' atoms' tr' o') : o.2 = o'.2 ∧ (o.2 = true → o.1 = o'.1) := by
  have hcc' := CondConstZero.same hs hcc
  have k := Shows.compare hq hq' hm hm' hcc hcc' hs ha h h'
  have k' := Shows.compare hq' hq hm' hm hcc' hcc hs.symm ha.symm h' h
  have hb : o.2 = o'.2 := by rw [Bool.eq_iff_iff]; exact ⟨fun hb => (k' hb).1, fun hb => (k hb).1⟩
  refine ⟨hb, fun hb1 => ?_⟩
  obtain ⟨e, -, j⟩ := (k (hb ▸ hb1)).2.exists
  obtain ⟨e', -, j'⟩ := (k' hb1).2.exists
  exact le_antisymm ((ofRat_le_iff (V := ℚ) _ _).1 j) ((ofRat_le_iff (V := ℚ) _ _).1 j')

/-- C78 with `--strict` (partial: `Intact`, `Covered`, no non-zero constants in conditional elements): the two runs agree on whether the objective is
bounded and on the least upper bound of its values. The reported values are equal up to multiples of the infinitesimal. -/
theorem C78_same_supremum_partial {be be' : Backend} {opts opts' : Options} {atoms atoms' : List TAtom} {o o' : RatQ × Bool} (hq : StepOK RatQ opts) (hq' : StepOK RatQ opts')
    (hm : ∀ c, mapper c ≠ 0) (hm' : ∀ c, mapper' c ≠ 0) (hcc : ∀ a ∈ atoms, CondConstZero a) (hs : SameProgram atoms atoms') (ha : AgreeOn mapper tr mapper' tr')
    (h : Shows be opts Intact mapper atoms tr o) (h' : Shows be' opts' Intact mapper' atoms' tr' o') : o.2 = o'.2 ∧ (o.2 = true → o.1.c = o'.1.c) := by
  have hcc' := CondConstZero.same hs hcc
  have k := Shows.compare hq hq' hm hm' hcc hcc' hs ha h h'
  have k' := Shows.compare hq' hq hm' hm hcc' hcc hs.symm ha.symm h' h
  have hb : o.2 = o'.2 := by rw [Bool.eq_iff_iff]; exact ⟨fun hb => (k' hb).1, fun hb => (k hb).1⟩
  exact ⟨hb, fun hb1 => le_antisymm (small_c (k (hb ▸ hb1)).2) (small_c (k' hb1).2)⟩

/-- C78 for programs of plain atoms (no conditions, no equations), whatever happens in the two runs, including levels undone in any way (partial: constraints
without variables have to compare with zero). -/
theorem C78_same_optimum_plain_partial {be be' : Backend} {opts opts' : Options} {Q Q' : Restr ℚ} {atoms atoms' : List TAtom} {o o' : ℚ × Bool} (hq : StepOK ℚ opts)
    (hq' : StepOK ℚ opts') (hm : ∀ c, mapper c ≠ 0) (hm' : ∀ c, mapper' c ≠ 0) (hpl : ∀ a ∈ atoms, Plain a)
    (hs : SameProgram atoms atoms') (ha : AgreeOn mapper tr mapper' tr')
    (h : Shows be opts Q mapper atoms tr o) (h' : Shows be' opts' Q' mapper' atoms' tr' o') : o.2 = o'.2 ∧ (o.2 = true → o.1 = o'.1) :=
  C78_same_optimum_partial hq hq' hm hm' (fun a ha e he hc => absurd ((hpl a ha).cond e he) hc) hs ha (h.plain hq hpl)
    (h'.plain hq' (Plain.same hs hpl))

/-- `endProg` in another order: `&minimize{ 2*y : a; x }`, then `&sum{ 2*y : a; x }`, then `&sum{ x } <= 2`. -/
def endProg' : List TAtom := [{ exMin with elements := exMin.elements.reverse }, { exAtom with elements := exAtom.elements.reverse }, sumAtom "x" "<=" 2 1]

theorem endProg_same : SameProgram endProg endProg' := by
  have hrev : ∀ a : TAtom, Reordered a { a with elements := a.elements.reverse } := fun a => ⟨rfl, rfl, rfl, (List.reverse_perm _).symm⟩
  refine ⟨[exMin, exAtom, sumAtom "x" "<=" 2 1], ?_, .cons (hrev _) (.cons (hrev _) (.cons ⟨rfl, rfl, rfl, List.Perm.refl _⟩ .nil))⟩
  exact (List.perm_append_comm (l₁ := [exAtom, sumAtom "x" "<=" 2 1]) (l₂ := [exMin]))

/-- The hypotheses of `C78_same_solutions` are met by `endProg` in one step and in another order in two steps; the constraints differ. -/
example : ∃ p p', Loaded .imath mapLit endProg p ∧ Loaded .flint mapLit endProg' p' ∧ SameProgram endProg endProg' ∧ p.iqs ≠ p'.iqs ∧
    AgreeOn mapLit posTrue mapLit posTrue ∧ Total posTrue := by
  have h1 : (match evaluateTheory .imath mapLit endProg {} with
      | .ok p => (match evaluateTheory .flint mapLit [{ exMin with elements := exMin.elements.reverse }] {} with
        | .ok q => (match evaluateTheory .flint mapLit [{ exAtom with elements := exAtom.elements.reverse }, sumAtom "x" "<=" 2 1] q with
          | .ok p' => decide (p.iqs ≠ p'.iqs)
          | .error _ => false)
        | .error _ => false)
      | .error _ => false) = true := by decide +kernel
  split at h1
  · rename_i p hp
    split at h1
    · rename_i q hq
      split at h1
      · rename_i p' hp'
        exact ⟨p, p', .one hp, .step _ _ q p' (.one hq) hp', endProg_same, of_decide_eq_true h1, fun _ => Iff.rfl, posTrue_total⟩
      · cases h1
    · cases h1
  · cases h1

/-- The hypotheses of `C78_same_optimum_partial` are met by runs on `endProg` in the two orders. -/
example : ∃ o o', Shows (V := ℚ) .imath {} Intact mapLit endProg posTrue o ∧ Shows (V := ℚ) .imath {} Intact mapLit endProg' posTrue o' ∧ SameProgram endProg endProg' ∧
    (∀ a ∈ endProg, CondConstZero a) ∧ o.2 = true := by
  obtain ⟨p1, p, g1, g, gt, h1, h2, h3, h4, h5, h6, h7, h8, h9, h10, h11⟩ := exists_end (mode := .intact) endProg endScript rfl
    (P := fun p => decide (p.objectiveOf 0 = [(-3, true)])) (by decide +kernel)
  obtain ⟨q1, q, g1', g', gt', k1, k2, k3, k4, k5, k6, k7, k8, k9, k10, k11⟩ := exists_end (mode := .intact) endProg' endScript rfl
    (P := fun p => decide (p.objectiveOf 0 = [(-3, true)])) (by decide +kernel)
  exact ⟨(-3, true), (-3, true),
    ⟨_, p1, p, {}, g1, g, [], endProg, _, 1, 0, gt, .start, .start, h1, one_pos, rfl, h2, h3, ⟨fun x hx h => absurd h (h4 x hx), h5⟩, h6, h7, h8, h9, h10,
      of_decide_eq_true h11⟩,
    ⟨_, q1, q, {}, g1', g', [], endProg', _, 1, 0, gt', .start, .start, k1, one_pos, rfl, k2, k3, ⟨fun x hx h => absurd h (k4 x hx), k5⟩, k6, k7, k8, k9, k10,
      of_decide_eq_true k11⟩, endProg_same, endProg_zero, rfl⟩

/-- `&sum{ x } < 2`, `&sum{ x + y } <= 5`, `&sum{ y } > 2`, `&maximize{ x }`. -/
def strictOrd : List TAtom := [sumAtom "x" "<" 2 1, sum2Atom "x" "y" "<=" 5 2, sumAtom "y" ">" 2 3, maxAtom "x"]

theorem strictOrd_cond : ∀ a ∈ strictOrd, ∀ e ∈ a.elements, e.cond = [] := by
  decide

theorem reverse_same (as : List TAtom) : SameProgram as as.reverse :=
  ⟨as.reverse, (List.reverse_perm as).symm, List.forall₂_same.2 fun a _ => ⟨rfl, rfl, rfl, List.Perm.refl _⟩⟩

/-- The hypotheses of `C78_same_supremum_partial` are met by runs on a program with strict constraints in two orders; the supremum is not attained. -/
example : ∃ o o' : RatQ × Bool, Shows .imath {} Intact mapLit strictOrd posTrue o ∧ Shows .imath {} Intact mapLit strictOrd.reverse posTrue o' ∧
    SameProgram strictOrd strictOrd.reverse ∧ (∀ a ∈ strictOrd, CondConstZero a) ∧ o.2 = true ∧ o.1.k ≠ 0 := by
  obtain ⟨p1, p, g1, g, gt, h1, h2, h3, h4, h5, h6, h7, h8, h9, h10, h11⟩ := exists_endV (V := RatQ) (mode := .intact) strictOrd
    [.prop 0 0 [1, 2, 3] true, .check 0 true 0] rfl (P := fun p => decide (p.objectiveOf 0 = [(⟨2, -1⟩, true)])) (by decide +kernel)
  obtain ⟨q1, q, g1', g', gt', k1, k2, k3, k4, k5, k6, k7, k8, k9, k10, k11⟩ := exists_endV (V := RatQ) (mode := .intact) strictOrd.reverse
    [.prop 0 0 [3, 1, 2] true, .check 0 true 0] rfl (P := fun p => decide (p.objectiveOf 0 = [(⟨2, -1⟩, true)])) (by decide +kernel)
  exact ⟨(⟨2, -1⟩, true), (⟨2, -1⟩, true),
    ⟨_, p1, p, {}, g1, g, [], strictOrd, _, 1, 0, gt, .start, .start, h1, one_pos, rfl, h2, h3, ⟨fun x hx h => absurd h (h4 x hx), h5⟩, h6, h7, h8, h9, h10,
      of_decide_eq_true h11⟩,
    ⟨_, q1, q, {}, g1', g', [], strictOrd.reverse, _, 1, 0, gt', .start, .start, k1, one_pos, rfl, k2, k3, ⟨fun x hx h => absurd h (k4 x hx), k5⟩, k6, k7, k8, k9, k10,
      of_decide_eq_true k11⟩, reverse_same _, fun a ha e he hc => absurd (strictOrd_cond a ha e he) hc, rfl, by decide⟩

/-- The hypotheses of `C78_same_optimum_plain_partial` are met by runs in which levels are undone. -/
example : ∃ o o' : ℚ × Bool, Shows .imath {} AnyLits mapLit plainProg posTrue o ∧ Shows .imath {} AnyLits mapLit plainProg.reverse posTrue o' ∧
    SameProgram plainProg plainProg.reverse ∧ (∀ a ∈ plainProg, Plain a) ∧ o.2 = true := by
  obtain ⟨p1, p, g1, g, gt, h1, h2, h3, h4, h5, h6, h7, h8, h9, h10, h11⟩ := exists_end (mode := .any) plainProg
    [.prop 0 0 [1] true, .prop 1 0 [2] true, .undo 0, .prop 1 0 [2, 3] true, .check 1 true 0] rfl
    (P := fun p => decide (p.objectiveOf 0 = [(3, true)])) (by decide +kernel)
  obtain ⟨q1, q, g1', g', gt', k1, k2, k3, k4, k5, k6, k7, k8, k9, k10, k11⟩ := exists_end (mode := .any) plainProg.reverse
    [.prop 0 0 [3] true, .prop 1 0 [1] true, .undo 0, .prop 1 0 [2, 1] true, .check 1 true 0] rfl
    (P := fun p => decide (p.objectiveOf 0 = [(3, true)])) (by decide +kernel)
  exact ⟨(3, true), (3, true),
    ⟨_, p1, p, {}, g1, g, [], plainProg, _, 1, 0, gt, .start, .start, h1, one_pos, rfl, h2, h3, ⟨fun x hx h => absurd h (h4 x hx), h5⟩, h6, h7, h8, h9, h10,
      of_decide_eq_true h11⟩,
    ⟨_, q1, q, {}, g1', g', [], plainProg.reverse, _, 1, 0, gt', .start, .start, k1, one_pos, rfl, k2, k3, ⟨fun x hx h => absurd h (k4 x hx), k5⟩, k6, k7, k8, k9, k10,
      of_decide_eq_true k11⟩, reverse_same _, plainProg_plain, rfl⟩

end Lpx.Props
