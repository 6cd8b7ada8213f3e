import Verif.CondConst

/-! # What remains of a rejected program -/

namespace Lpx

/-- Specification: the half of a `&dom` atom that has been added when the evaluation of its lower bound fails. -/
structure HalfDom (mapper : ℤ → ℤ) (a : TAtom) (iq : Ineq Symbol) : Prop where
  named : Named a "dom"
  shape : ∃ op t e l u s hi, a.guard = some (op, t) ∧ a.elements = [e] ∧ e.tuple = [.func ['.', '.'] [l, u]] ∧
    Denotes false t (.sym s) ∧ Denotes true u (.rat hi) ∧ (∀ x, ¬ Denotes true l (.rat x)) ∧
    iq = ⟨[⟨1, s⟩], hi, .le, mapper a.literal⟩

/-- Specification: what `Ext` and `ExtC` say about the same extension. -/
structure Both (mapper : ℤ → ℤ) (p p' : Prog) (auxs : List ((Symbol × ℤ) × Symbol)) (nq : List (Ineq Symbol)) : Prop
    extends Ext mapper p p' auxs nq where
  extC : ExtC mapper p p' auxs nq

theorem Both.of {mapper : ℤ → ℤ} {p p' : Prog} {a a' : List ((Symbol × ℤ) × Symbol)} {i i' : List (Ineq Symbol)} (h : Ext mapper p p' a i)
    (k : ExtC mapper p p' a' i') : Both mapper p p' a i := by
  have h1 : a = a' := List.append_cancel_left (h.aux.symm.trans k.aux)
  have h2 : i = i' := List.append_cancel_left (h.iqs.symm.trans k.iqs)
  subst h1 h2
  exact ⟨h, k⟩

theorem Both.refl (mapper : ℤ → ℤ) (p : Prog) : Both mapper p p [] [] := ⟨.refl mapper p, .refl mapper p⟩

theorem Both.trans {mapper : ℤ → ℤ} {p q r : Prog} {a b i j} (h : Both mapper p q a i) (k : Both mapper q r b j) : Both mapper p r (a ++ b) (i ++ j) :=
  ⟨h.toExt.trans k.toExt, h.extC.trans k.extC⟩

theorem condTermsLeft_ext {mapper : ℤ → ℤ} {c : ℤ} : ∀ {ts : List (Term Symbol)} {p : Prog},
    (∀ t ∈ ts, t.var = cst ∨ UserSym t.var) → ∃ a i, Both mapper p (condTermsLeft mapper c ts p) a i := by
  intro ts
  induction ts with
  | nil => intro p _; exact ⟨[], [], .refl mapper p⟩
  | cons t ts ih =>
    intro p hu
    rw [condTermsLeft]
    split
    · rename_i r hr
      obtain ⟨a, i, e1, -⟩ := condTerm_ok (hu t (by simp)) hr
      obtain ⟨a', i', e1', -⟩ := condTermC (hu t (by simp)) hr
      obtain ⟨b, j, e2⟩ := ih (p := r.1) fun u hu' => hu u (by simp [hu'])
      exact ⟨_, _, (Both.of e1 e1').trans e2⟩
    · exact ⟨[], [], .refl mapper p⟩

theorem parseElemLeft_ext {be : Backend} {mapper : ℤ → ℤ} {p : Prog} {e : Elem} : ∃ a i, Both mapper p (parseElemLeft be mapper p e) a i := by
  unfold parseElemLeft
  split
  · split
    · rename_i ts hs
      split
      · exact ⟨[], [], .refl mapper p⟩
      · exact condTermsLeft_ext (parseSum_ok be _ hs).user
    · exact ⟨[], [], .refl mapper p⟩
  · exact ⟨[], [], .refl mapper p⟩

theorem parseElemsLeft_ext {be : Backend} {mapper : ℤ → ℤ} : ∀ {es : List Elem} {p : Prog}, ∃ a i, Both mapper p (parseElemsLeft be mapper es p) a i := by
  intro es
  induction es with
  | nil => intro p; exact ⟨[], [], .refl mapper p⟩
  | cons e es ih =>
    intro p
    rw [parseElemsLeft]
    split
    · rename_i r hr
      obtain ⟨a, i, e1, -⟩ := parseElem_ok hr
      obtain ⟨a', i', e1', -⟩ := parseElemC hr
      obtain ⟨b, j, e2⟩ := ih (p := r.1)
      exact ⟨_, _, (Both.of e1 e1').trans e2⟩
    · exact parseElemLeft_ext

theorem parseDomLeft_spec {be : Backend} {mapper : ℤ → ℤ} {p : Prog} {a : TAtom} {er : Err} (hn : Named a "dom")
    (h : parseDom be mapper p a = .error er) :
    parseDomLeft be mapper p a = p ∨ ∃ iq, HalfDom mapper a iq ∧ parseDomLeft be mapper p a = { p with iqs := p.iqs ++ [iq] } := by
  unfold parseDomLeft
  split
  · rename_i e g he hg
    split
    · rename_i name l u ht
      split
      · rename_i hc
        split
        · rename_i s hi hs hu
          right
          refine ⟨_, ⟨hn, g.1, g.2, e, l, u, s, hi, hg, he, ?_, (evaluateVar_iff be _ _).mp hs, (evaluateNum_iff be _ _).mp hu, ?_, rfl⟩, rfl⟩
          · simp only [Bool.and_eq_true, beq_iff_eq] at hc
            rw [ht, hc.2]
          · intro x hx
            unfold parseDom at h
            rw [he, hg] at h
            simp only [ht, hc, if_true, hs, hu, (evaluateNum_iff be l x).mpr hx] at h
            cases h
        · exact .inl rfl
      · exact .inl rfl
    · exact .inl rfl
  · exact .inl rfl

/-- What one rejected atom leaves behind. -/
theorem parseAtomLeft_spec {be : Backend} {mapper : ℤ → ℤ} {p : Prog} {a : TAtom} {er : Err} (h : parseAtom be mapper p a = .error er) :
    (∃ auxs iqs, Both mapper p (parseAtomLeft be mapper p a) auxs iqs) ∨
      ∃ iq, HalfDom mapper a iq ∧ parseAtomLeft be mapper p a = { p with iqs := p.iqs ++ [iq] } := by
  unfold parseAtom at h
  unfold parseAtomLeft
  have hr : ∃ auxs iqs, Both mapper p p auxs iqs := ⟨[], [], .refl mapper p⟩
  split at h
  · rename_i hn
    rw [if_pos hn]
    rcases parseDomLeft_spec ((isName_iff a "dom").mp (by simpa using hn)) h with h | h
    · rw [h]; exact .inl hr
    · exact .inr h
  rename_i n1
  rw [if_neg n1]
  split
  · exact .inl hr
  split
  · unfold parseSumAtomLeft
    split
    · exact .inl parseElemsLeft_ext
    · exact .inl hr
  split
  · exact .inl parseElemsLeft_ext
  split
  · exact .inl parseElemsLeft_ext
  · exact .inl hr

/-- What remains of a program rejected because of an atom: the atoms before it and what that atom leaves behind. -/
theorem parseAtomsLeft_spec {be : Backend} {mapper : ℤ → ℤ} {er : Err} : ∀ {atoms : List TAtom} {p : Prog},
    parseAtoms be mapper atoms p = .error er → ∃ good a more q, atoms = good ++ a :: more ∧ parseAtoms be mapper good p = .ok q ∧
      parseAtom be mapper q a = .error er ∧ parseAtomsLeft be mapper atoms p = parseAtomLeft be mapper q a := by
  intro atoms
  induction atoms with
  | nil => intro p h; rw [parseAtoms] at h; cases h
  | cons a as ih =>
    intro p h
    rw [parseAtoms] at h
    rw [parseAtomsLeft]
    cases hp : parseAtom be mapper p a with
    | error e =>
      rw [hp] at h
      injection h with h; subst h
      exact ⟨[], a, as, p, rfl, rfl, hp, rfl⟩
    | ok q =>
      rw [hp] at h
      obtain ⟨good, b, more, r, h1, h2, h3, h4⟩ := ih (p := q) h
      refine ⟨a :: good, b, more, r, by rw [h1]; rfl, ?_, h3, h4⟩
      rw [parseAtoms, hp]
      exact h2

/-- Specification: the data after `evaluate_theory` has failed. -/
inductive LeftBy (be : Backend) (mapper : ℤ → ℤ) (atoms : List TAtom) (p left : Prog) : Prop
  /-- an atom has been rejected; it has added definitions of auxiliary variables only -/
  | atom (good : List TAtom) (a : TAtom) (more : List TAtom) (q : Prog) (auxs : List ((Symbol × ℤ) × Symbol)) (iqs : List (Ineq Symbol))
      (er : Err) : atoms = good ++ a :: more → parseAtoms be mapper good p = .ok q → parseAtom be mapper q a = .error er →
      Both mapper q left auxs iqs → LeftBy be mapper atoms p left
  /-- a `&dom` atom has been rejected after its upper bound has been added -/
  | half (good : List TAtom) (a : TAtom) (more : List TAtom) (q : Prog) (iq : Ineq Symbol) (er : Err) :
      atoms = good ++ a :: more → parseAtoms be mapper good p = .ok q → parseAtom be mapper q a = .error er → HalfDom mapper a iq →
      left = { q with iqs := q.iqs ++ [iq] } → LeftBy be mapper atoms p left
  /-- all atoms have been accepted but the objective function has a constant part -/
  | objective (q : Prog) : parseAtoms be mapper atoms p = .ok q → (simplify q.objective).2 ≠ 0 →
      left = { q with objective := (simplify q.objective).1 } → LeftBy be mapper atoms p left

theorem evaluateLeft_spec {be : Backend} {mapper : ℤ → ℤ} {atoms : List TAtom} {p : Prog} {er : Err}
    (h : evaluateTheory be mapper atoms p = .error er) : LeftBy be mapper atoms p (evaluateLeft be mapper atoms p) := by
  unfold evaluateTheory at h
  unfold evaluateLeft
  cases hp : parseAtoms be mapper atoms p with
  | ok q =>
    rw [hp] at h
    refine .objective q hp ?_ rfl
    intro h0
    simp only [bind, Except.bind, h0, if_true] at h
    cases h
  | error e =>
    obtain ⟨good, a, more, q, h1, h2, h3, h4⟩ := parseAtomsLeft_spec hp
    simp only [h4]
    rcases parseAtomLeft_spec h3 with ⟨auxs, iqs, k⟩ | ⟨iq, k1, k2⟩
    · exact .atom good a more q auxs iqs e h1 h2 h3 k
    · exact .half good a more q iq e h1 h2 h3 k1 k2

theorem HalfDom.nf {mapper : ℤ → ℤ} {a : TAtom} {iq : Ineq Symbol} (h : HalfDom mapper a iq) (aux) : IqNF aux iq := by
  obtain ⟨op, t, e, l, u, s, hi, -, -, -, hs, -, -, rfl⟩ := h.shape
  refine ⟨by simp, by simp, fun t ht => ?_⟩
  simp only [List.mem_cons, List.not_mem_nil, or_false] at ht
  subst ht
  exact .inl hs.userSym

/-- Specification: the invariants of the data after `evaluate_theory` has failed. -/
structure LeftInv (p left : Prog) : Prop where
  aux : p.aux <+: left.aux
  iqs : p.iqs <+: left.iqs
  inv : PInv left
  nf : (∀ x ∈ p.iqs, IqNF p.aux x) → ∀ x ∈ left.iqs, IqNF left.aux x
  ovars : (∀ t ∈ p.objective, t.var = cst ∨ UserSym t.var ∨ ∃ e ∈ p.aux, t.var = e.2) →
    ∀ t ∈ left.objective, t.var = cst ∨ UserSym t.var ∨ ∃ e ∈ left.aux, t.var = e.2

theorem LeftInv.atoms {be : Backend} {mapper : ℤ → ℤ} {atoms : List TAtom} {p q : Prog} (hp : PInv p)
    (h : parseAtoms be mapper atoms p = .ok q) : LeftInv p q := by
  obtain ⟨auxs, iqs, obj, k⟩ := parseAtoms_ok hp h
  have hsub : ∀ e ∈ p.aux, e ∈ q.aux := fun e he => by rw [k.aux]; exact List.mem_append_left _ he
  refine ⟨⟨_, k.aux.symm⟩, ⟨_, k.iqs.symm⟩, k.inv, ?_, ?_⟩
  · intro hx x h
    rw [k.iqs] at h
    rcases List.mem_append.1 h with h | h
    · exact (hx x h).mono hsub
    · exact k.nf x h
  · intro ho t ht
    rw [k.obj] at ht
    rcases List.mem_append.1 ht with ht | ht
    · rcases ho t ht with h | h | ⟨e, he, h⟩
      · exact .inl h
      · exact .inr (.inl h)
      · exact .inr (.inr ⟨e, hsub e he, h⟩)
    · exact k.objVars t ht

theorem LeftInv.trans {p q r : Prog} (h : LeftInv p q) (k : LeftInv q r) : LeftInv p r :=
  ⟨h.aux.trans k.aux, h.iqs.trans k.iqs, k.inv, fun hx => k.nf (h.nf hx), fun ho => k.ovars (h.ovars ho)⟩

theorem LeftBy.inv {be : Backend} {mapper : ℤ → ℤ} {atoms : List TAtom} {p left : Prog} (hp : PInv p) (h : LeftBy be mapper atoms p left) :
    LeftInv p left := by
  cases h with
  | atom good a more q auxs iqs er h1 h2 h3 h4 =>
    have k := LeftInv.atoms hp h2
    refine k.trans ?_
    have hsub : ∀ e ∈ q.aux, e ∈ left.aux := fun e he => by rw [h4.aux]; exact List.mem_append_left _ he
    refine ⟨⟨_, h4.aux.symm⟩, ⟨_, h4.iqs.symm⟩, h4.inv k.inv, ?_, ?_⟩
    · intro hx x h
      rw [h4.iqs] at h
      rcases List.mem_append.1 h with h | h
      · exact (hx x h).mono hsub
      · exact h4.nf k.inv x h
    · intro ho t ht
      rw [h4.obj] at ht
      rcases ho t ht with h | h | ⟨e, he, h⟩
      · exact .inl h
      · exact .inr (.inl h)
      · exact .inr (.inr ⟨e, hsub e he, h⟩)
  | half good a more q iq er h1 h2 h3 h4 h5 =>
    have k := LeftInv.atoms hp h2
    refine k.trans ?_
    subst h5
    refine ⟨List.prefix_rfl, ⟨_, rfl⟩, ⟨k.inv.vals, k.inv.key⟩, ?_, fun ho => ho⟩
    intro hx x h
    rcases List.mem_append.1 h with h | h
    · exact hx x h
    · obtain rfl : x = iq := by simpa using h
      exact h4.nf _
  | objective q h1 h2 h3 =>
    have k := LeftInv.atoms hp h1
    refine k.trans ?_
    subst h3
    refine ⟨List.prefix_rfl, List.prefix_rfl, ⟨k.inv.vals, k.inv.key⟩, fun hx => hx, fun ho t ht => ?_⟩
    obtain ⟨-, y, hy, he⟩ := simplify_vars _ t ht
    rw [← he]
    exact ho y hy

end Lpx
