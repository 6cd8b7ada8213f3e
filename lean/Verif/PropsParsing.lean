import Verif.CondConst

/-!
# Properties C21 – C27 and C43: the parser

The specification is in `ParsingSpec.lean` (`Means`, `Denotes`, `HasVar`, `Linear`, `AtomHolds`, `ObjVal`, `DivByZero`),
the first section of `CondConst.lean` (`AtomHoldsC`, `ObjValC`) and `Decimal.lean` (`Decimal`). `cst` is the symbol that stands for the constant 1 in lists of terms.
-/

namespace Lpx.Props

open Lpx

theorem ext_of_one {g : Symbol → ℚ} (hg : g cst = 1) : ext g = g := by
  funext s
  by_cases h : s = cst
  · rw [h, ext_cst, hg]
  · rw [ext_ne g h]

/-! ## C21 -/

/-- C21: the terms extracted from an accepted term have, under every valuation, the arithmetic value of the term. -/
theorem C21_linear_terms_denote_their_value (be : Backend) (t : TTerm) (ts : List (Term Symbol)) (h : parseSum be t = .ok ts)
    (g : Symbol → ℚ) (hg : g cst = 1) : Means g t (evalTerms g ts) ∧ ∀ x, Means g t x → x = evalTerms g ts := by
  have := (parseSum_ok be t h).means g
  rw [ext_of_one hg] at this
  exact ⟨this, fun x hx => hx.unique this⟩

/-- `2*x - y/4` -/
def exTerm : TTerm :=
  .func ['-'] [.func ['*'] [.number 2, .symbol ['x']], .func ['/'] [.symbol ['y'], .symbol "\"4.0\"".toList]]

example : parseSum .imath exTerm = .ok [⟨2, .fn ['x'] [] true⟩, ⟨-(1 / 4), .fn ['y'] [] true⟩] := by decide +kernel

/-! ## C22 -/

/-- C22: exactly the linear terms are accepted. -/
theorem C22_accepted_iff_linear (be : Backend) (t : TTerm) : (∃ ts, parseSum be t = .ok ts) ↔ Linear t :=
  parseSum_accepts_iff be t

/-- C22: a product of two terms with variables is rejected. -/
theorem C22_product_rejected (be : Backend) (a b : TTerm) (ha : HasVar a) (hb : HasVar b) (ts : List (Term Symbol)) :
    parseSum be (.func ['*'] [a, b]) ≠ .ok ts := by
  intro h
  have hl := (parseSum_ok be _ h).lin
  cases hl with
  | mul _ _ _ _ h => exact h ⟨ha, hb⟩
  | var _ _ h => exact absurd (.inl ⟨rfl, by simp⟩) h

/-- C22: a quotient is rejected unless the divisor is a number different from zero. -/
theorem C22_quotient_rejected (be : Backend) (a b : TTerm) (hb : ¬ ∃ q, Denotes true b (.rat q) ∧ q ≠ 0) (ts : List (Term Symbol)) :
    parseSum be (.func ['/'] [a, b]) ≠ .ok ts := by
  intro h
  have hl := (parseSum_ok be _ h).lin
  cases hl with
  | div _ _ q _ h1 h2 => exact hb ⟨q, h1, h2⟩
  | var _ _ h => exact absurd (.inl ⟨rfl, by simp⟩) h

/-- C22: if a program is accepted then all elements and guards of its atoms are linear. -/
theorem C22_programs (be : Backend) (mapper : ℤ → ℤ) (atoms : List TAtom) (p p' : Prog)
    (h : evaluateTheory be mapper atoms p = .ok p') (a : TAtom) (ha : a ∈ atoms) :
    (Named a "sum" ∨ Named a "minimize" ∨ Named a "maximize" → ∀ e ∈ a.elements, ∃ t, e.tuple = [t] ∧ Linear t) ∧
    (Named a "sum" ∨ Named a "diff" → ∃ gd, a.guard = some gd ∧ Linear gd.2) := by
  obtain ⟨q, h1, -, -⟩ := evaluateTheory_cases h
  have := parseAtoms_terms h1 a ha
  exact ⟨this.elems, this.guard⟩

example : HasVar (.symbol ['x']) := .var _ (by
  intro h; obtain ⟨q, h⟩ := h; have := (asNum_iff _ _).mpr h; revert this; simp [asNum])
example : parseSum .imath (.func ['*'] [.symbol ['x'], .symbol ['y']]) = .error .syntax := by decide +kernel
example : parseSum .imath (.func ['/'] [.symbol ['x'], .symbol ['y']]) = .error .syntax := by decide +kernel

/-! ## C23 -/

/-- C23: simplification keeps the value for every valuation (constants move to the right) and normalises. -/
theorem C23_simplify (ts : List (Term Symbol)) :
    (∀ g : Symbol → ℚ, g cst = 1 → evalTerms g (simplify ts).1 - (simplify ts).2 = evalTerms g ts) ∧
    ((simplify ts).1.map (·.var)).Nodup ∧ (∀ t ∈ (simplify ts).1, t.co ≠ 0 ∧ t.var ≠ cst) := by
  refine ⟨?_, simplify_nodup ts, fun t ht => ⟨simplify_ne_zero ts t ht, (simplify_vars ts t ht).1⟩⟩
  intro g hg
  have := simplify_value g ts
  rwa [ext_of_one hg] at this

example : simplify [⟨1, .str ['x']⟩, ⟨3, cst⟩, ⟨2, .str ['y']⟩, ⟨-1, .str ['x']⟩, ⟨1, .str ['y']⟩] = ([⟨3, .str ['y']⟩], -3) := by
  decide +kernel

/-! ## C24, C25 -/

/-- All constraints whose literal is true hold under the valuation. -/
abbrev AllHold (tr : ℤ → Prop) (g : Symbol → ℚ) (iqs : List (Ineq Symbol)) : Prop := ∀ iq ∈ iqs, tr iq.lit → iq.holds g

theorem noCst_holds {p : Prog} {iqs : List (Ineq Symbol)} (hc : NoCstAux p) (hn : ∀ iq ∈ iqs, IqNF p.aux iq) (tr : ℤ → Prop)
    (g : Symbol → ℚ) (hp : PInv p) : AllHold tr g iqs ↔ Sat tr (ext g) iqs := by
  have key : ∀ iq ∈ iqs, ∀ t ∈ iq.lhs, g t.var = ext g t.var := by
    intro iq hiq t ht
    rcases (hn iq hiq).vars t ht with h | ⟨e, he, h⟩ | ⟨-, e, he, h⟩
    · rw [ext_user g h]
    · rw [ext_ne g]; rw [h]; exact hp.val_ne he
    · exact absurd h (hc e he)
  exact ⟨fun h => Sat.congr key h, fun h => Sat.congr (fun iq hiq t ht => (key iq hiq t ht).symm) h⟩

theorem parseElems_uncond {be : Backend} {mapper : ℤ → ℤ} : ∀ {es : List Elem} {p : Prog} {r : Prog × List (Term Symbol)},
    (∀ e ∈ es, e.cond = []) → parseElems be mapper es p = .ok r → r.1 = p := by
  intro es
  induction es with
  | nil => intro p r _ h; rw [parseElems] at h; cases h; rfl
  | cons e es ih =>
    intro p r he h
    rw [parseElems] at h
    obtain ⟨r1, h1, h⟩ := bind_ok.mp h
    obtain ⟨rs, h2, h⟩ := bind_ok.mp h
    rw [pure_ok] at h; subst h
    have := ih (fun e' he' => he e' (by simp [he'])) h2
    rw [show (rs.1, r1.2 ++ rs.2).1 = rs.1 from rfl, this]
    unfold parseElem at h1
    split at h1
    · obtain ⟨ts, h3, h1⟩ := bind_ok.mp h1
      rw [if_pos (by simp [he e (by simp)]), pure_ok] at h1
      subst h1; rfl
    · cases h1

theorem parseAtoms_uncond {be : Backend} {mapper : ℤ → ℤ} : ∀ {atoms : List TAtom} {p p' : Prog},
    (∀ a ∈ atoms, ∀ e ∈ a.elements, e.cond = []) → parseAtoms be mapper atoms p = .ok p' → p'.aux = p.aux := by
  intro atoms
  induction atoms with
  | nil => intro p p' _ h; rw [parseAtoms] at h; cases h; rfl
  | cons a as ih =>
    intro p p' ha h
    rw [parseAtoms] at h
    obtain ⟨q, h1, h⟩ := bind_ok.mp h
    rw [ih (fun b hb => ha b (by simp [hb])) h]
    have hel := ha a (by simp)
    have obj : ∀ neg, parseObj be mapper p a neg = .ok q → q.aux = p.aux := by
      intro neg h
      unfold parseObj at h
      obtain ⟨r, h3, h⟩ := bind_ok.mp h
      rw [pure_ok] at h; subst h
      simp only [parseElems_uncond hel h3]
    unfold parseAtom at h1
    split at h1
    · unfold parseDom at h1
      repeat' split at h1
      all_goals first | (cases h1; done) | skip
      obtain ⟨s, h3, h1⟩ := bind_ok.mp h1
      obtain ⟨hi, h3, h1⟩ := bind_ok.mp h1
      obtain ⟨lo, h3, h1⟩ := bind_ok.mp h1
      rw [pure_ok] at h1; subst h1; rfl
    split at h1
    · unfold parseDiff at h1
      repeat' split at h1
      all_goals first | (cases h1; done) | skip
      obtain ⟨lhs, h3, h1⟩ := bind_ok.mp h1
      exact addIneq_aux h1
    split at h1
    · unfold parseSumAtom at h1
      split at h1
      · obtain ⟨r, h3, h1⟩ := bind_ok.mp h1
        rw [addIneq_aux h1, parseElems_uncond hel h3]
      · cases h1
    split at h1
    · exact obj _ h1
    split at h1
    · exact obj _ h1
    cases h1; rfl

/-- The constraints and the objective collected from `atoms`, which may have been passed in several solving steps. -/
inductive Loaded (be : Backend) (mapper : ℤ → ℤ) : List TAtom → Prog → Prop
  | start : Loaded be mapper [] {}
  | step (as bs p p') : Loaded be mapper as p → evaluateTheory be mapper bs p = .ok p' → Loaded be mapper (as ++ bs) p'

theorem Loaded.one {be : Backend} {mapper : ℤ → ℤ} {atoms : List TAtom} {p : Prog} (h : evaluateTheory be mapper atoms {} = .ok p) :
    Loaded be mapper atoms p := .step [] atoms {} p .start h

theorem objVal_append {mapper : ℤ → ℤ} {tr : ℤ → Prop} {g : Symbol → ℚ} {bs : List TAtom} {y : ℚ} (hb : ObjVal mapper tr g bs y) :
    ∀ {as : List TAtom} {x : ℚ}, ObjVal mapper tr g as x → ObjVal mapper tr g (as ++ bs) (x + y) := by
  intro as x ha
  induction ha with
  | nil => simpa using hb
  | max a as xs z h1 h2 _ ih => rw [add_assoc]; exact .max a _ xs _ h1 h2 ih
  | min a as xs z h1 h2 _ ih => rw [add_assoc]; exact .min a _ xs _ h1 h2 ih
  | other a as z h1 h2 _ ih => exact .other a _ _ h1 h2 ih

/-- What is known about loaded programs. -/
structure LoadedOK (mapper : ℤ → ℤ) (atoms : List TAtom) (p : Prog) : Prop where
  inv : PInv p
  sat : ∀ tr g, Total tr → (∀ c, mapper c ≠ 0) → (Sat tr (ext g) p.iqs ↔
    (AuxOK mapper tr g p.aux ∧ ∀ a ∈ atoms, IsConstraint a → tr (mapper a.literal) → AtomHolds mapper tr g a))
  nf : ∀ iq ∈ p.iqs, IqNF p.aux iq
  obj : ∀ tr g, AuxOK mapper tr g p.aux → ∃ x, ObjVal mapper tr g atoms x ∧ evalTerms g p.objective = x
  ovars : ∀ t ∈ p.objective, t.var ≠ cst

theorem Loaded.ok {be : Backend} {mapper : ℤ → ℤ} {atoms : List TAtom} {p : Prog} (h : Loaded be mapper atoms p) :
    LoadedOK mapper atoms p := by
  induction h with
  | start =>
    refine ⟨.empty, fun tr g _ _ => ?_, fun iq h => by simp at h, fun tr g _ => ⟨0, .nil, by simp [evalTerms]⟩, fun t h => by simp at h⟩
    simp [Sat, AuxOK]
  | step as bs p p' _ he ih =>
    obtain ⟨auxs, iqs, k1, k2, k3, k4, k5, k6, -, k7, -⟩ := theory_sat ih.inv he
    refine ⟨k3, fun tr g htr hm => ?_, fun iq hiq => ?_, fun tr g hax => ?_, fun t ht => (k7 t ht).2⟩
    · rw [k1, k2, Sat.append, AuxOK.append, ih.sat tr g htr hm]
      constructor
      · rintro ⟨⟨h1, h2⟩, h3⟩
        rw [k4 tr g htr hm h1] at h3
        refine ⟨⟨h1, h3.1⟩, fun a ha => ?_⟩
        rcases List.mem_append.1 ha with ha | ha
        · exact h2 a ha
        · exact h3.2 a ha
      · rintro ⟨⟨h1, h2⟩, h3⟩
        exact ⟨⟨h1, fun a ha => h3 a (List.mem_append_left _ ha)⟩,
          (k4 tr g htr hm h1).2 ⟨h2, fun a ha => h3 a (List.mem_append_right _ ha)⟩⟩
    · rw [k2] at hiq
      rcases List.mem_append.1 hiq with h | h
      · exact (ih.nf iq h).mono (by rw [k1]; exact fun e he => List.mem_append_left _ he)
      · exact k5 iq h
    · obtain ⟨y, hy, e1⟩ := k6 tr g hax
      have hax1 : AuxOK mapper tr g p.aux := by rw [k1, AuxOK.append] at hax; exact hax.1
      obtain ⟨x, hx, e2⟩ := ih.obj tr g hax1
      refine ⟨x + y, objVal_append hy hx, ?_⟩
      rw [e1, ← e2, evalTerms_congr fun t ht => ext_ne g (ih.ovars t ht)]

theorem Loaded.noCst {be : Backend} {mapper : ℤ → ℤ} {atoms : List TAtom} {p : Prog} (h : Loaded be mapper atoms p)
    (hcc : ∀ a ∈ atoms, NoCondConst a) : NoCstAux p := by
  induction h with
  | start => simp [NoCstAux]
  | step as bs p p' _ he ih =>
    obtain ⟨q, h1, hq, -⟩ := evaluateTheory_cases he
    rw [hq]
    show NoCstAux q
    exact parseAtoms_noCst (fun a ha => hcc a (List.mem_append_right _ ha)) (ih fun a ha => hcc a (List.mem_append_left _ ha)) h1

theorem Loaded.uncond {be : Backend} {mapper : ℤ → ℤ} {atoms : List TAtom} {p : Prog} (h : Loaded be mapper atoms p)
    (hun : ∀ a ∈ atoms, ∀ e ∈ a.elements, e.cond = []) : p.aux = [] := by
  induction h with
  | start => rfl
  | step as bs p p' _ he ih =>
    obtain ⟨q, h1, hq, -⟩ := evaluateTheory_cases he
    rw [hq]
    show q.aux = []
    rw [parseAtoms_uncond (fun a ha => hun a (List.mem_append_right _ ha)) h1]
    exact ih fun a ha => hun a (List.mem_append_left _ ha)

/-- C24: the constraints of a program without conditional elements hold under a valuation (for the true literals) iff
the true atoms hold arithmetically. `mapper` maps program to solver literals. -/
theorem C24_atoms_mean_what_they_say (be : Backend) (mapper : ℤ → ℤ) (atoms : List TAtom) (p : Prog)
    (h : Loaded be mapper atoms p) (hun : ∀ a ∈ atoms, ∀ e ∈ a.elements, e.cond = [])
    (tr : ℤ → Prop) (htr : Total tr) (hm : ∀ c, mapper c ≠ 0) (g : Symbol → ℚ) :
    AllHold tr g p.iqs ↔ ∀ a ∈ atoms, IsConstraint a → tr (mapper a.literal) → AtomHolds mapper tr g a := by
  have hax := h.uncond hun
  have k := h.ok
  rw [noCst_holds (p := p) (by simp [NoCstAux, hax]) k.nf tr g k.inv, k.sat tr g htr hm, hax]
  constructor
  · exact fun h => h.2
  · exact fun h => ⟨by simp [AuxOK], h⟩

theorem objValC_append {mapper : ℤ → ℤ} {tr : ℤ → Prop} {c : ℚ} {g : Symbol → ℚ} {bs : List TAtom} {y : ℚ}
    (hb : ObjValC mapper tr c g bs y) : ∀ {as : List TAtom} {x : ℚ}, ObjValC mapper tr c g as x → ObjValC mapper tr c g (as ++ bs) (x + y) := by
  intro as x ha
  induction ha with
  | nil => simpa using hb
  | max a as xs z h1 h2 _ ih => rw [add_assoc]; exact .max a _ xs _ h1 h2 ih
  | min a as xs z h1 h2 _ ih => rw [add_assoc]; exact .min a _ xs _ h1 h2 ih
  | other a as z h1 h2 _ ih => exact .other a _ _ h1 h2 ih

/-- What is known about loaded programs without restrictions on conditional elements. -/
structure LoadedC (mapper : ℤ → ℤ) (atoms : List TAtom) (p : Prog) : Prop where
  sat : ∀ tr g, Total tr → (∀ c, mapper c ≠ 0) → (AllHold tr g p.iqs ↔
    (AuxC mapper tr g p.aux ∧ ∀ a ∈ atoms, IsConstraint a → tr (mapper a.literal) → AtomHoldsC mapper tr (g cst) g a))
  obj : ∀ tr g, AuxC mapper tr g p.aux → ObjValC mapper tr (g cst) g atoms (evalTerms g p.objective)
  terms : ∀ a ∈ atoms, TermsOK a

theorem Loaded.okC {be : Backend} {mapper : ℤ → ℤ} {atoms : List TAtom} {p : Prog} (h : Loaded be mapper atoms p) :
    LoadedC mapper atoms p := by
  induction h with
  | start => exact ⟨fun tr g _ _ => by simp [AuxC, AllHold], fun tr g _ => by simpa [evalTerms] using ObjValC.nil, by simp⟩
  | step as bs p p' hl he ih =>
    obtain ⟨auxs, iqs, k1, k2, k4, k6⟩ := theoryC hl.ok.inv he
    refine ⟨fun tr g htr hm => ?_, fun tr g hax => ?_, ?_⟩
    · have ih1 : Sat tr g p.iqs ↔ _ := ih.sat tr g htr hm
      show Sat tr g p'.iqs ↔ _
      rw [k1, k2, Sat.append, AuxC.append, ih1]
      constructor
      · rintro ⟨⟨h1, h2⟩, h3⟩
        rw [k4 tr g htr hm h1] at h3
        refine ⟨⟨h1, h3.1⟩, fun a ha => ?_⟩
        rcases List.mem_append.1 ha with ha | ha
        · exact h2 a ha
        · exact h3.2 a ha
      · rintro ⟨⟨h1, h2⟩, h3⟩
        exact ⟨⟨h1, fun a ha => h3 a (List.mem_append_left _ ha)⟩,
          (k4 tr g htr hm h1).2 ⟨h2, fun a ha => h3 a (List.mem_append_right _ ha)⟩⟩
    · obtain ⟨y, hy, e1⟩ := k6 tr g hax
      have hax1 : AuxC mapper tr g p.aux := by rw [k1, AuxC.append] at hax; exact hax.1
      rw [e1, evalTerms_congr fun t ht => ext_ne g (hl.ok.ovars t ht)]
      exact objValC_append hy (ih.obj tr g hax1)
    · obtain ⟨q, h1, -⟩ := evaluateTheory_cases he
      intro a ha
      rcases List.mem_append.1 ha with ha | ha
      · exact ih.terms a ha
      · exact parseAtoms_terms h1 a ha

/-- C25, exact: what the generated constraints mean, for all accepted programs. A valuation of the user's variables can be extended such
that all constraints of true literals hold iff there is a factor `c` such that the true atoms hold, where conditional elements count iff
their condition is true and the constants in conditional elements are multiplied by `c`. -/
theorem C25_exact (be : Backend) (mapper : ℤ → ℤ) (atoms : List TAtom) (p : Prog) (h : Loaded be mapper atoms p)
    (tr : ℤ → Prop) (htr : Total tr) (hm : ∀ c, mapper c ≠ 0) (g : Symbol → ℚ) :
    (∃ g', (∀ s, UserSym s → g' s = g s) ∧ AllHold tr g' p.iqs) ↔
      ∃ c, ∀ a ∈ atoms, IsConstraint a → tr (mapper a.literal) → AtomHoldsC mapper tr c g a := by
  have k := h.okC
  constructor
  · rintro ⟨g', hg', hh⟩
    rw [k.sat tr g' htr hm] at hh
    exact ⟨g' cst, fun a ha hc hl => (hh.2 a ha hc hl).congr hg'⟩
  · rintro ⟨c, hh⟩
    have hp := h.ok.inv
    refine ⟨auxValC mapper tr c g p.aux, fun s hs => auxValC_user hp hs, ?_⟩
    rw [k.sat tr _ htr hm, auxValC_cst hp]
    exact ⟨auxValC_ok hp, fun a ha hc hl => (hh a ha hc hl).congr fun s hs => (auxValC_user hp hs).symm⟩

/-- C25: the values of the user's variables and the factor that belong to a solution of the constraints. The factor is the value of the
symbol 0, which stands for the constant one. -/
theorem C25_exact_solutions (be : Backend) (mapper : ℤ → ℤ) (atoms : List TAtom) (p : Prog) (h : Loaded be mapper atoms p)
    (tr : ℤ → Prop) (htr : Total tr) (hm : ∀ c, mapper c ≠ 0) (g : Symbol → ℚ) (hg : AllHold tr g p.iqs) :
    (∀ a ∈ atoms, IsConstraint a → tr (mapper a.literal) → AtomHoldsC mapper tr (g (.num 0)) g a) ∧
    ObjValC mapper tr (g (.num 0)) g atoms (evalTerms g p.objective) := by
  have k := h.okC
  rw [k.sat tr g htr hm] at hg
  exact ⟨hg.2, k.obj tr g hg.1⟩

/-- C25: no solution is lost, in all accepted programs. If the true atoms hold as written then the values can be extended such that the
constraints of the true literals hold, and the objective has the value of the `&maximize` and `&minimize` atoms as written. -/
theorem C25_no_solution_lost (be : Backend) (mapper : ℤ → ℤ) (atoms : List TAtom) (p : Prog) (h : Loaded be mapper atoms p)
    (tr : ℤ → Prop) (htr : Total tr) (hm : ∀ c, mapper c ≠ 0) (g : Symbol → ℚ)
    (hg : ∀ a ∈ atoms, IsConstraint a → tr (mapper a.literal) → AtomHolds mapper tr g a) :
    ∃ g', (∀ s, UserSym s → g' s = g s) ∧ g' (.num 0) = 1 ∧ AllHold tr g' p.iqs ∧ ObjVal mapper tr g atoms (evalTerms g' p.objective) := by
  have k := h.okC
  have hp := h.ok.inv
  have hall : AllHold tr (auxValC mapper tr 1 g p.aux) p.iqs := by
    rw [k.sat tr _ htr hm, auxValC_cst hp]
    exact ⟨auxValC_ok hp, fun a ha hc hl => ((hg a ha hc hl).toC (k.terms a ha)).congr fun s hs => (auxValC_user hp hs).symm⟩
  refine ⟨_, fun s hs => auxValC_user hp hs, auxValC_cst hp, hall, ?_⟩
  have := k.obj tr _ (auxValC_ok (mapper := mapper) (tr := tr) (c := 1) (g := g) hp)
  rw [auxValC_cst hp] at this
  exact (this.congr fun s hs => auxValC_user hp hs).one

/-- C25: if the symbol that stands for the constant one has value one then the constraints mean what is written, in all accepted
programs. -/
theorem C25_constant_one (be : Backend) (mapper : ℤ → ℤ) (atoms : List TAtom) (p : Prog) (h : Loaded be mapper atoms p)
    (tr : ℤ → Prop) (htr : Total tr) (hm : ∀ c, mapper c ≠ 0) (g : Symbol → ℚ) :
    (∃ g', (∀ s, UserSym s → g' s = g s) ∧ g' (.num 0) = 1 ∧ AllHold tr g' p.iqs) ↔
      ∀ a ∈ atoms, IsConstraint a → tr (mapper a.literal) → AtomHolds mapper tr g a := by
  constructor
  · rintro ⟨g', h1, h2, h3⟩ a ha hc hl
    have := (C25_exact_solutions be mapper atoms p h tr htr hm g' h3).1 a ha hc hl
    rw [h2] at this
    exact this.one.congr h1
  · intro hh
    obtain ⟨g', h1, h2, h3, -⟩ := C25_no_solution_lost be mapper atoms p h tr htr hm g hh
    exact ⟨g', h1, h2, h3⟩

/-- C25 (partial: programs in which a conditional element has a non-zero constant are excluded, see
`C25_conditional_constants_violation`; `C25_exact` tells what happens there). A valuation of the user's variables can be extended to the
auxiliary variables such that all constraints of true literals hold iff the true atoms hold, where conditional elements count iff their
condition is true. -/
theorem C25_conditional_elements_partial (be : Backend) (mapper : ℤ → ℤ) (atoms : List TAtom) (p : Prog)
    (h : Loaded be mapper atoms p) (hcc : ∀ a ∈ atoms, CondConstZero a)
    (tr : ℤ → Prop) (htr : Total tr) (hm : ∀ c, mapper c ≠ 0) (g : Symbol → ℚ) :
    (∃ g', (∀ s, UserSym s → g' s = g s) ∧ AllHold tr g' p.iqs) ↔
      ∀ a ∈ atoms, IsConstraint a → tr (mapper a.literal) → AtomHolds mapper tr g a := by
  rw [C25_exact be mapper atoms p h tr htr hm g]
  constructor
  · rintro ⟨c, hh⟩ a ha hc hl
    exact ((hh a ha hc hl).zero (hcc a ha)).one
  · exact fun hh => ⟨1, fun a ha hc hl => (hh a ha hc hl).toC (h.okC.terms a ha)⟩

/-- C25 (partial as above): whenever the constraints of the true literals hold then the true atoms hold under the same values
of the user's variables. -/
theorem C25_solutions_partial (be : Backend) (mapper : ℤ → ℤ) (atoms : List TAtom) (p : Prog)
    (h : Loaded be mapper atoms p) (hcc : ∀ a ∈ atoms, CondConstZero a)
    (tr : ℤ → Prop) (htr : Total tr) (hm : ∀ c, mapper c ≠ 0) (g : Symbol → ℚ) (hg : AllHold tr g p.iqs) :
    ∀ a ∈ atoms, IsConstraint a → tr (mapper a.literal) → AtomHolds mapper tr g a :=
  (C25_conditional_elements_partial be mapper atoms p h hcc tr htr hm g).1 ⟨g, fun _ _ => rfl, hg⟩

/-- C25: given the user's variables, the values of the auxiliary variables are unique. -/
theorem C25_auxiliary_unique (be : Backend) (mapper : ℤ → ℤ) (atoms : List TAtom) (p : Prog)
    (h : Loaded be mapper atoms p) (hcc : ∀ a ∈ atoms, NoCondConst a)
    (tr : ℤ → Prop) (htr : Total tr) (hm : ∀ c, mapper c ≠ 0) (g g' : Symbol → ℚ) (hg : ∀ s, UserSym s → g s = g' s)
    (h1 : AllHold tr g p.iqs) (h2 : AllHold tr g' p.iqs) : ∀ iq ∈ p.iqs, ∀ t ∈ iq.lhs, g t.var = g' t.var := by
  have hnc := h.noCst hcc
  have k := h.ok
  have a1 := h1
  have a2 := h2
  rw [noCst_holds hnc k.nf tr _ k.inv, k.sat tr _ htr hm] at a1 a2
  intro iq hiq t ht
  rcases (k.nf iq hiq).vars t ht with hu | ⟨e, he, hte⟩ | ⟨-, e, he, hc⟩
  · exact hg _ hu
  · have hu : UserSym e.1.1 := (k.inv.key e he).resolve_left (hnc e he)
    rw [hte]
    by_cases hl : tr (mapper e.1.2)
    · rw [(a1.1 e he).1 hl, (a2.1 e he).1 hl, ext_user _ hu, ext_user _ hu, hg _ hu]
    · rw [(a1.1 e he).2 hl, (a2.1 e he).2 hl]
  · exact absurd hc (hnc e he)

/-- `&sum{ x; 2*y : a } >= 3`, where `a` is literal 7 and the atom is literal 5. -/
def exAtom : TAtom where
  term := .symbol "sum".toList
  elements := [⟨[.symbol ['x']], [], 0⟩, ⟨[.func ['*'] [.number 2, .symbol ['y']]], [7], 7⟩]
  guard := some (">=", .number 3)
  literal := 5

example : (evaluateTheory .imath id [exAtom] {}).map (·.iqs) = .ok
    [⟨[⟨1, .num 1⟩], 0, .eq, -7⟩, ⟨[⟨1, .num 1⟩, ⟨-1, .fn ['y'] [] true⟩], 0, .eq, 7⟩,
     ⟨[⟨1, .fn ['x'] [] true⟩, ⟨2, .num 1⟩], 3, .ge, 5⟩] := by decide +kernel

/-- `&sum{ 3 : a } >= 5` -/
def badAtom : TAtom where
  term := .symbol "sum".toList
  elements := [⟨[.number 3], [7], 7⟩]
  guard := some (">=", .number 5)
  literal := 5

/-- The constraints generated for `&sum{ 3 : a } >= 5`. -/
def badIqs : List (Ineq Symbol) :=
  [⟨[⟨1, .num 1⟩], 0, .eq, -7⟩, ⟨[⟨1, .num 1⟩, ⟨-1, .num 0⟩], 0, .eq, 7⟩, ⟨[⟨3, .num 1⟩], 5, .ge, 5⟩]

/-- A truth assignment making the positive literals true. -/
def posTrue : ℤ → Prop := fun l => 0 < l

theorem posTrue_total : Total posTrue := by
  intro l hl; unfold posTrue; omega

/-- C25 is violated for conditional elements with constants: `&sum{ 3 : a } >= 5` is accepted and, although `a` and the atom
are true and `3 >= 5` is false, its constraints have a solution, because the symbol of constants becomes a variable of the
linear program. -/
theorem C25_conditional_constants_violation :
    (evaluateTheory .imath id [badAtom] {}).map (·.iqs) = .ok badIqs ∧
    (∃ g, AllHold posTrue g badIqs) ∧ (∀ g, ¬ AtomHolds id posTrue g badAtom) := by
  refine ⟨by decide +kernel, ⟨fun _ => 2, ?_⟩, ?_⟩
  · intro iq hiq hl
    simp only [badIqs, List.mem_cons, List.not_mem_nil, or_false] at hiq
    rcases hiq with rfl | rfl | rfl
    · simp [posTrue] at hl
    · simp [Ineq.holds, Relation.holds, evalTerms]
    · norm_num [Ineq.holds, Relation.holds, evalTerms]
  · intro g h
    have hn : Named badAtom "sum" := .inl rfl
    cases h with
    | diff _ _ _ _ _ _ _ _ _ hn' => exact absurd (hn.inj hn') (by decide)
    | dom _ _ _ _ _ _ _ _ hn' => exact absurd (hn.inj hn') (by decide)
    | sum op t rel xs y _ hg' hr' hx' hy' hh =>
      simp only [badAtom, Option.some.injEq, Prod.mk.injEq] at hg'
      obtain ⟨rfl, rfl⟩ := hg'
      have h5 : y = ((5 : ℤ) : ℚ) := hy'.unique (.number 5)
      have hx : xs = [((3 : ℤ) : ℚ)] := by
        refine ElemVals.unique hx' (.cons ?_ .nil)
        exact ⟨.number 3, _, rfl, .number 3, .inl ⟨.inr (by simp [posTrue]), rfl⟩⟩
      have hrel : rel = .ge := relTable_inj hr' (by simp [relTable])
      subst h5; subst hx; subst hrel
      norm_num [Relation.holds] at hh

/-- With factor 2 the atom holds: this is the solution of the constraints above. -/
example (g : Symbol → ℚ) : AtomHoldsC id posTrue 2 g badAtom := by
  refine .sum ">=" (.number 5) .ge [6] ((5 : ℤ) : ℚ) (.inl rfl) rfl (by simp [relTable]) (.cons ?_ .nil) (.number 5) (by norm_num [Relation.holds])
  exact ⟨.number 3, _, _, rfl, .number 3, .number 3, .inr (.inl ⟨by simp, by simp [posTrue], by norm_num⟩)⟩

/-! ## C26 -/

/-- C26 (partial: programs in which a conditional element has a non-zero constant are excluded, see
`C26_conditional_constants_violation`; `C25_exact_solutions` tells what happens there). The objective is the sum of the maximised minus the
sum of the minimised elements, for every truth assignment and every valuation satisfying the constraints of the true literals. -/
theorem C26_objective_partial (be : Backend) (mapper : ℤ → ℤ) (atoms : List TAtom) (p : Prog)
    (h : Loaded be mapper atoms p) (hcc : ∀ a ∈ atoms, CondConstZero a)
    (tr : ℤ → Prop) (htr : Total tr) (hm : ∀ c, mapper c ≠ 0) (g : Symbol → ℚ) (hg : AllHold tr g p.iqs) :
    ∃ x, ObjVal mapper tr g atoms x ∧ (∀ y, ObjVal mapper tr g atoms y → y = x) ∧ evalTerms g p.objective = x := by
  have hx : ObjVal mapper tr g atoms _ := ((C25_exact_solutions be mapper atoms p h tr htr hm g hg).2.zero hcc).one
  exact ⟨_, hx, fun y hy => hy.congr hx, rfl⟩

/-- C26 (partial as above): objectives with a constant are rejected: in an accepted program the objective has value 0 if all variables
are 0. -/
theorem C26_no_constant_partial (be : Backend) (mapper : ℤ → ℤ) (atoms : List TAtom) (p : Prog)
    (h : Loaded be mapper atoms p) (hcc : ∀ a ∈ atoms, CondConstZero a) (tr : ℤ → Prop) (x : ℚ)
    (hx : ObjVal mapper tr (fun _ => 0) atoms x) : x = 0 := by
  have k := h.okC
  have hx2 : ObjVal mapper tr (fun _ => 0) atoms _ := ((k.obj tr (fun _ => 0) (fun e _ => by simp)).zero hcc).one
  rw [hx.congr hx2]
  simp [evalTerms]

/-- `&maximize{ 3 : a }` -/
def badMax : TAtom where
  term := .symbol "maximize".toList
  elements := [⟨[.number 3], [7], 7⟩]
  guard := none
  literal := 5

/-- The constraints generated for `&maximize{ 3 : a }`. -/
def badMaxIqs : List (Ineq Symbol) := [⟨[⟨1, .num 1⟩], 0, .eq, -7⟩, ⟨[⟨1, .num 1⟩, ⟨-1, .num 0⟩], 0, .eq, 7⟩]

/-- C26 is violated for conditional elements with constants: `&maximize{ 3 : a }` is accepted. If `a` is true then the value as written
is 3 but the objective is unbounded. -/
theorem C26_conditional_constants_violation :
    (evaluateTheory .imath id [badMax] {}).map (fun p => (p.iqs, p.objective)) = .ok (badMaxIqs, [⟨3, .num 1⟩]) ∧
    (∀ x : ℚ, ∃ g, AllHold posTrue g badMaxIqs ∧ x < evalTerms g [⟨3, .num 1⟩]) ∧
    (∀ g, ObjVal id posTrue g [badMax] 3) := by
  refine ⟨by decide +kernel, fun x => ⟨fun _ => |x| + 1, ?_, ?_⟩, fun g => ?_⟩
  · intro iq hiq hl
    simp only [badMaxIqs, List.mem_cons, List.not_mem_nil, or_false] at hiq
    rcases hiq with rfl | rfl
    · simp [posTrue] at hl
    · simp [Ineq.holds, Relation.holds, evalTerms]
  · have := le_abs_self x
    have := abs_nonneg x
    simp only [evalTerms, List.map_cons, List.map_nil, List.sum_cons, List.sum_nil]
    linarith
  · have h : ObjVal id posTrue g [badMax] (List.sum [((3 : ℤ) : ℚ)] + 0) := by
      refine .max badMax [] [((3 : ℤ) : ℚ)] 0 (.inl rfl) (.cons ?_ .nil) .nil
      exact ⟨.number 3, _, rfl, .number 3, .inl ⟨.inr (by simp [posTrue]), rfl⟩⟩
    simpa using h

/-- `&minimize{ x; 2*y : a }` -/
def exMin : TAtom where
  term := .symbol "minimize".toList
  elements := [⟨[.symbol ['x']], [], 0⟩, ⟨[.func ['*'] [.number 2, .symbol ['y']]], [7], 7⟩]
  guard := none
  literal := 5

example : (evaluateTheory .imath id [exAtom, exMin] {}).map (·.objective) = .ok [⟨-1, .fn ['x'] [] true⟩, ⟨-2, .num 1⟩] := by
  decide +kernel
example : (evaluateTheory .imath id [{ exMin with elements := [⟨[.number 3], [], 0⟩] }] {}).map (·.objective) = .error .syntax := by
  decide +kernel

/-! ## C27 -/

/-- C27: a string is a number exactly if it is a quoted decimal, and then its value is exactly the denoted rational. -/
theorem C27_decimal_strings (name : List Char) (q : ℚ) : asNum name = some q ↔ Decimal name q := asNum_iff name q

/-- C27: in sums, decimals are constants with exactly their value and all other strings are variables. -/
theorem C27_strings_in_terms (be : Backend) (s : List Char) :
    (∀ q, Decimal ('"' :: (s ++ ['"'])) q → parseSum be (.symbol ('"' :: (s ++ ['"']))) = .ok [⟨q, cst⟩]) ∧
    ((¬ ∃ q, Decimal ('"' :: (s ++ ['"'])) q) →
      parseSum be (.symbol ('"' :: (s ++ ['"']))) = .ok [⟨1, .str (unquote s)⟩]) := by
  have hq : isString ('"' :: (s ++ ['"'])) = true := (isString_iff _).mpr ⟨s, rfl⟩
  refine ⟨?_, ?_⟩
  · intro q hd
    rw [parseSum, if_pos hq, (asNum_iff _ _).mpr hd]
  · intro hd
    rw [parseSum, if_pos hq, (asNum_none_iff _).mpr hd]
    exact sumVar_total (.string _ _ (by simp))

example : asNum "\"-0012.340\"".toList = some (-617 / 50) := by decide +kernel
example : asNum "\"1e5\"".toList = none := by decide +kernel

/-! ## C43 -/

/-- C43: no accepted term contains a division by zero, wherever it occurs. -/
theorem C43_division_by_zero_not_accepted (be : Backend) (t : TTerm) (h : DivByZero t) (ts : List (Term Symbol)) (ns : Bool) (v : Val) :
    parseSum be t ≠ .ok ts ∧ evaluate be ns t ≠ .ok v := by
  refine ⟨fun h1 => ?_, fun h1 => ?_⟩
  · exact ((parseSum_ok be t h1).means fun _ => 0).not_divByZero h
  · exact ((evaluate_iff be t ns v).mp h1).not_divByZero h

/-- Not a process abort. -/
def NoAbort {α : Type} (x : Except Err α) : Prop := x ≠ .error .abort

theorem NoAbort.ok {α : Type} (a : α) : NoAbort (.ok a : Except Err α) := by intro h; cases h
theorem NoAbort.syn {α : Type} : NoAbort (.error .syntax : Except Err α) := by intro h; cases h
theorem NoAbort.bind {α β : Type} {x : Except Err α} {f : α → Except Err β} (hx : NoAbort x) (hf : ∀ a, NoAbort (f a)) :
    NoAbort (x >>= f) := by
  cases x with
  | error e => intro h; exact hx (by injection h with h; rw [h])
  | ok a => exact hf a

theorem binNum_noAbort {f : ℚ → ℚ → Except Err ℚ} {a b : Except Err Val} (hf : ∀ x y, NoAbort (f x y)) (ha : NoAbort a)
    (hb : NoAbort b) : NoAbort (binNum f a b) := by
  unfold binNum
  split
  · rename_i e _; exact fun h => ha (by cases h; rfl)
  · rename_i e _ _; exact fun h => hb (by cases h; rfl)
  · rename_i x y
    have := hf x y
    cases h : f x y with
    | error e => rw [h] at this; intro h2; exact this (by simpa [Except.map] using h2)
    | ok z => intro h2; simp [Except.map] at h2
  · exact .syn

theorem asSyms_noAbort : ∀ {rs : List (Except Err Val)}, (∀ r ∈ rs, NoAbort r) → NoAbort (asSyms rs) := by
  intro rs
  induction rs with
  | nil => intro _; exact .ok _
  | cons r rs ih =>
    intro h
    rw [asSyms]
    refine .bind ?_ fun s => .bind (ih fun r' hr' => h r' (by simp [hr'])) fun ss => .ok _
    have hr := h r (by simp)
    unfold asSym
    split
    · exact fun h2 => hr (by cases h2; rfl)
    · split
      · exact .ok _
      · exact .syn
    · exact .ok _

theorem evaluate_noAbort (t : TTerm) : ∀ ns, NoAbort (evaluate .imath ns t) := by
  induction t using TTerm.ind with
  | h1 n => intro ns; rw [evaluate]; exact .ok _
  | h2 name =>
    intro ns; rw [evaluate]
    repeat' split
    all_goals exact .ok _
  | h3 name args ih =>
    intro ns
    have hm : NoAbort (mkFn name (evaluates .imath false args)) := by
      unfold mkFn
      refine .bind (asSyms_noAbort ?_) fun _ => .ok _
      intro r hr
      rw [evaluates_eq] at hr
      obtain ⟨t, ht, rfl⟩ := List.mem_map.mp hr
      exact ih t ht false
    rw [evaluate]
    unfold evalFn
    split
    · rename_i a b he
      rw [evaluates_eq] at he
      have hr : ∀ r ∈ [a, b], NoAbort r := by
        intro r hr
        rw [← he] at hr
        obtain ⟨t, ht, rfl⟩ := List.mem_map.mp hr
        exact ih t ht ns
      have ha := hr a (by simp)
      have hb := hr b (by simp)
      have hd : ∀ x y, NoAbort (divNum .imath x y) := by
        intro x y; unfold divNum
        split
        · intro h; cases h
        · exact .ok _
      repeat' split
      · exact binNum_noAbort (fun _ _ => .ok _) ha hb
      · exact binNum_noAbort (fun _ _ => .ok _) ha hb
      · exact binNum_noAbort (fun _ _ => .ok _) ha hb
      · exact binNum_noAbort hd ha hb
      · exact .syn
      · exact hm
    · rename_i a he
      rw [evaluates_eq] at he
      have ha : NoAbort a := by
        have : a ∈ args.map (evaluate .imath ns) := by rw [he]; simp
        obtain ⟨t, ht, rfl⟩ := List.mem_map.mp this
        exact ih t ht ns
      split
      · unfold negVal
        split
        · exact fun h2 => ha (by cases h2; rfl)
        · exact .ok _
        · split
          · exact .syn
          · exact .ok _
        · exact .syn
      · exact hm
    · exact hm
  | h4 args ih =>
    intro ns; rw [evaluate]; unfold mkFn
    refine .bind (asSyms_noAbort ?_) fun _ => .ok _
    intro r hr
    rw [evaluates_eq] at hr
    obtain ⟨t, ht, rfl⟩ := List.mem_map.mp hr
    exact ih t ht false
  | h5 args ih => intro ns; rw [evaluate]; exact .syn
  | h6 args ih => intro ns; rw [evaluate]; exact .syn

theorem evaluateVar_noAbort (t : TTerm) : NoAbort (evaluateVar .imath t) := by
  have := evaluate_noAbort t false
  unfold evaluateVar
  split
  · exact .ok _
  · exact .syn
  · rename_i e he; rw [he] at this; exact fun h => this (by cases h; rfl)

theorem evaluateNum_noAbort (t : TTerm) : NoAbort (evaluateNum .imath t) := by
  have := evaluate_noAbort t true
  unfold evaluateNum
  split
  · exact .ok _
  · exact .syn
  · rename_i e he; rw [he] at this; exact fun h => this (by cases h; rfl)

theorem mulTerms_noAbort (ls rs : List (Term Symbol)) : NoAbort (mulTerms ls rs) := by
  have hrow : ∀ l rs, NoAbort (mulRow l rs) := by
    intro l rs
    induction rs with
    | nil => exact .ok _
    | cons r rs ih =>
      rw [mulRow]
      split
      · exact .bind ih fun _ => .ok _
      · exact .syn
  induction ls with
  | nil => exact .ok _
  | cons l ls ih => rw [mulTerms]; exact .bind (hrow l rs) fun _ => .bind ih fun _ => .ok _

theorem parseSum_noAbort (t : TTerm) : NoAbort (parseSum .imath t) := by
  have hv : ∀ t, NoAbort (do let v ← evaluateVar .imath t; return [⟨1, v⟩] : Except Err (List (Term Symbol))) :=
    fun t => .bind (evaluateVar_noAbort t) fun _ => .ok _
  induction t using TTerm.ind with
  | h1 n => rw [parseSum]; exact .ok _
  | h2 name =>
    rw [parseSum]
    split
    · exact .ok _
    · exact hv _
  | h3 name args ih =>
    rw [parseSum, parseSums_eq]
    unfold sumFn
    split
    · rename_i a b x y he
      have hx : x ∈ [a, b].map (parseSum .imath) := by rw [he]; simp
      have hy : y ∈ [a, b].map (parseSum .imath) := by rw [he]; simp
      obtain ⟨t1, ht1, rfl⟩ := List.mem_map.mp hx
      obtain ⟨t2, ht2, rfl⟩ := List.mem_map.mp hy
      have h1 := ih t1 ht1
      have h2 := ih t2 ht2
      repeat' split
      · exact .bind h1 fun _ => .bind h2 fun _ => .ok _
      · exact .bind h1 fun _ => .bind h2 fun _ => .ok _
      · exact .bind h1 fun _ => .bind h2 fun _ => mulTerms_noAbort _ _
      · refine .bind h1 fun _ => .bind (evaluateNum_noAbort b) fun q => ?_
        split
        · exact .syn
        · exact .ok _
      · exact hv _
    · rename_i a x he
      have hx : x ∈ [a].map (parseSum .imath) := by rw [he]; simp
      obtain ⟨t1, ht1, rfl⟩ := List.mem_map.mp hx
      have h1 := ih t1 ht1
      repeat' split
      · exact .bind h1 fun _ => .ok _
      · exact h1
      · exact hv _
    · exact hv _
  | h4 args ih => rw [parseSum]; exact hv _
  | h5 args ih => rw [parseSum]; exact .syn
  | h6 args ih => rw [parseSum]; exact .syn

/-- C43 (partial: only the IMath back end; with IMath the exception is not always the syntax error). A term with a division
by zero raises an exception. -/
theorem C43_division_by_zero_rejected_partial (t : TTerm) (h : DivByZero t) :
    ∃ e, parseSum .imath t = .error e ∧ e ≠ .abort := by
  cases hp : parseSum .imath t with
  | ok ts => exact absurd hp (C43_division_by_zero_not_accepted .imath t h ts true (.rat 0)).1
  | error e => exact ⟨e, rfl, fun he => parseSum_noAbort t (by rw [hp, he])⟩

/-- C43: accepted programs contain no division by zero in any element or guard. -/
theorem C43_programs (be : Backend) (mapper : ℤ → ℤ) (atoms : List TAtom) (p p' : Prog)
    (h : evaluateTheory be mapper atoms p = .ok p') (a : TAtom) (ha : a ∈ atoms) (ht : IsTheoryAtom a) :
    (∀ e ∈ a.elements, ∀ t ∈ e.tuple, ¬ DivByZero t) ∧ ∀ gd, IsConstraint a → a.guard = some gd → ¬ DivByZero gd.2 := by
  obtain ⟨q, h1, -, -⟩ := evaluateTheory_cases h
  exact (parseAtoms_terms h1 a ha).noDiv ht

/-- `x / (2 / 0)` -/
def divTerm : TTerm := .func ['/'] [.symbol ['x'], .func ['/'] [.number 2, .number 0]]

theorem divTerm_divByZero : DivByZero divTerm :=
  ⟨.number 2, .number 0, .func _ _ _ (by simp) .refl, by simpa using Denotes.number true 0⟩

/-- C43 is violated with the FLINT back end: the division in `evaluate` is not checked and aborts the process; with IMath it is
an exception, but not a syntax error. -/
theorem C43_flint_violation : DivByZero divTerm ∧ parseSum .flint divTerm = .error .abort ∧ parseSum .imath divTerm = .error .domain :=
  ⟨divTerm_divByZero, by decide +kernel, by decide +kernel⟩

end Lpx.Props
