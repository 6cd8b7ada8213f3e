import Verif.ParsingAtoms

/-! # Programs: what the parsed constraints and the objective mean (C22 – C26, C43) -/

namespace Lpx

/-! ### constants in conditional elements -/

theorem mulRow_cst {l : Term Symbol} : ∀ {rs ts : List (Term Symbol)}, mulRow l rs = .ok ts →
    (∃ x ∈ ts, x.var = cst) → l.var = cst ∧ ∃ r ∈ rs, r.var = cst := by
  intro rs
  induction rs with
  | nil => intro ts h; rw [mulRow] at h; cases h; simp
  | cons r rs ih =>
    intro ts h
    rw [mulRow] at h
    split at h
    · obtain ⟨ts', h1, h2⟩ := bind_ok.mp h
      rw [pure_ok] at h2; subst h2
      rintro ⟨x, hx, hc⟩
      rcases List.mem_cons.mp hx with rfl | hx
      · simp only [isInvalid_iff] at hc
        by_cases hl : l.var = cst
        · rw [if_pos hl] at hc; exact ⟨hl, r, by simp, hc⟩
        · rw [if_neg hl] at hc; exact absurd hc hl
      · obtain ⟨h3, r', hr', h4⟩ := ih h1 ⟨x, hx, hc⟩
        exact ⟨h3, r', by simp [hr'], h4⟩
    · cases h

theorem mulTerms_cst : ∀ {ls rs ts : List (Term Symbol)}, mulTerms ls rs = .ok ts →
    (∃ x ∈ ts, x.var = cst) → (∃ l ∈ ls, l.var = cst) ∧ ∃ r ∈ rs, r.var = cst := by
  intro ls rs
  induction ls with
  | nil => intro ts h; rw [mulTerms] at h; cases h; simp
  | cons l ls ih =>
    intro ts h
    rw [mulTerms] at h
    obtain ⟨x, h1, h⟩ := bind_ok.mp h
    obtain ⟨y, h2, h⟩ := bind_ok.mp h
    rw [pure_ok] at h; subst h
    rintro ⟨z, hz, hc⟩
    rcases List.mem_append.mp hz with hz | hz
    · obtain ⟨h3, h4⟩ := mulRow_cst h1 ⟨z, hz, hc⟩
      exact ⟨⟨l, by simp, h3⟩, h4⟩
    · obtain ⟨⟨l', hl', h3⟩, h4⟩ := ih h2 ⟨z, hz, hc⟩
      exact ⟨⟨l', by simp [hl'], h3⟩, h4⟩

theorem sumVar_cst {be : Backend} {t : TTerm} {ts : List (Term Symbol)}
    (h : (do let v ← evaluateVar be t; return [⟨1, v⟩] : Except Err (List (Term Symbol))) = .ok ts) : ¬ ∃ x ∈ ts, x.var = cst := by
  obtain ⟨s, h1, h2⟩ := bind_ok.mp h
  rw [pure_ok] at h2; subst h2
  simpa using ((evaluateVar_iff be t s).mp h1).userSym.ne_cst

theorem parseSum_cst (be : Backend) (t : TTerm) : ∀ {ts}, parseSum be t = .ok ts → (∃ x ∈ ts, x.var = cst) → ConstSummand t := by
  induction t using TTerm.ind with
  | h1 n => intro ts h _; exact .number n
  | h2 name =>
    intro ts h hc
    rw [parseSum] at h
    split at h
    · rename_i q hq
      split at hq
      · exact .decimal _ q ((asNum_iff _ _).mp hq)
      · cases hq
    · exact absurd hc (sumVar_cst h)
  | h3 name args ih =>
    intro ts h hc
    rw [parseSum, parseSums_eq] at h
    match args, ih, h with
    | [], ih, h => exact absurd hc (sumVar_cst h)
    | [a], ih, h =>
      have iha := @ih a (by simp)
      simp only [List.map_cons, List.map_nil, sumFn] at h
      by_cases h1 : name = ['-']
      · subst h1
        rw [if_pos rfl] at h
        obtain ⟨x, hx, h⟩ := bind_ok.mp h
        rw [pure_ok] at h; subst h
        obtain ⟨y, hy, hy'⟩ := hc
        obtain ⟨z, hz, he⟩ := mem_negTerms hy
        exact .neg _ (iha hx ⟨z, hz, he ▸ hy'⟩)
      rw [if_neg h1] at h
      by_cases h2 : name = ['+']
      · subst h2
        rw [if_pos rfl] at h
        exact .pos _ (iha h hc)
      rw [if_neg h2] at h
      exact absurd hc (sumVar_cst h)
    | [a, b], ih, h =>
      have iha := @ih a (by simp)
      have ihb := @ih b (by simp)
      simp only [List.map_cons, List.map_nil, sumFn] at h
      by_cases h1 : name = ['+']
      · subst h1
        rw [if_pos rfl] at h
        obtain ⟨x, hx, h⟩ := bind_ok.mp h
        obtain ⟨y, hy, h⟩ := bind_ok.mp h
        rw [pure_ok] at h; subst h
        obtain ⟨z, hz, hz'⟩ := hc
        rcases List.mem_append.mp hz with hz | hz
        · exact .addl _ _ (iha hx ⟨z, hz, hz'⟩)
        · exact .addr _ _ (ihb hy ⟨z, hz, hz'⟩)
      rw [if_neg h1] at h
      by_cases h2 : name = ['-']
      · subst h2
        rw [if_pos rfl] at h
        obtain ⟨x, hx, h⟩ := bind_ok.mp h
        obtain ⟨y, hy, h⟩ := bind_ok.mp h
        rw [pure_ok] at h; subst h
        obtain ⟨z, hz, hz'⟩ := hc
        rcases List.mem_append.mp hz with hz | hz
        · exact .subl _ _ (iha hx ⟨z, hz, hz'⟩)
        · obtain ⟨w, hw, he⟩ := mem_negTerms hz
          exact .subr _ _ (ihb hy ⟨w, hw, he ▸ hz'⟩)
      rw [if_neg h2] at h
      by_cases h3 : name = ['*']
      · subst h3
        rw [if_pos rfl] at h
        obtain ⟨x, hx, h⟩ := bind_ok.mp h
        obtain ⟨y, hy, h⟩ := bind_ok.mp h
        obtain ⟨h4, h5⟩ := mulTerms_cst h hc
        exact .mul _ _ (iha hx h4) (ihb hy h5)
      rw [if_neg h3] at h
      by_cases h4 : name = ['/']
      · subst h4
        rw [if_pos rfl] at h
        obtain ⟨x, hx, h⟩ := bind_ok.mp h
        obtain ⟨q, hq, h⟩ := bind_ok.mp h
        by_cases hq0 : q = 0
        · rw [if_pos hq0] at h; cases h
        · rw [if_neg hq0, pure_ok] at h; subst h
          obtain ⟨z, hz, hz'⟩ := hc
          obtain ⟨w, hw, rfl⟩ := List.mem_map.mp hz
          exact .div _ _ (iha hx ⟨w, hw, hz'⟩)
      rw [if_neg h4] at h
      exact absurd hc (sumVar_cst h)
    | a :: b :: c :: as, ih, h => exact absurd hc (sumVar_cst h)
  | h4 args ih =>
    intro ts h hc
    rw [parseSum] at h
    exact absurd hc (sumVar_cst h)
  | h5 args ih => intro ts h; rw [parseSum] at h; cases h
  | h6 args ih => intro ts h; rw [parseSum] at h; cases h

/-- No auxiliary variable stands for a constant. -/
def NoCstAux (p : Prog) : Prop := ∀ e ∈ p.aux, e.1.1 ≠ cst

theorem condTerm_noCst {mapper : ℤ → ℤ} {c : ℤ} {p : Prog} {t : Term Symbol} {r : Prog × Term Symbol}
    (ht : t.var ≠ cst) (hp : NoCstAux p) (h : condTerm mapper c p t = .ok r) : NoCstAux r.1 := by
  unfold condTerm at h
  obtain ⟨n, hn, h⟩ := bind_ok.mp h
  split at h
  · rw [pure_ok] at h; subst h; exact hp
  · rw [pure_ok] at h; subst h
    intro e he
    rcases List.mem_append.mp he with he | he
    · exact hp e he
    · simp only [List.mem_cons, List.not_mem_nil, or_false] at he
      subst he; exact ht

theorem condTerms_noCst {mapper : ℤ → ℤ} {c : ℤ} : ∀ {ts : List (Term Symbol)} {p : Prog} {r : Prog × List (Term Symbol)},
    (∀ t ∈ ts, t.var ≠ cst) → NoCstAux p → condTerms mapper c ts p = .ok r → NoCstAux r.1 := by
  intro ts
  induction ts with
  | nil => intro p r _ hp h; rw [condTerms] at h; cases h; exact hp
  | cons t ts ih =>
    intro p r ht hp h
    rw [condTerms] at h
    obtain ⟨r1, h1, h⟩ := bind_ok.mp h
    obtain ⟨rs, h2, h⟩ := bind_ok.mp h
    rw [pure_ok] at h; subst h
    show NoCstAux rs.1
    exact ih (fun u hu => ht u (by simp [hu])) (condTerm_noCst (ht t (by simp)) hp h1) h2

theorem parseElems_noCst {be : Backend} {mapper : ℤ → ℤ} : ∀ {es : List Elem} {p : Prog} {r : Prog × List (Term Symbol)},
    (∀ e ∈ es, e.cond ≠ [] → ∀ t ∈ e.tuple, ¬ ConstSummand t) → NoCstAux p → parseElems be mapper es p = .ok r → NoCstAux r.1 := by
  intro es
  induction es with
  | nil => intro p r _ hp h; rw [parseElems] at h; cases h; exact hp
  | cons e es ih =>
    intro p r he hp h
    rw [parseElems] at h
    obtain ⟨r1, h1, h⟩ := bind_ok.mp h
    obtain ⟨rs, h2, h⟩ := bind_ok.mp h
    rw [pure_ok] at h; subst h
    show NoCstAux rs.1
    refine ih (fun e' he' => he e' (by simp [he'])) ?_ h2
    unfold parseElem at h1
    split at h1
    · rename_i t ht
      obtain ⟨ts, h3, h1⟩ := bind_ok.mp h1
      split at h1
      · rw [pure_ok] at h1; subst h1; exact hp
      · rename_i hc
        refine condTerms_noCst ?_ hp h1
        intro u hu hc'
        exact he e (by simp) (by simpa using hc) t (by simp [ht]) (parseSum_cst be t h3 ⟨u, hu, hc'⟩)
    · cases h1

theorem addIneq_aux {be : Backend} {mapper : ℤ → ℤ} {a : TAtom} {gd : String × TTerm} {p p' : Prog} {lhs : List (Term Symbol)}
    (h : addIneq be mapper a gd p lhs = .ok p') : p'.aux = p.aux := by
  obtain ⟨iq, rel, rfl, -⟩ := addIneq_ok h; rfl

theorem parseAtom_noCst {be : Backend} {mapper : ℤ → ℤ} {p p' : Prog} {a : TAtom} (ha : NoCondConst a) (hp : NoCstAux p)
    (h : parseAtom be mapper p a = .ok p') : NoCstAux p' := by
  have obj : ∀ neg, parseObj be mapper p a neg = .ok p' → NoCstAux p' := by
    intro neg h
    unfold parseObj at h
    obtain ⟨r, h1, h⟩ := bind_ok.mp h
    rw [pure_ok] at h; subst h
    exact parseElems_noCst ha hp h1
  unfold parseAtom at h
  split at h
  · unfold parseDom at h
    repeat' split at h
    all_goals first | (cases h; done) | skip
    obtain ⟨s, h1, h⟩ := bind_ok.mp h
    obtain ⟨hi, h2, h⟩ := bind_ok.mp h
    obtain ⟨lo, h3, h⟩ := bind_ok.mp h
    rw [pure_ok] at h; subst h
    exact hp
  split at h
  · unfold parseDiff at h
    repeat' split at h
    all_goals first | (cases h; done) | skip
    obtain ⟨lhs, h1, h⟩ := bind_ok.mp h
    intro e he
    rw [addIneq_aux h] at he; exact hp e he
  split at h
  · unfold parseSumAtom at h
    split at h
    · obtain ⟨r, h1, h⟩ := bind_ok.mp h
      intro e he
      rw [addIneq_aux h] at he; exact parseElems_noCst ha hp h1 e he
    · cases h
  split at h
  · exact obj _ h
  split at h
  · exact obj _ h
  cases h; exact hp

theorem parseAtoms_noCst {be : Backend} {mapper : ℤ → ℤ} : ∀ {atoms : List TAtom} {p p' : Prog}, (∀ a ∈ atoms, NoCondConst a) →
    NoCstAux p → parseAtoms be mapper atoms p = .ok p' → NoCstAux p' := by
  intro atoms
  induction atoms with
  | nil => intro p p' _ hp h; rw [parseAtoms] at h; cases h; exact hp
  | cons a as ih =>
    intro p p' ha hp h
    rw [parseAtoms] at h
    obtain ⟨q, h1, h⟩ := bind_ok.mp h
    exact ih (fun b hb => ha b (by simp [hb])) (parseAtom_noCst (ha a (by simp)) hp h1) h

/-! ### accepted terms -/

/-- The terms of an accepted atom are well-formed. -/
structure TermsOK (a : TAtom) : Prop where
  elems : Named a "sum" ∨ Named a "minimize" ∨ Named a "maximize" → ∀ e ∈ a.elements, ∃ t, e.tuple = [t] ∧ Linear t
  guard : Named a "sum" ∨ Named a "diff" → ∃ gd, a.guard = some gd ∧ Linear gd.2
  noDiv : IsTheoryAtom a → (∀ e ∈ a.elements, ∀ t ∈ e.tuple, ¬ DivByZero t) ∧ ∀ gd, IsConstraint a → a.guard = some gd → ¬ DivByZero gd.2

theorem Linear.not_divByZero {t : TTerm} (h : Linear t) : ¬ DivByZero t := by
  obtain ⟨ts, hts⟩ := (parseSum_accepts_iff .imath t).mpr h
  exact ((parseSum_ok .imath t hts).means fun _ => 0).not_divByZero

theorem parseElems_terms {be : Backend} {mapper : ℤ → ℤ} : ∀ {es : List Elem} {p : Prog} {r : Prog × List (Term Symbol)},
    parseElems be mapper es p = .ok r → ∀ e ∈ es, ∃ t, e.tuple = [t] ∧ Linear t := by
  intro es
  induction es with
  | nil => intro p r h; simp
  | cons e es ih =>
    intro p r h
    rw [parseElems] at h
    obtain ⟨r1, h1, h⟩ := bind_ok.mp h
    obtain ⟨rs, h2, h⟩ := bind_ok.mp h
    intro e' he'
    rcases List.mem_cons.mp he' with rfl | he'
    · unfold parseElem at h1
      split at h1
      · rename_i t ht
        obtain ⟨ts, h3, h1⟩ := bind_ok.mp h1
        exact ⟨t, ht, (parseSum_ok be t h3).lin⟩
      · cases h1
    · exact ih h2 e' he'

theorem addIneq_guard {be : Backend} {mapper : ℤ → ℤ} {a : TAtom} {gd : String × TTerm} {p p' : Prog} {lhs : List (Term Symbol)}
    (h : addIneq be mapper a gd p lhs = .ok p') : Linear gd.2 := by
  unfold addIneq at h
  obtain ⟨gt, h1, h⟩ := bind_ok.mp h
  exact (parseSum_ok be _ h1).lin

theorem divByZero_bin {name : List Char} {l r : TTerm} {v w : Val} (hn : name ≠ ['/']) (hl : Denotes true l v) (hr : Denotes true r w) :
    ¬ DivByZero (.func name [l, r]) := by
  rintro ⟨c, d, hs, hd⟩
  cases hs with
  | refl => exact hn rfl
  | func _ _ e he hs =>
    simp at he
    rcases he with rfl | rfl
    · exact hl.not_divByZero ⟨c, d, hs, hd⟩
    · exact hr.not_divByZero ⟨c, d, hs, hd⟩

/-- C22/C43: accepted atoms only have linear terms without divisions by zero. -/
theorem parseAtom_terms {be : Backend} {mapper : ℤ → ℤ} {p p' : Prog} {a : TAtom}
    (h : parseAtom be mapper p a = .ok p') : TermsOK a := by
  have linDiv : (∀ e ∈ a.elements, ∃ t, e.tuple = [t] ∧ Linear t) → ∀ e ∈ a.elements, ∀ t ∈ e.tuple, ¬ DivByZero t := by
    intro h e he t ht
    obtain ⟨u, hu, hl⟩ := h e he
    rw [hu] at ht
    simp only [List.mem_cons, List.not_mem_nil, or_false] at ht
    subst ht; exact hl.not_divByZero
  have obj : ∀ (neg : Bool), Named a (if neg then "minimize" else "maximize") → parseObj be mapper p a neg = .ok p' → TermsOK a := by
    intro neg hn h
    unfold parseObj at h
    obtain ⟨r, h1, h⟩ := bind_ok.mp h
    have := parseElems_terms h1
    refine ⟨fun _ => this, ?_, fun _ => ⟨linDiv this, ?_⟩⟩
    · rintro (h | h) <;> · have := hn.inj h; cases neg <;> simp at this
    · rintro gd (h | h | h) <;> · have := hn.inj h; cases neg <;> simp at this
  unfold parseAtom at h
  split at h
  · rename_i hn
    have hn : Named a "dom" := (isName_iff a "dom").mp (by simpa using hn)
    have key : (∀ e ∈ a.elements, ∀ t ∈ e.tuple, ¬ DivByZero t) ∧ ∀ gd, a.guard = some gd → ¬ DivByZero gd.2 := by
      unfold parseDom at h
      split at h
      · rename_i e gd he hg
        split at h
        · rename_i name l u ht
          split at h
          · rename_i hc
            simp only [Bool.and_eq_true, beq_iff_eq] at hc
            obtain ⟨-, hdot⟩ := hc
            subst hdot
            obtain ⟨s, h1, h⟩ := bind_ok.mp h
            obtain ⟨hi, h2, h⟩ := bind_ok.mp h
            obtain ⟨lo, h3, h⟩ := bind_ok.mp h
            refine ⟨?_, ?_⟩
            · intro e' he' t ht'
              rw [he] at he'
              simp only [List.mem_cons, List.not_mem_nil, or_false] at he'
              subst he'
              rw [ht] at ht'
              simp only [List.mem_cons, List.not_mem_nil, or_false] at ht'
              subst ht'
              exact divByZero_bin (by decide) ((evaluateNum_iff be _ _).mp h3) ((evaluateNum_iff be _ _).mp h2)
            · intro gd' hg'
              rw [hg] at hg'
              cases hg'
              exact ((evaluateVar_iff be _ _).mp h1).not_divByZero
          · cases h
        · cases h
      · cases h
    refine ⟨?_, ?_, fun _ => ⟨key.1, fun gd _ => key.2 gd⟩⟩
    · rintro (h | h | h) <;> exact absurd (hn.inj h) (by decide)
    · rintro (h | h) <;> exact absurd (hn.inj h) (by decide)
  split at h
  · rename_i hn
    have hn : Named a "diff" := (isName_iff a "diff").mp (by simpa using hn)
    have key : (∀ e ∈ a.elements, ∀ t ∈ e.tuple, ¬ DivByZero t) ∧ ∃ gd, a.guard = some gd ∧ Linear gd.2 := by
      unfold parseDiff at h
      split at h
      · rename_i e gd he hg
        split at h
        · rename_i t ht
          split at h
          · obtain ⟨lhs, h1, h⟩ := bind_ok.mp h
            refine ⟨?_, gd, hg, addIneq_guard h⟩
            obtain ⟨l, r, v, w, hlr, hv, hw, -⟩ := parseDiffElem_ok h1
            intro e' he' t' ht'
            rw [he] at he'
            simp only [List.mem_cons, List.not_mem_nil, or_false] at he'
            subst he'
            rw [ht] at ht'
            simp only [List.mem_cons, List.not_mem_nil, or_false] at ht'
            subst ht'
            rw [hlr]
            exact divByZero_bin (by decide) hv hw
          · cases h
        · cases h
      · cases h
    refine ⟨?_, fun _ => key.2, fun _ => ⟨key.1, ?_⟩⟩
    · rintro (h | h | h) <;> exact absurd (hn.inj h) (by decide)
    · intro gd _ hg
      obtain ⟨gd', hg', hl⟩ := key.2
      rw [hg] at hg'; cases hg'; exact hl.not_divByZero
  split at h
  · unfold parseSumAtom at h
    split at h
    · rename_i gd hg
      obtain ⟨r, h1, h⟩ := bind_ok.mp h
      have k1 := parseElems_terms h1
      have k2 := addIneq_guard h
      refine ⟨fun _ => k1, fun _ => ⟨gd, hg, k2⟩, fun _ => ⟨linDiv k1, ?_⟩⟩
      intro gd' _ hg'
      rw [hg] at hg'; cases hg'; exact k2.not_divByZero
    · cases h
  split at h
  · rename_i hn
    exact obj true ((isName_iff a "minimize").mp hn) h
  split at h
  · rename_i hn
    exact obj false ((isName_iff a "maximize").mp hn) h
  rename_i n1 n2 n3 n4 n5
  have m1 : ¬ Named a "dom" := fun h => n1 (by simpa using (isName_iff a "dom").mpr h)
  have m2 : ¬ Named a "diff" := fun h => n2 (by simpa using (isName_iff a "diff").mpr h)
  have m3 : ¬ Named a "sum" := fun h => n3 (by simpa using (isName_iff a "sum").mpr h)
  have m4 : ¬ Named a "minimize" := fun h => n4 ((isName_iff a "minimize").mpr h)
  have m5 : ¬ Named a "maximize" := fun h => n5 ((isName_iff a "maximize").mpr h)
  refine ⟨?_, ?_, ?_⟩
  · rintro (h | h | h); exacts [absurd h m3, absurd h m4, absurd h m5]
  · rintro (h | h); exacts [absurd h m3, absurd h m2]
  · rintro ((h | h | h) | h | h); exacts [absurd h m3, absurd h m2, absurd h m1, absurd h m4, absurd h m5]

theorem parseAtoms_terms {be : Backend} {mapper : ℤ → ℤ} : ∀ {atoms : List TAtom} {p p' : Prog},
    parseAtoms be mapper atoms p = .ok p' → ∀ a ∈ atoms, TermsOK a := by
  intro atoms
  induction atoms with
  | nil => intro p p' h; simp
  | cons a as ih =>
    intro p p' h
    rw [parseAtoms] at h
    obtain ⟨q, h1, h⟩ := bind_ok.mp h
    intro b hb
    rcases List.mem_cons.mp hb with rfl | hb
    · exact parseAtom_terms h1
    · exact ih h b hb

/-! ### programs -/

theorem evaluateTheory_cases {be : Backend} {mapper : ℤ → ℤ} {atoms : List TAtom} {p p' : Prog}
    (h : evaluateTheory be mapper atoms p = .ok p') : ∃ q, parseAtoms be mapper atoms p = .ok q ∧
      p' = { q with objective := (simplify q.objective).1 } ∧ (simplify q.objective).2 = 0 := by
  unfold evaluateTheory at h
  obtain ⟨q, h1, h⟩ := bind_ok.mp h
  refine ⟨q, h1, ?_⟩
  simp only at h
  split at h
  · rename_i h2
    rw [pure_ok] at h; exact ⟨h.symm, h2⟩
  · cases h

theorem ext_ext (g : Symbol → ℚ) : ext (ext g) = ext g := by
  funext s
  by_cases hc : s = cst
  · rw [hc, ext_cst, ext_cst]
  · rw [ext_ne _ hc]

/-- Whole programs: the new constraints say exactly that the true atoms hold and that the auxiliary variables have
the values of the conditional terms. -/
theorem theory_sat {be : Backend} {mapper : ℤ → ℤ} {atoms : List TAtom} {p p' : Prog} (hp : PInv p)
    (h : evaluateTheory be mapper atoms p = .ok p') : ∃ auxs iqs, p'.aux = p.aux ++ auxs ∧ p'.iqs = p.iqs ++ iqs ∧ PInv p' ∧
      (∀ tr g, Total tr → (∀ c, mapper c ≠ 0) → AuxOK mapper tr g p.aux → (Sat tr (ext g) iqs ↔
        (AuxOK mapper tr g auxs ∧ ∀ a ∈ atoms, IsConstraint a → tr (mapper a.literal) → AtomHolds mapper tr g a))) ∧
      (∀ iq ∈ iqs, IqNF p'.aux iq) ∧
      (∀ tr g, AuxOK mapper tr g p'.aux → ∃ x, ObjVal mapper tr g atoms x ∧
        evalTerms g p'.objective = evalTerms (ext g) p.objective + x) ∧
      (p'.objective.map (·.var)).Nodup ∧ (∀ t ∈ p'.objective, t.co ≠ 0 ∧ t.var ≠ cst) ∧
      ((∀ t ∈ p.objective, t.var = cst ∨ UserSym t.var ∨ ∃ e ∈ p.aux, t.var = e.2) →
        ∀ t ∈ p'.objective, t.var = cst ∨ UserSym t.var ∨ ∃ e ∈ p'.aux, t.var = e.2) := by
  obtain ⟨q, h1, rfl, h2⟩ := evaluateTheory_cases h
  obtain ⟨auxs, iqs, obj, k⟩ := parseAtoms_ok hp h1
  refine ⟨auxs, iqs, k.aux, k.iqs, ⟨k.inv.vals, k.inv.key⟩, k.sat, k.nf, ?_, simplify_nodup _, ?_, ?_⟩
  · intro tr g hax
    refine ⟨_, k.objVal tr g hax, ?_⟩
    have h3 := simplify_value g q.objective
    rw [h2, sub_zero] at h3
    simp only
    rw [h3, k.obj, evalTerms_append]
  · intro t ht
    exact ⟨simplify_ne_zero _ t ht, (simplify_vars _ t ht).1⟩
  · intro hob t ht
    obtain ⟨-, y, hy, he⟩ := simplify_vars _ t ht
    rw [k.obj] at hy
    rw [← he]
    rcases List.mem_append.mp hy with hy | hy
    · rcases hob y hy with h | h | ⟨e, he', h⟩
      · exact .inl h
      · exact .inr (.inl h)
      · exact .inr (.inr ⟨e, by rw [k.aux]; exact List.mem_append_left _ he', h⟩)
    · exact k.objVars y hy

theorem ObjVal.congr {mapper : ℤ → ℤ} {tr : ℤ → Prop} {g : Symbol → ℚ} : ∀ {atoms : List TAtom} {x y : ℚ},
    ObjVal mapper tr g atoms x → ObjVal mapper tr g atoms y → x = y := by
  intro atoms
  induction atoms with
  | nil => intro x y h1 h2; cases h1; cases h2; rfl
  | cons a as ih =>
    intro x y h1 h2
    cases h1 with
    | max _ _ xs x1 hn hx h1 =>
      cases h2 with
      | max _ _ ys y1 _ hy h2 => rw [ElemVals.unique hx hy, ih h1 h2]
      | min _ _ ys y1 hn' => exact absurd (hn.inj hn') (by decide)
      | other _ _ _ hn' => exact absurd hn hn'
    | min _ _ xs x1 hn hx h1 =>
      cases h2 with
      | min _ _ ys y1 _ hy h2 => rw [ElemVals.unique hx hy, ih h1 h2]
      | max _ _ ys y1 hn' => exact absurd (hn.inj hn') (by decide)
      | other _ _ _ _ hn' => exact absurd hn hn'
    | other _ _ _ hn hn' h1 =>
      cases h2 with
      | min _ _ ys y1 h => exact absurd h hn'
      | max _ _ ys y1 h => exact absurd h hn
      | other _ _ _ _ _ h2 => exact ih h1 h2

theorem ElemVal.congr {mapper : ℤ → ℤ} {tr : ℤ → Prop} {g g' : Symbol → ℚ} (hg : ∀ s, UserSym s → g s = g' s) {e : Elem} {x : ℚ}
    (h : ElemVal mapper tr g e x) : ElemVal mapper tr g' e x := by
  obtain ⟨t, y, h1, h2, h3⟩ := h
  exact ⟨t, y, h1, h2.congr hg, h3⟩

theorem Val.num_congr {g g' : Symbol → ℚ} (hg : ∀ s, UserSym s → g s = g' s) {ns : Bool} {t : TTerm} {v : Val} (h : Denotes ns t v) :
    v.num g = v.num g' := by
  cases v with
  | rat q => rfl
  | sym s => exact hg s h.userSym

/-- The meaning of atoms depends only on the variables a user can name. -/
theorem AtomHolds.congr {mapper : ℤ → ℤ} {tr : ℤ → Prop} {g g' : Symbol → ℚ} (hg : ∀ s, UserSym s → g s = g' s) {a : TAtom}
    (h : AtomHolds mapper tr g a) : AtomHolds mapper tr g' a := by
  cases h with
  | sum op t rel xs y hn hgd hr hx hy h =>
    exact .sum op t rel xs y hn hgd hr (hx.imp fun _ _ h => h.congr hg) (hy.congr hg) h
  | diff op t rel e l r v w y hn hgd hr he ht hv hw hy h =>
    refine .diff op t rel e l r v w y hn hgd hr he ht hv hw (hy.congr hg) ?_
    rw [← Val.num_congr hg hv, ← Val.num_congr hg hw]; exact h
  | dom op t e l u lo hi s hn hgd he ht hl hu hs h =>
    refine .dom op t e l u lo hi s hn hgd he ht hl hu hs ?_
    rw [← hg s hs.userSym]; exact h

/-- The valuation that gives auxiliary variables the values of the conditional terms. -/
noncomputable def auxVal (mapper : ℤ → ℤ) (tr : ℤ → Prop) (g : Symbol → ℚ) (aux : List ((Symbol × ℤ) × Symbol)) : Symbol → ℚ :=
  fun s => open Classical in
    match aux.find? fun e => e.2 = s with
    | some e => if tr (mapper e.1.2) then ext g e.1.1 else 0
    | none => g s

theorem auxVal_user {mapper : ℤ → ℤ} {tr : ℤ → Prop} {g : Symbol → ℚ} {p : Prog} (hp : PInv p) {s : Symbol} (hs : UserSym s) :
    auxVal mapper tr g p.aux s = g s := by
  unfold auxVal
  split
  · rename_i e he
    have h1 := List.mem_of_find?_eq_some he
    have h2 : e.2 = s := by simpa using List.find?_some he
    obtain ⟨n, hn⟩ := hp.val h1
    rw [h2] at hn; exact absurd hn (hs _)
  · rfl

theorem auxVal_ok {mapper : ℤ → ℤ} {tr : ℤ → Prop} {g : Symbol → ℚ} {p : Prog} (hp : PInv p) :
    AuxOK mapper tr (auxVal mapper tr g p.aux) p.aux := by
  intro e he
  have hf : ∃ f, p.aux.find? (fun f => f.2 = e.2) = some f := by
    rw [← Option.isSome_iff_exists, List.find?_isSome]
    exact ⟨e, he, by simp⟩
  obtain ⟨f, hf⟩ := hf
  have hef : f = e := hp.val_inj (List.mem_of_find?_eq_some hf) he (by simpa using List.find?_some hf)
  subst hef
  have hkey : ext (auxVal mapper tr g p.aux) f.1.1 = ext g f.1.1 := by
    rcases hp.key f he with h | h
    · rw [h, ext_cst, ext_cst]
    · rw [ext_user _ h, ext_user _ h, auxVal_user hp h]
  have hv : auxVal mapper tr g p.aux f.2 = (open Classical in if tr (mapper f.1.2) then ext g f.1.1 else 0) := by
    unfold auxVal
    rw [hf]
  rw [hkey, hv]
  refine ⟨fun h => if_pos h, fun h => if_neg h⟩

/-- Constraints over variables only. -/
theorem Sat.congr {tr : ℤ → Prop} {g g' : Symbol → ℚ} {iqs : List (Ineq Symbol)} (h : ∀ iq ∈ iqs, ∀ t ∈ iq.lhs, g t.var = g' t.var)
    (hs : Sat tr g iqs) : Sat tr g' iqs := by
  intro iq hiq hl
  have := hs iq hiq hl
  unfold Ineq.holds at this ⊢
  rwa [evalTerms_congr (h iq hiq)] at this

end Lpx
