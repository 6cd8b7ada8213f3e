import Verif.ParsingMain

/-!
# Conditional elements with constants (C25, C26)

parsing.cc:366-392 replaces every term of a conditional element by an auxiliary variable, including terms whose variable is
the symbol of constants. That symbol then becomes a variable of the linear program. This file determines what the generated
constraints mean for arbitrary values of that variable.
-/

namespace Lpx

/-! ### specification -/

/-- The value an element contributes if the constants of conditional elements are multiplied by `c`: an element without condition
contributes the value of its term; an element whose condition is true contributes the value of its term, where the constant part
`d` of the term is multiplied by `c`; an element whose condition is false contributes nothing. -/
def ElemValC (mapper : ℤ → ℤ) (tr : ℤ → Prop) (c : ℚ) (g : Symbol → ℚ) (e : Elem) (x : ℚ) : Prop :=
  ∃ t y d, e.tuple = [t] ∧ Means g t y ∧ Means (fun _ => 0) t d ∧
    ((e.cond = [] ∧ x = y) ∨ (e.cond ≠ [] ∧ tr (mapper e.condId) ∧ x = (y - d) + c * d) ∨
      (e.cond ≠ [] ∧ ¬ tr (mapper e.condId) ∧ x = 0))

/-- The reading of atoms if the constants of conditional elements are multiplied by `c`. -/
inductive AtomHoldsC (mapper : ℤ → ℤ) (tr : ℤ → Prop) (c : ℚ) (g : Symbol → ℚ) (a : TAtom) : Prop
  | sum (op t rel xs y) (hn : Named a "sum") (hg : a.guard = some (op, t)) (hr : (op, rel) ∈ relTable)
      (hx : List.Forall₂ (ElemValC mapper tr c g) a.elements xs) (hy : Means g t y) (h : rel.holds xs.sum y)
  | other (hn : ¬ Named a "sum") (h : AtomHolds mapper tr g a)

/-- The value of the objective if the constants of conditional elements are multiplied by `c`. -/
inductive ObjValC (mapper : ℤ → ℤ) (tr : ℤ → Prop) (c : ℚ) (g : Symbol → ℚ) : List TAtom → ℚ → Prop
  | nil : ObjValC mapper tr c g [] 0
  | max (a as xs y) : Named a "maximize" → List.Forall₂ (ElemValC mapper tr c g) a.elements xs → ObjValC mapper tr c g as y →
      ObjValC mapper tr c g (a :: as) (xs.sum + y)
  | min (a as xs y) : Named a "minimize" → List.Forall₂ (ElemValC mapper tr c g) a.elements xs → ObjValC mapper tr c g as y →
      ObjValC mapper tr c g (a :: as) (-xs.sum + y)
  | other (a as y) : ¬ Named a "maximize" → ¬ Named a "minimize" → ObjValC mapper tr c g as y → ObjValC mapper tr c g (a :: as) y

variable {mapper : ℤ → ℤ} {tr : ℤ → Prop} {c : ℚ} {g g' : Symbol → ℚ}

theorem ElemValC.unique {e : Elem} {x y : ℚ} (hx : ElemValC mapper tr c g e x) (hy : ElemValC mapper tr c g e y) : x = y := by
  obtain ⟨t, u, d, h1, h2, h3, h4⟩ := hx
  obtain ⟨t', u', d', k1, k2, k3, k4⟩ := hy
  rw [h1] at k1
  have ht : t = t' := by simpa using k1
  subst ht
  have e1 := h2.unique k2
  have e2 := h3.unique k3
  subst e1; subst e2
  rcases h4 with ⟨h, rfl⟩ | ⟨h, h', rfl⟩ | ⟨h, h', rfl⟩ <;> rcases k4 with ⟨k, rfl⟩ | ⟨k, k', rfl⟩ | ⟨k, k', rfl⟩ <;>
    first | rfl | exact absurd h k | exact absurd k h | exact absurd h' k' | exact absurd k' h'

theorem ElemValsC.unique {es : List Elem} {xs : List ℚ} (hx : List.Forall₂ (ElemValC mapper tr c g) es xs) :
    ∀ {ys}, List.Forall₂ (ElemValC mapper tr c g) es ys → xs = ys := by
  induction hx with
  | nil => intro ys h; cases h; rfl
  | cons h _ ih => intro ys k; cases k with | cons k1 k2 => rw [h.unique k1, ih k2]

theorem ElemValC.congr (hg : ∀ s, UserSym s → g s = g' s) {e : Elem} {x : ℚ} (h : ElemValC mapper tr c g e x) :
    ElemValC mapper tr c g' e x := by
  obtain ⟨t, y, d, h1, h2, h3⟩ := h
  exact ⟨t, y, d, h1, h2.congr hg, h3⟩

theorem AtomHoldsC.congr (hg : ∀ s, UserSym s → g s = g' s) {a : TAtom} (h : AtomHoldsC mapper tr c g a) :
    AtomHoldsC mapper tr c g' a := by
  cases h with
  | sum op t rel xs y hn hgd hr hx hy h =>
    exact .sum op t rel xs y hn hgd hr (hx.imp fun _ _ h => h.congr hg) (hy.congr hg) h
  | other hn h => exact .other hn (h.congr hg)

theorem ObjValC.congr (hg : ∀ s, UserSym s → g s = g' s) {as : List TAtom} {x : ℚ} (h : ObjValC mapper tr c g as x) :
    ObjValC mapper tr c g' as x := by
  induction h with
  | nil => exact .nil
  | max a as xs y h1 h2 _ ih => exact .max a as xs y h1 (h2.imp fun _ _ h => h.congr hg) ih
  | min a as xs y h1 h2 _ ih => exact .min a as xs y h1 (h2.imp fun _ _ h => h.congr hg) ih
  | other a as y h1 h2 _ ih => exact .other a as y h1 h2 ih

/-- Values of elements are transformed if those of the elements with conditions are. -/
theorem elemVals_map {P Q : Elem → ℚ → Prop} {es : List Elem} {xs : List ℚ} (h : List.Forall₂ P es xs)
    (hpq : ∀ e ∈ es, ∀ x, P e x → Q e x) : List.Forall₂ Q es xs := by
  induction h with
  | nil => exact .nil
  | cons h _ ih => exact .cons (hpq _ (by simp) _ h) (ih fun e he => hpq e (by simp [he]))

/-- Multiplied by one, the constants are those written. -/
theorem ElemValC.one {e : Elem} {x : ℚ} (h : ElemValC mapper tr 1 g e x) : ElemVal mapper tr g e x := by
  obtain ⟨t, y, d, h1, h2, h3, h4⟩ := h
  refine ⟨t, y, h1, h2, ?_⟩
  rcases h4 with ⟨h, rfl⟩ | ⟨h, h', rfl⟩ | ⟨h, h', rfl⟩
  · exact .inl ⟨.inl h, rfl⟩
  · exact .inl ⟨.inr h', by ring⟩
  · exact .inr ⟨by rintro (k | k) <;> contradiction, rfl⟩

/-- If the constant part is zero then it does not matter. -/
theorem ElemValC.zero {c' : ℚ} {e : Elem} (he : e.cond ≠ [] → ∀ t ∈ e.tuple, ∀ d, Means (fun _ => 0) t d → d = 0) {x : ℚ}
    (h : ElemValC mapper tr c g e x) : ElemValC mapper tr c' g e x := by
  obtain ⟨t, y, d, h1, h2, h3, h4⟩ := h
  refine ⟨t, y, d, h1, h2, h3, ?_⟩
  rcases h4 with h4 | ⟨h, h', rfl⟩ | h4
  · exact .inl h4
  · have := he h t (by rw [h1]; simp) d h3
    exact .inr (.inl ⟨h, h', by rw [this]; ring⟩)
  · exact .inr (.inr h4)

theorem AtomHoldsC.one {a : TAtom} (h : AtomHoldsC mapper tr 1 g a) : AtomHolds mapper tr g a := by
  cases h with
  | sum op t rel xs y hn hgd hr hx hy h => exact .sum op t rel xs y hn hgd hr (hx.imp fun _ _ h => h.one) hy h
  | other hn h => exact h

theorem AtomHoldsC.zero {c' : ℚ} {a : TAtom} (ha : CondConstZero a) (h : AtomHoldsC mapper tr c g a) : AtomHoldsC mapper tr c' g a := by
  cases h with
  | sum op t rel xs y hn hgd hr hx hy h =>
    exact .sum op t rel xs y hn hgd hr (elemVals_map hx fun e he _ k => k.zero (ha e he)) hy h
  | other hn h => exact .other hn h

theorem ObjValC.one {as : List TAtom} {x : ℚ} (h : ObjValC mapper tr 1 g as x) : ObjVal mapper tr g as x := by
  induction h with
  | nil => exact .nil
  | max a as xs y h1 h2 _ ih => exact .max a as xs y h1 (h2.imp fun _ _ h => h.one) ih
  | min a as xs y h1 h2 _ ih => exact .min a as xs y h1 (h2.imp fun _ _ h => h.one) ih
  | other a as y h1 h2 _ ih => exact .other a as y h1 h2 ih

theorem ObjValC.zero {c' : ℚ} {as : List TAtom} {x : ℚ} (h : ObjValC mapper tr c g as x) (ha : ∀ a ∈ as, CondConstZero a) :
    ObjValC mapper tr c' g as x := by
  induction h with
  | nil => exact .nil
  | max a as xs y h1 h2 _ ih =>
    exact .max a as xs y h1 (elemVals_map h2 fun e he _ k => k.zero (ha a (by simp) e he)) (ih fun b hb => ha b (by simp [hb]))
  | min a as xs y h1 h2 _ ih =>
    exact .min a as xs y h1 (elemVals_map h2 fun e he _ k => k.zero (ha a (by simp) e he)) (ih fun b hb => ha b (by simp [hb]))
  | other a as y h1 h2 _ ih => exact .other a as y h1 h2 (ih fun b hb => ha b (by simp [hb]))

/-! ### constants -/

/-- Terms over user variables and the symbol of constants. -/
theorem evalTerms_const {ts : List (Term Symbol)} (h : ∀ t ∈ ts, t.var = cst ∨ UserSym t.var) :
    evalTerms g ts = (evalTerms (ext g) ts - evalTerms (ext fun _ => 0) ts) + g cst * evalTerms (ext fun _ => 0) ts := by
  induction ts with
  | nil => simp [evalTerms]
  | cons t ts ih =>
    rw [evalTerms_cons, evalTerms_cons, evalTerms_cons, ih fun u hu => h u (by simp [hu])]
    rcases h t (by simp) with ht | ht
    · rw [ht, ext_cst, ext_cst]; ring
    · rw [ext_user _ ht, ext_user _ ht]; ring

theorem Linear.means {t : TTerm} (h : Linear t) (g : Symbol → ℚ) : ∃ y, Means g t y := by
  obtain ⟨ts, hts⟩ := (parseSum_accepts_iff .imath t).2 h
  exact ⟨_, (parseSum_ok .imath t hts).means g⟩

/-- For atoms with linear terms, the reading with factor one is the usual reading. -/
theorem ElemVal.toC {e : Elem} {x : ℚ} (hl : ∃ t, e.tuple = [t] ∧ Linear t) (h : ElemVal mapper tr g e x) :
    ElemValC mapper tr 1 g e x := by
  obtain ⟨u, hu, hlu⟩ := hl
  obtain ⟨t, y, h1, h2, h3⟩ := h
  rw [hu] at h1
  have : u = t := by simpa using h1
  subst this
  obtain ⟨d, hd⟩ := hlu.means fun _ => 0
  refine ⟨u, y, d, hu, h2, hd, ?_⟩
  by_cases hc : e.cond = []
  · rcases h3 with ⟨-, rfl⟩ | ⟨h, -⟩
    · exact .inl ⟨hc, rfl⟩
    · exact absurd (.inl hc) h
  · rcases h3 with ⟨h, rfl⟩ | ⟨h, rfl⟩
    · exact .inr (.inl ⟨hc, h.resolve_left hc, by ring⟩)
    · exact .inr (.inr ⟨hc, fun k => h (.inr k), rfl⟩)

theorem AtomHolds.toC {a : TAtom} (ht : TermsOK a) (h : AtomHolds mapper tr g a) : AtomHoldsC mapper tr 1 g a := by
  by_cases hn : Named a "sum"
  · cases h with
    | diff _ _ _ _ _ _ _ _ _ hn' => exact absurd (hn.inj hn') (by decide)
    | dom _ _ _ _ _ _ _ _ hn' => exact absurd (hn.inj hn') (by decide)
    | sum op t rel xs y _ hgd hr hx hy h =>
      exact .sum op t rel xs y hn hgd hr (elemVals_map hx fun e he _ k => k.toC (ht.elems (.inl hn) e he)) hy h
  · exact .other hn h

theorem ObjVal.toC {as : List TAtom} {x : ℚ} (ht : ∀ a ∈ as, TermsOK a) (h : ObjVal mapper tr g as x) : ObjValC mapper tr 1 g as x := by
  induction h with
  | nil => exact .nil
  | max a as xs y h1 h2 _ ih =>
    exact .max a as xs y h1 (elemVals_map h2 fun e he _ k => k.toC ((ht a (by simp)).elems (.inr (.inr h1)) e he))
      (ih fun b hb => ht b (by simp [hb]))
  | min a as xs y h1 h2 _ ih =>
    exact .min a as xs y h1 (elemVals_map h2 fun e he _ k => k.toC ((ht a (by simp)).elems (.inr (.inl h1)) e he))
      (ih fun b hb => ht b (by simp [hb]))
  | other a as y h1 h2 _ ih => exact .other a as y h1 h2 (ih fun b hb => ht b (by simp [hb]))

/-! ### conditional elements -/

/-- The auxiliary variable of `(v, l)` has the value of `v` if `l` is true, and 0 otherwise; `v` may be the symbol of constants. -/
def AuxC (mapper : ℤ → ℤ) (tr : ℤ → Prop) (g : Symbol → ℚ) (aux : List ((Symbol × ℤ) × Symbol)) : Prop :=
  ∀ e ∈ aux, (tr (mapper e.1.2) → g e.2 = g e.1.1) ∧ (¬ tr (mapper e.1.2) → g e.2 = 0)

theorem AuxC.append {a b : List ((Symbol × ℤ) × Symbol)} :
    AuxC mapper tr g (a ++ b) ↔ AuxC mapper tr g a ∧ AuxC mapper tr g b := by
  simp only [AuxC, List.mem_append]
  constructor
  · intro h; exact ⟨fun x hx => h x (.inl hx), fun x hx => h x (.inr hx)⟩
  · rintro ⟨h1, h2⟩ x (hx | hx); exacts [h1 x hx, h2 x hx]

/-- `p'` extends `p` by auxiliary variables and their definitions. -/
structure ExtC (mapper : ℤ → ℤ) (p p' : Prog) (auxs : List ((Symbol × ℤ) × Symbol)) (nq : List (Ineq Symbol)) : Prop where
  aux : p'.aux = p.aux ++ auxs
  iqs : p'.iqs = p.iqs ++ nq
  obj : p'.objective = p.objective
  inv : PInv p → PInv p'
  sat : ∀ tr g, Total tr → (∀ c, mapper c ≠ 0) → (Sat tr g nq ↔ AuxC mapper tr g auxs)

theorem ExtC.refl (mapper : ℤ → ℤ) (p : Prog) : ExtC mapper p p [] [] where
  aux := by simp
  iqs := by simp
  obj := rfl
  inv := id
  sat tr g _ _ := by simp [Sat, AuxC]

theorem ExtC.trans {p q r : Prog} {a b i j} (h : ExtC mapper p q a i) (k : ExtC mapper q r b j) :
    ExtC mapper p r (a ++ b) (i ++ j) where
  aux := by rw [k.aux, h.aux, List.append_assoc]
  iqs := by rw [k.iqs, h.iqs, List.append_assoc]
  obj := by rw [k.obj, h.obj]
  inv hp := k.inv (h.inv hp)
  sat tr g ht hm := by rw [Sat.append, AuxC.append, h.sat tr g ht hm, k.sat tr g ht hm]

theorem condTermC {l : ℤ} {p : Prog} {t : Term Symbol} {r : Prog × Term Symbol}
    (hu : t.var = cst ∨ UserSym t.var) (h : condTerm mapper l p t = .ok r) :
    ∃ a i, ExtC mapper p r.1 a i ∧ ((t.var, l), r.2.var) ∈ r.1.aux ∧ r.2.co = t.co := by
  obtain ⟨a', i', e', m', c', -⟩ := condTerm_ok hu h
  have hinv := e'.inv
  unfold condTerm at h
  obtain ⟨n, hn, h⟩ := bind_ok.mp h
  split at h
  · rename_i s hs
    rw [pure_ok] at h; subst h
    exact ⟨[], [], .refl mapper p, m', c'⟩
  · rename_i hs
    rw [pure_ok] at h; subst h
    refine ⟨[((t.var, l), .num n)], [⟨[⟨1, .num n⟩], 0, .eq, -mapper l⟩, ⟨[⟨1, .num n⟩, ⟨-1, t.var⟩], 0, .eq, mapper l⟩],
      ⟨rfl, rfl, rfl, hinv, ?_⟩, m', c'⟩
    intro tr g ht hm
    have h1 := ht (mapper l) (hm l)
    have e1 : evalTerms g [⟨1, .num n⟩] = g (.num n) := by simp [evalTerms]
    have e2 : evalTerms g [⟨1, .num n⟩, ⟨-1, t.var⟩] = g (.num n) - g t.var := by simp [evalTerms, sub_eq_add_neg]
    simp only [Sat, AuxC, List.mem_cons, List.not_mem_nil, or_false, forall_eq_or_imp, forall_eq, Ineq.holds, Relation.holds]
    rw [e1, e2, h1, sub_eq_zero]
    tauto

theorem condTermsC {l : ℤ} : ∀ {ts : List (Term Symbol)} {p : Prog} {r : Prog × List (Term Symbol)},
    (∀ t ∈ ts, t.var = cst ∨ UserSym t.var) → condTerms mapper l ts p = .ok r →
    ∃ a i, ExtC mapper p r.1 a i ∧
      (∀ tr g, PInv p → AuxC mapper tr g r.1.aux →
        (tr (mapper l) → evalTerms (ext g) r.2 = evalTerms g ts) ∧ (¬ tr (mapper l) → evalTerms (ext g) r.2 = 0)) := by
  intro ts
  induction ts with
  | nil =>
    intro p r _ h
    rw [condTerms] at h; cases h
    exact ⟨[], [], .refl mapper p, by simp [evalTerms]⟩
  | cons t ts ih =>
    intro p r hu h
    rw [condTerms] at h
    obtain ⟨r1, h1, h⟩ := bind_ok.mp h
    obtain ⟨rs, h2, h⟩ := bind_ok.mp h
    rw [pure_ok] at h; subst h
    obtain ⟨a, i, e1, m1, c1⟩ := condTermC (hu t (by simp)) h1
    obtain ⟨b, j, e2, m2⟩ := ih (fun u hu' => hu u (by simp [hu'])) h2
    refine ⟨a ++ b, i ++ j, e1.trans e2, ?_⟩
    intro tr g hp hax
    obtain ⟨h3, h4⟩ := m2 tr g (e1.inv hp) hax
    have hin : ((t.var, l), r1.2.var) ∈ rs.1.aux := by rw [e2.aux]; exact List.mem_append_left _ m1
    obtain ⟨h5, h6⟩ := hax _ hin
    have hne : r1.2.var ≠ cst := (e1.inv hp).val_ne m1
    refine ⟨?_, ?_⟩
    · intro hl
      rw [evalTerms_cons, evalTerms_cons, h3 hl, c1, ext_ne g hne, h5 hl]
    · intro hl
      rw [evalTerms_cons, h4 hl, c1, ext_ne g hne, h6 hl]; ring

theorem parseElemC {be : Backend} {p : Prog} {e : Elem} {r : Prog × List (Term Symbol)}
    (h : parseElem be mapper p e = .ok r) :
    ∃ a i, ExtC mapper p r.1 a i ∧
      (∀ tr g, PInv p → AuxC mapper tr g r.1.aux → ElemValC mapper tr (g cst) g e (evalTerms (ext g) r.2)) := by
  unfold parseElem at h
  split at h
  · rename_i t ht
    obtain ⟨ts, h1, h⟩ := bind_ok.mp h
    have hs := parseSum_ok be t h1
    split at h
    · rename_i hc
      rw [pure_ok] at h; subst h
      have hc' : e.cond = [] := by simpa using hc
      refine ⟨[], [], .refl mapper p, ?_⟩
      intro tr g _ _
      exact ⟨t, _, _, ht, hs.means g, hs.means _, .inl ⟨hc', rfl⟩⟩
    · rename_i hc
      have hc' : e.cond ≠ [] := by simpa using hc
      obtain ⟨a, i, e1, m1⟩ := condTermsC hs.user h
      refine ⟨a, i, e1, ?_⟩
      intro tr g hp hax
      obtain ⟨h3, h4⟩ := m1 tr g hp hax
      by_cases hl : tr (mapper e.condId)
      · refine ⟨t, _, _, ht, hs.means g, hs.means _, .inr (.inl ⟨hc', hl, ?_⟩)⟩
        rw [h3 hl, evalTerms_const hs.user]
      · exact ⟨t, _, _, ht, hs.means g, hs.means _, .inr (.inr ⟨hc', hl, h4 hl⟩)⟩
  · cases h

theorem parseElemsC {be : Backend} : ∀ {es : List Elem} {p : Prog} {r : Prog × List (Term Symbol)},
    parseElems be mapper es p = .ok r →
    ∃ a i, ExtC mapper p r.1 a i ∧
      (∀ tr g, PInv p → AuxC mapper tr g r.1.aux →
        ∃ xs, List.Forall₂ (ElemValC mapper tr (g cst) g) es xs ∧ evalTerms (ext g) r.2 = xs.sum) := by
  intro es
  induction es with
  | nil =>
    intro p r h
    rw [parseElems] at h; cases h
    exact ⟨[], [], .refl mapper p, fun tr g _ _ => ⟨[], .nil, rfl⟩⟩
  | cons e es ih =>
    intro p r h
    rw [parseElems] at h
    obtain ⟨r1, h1, h⟩ := bind_ok.mp h
    obtain ⟨rs, h2, h⟩ := bind_ok.mp h
    rw [pure_ok] at h; subst h
    obtain ⟨a, i, e1, m1⟩ := parseElemC h1
    obtain ⟨b, j, e2, m2⟩ := ih h2
    refine ⟨a ++ b, i ++ j, e1.trans e2, ?_⟩
    intro tr g hp hax
    obtain ⟨xs, h3, h4⟩ := m2 tr g (e1.inv hp) hax
    have hax1 : AuxC mapper tr g r1.1.aux := by rw [e2.aux] at hax; exact (AuxC.append.mp hax).1
    refine ⟨_ :: xs, .cons (m1 tr g hp hax1) h3, ?_⟩
    rw [evalTerms_append, h4, List.sum_cons]

/-! ### atoms -/

/-- What is shown about one accepted atom. -/
structure AtomC (mapper : ℤ → ℤ) (p p' : Prog) (a : TAtom) (auxs : List ((Symbol × ℤ) × Symbol)) (nq : List (Ineq Symbol))
    (nob : List (Term Symbol)) : Prop where
  aux : p'.aux = p.aux ++ auxs
  iqs : p'.iqs = p.iqs ++ nq
  obj : p'.objective = p.objective ++ nob
  sat : ∀ tr g, Total tr → (∀ c, mapper c ≠ 0) → AuxC mapper tr g p.aux → (Sat tr g nq ↔
    (AuxC mapper tr g auxs ∧ (IsConstraint a → tr (mapper a.literal) → AtomHoldsC mapper tr (g cst) g a)))
  objVal : ∀ tr g, AuxC mapper tr g p'.aux → ∀ as y, ObjValC mapper tr (g cst) g as y →
    ObjValC mapper tr (g cst) g (a :: as) (evalTerms (ext g) nob + y)

theorem objValC_other {a : TAtom} {n : String} (hn : Named a n)
    (h1 : n ≠ "maximize") (h2 : n ≠ "minimize") (as : List TAtom) (y : ℚ) (h : ObjValC mapper tr c g as y) :
    ObjValC mapper tr c g (a :: as) (evalTerms (ext g) [] + y) := by
  rw [evalTerms_nil, zero_add]
  exact .other _ _ _ (fun h => h1 (hn.inj h)) (fun h => h2 (hn.inj h)) h

/-- Atoms without auxiliary variables. -/
theorem atomC_plain {p p' : Prog} {a : TAtom} {nq : List (Ineq Symbol)} {n : String} (hn : Named a n) (h0 : n ≠ "sum")
    (h1 : n ≠ "maximize") (h2 : n ≠ "minimize") (e1 : p'.aux = p.aux) (e2 : p'.iqs = p.iqs ++ nq) (e3 : p'.objective = p.objective)
    (hs : ∀ tr g, Sat tr (ext g) nq ↔ (IsConstraint a → tr (mapper a.literal) → AtomHolds mapper tr g a))
    (hv : ∀ iq ∈ nq, ∀ t ∈ iq.lhs, t.var ≠ cst) : AtomC mapper p p' a [] nq [] := by
  refine ⟨by simp [e1], e2, by simp [e3], ?_, ?_⟩
  · intro tr g _ _ _
    have : Sat tr g nq ↔ Sat tr (ext g) nq :=
      ⟨Sat.congr fun iq hiq t ht => (ext_ne g (hv iq hiq t ht)).symm, Sat.congr fun iq hiq t ht => ext_ne g (hv iq hiq t ht)⟩
    rw [this, hs]
    constructor
    · exact fun k => ⟨by simp [AuxC], fun hc hl => .other (fun h => h0 (hn.inj h)) (k hc hl)⟩
    · rintro ⟨-, k⟩ hc hl
      cases k hc hl with
      | sum _ _ _ _ _ hn' => exact absurd (hn.inj hn') h0
      | other _ h => exact h
  · intro tr g _ as y hy
    exact objValC_other hn h1 h2 as y hy

theorem parseDomC {be : Backend} {p p' : Prog} {a : TAtom} (hn : Named a "dom")
    (h : parseDom be mapper p a = .ok p') : ∃ auxs iqs obj, AtomC mapper p p' a auxs iqs obj := by
  unfold parseDom at h
  split at h
  · rename_i e gd he hg
    split at h
    · rename_i name l u ht
      split at h
      · rename_i hc
        simp only [Bool.and_eq_true, beq_iff_eq] at hc
        obtain ⟨-, hdot⟩ := hc
        subst hdot
        obtain ⟨s, h1, h⟩ := bind_ok.mp h
        obtain ⟨hi, h2, h⟩ := bind_ok.mp h
        obtain ⟨lo, h3, h⟩ := bind_ok.mp h
        rw [pure_ok] at h; subst h
        have hs := (evaluateVar_iff be _ _).mp h1
        have hhi := (evaluateNum_iff be _ _).mp h2
        have hlo := (evaluateNum_iff be _ _).mp h3
        refine ⟨[], [⟨[⟨1, s⟩], hi, .le, mapper a.literal⟩, ⟨[⟨1, s⟩], lo, .ge, mapper a.literal⟩], [],
          atomC_plain hn (by decide) (by decide) (by decide) rfl rfl rfl ?_ ?_⟩
        · intro tr g
          have e1 : evalTerms (ext g) [⟨1, s⟩] = g s := by simp [evalTerms, ext_user g hs.userSym]
          simp only [Sat, List.mem_cons, List.not_mem_nil, or_false, forall_eq_or_imp, forall_eq, Ineq.holds, e1, Relation.holds]
          constructor
          · rintro ⟨k1, k2⟩ - hl
            exact .dom gd.1 gd.2 e l u lo hi s hn hg he ht hlo hhi hs ⟨k2 hl, k1 hl⟩
          · intro k
            have key : tr (mapper a.literal) → lo ≤ g s ∧ g s ≤ hi := by
              intro hl
              cases k (.inr (.inr hn)) hl with
              | sum _ _ _ _ _ hn' => exact absurd (hn.inj hn') (by decide)
              | diff _ _ _ _ _ _ _ _ _ hn' => exact absurd (hn.inj hn') (by decide)
              | dom op t e' l' u' lo' hi' s' _ hg' he' ht'' hl' hu' hs' hh =>
                rw [hg] at hg'; rw [he] at he'
                have he'' : e = e' := by simpa using he'
                subst he''
                rw [ht] at ht''
                have hlu : l = l' ∧ u = u' := by simpa using ht''
                obtain ⟨rfl, rfl⟩ := hlu
                have hgt : gd.2 = t := by
                  have := Option.some.inj hg'
                  rw [this]
                rw [← hgt] at hs'
                have e3 := hlo.unique hl'
                have e4 := hhi.unique hu'
                have e5 := hs.unique hs'
                injection e3 with e3; injection e4 with e4; injection e5 with e5
                rw [e3, e4, e5]; exact hh
            exact ⟨fun hl => (key hl).2, fun hl => (key hl).1⟩
        · intro iq hiq t ht
          simp only [List.mem_cons, List.not_mem_nil, or_false] at hiq
          rcases hiq with rfl | rfl <;>
            (simp only [List.mem_cons, List.not_mem_nil, or_false] at ht; subst ht; exact hs.userSym.ne_cst)
      · cases h
    · cases h
  · cases h

theorem parseDiffC {be : Backend} {p p' : Prog} {a : TAtom} (hn : Named a "diff")
    (h : parseDiff be mapper p a = .ok p') : ∃ auxs iqs obj, AtomC mapper p p' a auxs iqs obj := by
  unfold parseDiff at h
  split at h
  · rename_i e gd he hg
    split at h
    · rename_i t ht
      split at h
      · obtain ⟨lhs, h1, h2⟩ := bind_ok.mp h
        obtain ⟨l, r, v, w, rfl, hv, hw, hval, husr⟩ := parseDiffElem_ok h1
        obtain ⟨iq, rel, rfl, hlit, hrel, hm, hnd, hne, hncst, -, hvs⟩ := addIneq_ok h2
        refine ⟨[], [iq], [], atomC_plain hn (by decide) (by decide) (by decide) rfl rfl rfl ?_ ?_⟩
        · intro tr g
          obtain ⟨y, hy, hiff⟩ := hm g
          simp only [Sat, List.mem_cons, List.not_mem_nil, or_false, forall_eq, hlit]
          rw [hiff, hval]
          constructor
          · intro k _ hl
            exact .diff gd.1 gd.2 rel e l r v w y hn hg hrel he ht hv hw hy (k hl)
          · intro k hl
            cases k (.inr (.inl hn)) hl with
            | sum _ _ _ _ _ hn' => exact absurd (hn.inj hn') (by decide)
            | dom _ _ _ _ _ _ _ _ hn' => exact absurd (hn.inj hn') (by decide)
            | diff op t rel' e' l' r' v' w' y' _ hg' hr' he' ht'' hv' hw' hy' hh =>
              rw [hg] at hg'; rw [he] at he'
              have he'' : e = e' := by simpa using he'
              subst he''
              rw [ht] at ht''
              have hlu : l = l' ∧ r = r' := by simpa using ht''
              obtain ⟨rfl, rfl⟩ := hlu
              have hgt := Option.some.inj hg'
              subst hgt
              have e3 := hv.unique hv'
              have e4 := hw.unique hw'
              subst e3; subst e4
              rw [relTable_inj hrel hr', hy.unique hy']; exact hh
        · intro iq' hiq t ht
          simp only [List.mem_cons, List.not_mem_nil, or_false] at hiq
          subst hiq
          exact hncst t ht
      · cases h
    · cases h
  · cases h

theorem parseSumAtomC {be : Backend} {p p' : Prog} {a : TAtom} (hn : Named a "sum") (hp : PInv p)
    (h : parseSumAtom be mapper p a = .ok p') : ∃ auxs iqs obj, AtomC mapper p p' a auxs iqs obj := by
  unfold parseSumAtom at h
  split at h
  · rename_i gd hg
    obtain ⟨r, h1, h⟩ := bind_ok.mp h
    obtain ⟨ax, iqs, hext, hval⟩ := parseElemsC h1
    obtain ⟨iq, rel, rfl, hlit, hrel, hm, hnd, hne, hncst, -, hvs⟩ := addIneq_ok h
    refine ⟨ax, iqs ++ [iq], [], hext.aux, by simp [hext.iqs], by simp [hext.obj], ?_, ?_⟩
    · intro tr g htot hmm hax
      rw [Sat.append, hext.sat tr g htot hmm]
      refine and_congr_right fun hax2 => ?_
      have hax3 : AuxC mapper tr g r.1.aux := by rw [hext.aux]; exact AuxC.append.mpr ⟨hax, hax2⟩
      obtain ⟨xs, hxs, hsum⟩ := hval tr g hp hax3
      obtain ⟨y, hy, hiff⟩ := hm g
      have hcg : iq.holds g ↔ iq.holds (ext g) := by
        unfold Ineq.holds
        rw [evalTerms_congr fun t ht => (ext_ne g (hncst t ht)).symm]
      simp only [Sat, List.mem_cons, List.not_mem_nil, or_false, forall_eq, hlit]
      rw [hcg, hiff, hsum]
      constructor
      · intro k _ hl
        exact .sum gd.1 gd.2 rel xs y hn hg hrel hxs hy (k hl)
      · intro k hl
        cases k (.inl hn) hl with
        | other hn' => exact absurd hn hn'
        | sum op t rel' xs' y' _ hg' hr' hx' hy' hh =>
          rw [hg] at hg'
          have hgt := Option.some.inj hg'
          subst hgt
          rw [relTable_inj hrel hr', hy.unique hy', ElemValsC.unique hxs hx']; exact hh
    · intro tr g _ as y hy
      exact objValC_other hn (by decide) (by decide) as y hy
  · cases h

theorem parseObjC {be : Backend} {p p' : Prog} {a : TAtom} {neg : Bool}
    (hn : Named a (if neg then "minimize" else "maximize")) (hp : PInv p)
    (h : parseObj be mapper p a neg = .ok p') : ∃ auxs iqs obj, AtomC mapper p p' a auxs iqs obj := by
  unfold parseObj at h
  obtain ⟨r, h1, h⟩ := bind_ok.mp h
  rw [pure_ok] at h; subst h
  obtain ⟨ax, iqs, hext, hval⟩ := parseElemsC h1
  refine ⟨ax, iqs, if neg then negTerms r.2 else r.2, hext.aux, hext.iqs, by simp [hext.obj], ?_, ?_⟩
  · intro tr g htot hmm hax
    rw [hext.sat tr g htot hmm]
    constructor
    · intro k
      refine ⟨k, ?_⟩
      rintro (h | h | h) <;> · have := hn.inj h; cases neg <;> simp at this
    · exact fun k => k.1
  · intro tr g hax as y hy
    obtain ⟨xs, hxs, hsum⟩ := hval tr g hp hax
    cases neg with
    | true =>
      simp only [if_true] at hn ⊢
      rw [evalTerms_neg, hsum]; exact .min _ _ _ _ hn hxs hy
    | false =>
      simp only [Bool.false_eq_true, if_false] at hn ⊢
      rw [hsum]; exact .max _ _ _ _ hn hxs hy

theorem parseAtomC {be : Backend} {p p' : Prog} {a : TAtom} (hp : PInv p)
    (h : parseAtom be mapper p a = .ok p') : ∃ auxs iqs obj, AtomC mapper p p' a auxs iqs obj := by
  unfold parseAtom at h
  split at h
  · rename_i hn
    exact parseDomC ((isName_iff a "dom").mp (by simpa using hn)) h
  rename_i n1
  split at h
  · rename_i hn
    exact parseDiffC ((isName_iff a "diff").mp (by simpa using hn)) h
  rename_i n2
  split at h
  · rename_i hn
    exact parseSumAtomC ((isName_iff a "sum").mp (by simpa using hn)) hp h
  rename_i n3
  split at h
  · rename_i hn
    exact parseObjC (neg := true) ((isName_iff a "minimize").mp hn) hp h
  rename_i n4
  split at h
  · rename_i hn
    exact parseObjC (neg := false) ((isName_iff a "maximize").mp hn) hp h
  rename_i n5
  cases h
  have m1 : ¬ Named a "dom" := fun h => n1 (by simpa using (isName_iff a "dom").mpr h)
  have m2 : ¬ Named a "diff" := fun h => n2 (by simpa using (isName_iff a "diff").mpr h)
  have m3 : ¬ Named a "sum" := fun h => n3 (by simpa using (isName_iff a "sum").mpr h)
  have m4 : ¬ Named a "minimize" := fun h => n4 ((isName_iff a "minimize").mpr h)
  have m5 : ¬ Named a "maximize" := fun h => n5 ((isName_iff a "maximize").mpr h)
  refine ⟨[], [], [], by simp, by simp, by simp, ?_, ?_⟩
  · intro tr g _ _ _
    constructor
    · intro _
      refine ⟨by simp [AuxC], ?_⟩
      rintro (h | h | h)
      · exact absurd h m3
      · exact absurd h m2
      · exact absurd h m1
    · intro _ iq hiq; cases hiq
  · intro tr g _ as y hy
    rw [evalTerms_nil, zero_add]
    exact .other _ _ _ m5 m4 hy

/-- What is shown about the accepted atoms of a program. -/
structure AtomsC (mapper : ℤ → ℤ) (p p' : Prog) (atoms : List TAtom) (auxs : List ((Symbol × ℤ) × Symbol))
    (nq : List (Ineq Symbol)) (nob : List (Term Symbol)) : Prop where
  aux : p'.aux = p.aux ++ auxs
  iqs : p'.iqs = p.iqs ++ nq
  obj : p'.objective = p.objective ++ nob
  sat : ∀ tr g, Total tr → (∀ c, mapper c ≠ 0) → AuxC mapper tr g p.aux → (Sat tr g nq ↔
    (AuxC mapper tr g auxs ∧ ∀ a ∈ atoms, IsConstraint a → tr (mapper a.literal) → AtomHoldsC mapper tr (g cst) g a))
  objVal : ∀ tr g, AuxC mapper tr g p'.aux → ObjValC mapper tr (g cst) g atoms (evalTerms (ext g) nob)

theorem parseAtomsC {be : Backend} : ∀ {atoms : List TAtom} {p p' : Prog}, PInv p →
    parseAtoms be mapper atoms p = .ok p' → ∃ auxs iqs obj, AtomsC mapper p p' atoms auxs iqs obj := by
  intro atoms
  induction atoms with
  | nil =>
    intro p p' hp h
    rw [parseAtoms] at h; cases h
    exact ⟨[], [], [], by simp, by simp, by simp, fun tr g _ _ _ => by simp [Sat, AuxC],
      fun tr g _ => by rw [evalTerms_nil]; exact .nil⟩
  | cons a as ih =>
    intro p p' hp h
    rw [parseAtoms] at h
    obtain ⟨q, h1, h⟩ := bind_ok.mp h
    obtain ⟨_, _, _, k0⟩ := parseAtom_ok hp h1
    obtain ⟨a1, i1, o1, k1⟩ := parseAtomC hp h1
    obtain ⟨a2, i2, o2, k2⟩ := ih k0.inv h
    refine ⟨a1 ++ a2, i1 ++ i2, o1 ++ o2, ?_, ?_, ?_, ?_, ?_⟩
    · rw [k2.aux, k1.aux, List.append_assoc]
    · rw [k2.iqs, k1.iqs, List.append_assoc]
    · rw [k2.obj, k1.obj, List.append_assoc]
    · intro tr g ht hm hax
      rw [Sat.append, k1.sat tr g ht hm hax, AuxC.append]
      simp only [List.mem_cons, forall_eq_or_imp]
      constructor
      · rintro ⟨⟨h2, h3⟩, h4⟩
        have := (k2.sat tr g ht hm (by rw [k1.aux]; exact AuxC.append.mpr ⟨hax, h2⟩)).mp h4
        exact ⟨⟨h2, this.1⟩, h3, this.2⟩
      · rintro ⟨⟨h2, h3⟩, h4, h5⟩
        exact ⟨⟨h2, h4⟩, (k2.sat tr g ht hm (by rw [k1.aux]; exact AuxC.append.mpr ⟨hax, h2⟩)).mpr ⟨h3, h5⟩⟩
    · intro tr g hax
      rw [evalTerms_append]
      refine k1.objVal tr g ?_ as _ (k2.objVal tr g hax)
      rw [k2.aux] at hax; exact (AuxC.append.mp hax).1

/-- Whole programs. -/
theorem theoryC {be : Backend} {atoms : List TAtom} {p p' : Prog} (hp : PInv p)
    (h : evaluateTheory be mapper atoms p = .ok p') : ∃ auxs iqs, p'.aux = p.aux ++ auxs ∧ p'.iqs = p.iqs ++ iqs ∧
      (∀ tr g, Total tr → (∀ c, mapper c ≠ 0) → AuxC mapper tr g p.aux → (Sat tr g iqs ↔
        (AuxC mapper tr g auxs ∧ ∀ a ∈ atoms, IsConstraint a → tr (mapper a.literal) → AtomHoldsC mapper tr (g cst) g a))) ∧
      (∀ tr g, AuxC mapper tr g p'.aux → ∃ x, ObjValC mapper tr (g cst) g atoms x ∧
        evalTerms g p'.objective = evalTerms (ext g) p.objective + x) := by
  obtain ⟨q, h1, rfl, h2⟩ := evaluateTheory_cases h
  obtain ⟨auxs, iqs, obj, k⟩ := parseAtomsC hp h1
  refine ⟨auxs, iqs, k.aux, k.iqs, k.sat, ?_⟩
  intro tr g hax
  refine ⟨_, k.objVal tr g hax, ?_⟩
  have h3 := simplify_value g q.objective
  rw [h2, sub_zero] at h3
  simp only
  rw [h3, k.obj, evalTerms_append]

/-! ### extending valuations -/

/-- The valuation that gives auxiliary variables the values of the conditional terms and the symbol of constants the value `c`. -/
noncomputable def auxValC (mapper : ℤ → ℤ) (tr : ℤ → Prop) (c : ℚ) (g : Symbol → ℚ) (aux : List ((Symbol × ℤ) × Symbol)) :
    Symbol → ℚ :=
  fun s => open Classical in
    match aux.find? fun e => e.2 = s with
    | some e => if tr (mapper e.1.2) then (if e.1.1 = cst then c else g e.1.1) else 0
    | none => if s = cst then c else g s

theorem auxValC_cst {p : Prog} (hp : PInv p) : auxValC mapper tr c g p.aux cst = c := by
  unfold auxValC
  split
  · rename_i e he
    have h1 := List.mem_of_find?_eq_some he
    have h2 : e.2 = cst := by simpa using List.find?_some he
    exact absurd h2 (hp.val_ne h1)
  · exact if_pos rfl

theorem auxValC_user {p : Prog} (hp : PInv p) {s : Symbol} (hs : UserSym s) : auxValC mapper tr c g p.aux s = g s := by
  unfold auxValC
  split
  · rename_i e he
    have h1 := List.mem_of_find?_eq_some he
    have h2 : e.2 = s := by simpa using List.find?_some he
    obtain ⟨n, hn⟩ := hp.val h1
    rw [h2] at hn; exact absurd hn (hs _)
  · exact if_neg hs.ne_cst

theorem auxValC_ok {p : Prog} (hp : PInv p) : AuxC mapper tr (auxValC mapper tr c g p.aux) p.aux := by
  intro e he
  have hf : ∃ f, p.aux.find? (fun f => f.2 = e.2) = some f := by
    rw [← Option.isSome_iff_exists, List.find?_isSome]
    exact ⟨e, he, by simp⟩
  obtain ⟨f, hf⟩ := hf
  have hef : f = e := hp.val_inj (List.mem_of_find?_eq_some hf) he (by simpa using List.find?_some hf)
  subst hef
  have hkey : auxValC mapper tr c g p.aux f.1.1 = (open Classical in if f.1.1 = cst then c else g f.1.1) := by
    rcases hp.key f he with h | h
    · rw [h, auxValC_cst hp, if_pos rfl]
    · rw [auxValC_user hp h, if_neg h.ne_cst]
  have hv : auxValC mapper tr c g p.aux f.2 =
      (open Classical in if tr (mapper f.1.2) then (if f.1.1 = cst then c else g f.1.1) else 0) := by
    unfold auxValC
    rw [hf]
  rw [hkey, hv]
  refine ⟨fun h => if_pos h, fun h => if_neg h⟩

end Lpx
