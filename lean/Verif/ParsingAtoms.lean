import Mathlib.Data.List.Nodup
import Verif.ParsingSum

/-! # Simplification and atoms (C23 – C26) -/

namespace Lpx

/-! ### simplify -/

theorem addCo_eval (g : Symbol → ℚ) (v : Symbol) (co : ℚ) (ts : List (Term Symbol)) :
    evalTerms g (addCo v co ts) = evalTerms g ts + co * g v := by
  induction ts with
  | nil => simp [addCo, evalTerms]
  | cons t ts ih =>
    rw [addCo]
    split
    · rename_i h; rw [evalTerms_cons, evalTerms_cons, ← h]; ring
    · rw [evalTerms_cons, evalTerms_cons, ih]; ring

theorem addCo_vars (v : Symbol) (co : ℚ) (ts : List (Term Symbol)) :
    (addCo v co ts).map (·.var) = if v ∈ ts.map (·.var) then ts.map (·.var) else ts.map (·.var) ++ [v] := by
  induction ts with
  | nil => simp [addCo]
  | cons t ts ih =>
    rw [addCo]
    by_cases h : t.var = v
    · rw [if_pos h]; simp [h]
    · rw [if_neg h, List.map_cons, ih, List.map_cons]
      have : v ∈ t.var :: ts.map (·.var) ↔ v ∈ ts.map (·.var) := by simp [Ne.symm h]
      by_cases h2 : v ∈ ts.map (·.var)
      · rw [if_pos h2, if_pos (this.mpr h2)]
      · rw [if_neg h2, if_neg (fun h3 => h2 (this.mp h3))]; rfl

/-- The invariant of the loop in `simplify`. -/
structure CombInv (g : Symbol → ℚ) (ts : List (Term Symbol)) (acc : List (Term Symbol) × ℚ) : Prop where
  val : evalTerms g acc.1 - acc.2 = evalTerms (ext g) ts
  nodup : (acc.1.map (·.var)).Nodup
  vars : ∀ x ∈ acc.1, x.var ≠ cst ∧ ∃ y ∈ ts, y.var = x.var

theorem combine_inv {g : Symbol → ℚ} {ts : List (Term Symbol)} {acc : List (Term Symbol) × ℚ} (h : CombInv g ts acc)
    (t : Term Symbol) : CombInv g (ts ++ [t]) (combine acc t) := by
  have hv := h.val
  unfold combine
  split
  · rename_i hc
    rw [isInvalid_iff] at hc
    refine ⟨?_, h.nodup, ?_⟩
    · rw [evalTerms_append, ← hv, evalTerms_cons, evalTerms_nil, hc, ext_cst]; simp only; ring
    · intro x hx
      obtain ⟨h1, y, hy, h2⟩ := h.vars x hx
      exact ⟨h1, y, by simp [hy], h2⟩
  · rename_i hc
    rw [isInvalid_iff] at hc
    refine ⟨?_, ?_, ?_⟩
    · rw [evalTerms_append, ← hv, addCo_eval, evalTerms_cons, evalTerms_nil, ext_ne g hc]; simp only; ring
    · rw [addCo_vars]
      split
      · exact h.nodup
      · rename_i h2
        rw [List.nodup_append]
        refine ⟨h.nodup, by simp, ?_⟩
        intro a ha b hb
        simp only [List.mem_cons, List.not_mem_nil, or_false] at hb
        subst hb
        rintro rfl; exact h2 ha
    · intro x hx
      have hx' : x.var ∈ (addCo t.var t.co acc.1).map (·.var) := List.mem_map_of_mem hx
      rw [addCo_vars] at hx'
      have : x.var ∈ acc.1.map (·.var) ∨ x.var = t.var := by
        split at hx'
        · exact .inl hx'
        · rcases List.mem_append.mp hx' with h | h
          · exact .inl h
          · exact .inr (by simpa using h)
      rcases this with h3 | h3
      · obtain ⟨z, hz, hz'⟩ := List.mem_map.mp h3
        obtain ⟨h1, y, hy, h2⟩ := h.vars z hz
        rw [hz'] at h1 h2
        exact ⟨h1, y, by simp [hy], h2⟩
      · exact ⟨h3 ▸ hc, t, by simp, h3.symm⟩

theorem combine_foldl {g : Symbol → ℚ} (rest : List (Term Symbol)) : ∀ {ts acc}, CombInv g ts acc →
    CombInv g (ts ++ rest) (rest.foldl combine acc) := by
  induction rest with
  | nil => intro ts acc h; simpa using h
  | cons t rest ih =>
    intro ts acc h
    rw [List.foldl_cons]
    have := ih (combine_inv h t)
    simpa using this

theorem filter_eval (g : Symbol → ℚ) (ts : List (Term Symbol)) :
    evalTerms g (ts.filter fun t => decide (t.co ≠ 0)) = evalTerms g ts := by
  induction ts with
  | nil => rfl
  | cons t ts ih =>
    rw [List.filter_cons]
    split
    · rw [evalTerms_cons, evalTerms_cons, ih]
    · rename_i h
      have h0 : t.co = 0 := by simpa using h
      rw [evalTerms_cons, ih, h0]; ring

theorem simplify_inv (g : Symbol → ℚ) (ts : List (Term Symbol)) : CombInv g ts (ts.foldl combine ([], 0)) := by
  have h0 : CombInv g [] (([], 0) : List (Term Symbol) × ℚ) := ⟨by simp [evalTerms], by simp, by simp⟩
  simpa using combine_foldl ts h0

/-- C23: simplification keeps the value; constants move to the right-hand side. -/
theorem simplify_value (g : Symbol → ℚ) (ts : List (Term Symbol)) :
    evalTerms g (simplify ts).1 - (simplify ts).2 = evalTerms (ext g) ts := by
  have := (simplify_inv g ts).val
  simp only [simplify]
  rw [filter_eval]; exact this

/-- C23: every variable occurs at most once. -/
theorem simplify_nodup (ts : List (Term Symbol)) : ((simplify ts).1.map (·.var)).Nodup := by
  have h := (simplify_inv (fun _ => 0) ts).nodup
  exact h.sublist (List.Sublist.map _ List.filter_sublist)

/-- C23: no coefficient is zero. -/
theorem simplify_ne_zero (ts : List (Term Symbol)) : ∀ x ∈ (simplify ts).1, x.co ≠ 0 := by
  intro x hx
  have := (List.mem_filter.mp hx).2
  simpa using this

/-- C23: only variables of the original terms occur, and no constants. -/
theorem simplify_vars (ts : List (Term Symbol)) : ∀ x ∈ (simplify ts).1, x.var ≠ cst ∧ ∃ y ∈ ts, y.var = x.var := by
  intro x hx
  exact (simplify_inv (fun _ => 0) ts).vars x (List.mem_filter.mp hx).1

/-! ### conditional elements -/

/-- All inequalities whose literal is true hold. -/
def Sat (tr : ℤ → Prop) (g : Symbol → ℚ) (iqs : List (Ineq Symbol)) : Prop := ∀ iq ∈ iqs, tr iq.lit → iq.holds g

theorem Sat.append {tr : ℤ → Prop} {g : Symbol → ℚ} {a b : List (Ineq Symbol)} : Sat tr g (a ++ b) ↔ Sat tr g a ∧ Sat tr g b := by
  simp only [Sat, List.mem_append]
  constructor
  · intro h; exact ⟨fun x hx => h x (.inl hx), fun x hx => h x (.inr hx)⟩
  · rintro ⟨h1, h2⟩ x (hx | hx); exacts [h1 x hx, h2 x hx]

/-- The auxiliary variable of `(v, c)` has the value of `v` if `c` is true, and 0 otherwise. -/
def AuxOK (mapper : ℤ → ℤ) (tr : ℤ → Prop) (g : Symbol → ℚ) (aux : List ((Symbol × ℤ) × Symbol)) : Prop :=
  ∀ e ∈ aux, (tr (mapper e.1.2) → g e.2 = ext g e.1.1) ∧ (¬ tr (mapper e.1.2) → g e.2 = 0)

theorem AuxOK.append {mapper : ℤ → ℤ} {tr : ℤ → Prop} {g : Symbol → ℚ} {a b : List ((Symbol × ℤ) × Symbol)} :
    AuxOK mapper tr g (a ++ b) ↔ AuxOK mapper tr g a ∧ AuxOK mapper tr g b := by
  simp only [AuxOK, List.mem_append]
  constructor
  · intro h; exact ⟨fun x hx => h x (.inl hx), fun x hx => h x (.inr hx)⟩
  · rintro ⟨h1, h2⟩ x (hx | hx); exacts [h1 x hx, h2 x hx]

/-- Invariant of the parsed data. -/
structure PInv (p : Prog) : Prop where
  vals : ∀ i (h : i < p.aux.length), (p.aux[i]).2 = .num ((i + 1 : ℕ) : ℤ)
  key : ∀ e ∈ p.aux, e.1.1 = cst ∨ UserSym e.1.1

theorem PInv.empty : PInv {} := ⟨by simp, by simp⟩

theorem PInv.val {p : Prog} (h : PInv p) {e} (he : e ∈ p.aux) : ∃ n : ℕ, e.2 = .num ((n + 1 : ℕ) : ℤ) := by
  obtain ⟨i, hi, rfl⟩ := List.mem_iff_getElem.mp he
  exact ⟨i, h.vals i hi⟩

theorem PInv.val_ne {p : Prog} (h : PInv p) {e} (he : e ∈ p.aux) : e.2 ≠ cst := by
  obtain ⟨n, hn⟩ := h.val he
  rw [hn, cst]; intro h; injection h with h; omega

theorem PInv.val_inj {p : Prog} (h : PInv p) {e f} (he : e ∈ p.aux) (hf : f ∈ p.aux) (hef : e.2 = f.2) : e = f := by
  obtain ⟨i, hi, rfl⟩ := List.mem_iff_getElem.mp he
  obtain ⟨j, hj, rfl⟩ := List.mem_iff_getElem.mp hf
  rw [h.vals i hi, h.vals j hj] at hef
  injection hef with hef
  have : i = j := by omega
  subst this; rfl

/-- Shape of the generated inequalities: every variable once, no zero coefficients, and each variable is a user variable,
an auxiliary variable or the symbol of constants (if a conditional element has a constant summand). -/
structure IqNF (aux : List ((Symbol × ℤ) × Symbol)) (iq : Ineq Symbol) : Prop where
  nodup : (iq.lhs.map (·.var)).Nodup
  co : ∀ t ∈ iq.lhs, t.co ≠ 0
  vars : ∀ t ∈ iq.lhs, UserSym t.var ∨ (∃ e ∈ aux, t.var = e.2) ∨ (t.var = cst ∧ ∃ e ∈ aux, e.1.1 = cst)

theorem IqNF.mono {a b : List ((Symbol × ℤ) × Symbol)} {iq : Ineq Symbol} (h : IqNF a iq) (hab : ∀ e ∈ a, e ∈ b) : IqNF b iq := by
  refine ⟨h.nodup, h.co, fun t ht => ?_⟩
  rcases h.vars t ht with h | ⟨e, he, h⟩ | ⟨h, e, he, h'⟩
  · exact .inl h
  · exact .inr (.inl ⟨e, hab e he, h⟩)
  · exact .inr (.inr ⟨h, e, hab e he, h'⟩)

/-- `p'` extends `p` by auxiliary variables and their definitions. -/
structure Ext (mapper : ℤ → ℤ) (p p' : Prog) (auxs : List ((Symbol × ℤ) × Symbol)) (nq : List (Ineq Symbol)) : Prop where
  aux : p'.aux = p.aux ++ auxs
  iqs : p'.iqs = p.iqs ++ nq
  obj : p'.objective = p.objective
  inv : PInv p → PInv p'
  sat : PInv p → ∀ tr g, Total tr → (∀ c, mapper c ≠ 0) → (Sat tr (ext g) nq ↔ AuxOK mapper tr g auxs)
  nf : PInv p → ∀ iq ∈ nq, IqNF p'.aux iq

theorem Ext.refl (mapper : ℤ → ℤ) (p : Prog) : Ext mapper p p [] [] where
  aux := by simp
  iqs := by simp
  obj := rfl
  inv := id
  sat _ tr g _ _ := by simp [Sat, AuxOK]
  nf := by simp

theorem Ext.trans {mapper : ℤ → ℤ} {p q r : Prog} {a b i j} (h : Ext mapper p q a i) (k : Ext mapper q r b j) :
    Ext mapper p r (a ++ b) (i ++ j) where
  aux := by rw [k.aux, h.aux, List.append_assoc]
  iqs := by rw [k.iqs, h.iqs, List.append_assoc]
  obj := by rw [k.obj, h.obj]
  inv hp := k.inv (h.inv hp)
  sat hp tr g ht hm := by rw [Sat.append, AuxOK.append, h.sat hp tr g ht hm, k.sat (h.inv hp) tr g ht hm]
  nf hp iq hiq := by
    rcases List.mem_append.mp hiq with h1 | h1
    · exact (h.nf hp iq h1).mono fun e he => by rw [k.aux]; exact List.mem_append_left _ he
    · exact k.nf (h.inv hp) iq h1

theorem auxFind_mem {aux : List ((Symbol × ℤ) × Symbol)} {k : Symbol × ℤ} {s : Symbol} (h : auxFind aux k = some s) :
    (k, s) ∈ aux := by
  unfold auxFind at h
  obtain ⟨e, he, rfl⟩ := Option.map_eq_some_iff.mp h
  have h1 := List.mem_of_find?_eq_some he
  have h2 : e.1 = k := by simpa using List.find?_some he
  rw [← h2]; exact h1

theorem condTerm_ok {mapper : ℤ → ℤ} {c : ℤ} {p : Prog} {t : Term Symbol} {r : Prog × Term Symbol}
    (hu : t.var = cst ∨ UserSym t.var) (h : condTerm mapper c p t = .ok r) :
    ∃ a i, Ext mapper p r.1 a i ∧ ((t.var, c), r.2.var) ∈ r.1.aux ∧ r.2.co = t.co ∧
      (∀ e ∈ a, e.1 = (t.var, c)) := by
  unfold condTerm at h
  obtain ⟨n, hn, h⟩ := bind_ok.mp h
  have hn' : n = ((p.aux.length + 1 : ℕ) : ℤ) := by
    unfold castInt at hn
    split at hn
    · cases hn; rfl
    · cases hn
  split at h
  · rename_i s hs
    rw [pure_ok] at h; subst h
    exact ⟨[], [], .refl mapper p, auxFind_mem hs, rfl, by simp⟩
  · rename_i hs
    rw [pure_ok] at h; subst h
    have hsne : Symbol.num n ≠ cst := by rw [cst]; intro h; injection h with h; omega
    have htne : t.var ≠ Symbol.num n := by
      rcases hu with hu | hu
      · rw [hu]; exact fun h => hsne h.symm
      · exact hu n
    refine ⟨[((t.var, c), .num n)], [⟨[⟨1, .num n⟩], 0, .eq, -mapper c⟩, ⟨[⟨1, .num n⟩, ⟨-1, t.var⟩], 0, .eq, mapper c⟩], ?_, by simp, rfl, by simp⟩
    refine ⟨rfl, rfl, rfl, ?_, ?_, ?_⟩
    · intro hp
      refine ⟨?_, ?_⟩
      · intro i hi
        simp only [List.length_append, List.length_cons, List.length_nil] at hi
        by_cases hlt : i < p.aux.length
        · simp only [List.getElem_append_left hlt]; exact hp.vals i hlt
        · have : i = p.aux.length := by omega
          subst this
          simp [hn']
      · intro e he
        rcases List.mem_append.mp he with he | he
        · exact hp.key e he
        · simp only [List.mem_cons, List.not_mem_nil, or_false] at he
          subst he; exact hu
    · intro hp tr g ht hm
      have h1 := ht (mapper c) (hm c)
      have e1 : evalTerms (ext g) [⟨1, .num n⟩] = g (.num n) := by simp [evalTerms, ext_ne g hsne]
      have e2 : evalTerms (ext g) [⟨1, .num n⟩, ⟨-1, t.var⟩] = g (.num n) - ext g t.var := by
        simp [evalTerms, ext_ne g hsne, sub_eq_add_neg]
      simp only [Sat, AuxOK, List.mem_cons, List.not_mem_nil, or_false, forall_eq_or_imp, forall_eq, Ineq.holds, Relation.holds]
      rw [e1, e2, h1, sub_eq_zero]
      tauto
    · intro hp iq hiq
      simp only [List.mem_cons, List.not_mem_nil, or_false] at hiq
      rcases hiq with rfl | rfl
      · refine ⟨by simp, by simp, ?_⟩
        intro t' ht'
        simp only [List.mem_cons, List.not_mem_nil, or_false] at ht'
        subst ht'
        exact .inr (.inl ⟨_, List.mem_append_right _ List.mem_cons_self, rfl⟩)
      · refine ⟨by simp [Ne.symm htne], by simp, ?_⟩
        intro t' ht'
        simp only [List.mem_cons, List.not_mem_nil, or_false] at ht'
        rcases ht' with rfl | rfl
        · exact .inr (.inl ⟨_, List.mem_append_right _ List.mem_cons_self, rfl⟩)
        · rcases hu with hu | hu
          · exact .inr (.inr ⟨hu, _, List.mem_append_right _ List.mem_cons_self, hu⟩)
          · exact .inl hu

theorem condTerms_ok {mapper : ℤ → ℤ} {c : ℤ} : ∀ {ts : List (Term Symbol)} {p : Prog} {r : Prog × List (Term Symbol)},
    (∀ t ∈ ts, t.var = cst ∨ UserSym t.var) → condTerms mapper c ts p = .ok r →
    ∃ a i, Ext mapper p r.1 a i ∧
      (∀ tr g, PInv p → AuxOK mapper tr g r.1.aux →
        (tr (mapper c) → evalTerms (ext g) r.2 = evalTerms (ext g) ts) ∧ (¬ tr (mapper c) → evalTerms (ext g) r.2 = 0)) ∧
      (∀ e ∈ a, ∃ t ∈ ts, e.1 = (t.var, c)) ∧ (∀ t ∈ ts, ∃ e ∈ r.1.aux, e.1 = (t.var, c)) ∧
      (∀ t ∈ r.2, ∃ e ∈ r.1.aux, t.var = e.2) := by
  intro ts
  induction ts with
  | nil =>
    intro p r _ h
    rw [condTerms] at h; cases h
    exact ⟨[], [], .refl mapper p, by simp [evalTerms], by simp, by simp, by simp⟩
  | cons t ts ih =>
    intro p r hu h
    rw [condTerms] at h
    obtain ⟨r1, h1, h⟩ := bind_ok.mp h
    obtain ⟨rs, h2, h⟩ := bind_ok.mp h
    rw [pure_ok] at h; subst h
    obtain ⟨a, i, e1, m1, c1, k1⟩ := condTerm_ok (hu t (by simp)) h1
    obtain ⟨b, j, e2, m2, k2, l2, v2⟩ := ih (fun u hu' => hu u (by simp [hu'])) h2
    refine ⟨a ++ b, i ++ j, e1.trans e2, ?_, ?_, ?_, ?_⟩
    · intro tr g hp hax
      obtain ⟨h3, h4⟩ := m2 tr g (e1.inv hp) hax
      have hin : ((t.var, c), r1.2.var) ∈ rs.1.aux := by rw [e2.aux]; exact List.mem_append_left _ m1
      obtain ⟨h5, h6⟩ := hax _ hin
      have hne : r1.2.var ≠ cst := (e1.inv hp).val_ne m1
      refine ⟨?_, ?_⟩
      · intro hl
        rw [evalTerms_cons, evalTerms_cons, h3 hl, c1, ext_ne g hne, h5 hl]
      · intro hl
        rw [evalTerms_cons, h4 hl, c1, ext_ne g hne, h6 hl]; ring
    · intro e he
      rcases List.mem_append.mp he with he | he
      · exact ⟨t, by simp, k1 e he⟩
      · obtain ⟨u, hu', h⟩ := k2 e he
        exact ⟨u, by simp [hu'], h⟩
    · intro u hu'
      rcases List.mem_cons.mp hu' with rfl | hu'
      · exact ⟨_, by rw [e2.aux]; exact List.mem_append_left _ m1, rfl⟩
      · exact l2 u hu'
    · intro u hu'
      rcases List.mem_cons.mp hu' with rfl | hu'
      · exact ⟨_, by rw [e2.aux]; exact List.mem_append_left _ m1, rfl⟩
      · exact v2 u hu'

theorem parseElem_ok {be : Backend} {mapper : ℤ → ℤ} {p : Prog} {e : Elem} {r : Prog × List (Term Symbol)}
    (h : parseElem be mapper p e = .ok r) :
    ∃ a i, Ext mapper p r.1 a i ∧
      (∀ tr g, PInv p → AuxOK mapper tr g r.1.aux → ElemVal mapper tr g e (evalTerms (ext g) r.2)) ∧
      (∀ t ∈ r.2, t.var = cst ∨ UserSym t.var ∨ ∃ e ∈ r.1.aux, t.var = e.2) := by
  unfold parseElem at h
  split at h
  · rename_i t ht
    obtain ⟨ts, h1, h⟩ := bind_ok.mp h
    have hs := parseSum_ok be t h1
    split at h
    · rename_i hc
      rw [pure_ok] at h; subst h
      have hc' : e.cond = [] := by simpa using hc
      refine ⟨[], [], .refl mapper p, ?_, ?_⟩
      · intro tr g _ _
        exact ⟨t, _, ht, hs.means g, .inl ⟨.inl hc', rfl⟩⟩
      · intro u hu
        rcases hs.user u hu with h | h
        · exact .inl h
        · exact .inr (.inl h)
    · rename_i hc
      have hc' : e.cond ≠ [] := by simpa using hc
      obtain ⟨a, i, e1, m1, k1, -, v1⟩ := condTerms_ok hs.user h
      refine ⟨a, i, e1, ?_, ?_⟩
      · intro tr g hp hax
        obtain ⟨h3, h4⟩ := m1 tr g hp hax
        by_cases hl : tr (mapper e.condId)
        · exact ⟨t, _, ht, hs.means g, .inl ⟨.inr hl, h3 hl⟩⟩
        · refine ⟨t, _, ht, hs.means g, .inr ⟨?_, h4 hl⟩⟩
          rintro (h | h)
          · exact hc' h
          · exact hl h
      · intro u hu; exact .inr (.inr (v1 u hu))
  · cases h

theorem parseElems_ok {be : Backend} {mapper : ℤ → ℤ} : ∀ {es : List Elem} {p : Prog} {r : Prog × List (Term Symbol)},
    parseElems be mapper es p = .ok r →
    ∃ a i, Ext mapper p r.1 a i ∧
      (∀ tr g, PInv p → AuxOK mapper tr g r.1.aux →
        ∃ xs, List.Forall₂ (ElemVal mapper tr g) es xs ∧ evalTerms (ext g) r.2 = xs.sum) ∧
      (∀ t ∈ r.2, t.var = cst ∨ UserSym t.var ∨ ∃ e ∈ r.1.aux, t.var = e.2) := by
  intro es
  induction es with
  | nil =>
    intro p r h
    rw [parseElems] at h; cases h
    exact ⟨[], [], .refl mapper p, fun tr g _ _ => ⟨[], .nil, rfl⟩, by simp⟩
  | cons e es ih =>
    intro p r h
    rw [parseElems] at h
    obtain ⟨r1, h1, h⟩ := bind_ok.mp h
    obtain ⟨rs, h2, h⟩ := bind_ok.mp h
    rw [pure_ok] at h; subst h
    obtain ⟨a, i, e1, m1, v1⟩ := parseElem_ok h1
    obtain ⟨b, j, e2, m2, v2⟩ := ih h2
    refine ⟨a ++ b, i ++ j, e1.trans e2, ?_, ?_⟩
    · intro tr g hp hax
      obtain ⟨xs, h3, h4⟩ := m2 tr g (e1.inv hp) hax
      have hax1 : AuxOK mapper tr g r1.1.aux := by rw [e2.aux] at hax; exact (AuxOK.append.mp hax).1
      refine ⟨_ :: xs, .cons (m1 tr g hp hax1) h3, ?_⟩
      rw [evalTerms_append, h4, List.sum_cons]
    · intro t ht
      rcases List.mem_append.mp ht with ht | ht
      · rcases v1 t ht with h | h | ⟨e, he, h⟩
        · exact .inl h
        · exact .inr (.inl h)
        · exact .inr (.inr ⟨e, by rw [e2.aux]; exact List.mem_append_left _ he, h⟩)
      · exact v2 t ht

theorem ElemVal.unique {mapper : ℤ → ℤ} {tr : ℤ → Prop} {g : Symbol → ℚ} {e : Elem} {x y : ℚ} (hx : ElemVal mapper tr g e x)
    (hy : ElemVal mapper tr g e y) : x = y := by
  obtain ⟨t, u, h1, h2, h3⟩ := hx
  obtain ⟨t', u', k1, k2, k3⟩ := hy
  rw [h1] at k1
  have ht : t = t' := by simpa using k1
  subst ht
  have := h2.unique k2
  subst this
  rcases h3 with ⟨h3, rfl⟩ | ⟨h3, rfl⟩ <;> rcases k3 with ⟨k3, rfl⟩ | ⟨k3, rfl⟩
  · rfl
  · exact absurd h3 k3
  · exact absurd k3 h3
  · rfl

theorem ElemVals.unique {mapper : ℤ → ℤ} {tr : ℤ → Prop} {g : Symbol → ℚ} {es : List Elem} {xs : List ℚ}
    (hx : List.Forall₂ (ElemVal mapper tr g) es xs) : ∀ {ys}, List.Forall₂ (ElemVal mapper tr g) es ys → xs = ys := by
  induction hx with
  | nil => intro ys h; cases h; rfl
  | cons h _ ih => intro ys k; cases k with | cons k1 k2 => rw [h.unique k1, ih k2]

/-! ### atoms -/

theorem evaluateCmp_iff (op : String) (rel : Relation) : evaluateCmp op = .ok rel ↔ (op, rel) ∈ relTable := by
  unfold evaluateCmp relTable
  by_cases h1 : op = "<="
  · subst h1; simp [eq_comm]
  rw [if_neg h1]
  by_cases h2 : op = ">="
  · subst h2; simp [eq_comm]
  rw [if_neg h2]
  by_cases h3 : op = "="
  · subst h3; simp [eq_comm]
  rw [if_neg h3]
  by_cases h4 : op = ">"
  · subst h4; simp [eq_comm]
  rw [if_neg h4]
  by_cases h5 : op = "<"
  · subst h5; simp [eq_comm]
  rw [if_neg h5]
  simp [h1, h2, h3, h4, h5]

theorem relTable_inj {op : String} {r r' : Relation} (h : (op, r) ∈ relTable) (h' : (op, r') ∈ relTable) : r = r' := by
  have h1 := (evaluateCmp_iff _ _).mpr h
  rw [(evaluateCmp_iff _ _).mpr h'] at h1
  injection h1 with h1; exact h1.symm

theorem isName_iff (a : TAtom) (name : String) : isName a.term name.toList = true ↔ Named a name := by
  unfold isName Named
  split
  · rename_i n h; simp [h, beq_iff_eq]
  · rename_i n h; simp [h, beq_iff_eq]
  · rename_i h1 h2
    constructor
    · intro h; cases h
    · rintro (h | h)
      · exact absurd h (by intro h; exact h1 _ h)
      · exact absurd h (by intro h; exact h2 _ h)

theorem Named.inj {a : TAtom} {m n : String} (h : Named a m) (k : Named a n) : m = n := by
  rcases h with h | h <;> rcases k with k | k <;> rw [h] at k
  · injection k with k; exact String.toList_inj.mp k
  · injection k
  · injection k
  · injection k with k; exact String.toList_inj.mp k

/-- The relation only depends on the difference of both sides. -/
theorem Relation.holds_sub (r : Relation) {a b c d : ℚ} (h : a - b = c - d) : r.holds a b ↔ r.holds c d := by
  cases r <;> simp only [Relation.holds]
  · constructor <;> intro _ <;> linarith
  · constructor <;> intro _ <;> linarith
  · constructor <;> intro _ <;> linarith
  · constructor <;> intro _ <;> linarith
  · constructor <;> intro _ <;> linarith

theorem addIneq_ok {be : Backend} {mapper : ℤ → ℤ} {a : TAtom} {gd : String × TTerm} {p p' : Prog} {lhs : List (Term Symbol)}
    (h : addIneq be mapper a gd p lhs = .ok p') : ∃ iq rel, p' = { p with iqs := p.iqs ++ [iq] } ∧ iq.lit = mapper a.literal ∧
      (gd.1, rel) ∈ relTable ∧ (∀ g, ∃ y, Means g gd.2 y ∧ (iq.holds (ext g) ↔ rel.holds (evalTerms (ext g) lhs) y)) ∧
      (iq.lhs.map (·.var)).Nodup ∧ (∀ t ∈ iq.lhs, t.co ≠ 0) ∧ (∀ t ∈ iq.lhs, t.var ≠ cst) ∧ (iq.rel = rel) ∧
      (∀ t ∈ iq.lhs, (∃ u ∈ lhs, u.var = t.var) ∨ UserSym t.var) := by
  unfold addIneq at h
  obtain ⟨gt, h1, h⟩ := bind_ok.mp h
  obtain ⟨rel, h2, h⟩ := bind_ok.mp h
  rw [pure_ok] at h; subst h
  have hs := parseSum_ok be gd.2 h1
  refine ⟨_, rel, rfl, rfl, (evaluateCmp_iff _ _).mp h2, ?_, simplify_nodup _, simplify_ne_zero _,
    fun t ht => (simplify_vars _ t ht).1, rfl, ?_⟩
  · intro g
    refine ⟨_, hs.means g, ?_⟩
    refine Relation.holds_sub rel ?_
    have := simplify_value (ext g) (lhs ++ negTerms gt)
    rw [this]
    have hee : ext (ext g) = ext g := by
      funext s
      by_cases hc : s = cst
      · rw [hc, ext_cst, ext_cst]
      · rw [ext_ne _ hc]
    rw [hee, evalTerms_append, evalTerms_neg]; ring
  · intro t ht
    obtain ⟨hne, y, hy, he⟩ := simplify_vars _ t ht
    rcases List.mem_append.mp hy with hy | hy
    · exact .inl ⟨y, hy, he⟩
    · obtain ⟨z, hz, hz'⟩ := mem_negTerms hy
      rcases hs.user z hz with h | h
      · rw [← he, hz'] at hne; exact absurd h hne
      · rw [← he, hz']; exact .inr h

/-- What is shown about one accepted atom. -/
structure AtomOK (mapper : ℤ → ℤ) (p p' : Prog) (a : TAtom) (auxs : List ((Symbol × ℤ) × Symbol)) (nq : List (Ineq Symbol))
    (nob : List (Term Symbol)) : Prop where
  aux : p'.aux = p.aux ++ auxs
  iqs : p'.iqs = p.iqs ++ nq
  obj : p'.objective = p.objective ++ nob
  inv : PInv p'
  sat : ∀ tr g, Total tr → (∀ c, mapper c ≠ 0) → AuxOK mapper tr g p.aux → (Sat tr (ext g) nq ↔
    (AuxOK mapper tr g auxs ∧ (IsConstraint a → tr (mapper a.literal) → AtomHolds mapper tr g a)))
  objVal : ∀ tr g, AuxOK mapper tr g p'.aux → ∀ as y, ObjVal mapper tr g as y →
    ObjVal mapper tr g (a :: as) (evalTerms (ext g) nob + y)
  nf : ∀ iq ∈ nq, IqNF p'.aux iq
  objVars : ∀ t ∈ nob, t.var = cst ∨ UserSym t.var ∨ ∃ e ∈ p'.aux, t.var = e.2

theorem objVal_other {mapper : ℤ → ℤ} {tr : ℤ → Prop} {g : Symbol → ℚ} {a : TAtom} {n : String} (hn : Named a n)
    (h1 : n ≠ "maximize") (h2 : n ≠ "minimize") (as : List TAtom) (y : ℚ) (h : ObjVal mapper tr g as y) :
    ObjVal mapper tr g (a :: as) (evalTerms (ext g) [] + y) := by
  rw [evalTerms_nil, zero_add]
  exact .other _ _ _ (fun h => h1 (hn.inj h)) (fun h => h2 (hn.inj h)) h

theorem diffArg_ok {be : Backend} {sgn : ℚ} {t : TTerm} {x : Term Symbol} (h : diffArg sgn (evaluate be true t) = .ok x) :
    ∃ v, Denotes true t v ∧ (∀ g, x.co * ext g x.var = sgn * v.num g) ∧ (x.var = cst ∨ UserSym x.var) := by
  unfold diffArg at h
  split at h
  · cases h
  · rename_i q hq
    cases h
    exact ⟨_, (evaluate_iff be t true _).mp hq, fun g => by simp [Val.num, ext_cst], .inl rfl⟩
  · rename_i s hs
    cases h
    have hd := (evaluate_iff be t true _).mp hs
    exact ⟨_, hd, fun g => by simp [Val.num, ext_user g hd.userSym], .inr hd.userSym⟩

theorem parseDiffElem_ok {be : Backend} {t : TTerm} {ts : List (Term Symbol)} (h : parseDiffElem be t = .ok ts) :
    ∃ l r v w, t = .func ['-'] [l, r] ∧ Denotes true l v ∧ Denotes true r w ∧
      (∀ g, evalTerms (ext g) ts = v.num g - w.num g) ∧ ∀ x ∈ ts, x.var = cst ∨ UserSym x.var := by
  unfold parseDiffElem at h
  split at h
  · rename_i name l r
    split at h
    · rename_i hn; subst hn
      obtain ⟨x, h1, h⟩ := bind_ok.mp h
      obtain ⟨y, h2, h⟩ := bind_ok.mp h
      rw [pure_ok] at h; subst h
      obtain ⟨v, hv, ev, uv⟩ := diffArg_ok h1
      obtain ⟨w, hw, ew, uw⟩ := diffArg_ok h2
      refine ⟨l, r, v, w, rfl, hv, hw, fun g => ?_, ?_⟩
      · rw [evalTerms_cons, evalTerms_cons, evalTerms_nil, ev, ew]; ring
      · intro z hz
        simp only [List.mem_cons, List.not_mem_nil, or_false] at hz
        rcases hz with rfl | rfl
        · exact uv
        · exact uw
    · cases h
  · cases h

theorem parseDom_ok {be : Backend} {mapper : ℤ → ℤ} {p p' : Prog} {a : TAtom} (hn : Named a "dom") (hp : PInv p)
    (h : parseDom be mapper p a = .ok p') : ∃ auxs iqs obj, AtomOK mapper p p' a auxs iqs obj := by
  unfold parseDom at h
  split at h
  · rename_i e gd he hg
    split at h
    · rename_i name l u ht
      split at h
      · rename_i hc
        simp only [Bool.and_eq_true, beq_iff_eq] at hc
        obtain ⟨-, hdot⟩ := hc
        subst hdot
        obtain ⟨s, h1, h⟩ := bind_ok.mp h
        obtain ⟨hi, h2, h⟩ := bind_ok.mp h
        obtain ⟨lo, h3, h⟩ := bind_ok.mp h
        rw [pure_ok] at h; subst h
        have hs := (evaluateVar_iff be _ _).mp h1
        have hhi := (evaluateNum_iff be _ _).mp h2
        have hlo := (evaluateNum_iff be _ _).mp h3
        refine ⟨[], [⟨[⟨1, s⟩], hi, .le, mapper a.literal⟩, ⟨[⟨1, s⟩], lo, .ge, mapper a.literal⟩], [], ?_⟩
        refine ⟨by simp, rfl, by simp, ⟨hp.vals, hp.key⟩, ?_, ?_, ?_, by simp⟩
        · intro tr g ht' hm hax
          have e1 : evalTerms (ext g) [⟨1, s⟩] = g s := by simp [evalTerms, ext_user g hs.userSym]
          simp only [Sat, List.mem_cons, List.not_mem_nil, or_false, forall_eq_or_imp, forall_eq, Ineq.holds, e1, Relation.holds]
          constructor
          · rintro ⟨k1, k2⟩
            refine ⟨by simp [AuxOK], fun _ hl => ?_⟩
            exact .dom gd.1 gd.2 e l u lo hi s hn hg he ht hlo hhi hs ⟨k2 hl, k1 hl⟩
          · rintro ⟨-, k⟩
            have key : tr (mapper a.literal) → lo ≤ g s ∧ g s ≤ hi := by
              intro hl
              cases k (.inr (.inr hn)) hl with
              | sum _ _ _ _ _ hn' => exact absurd (hn.inj hn') (by decide)
              | diff _ _ _ _ _ _ _ _ _ hn' => exact absurd (hn.inj hn') (by decide)
              | dom op t e' l' u' lo' hi' s' _ hg' he' ht'' hl' hu' hs' hh =>
                rw [hg] at hg'; rw [he] at he'
                have he'' : e = e' := by simpa using he'
                subst he''
                rw [ht] at ht''
                have hlu : l = l' ∧ u = u' := by simpa using ht''
                obtain ⟨rfl, rfl⟩ := hlu
                have hgt : gd.2 = t := by
                  have := Option.some.inj hg'
                  rw [this]
                rw [← hgt] at hs'
                have e3 := hlo.unique hl'
                have e4 := hhi.unique hu'
                have e5 := hs.unique hs'
                injection e3 with e3; injection e4 with e4; injection e5 with e5
                rw [e3, e4, e5]; exact hh
            exact ⟨fun hl => (key hl).2, fun hl => (key hl).1⟩
        · intro tr g _ as y hy
          exact objVal_other hn (by decide) (by decide) as y hy
        · intro iq hiq
          simp only [List.mem_cons, List.not_mem_nil, or_false] at hiq
          rcases hiq with rfl | rfl <;> refine ⟨by simp, by simp, fun t ht => ?_⟩ <;>
            (simp only [List.mem_cons, List.not_mem_nil, or_false] at ht; subst ht; exact .inl hs.userSym)
      · cases h
    · cases h
  · cases h

theorem parseDiff_ok {be : Backend} {mapper : ℤ → ℤ} {p p' : Prog} {a : TAtom} (hn : Named a "diff") (hp : PInv p)
    (h : parseDiff be mapper p a = .ok p') : ∃ auxs iqs obj, AtomOK mapper p p' a auxs iqs obj := by
  unfold parseDiff at h
  split at h
  · rename_i e gd he hg
    split at h
    · rename_i t ht
      split at h
      · obtain ⟨lhs, h1, h2⟩ := bind_ok.mp h
        obtain ⟨l, r, v, w, rfl, hv, hw, hval, husr⟩ := parseDiffElem_ok h1
        obtain ⟨iq, rel, rfl, hlit, hrel, hm, hnd, hne, hncst, -, hvs⟩ := addIneq_ok h2
        refine ⟨[], [iq], [], ?_⟩
        refine ⟨by simp, rfl, by simp, ⟨hp.vals, hp.key⟩, ?_, ?_, ?_, by simp⟩
        · intro tr g ht' hmm hax
          obtain ⟨y, hy, hiff⟩ := hm g
          simp only [Sat, List.mem_cons, List.not_mem_nil, or_false, forall_eq, hlit]
          rw [hiff, hval]
          constructor
          · intro k
            refine ⟨by simp [AuxOK], fun _ hl => ?_⟩
            exact .diff gd.1 gd.2 rel e l r v w y hn hg hrel he ht hv hw hy (k hl)
          · rintro ⟨-, k⟩ hl
            cases k (.inr (.inl hn)) hl with
            | sum _ _ _ _ _ hn' => exact absurd (hn.inj hn') (by decide)
            | dom _ _ _ _ _ _ _ _ hn' => exact absurd (hn.inj hn') (by decide)
            | diff op t rel' e' l' r' v' w' y' _ hg' hr' he' ht'' hv' hw' hy' hh =>
              rw [hg] at hg'; rw [he] at he'
              have he'' : e = e' := by simpa using he'
              subst he''
              rw [ht] at ht''
              have hlu : l = l' ∧ r = r' := by simpa using ht''
              obtain ⟨rfl, rfl⟩ := hlu
              have hgt := Option.some.inj hg'
              subst hgt
              have e3 := hv.unique hv'
              have e4 := hw.unique hw'
              subst e3; subst e4
              rw [relTable_inj hrel hr', hy.unique hy']; exact hh
        · intro tr g _ as y hy
          exact objVal_other hn (by decide) (by decide) as y hy
        · intro iq' hiq
          simp only [List.mem_cons, List.not_mem_nil, or_false] at hiq
          subst hiq
          refine ⟨hnd, hne, fun t ht => ?_⟩
          rcases hvs t ht with ⟨u, hu, he⟩ | h
          · rcases husr u hu with h | h
            · exact absurd (he ▸ h) (hncst t ht)
            · exact .inl (he ▸ h)
          · exact .inl h
      · cases h
    · cases h
  · cases h

theorem parseSumAtom_ok {be : Backend} {mapper : ℤ → ℤ} {p p' : Prog} {a : TAtom} (hn : Named a "sum") (hp : PInv p)
    (h : parseSumAtom be mapper p a = .ok p') : ∃ auxs iqs obj, AtomOK mapper p p' a auxs iqs obj := by
  unfold parseSumAtom at h
  split at h
  · rename_i gd hg
    obtain ⟨r, h1, h⟩ := bind_ok.mp h
    obtain ⟨ax, iqs, hext, hval, hvars⟩ := parseElems_ok h1
    obtain ⟨iq, rel, rfl, hlit, hrel, hm, hnd, hne, hncst, -, hvs⟩ := addIneq_ok h
    have hpr := hext.inv hp
    refine ⟨ax, iqs ++ [iq], [], ?_⟩
    refine ⟨hext.aux, by simp [hext.iqs], by simp [hext.obj], ⟨hpr.vals, hpr.key⟩, ?_, ?_, ?_, by simp⟩
    · intro tr g htot hmm hax
      rw [Sat.append, hext.sat hp tr g htot hmm]
      refine and_congr_right fun hax2 => ?_
      have hax3 : AuxOK mapper tr g r.1.aux := by rw [hext.aux]; exact AuxOK.append.mpr ⟨hax, hax2⟩
      obtain ⟨xs, hxs, hsum⟩ := hval tr g hp hax3
      obtain ⟨y, hy, hiff⟩ := hm g
      simp only [Sat, List.mem_cons, List.not_mem_nil, or_false, forall_eq, hlit]
      rw [hiff, hsum]
      constructor
      · intro k _ hl
        exact .sum gd.1 gd.2 rel xs y hn hg hrel hxs hy (k hl)
      · intro k hl
        cases k (.inl hn) hl with
        | diff _ _ _ _ _ _ _ _ _ hn' => exact absurd (hn.inj hn') (by decide)
        | dom _ _ _ _ _ _ _ _ hn' => exact absurd (hn.inj hn') (by decide)
        | sum op t rel' xs' y' _ hg' hr' hx' hy' hh =>
          rw [hg] at hg'
          have hgt := Option.some.inj hg'
          subst hgt
          rw [relTable_inj hrel hr', hy.unique hy', ElemVals.unique hxs hx']; exact hh
    · intro tr g _ as y hy
      exact objVal_other hn (by decide) (by decide) as y hy
    · intro iq' hiq
      rcases List.mem_append.mp hiq with hiq | hiq
      · exact hext.nf hp iq' hiq
      · simp only [List.mem_cons, List.not_mem_nil, or_false] at hiq
        subst hiq
        refine ⟨hnd, hne, fun t ht => ?_⟩
        rcases hvs t ht with ⟨u, hu, he⟩ | h
        · rcases hvars u hu with h | h | ⟨e, he', h⟩
          · exact absurd (he ▸ h) (hncst t ht)
          · exact .inl (he ▸ h)
          · exact .inr (.inl ⟨e, he', he ▸ h⟩)
        · exact .inl h
  · cases h

theorem parseObj_ok {be : Backend} {mapper : ℤ → ℤ} {p p' : Prog} {a : TAtom} {neg : Bool}
    (hn : Named a (if neg then "minimize" else "maximize")) (hp : PInv p)
    (h : parseObj be mapper p a neg = .ok p') : ∃ auxs iqs obj, AtomOK mapper p p' a auxs iqs obj := by
  unfold parseObj at h
  obtain ⟨r, h1, h⟩ := bind_ok.mp h
  rw [pure_ok] at h; subst h
  obtain ⟨ax, iqs, hext, hval, hvars⟩ := parseElems_ok h1
  have hpr := hext.inv hp
  refine ⟨ax, iqs, if neg then negTerms r.2 else r.2, ?_⟩
  refine ⟨hext.aux, hext.iqs, by simp [hext.obj], ⟨hpr.vals, hpr.key⟩, ?_, ?_, hext.nf hp, ?_⟩
  · intro tr g htot hmm hax
    rw [hext.sat hp tr g htot hmm]
    constructor
    · intro k
      refine ⟨k, ?_⟩
      rintro (h | h | h) <;> · have := hn.inj h; cases neg <;> simp at this
    · exact fun k => k.1
  · intro tr g hax as y hy
    obtain ⟨xs, hxs, hsum⟩ := hval tr g hp hax
    cases neg with
    | true =>
      simp only [if_true] at hn ⊢
      rw [evalTerms_neg, hsum]; exact .min _ _ _ _ hn hxs hy
    | false =>
      simp only [Bool.false_eq_true, if_false] at hn ⊢
      rw [hsum]; exact .max _ _ _ _ hn hxs hy
  · intro t ht
    cases neg with
    | true =>
      simp only [if_true] at ht
      obtain ⟨y, hy, he⟩ := mem_negTerms ht
      rw [he]; exact hvars y hy
    | false => simp only [Bool.false_eq_true, if_false] at ht; exact hvars t ht

theorem parseAtom_ok {be : Backend} {mapper : ℤ → ℤ} {p p' : Prog} {a : TAtom} (hp : PInv p)
    (h : parseAtom be mapper p a = .ok p') : ∃ auxs iqs obj, AtomOK mapper p p' a auxs iqs obj := by
  unfold parseAtom at h
  split at h
  · rename_i hn
    exact parseDom_ok ((isName_iff a "dom").mp (by simpa using hn)) hp h
  rename_i n1
  split at h
  · rename_i hn
    exact parseDiff_ok ((isName_iff a "diff").mp (by simpa using hn)) hp h
  rename_i n2
  split at h
  · rename_i hn
    exact parseSumAtom_ok ((isName_iff a "sum").mp (by simpa using hn)) hp h
  rename_i n3
  split at h
  · rename_i hn
    exact parseObj_ok (neg := true) ((isName_iff a "minimize").mp hn) hp h
  rename_i n4
  split at h
  · rename_i hn
    exact parseObj_ok (neg := false) ((isName_iff a "maximize").mp hn) hp h
  rename_i n5
  cases h
  have m1 : ¬ Named a "dom" := fun h => n1 (by simpa using (isName_iff a "dom").mpr h)
  have m2 : ¬ Named a "diff" := fun h => n2 (by simpa using (isName_iff a "diff").mpr h)
  have m3 : ¬ Named a "sum" := fun h => n3 (by simpa using (isName_iff a "sum").mpr h)
  have m4 : ¬ Named a "minimize" := fun h => n4 ((isName_iff a "minimize").mpr h)
  have m5 : ¬ Named a "maximize" := fun h => n5 ((isName_iff a "maximize").mpr h)
  refine ⟨[], [], [], by simp, by simp, by simp, hp, ?_, ?_, by simp, by simp⟩
  · intro tr g _ _ _
    constructor
    · intro _
      refine ⟨by simp [AuxOK], ?_⟩
      rintro (h | h | h)
      · exact absurd h m3
      · exact absurd h m2
      · exact absurd h m1
    · intro _ iq hiq; cases hiq
  · intro tr g _ as y hy
    rw [evalTerms_nil, zero_add]
    exact .other _ _ _ m5 m4 hy

/-- What is shown about the accepted atoms of a program. -/
structure AtomsOK (mapper : ℤ → ℤ) (p p' : Prog) (atoms : List TAtom) (auxs : List ((Symbol × ℤ) × Symbol))
    (nq : List (Ineq Symbol)) (nob : List (Term Symbol)) : Prop where
  aux : p'.aux = p.aux ++ auxs
  iqs : p'.iqs = p.iqs ++ nq
  obj : p'.objective = p.objective ++ nob
  inv : PInv p'
  sat : ∀ tr g, Total tr → (∀ c, mapper c ≠ 0) → AuxOK mapper tr g p.aux → (Sat tr (ext g) nq ↔
    (AuxOK mapper tr g auxs ∧ ∀ a ∈ atoms, IsConstraint a → tr (mapper a.literal) → AtomHolds mapper tr g a))
  objVal : ∀ tr g, AuxOK mapper tr g p'.aux → ObjVal mapper tr g atoms (evalTerms (ext g) nob)
  nf : ∀ iq ∈ nq, IqNF p'.aux iq
  objVars : ∀ t ∈ nob, t.var = cst ∨ UserSym t.var ∨ ∃ e ∈ p'.aux, t.var = e.2

theorem parseAtoms_ok {be : Backend} {mapper : ℤ → ℤ} : ∀ {atoms : List TAtom} {p p' : Prog}, PInv p →
    parseAtoms be mapper atoms p = .ok p' → ∃ auxs iqs obj, AtomsOK mapper p p' atoms auxs iqs obj := by
  intro atoms
  induction atoms with
  | nil =>
    intro p p' hp h
    rw [parseAtoms] at h; cases h
    exact ⟨[], [], [], by simp, by simp, by simp, hp, fun tr g _ _ _ => by simp [Sat, AuxOK],
      fun tr g _ => by rw [evalTerms_nil]; exact .nil, by simp, by simp⟩
  | cons a as ih =>
    intro p p' hp h
    rw [parseAtoms] at h
    obtain ⟨q, h1, h⟩ := bind_ok.mp h
    obtain ⟨a1, i1, o1, k1⟩ := parseAtom_ok hp h1
    obtain ⟨a2, i2, o2, k2⟩ := ih k1.inv h
    refine ⟨a1 ++ a2, i1 ++ i2, o1 ++ o2, ?_, ?_, ?_, k2.inv, ?_, ?_, ?_, ?_⟩
    · rw [k2.aux, k1.aux, List.append_assoc]
    · rw [k2.iqs, k1.iqs, List.append_assoc]
    · rw [k2.obj, k1.obj, List.append_assoc]
    · intro tr g ht hm hax
      rw [Sat.append, k1.sat tr g ht hm hax, AuxOK.append]
      simp only [List.mem_cons, forall_eq_or_imp]
      constructor
      · rintro ⟨⟨h2, h3⟩, h4⟩
        have := (k2.sat tr g ht hm (by rw [k1.aux]; exact AuxOK.append.mpr ⟨hax, h2⟩)).mp h4
        exact ⟨⟨h2, this.1⟩, h3, this.2⟩
      · rintro ⟨⟨h2, h3⟩, h4, h5⟩
        exact ⟨⟨h2, h4⟩, (k2.sat tr g ht hm (by rw [k1.aux]; exact AuxOK.append.mpr ⟨hax, h2⟩)).mpr ⟨h3, h5⟩⟩
    · intro tr g hax
      rw [evalTerms_append]
      refine k1.objVal tr g ?_ as _ (k2.objVal tr g hax)
      rw [k2.aux] at hax; exact (AuxOK.append.mp hax).1
    · intro iq hiq
      rcases List.mem_append.mp hiq with h | h
      · exact (k1.nf iq h).mono fun e he => by rw [k2.aux]; exact List.mem_append_left _ he
      · exact k2.nf iq h
    · intro t ht
      rcases List.mem_append.mp ht with ht | ht
      · rcases k1.objVars t ht with h | h | ⟨e, he, h⟩
        · exact .inl h
        · exact .inr (.inl h)
        · exact .inr (.inr ⟨e, by rw [k2.aux]; exact List.mem_append_left _ he, h⟩)
      · exact k2.objVars t ht

end Lpx
