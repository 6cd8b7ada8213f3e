import Verif.PropsParsing

/-!
# C56: exactly the well-formed programs are accepted
-/

set_option linter.unusedSectionVars false

namespace Lpx.Props

/-- The theory atoms a program may contain (README and the grammar in parsing.hh): what the elements and the guard of
each kind of atom have to look like. Atoms with other names belong to other theories. -/
inductive WellFormed (a : TAtom) : Prop
  | sum (op t rel) (hn : Named a "sum") (hg : a.guard = some (op, t)) (hr : (op, rel) ∈ relTable) (ht : Linear t)
      (he : ∀ e ∈ a.elements, ∃ u, e.tuple = [u] ∧ Linear u)
  | diff (op t rel e l r v w) (hn : Named a "diff") (hg : a.guard = some (op, t)) (hr : (op, rel) ∈ relTable)
      (ht : Linear t) (he : a.elements = [e]) (hc : e.cond = []) (htu : e.tuple = [.func ['-'] [l, r]])
      (hl : Denotes true l v) (hrr : Denotes true r w)
  | dom (op t e l u lo hi s) (hn : Named a "dom") (hg : a.guard = some (op, t)) (hs : Denotes false t (.sym s))
      (he : a.elements = [e]) (hc : e.cond = []) (htu : e.tuple = [.func ['.', '.'] [l, u]])
      (hl : Denotes true l (.rat lo)) (hu : Denotes true u (.rat hi))
  | obj (hn : Named a "minimize" ∨ Named a "maximize") (he : ∀ e ∈ a.elements, ∃ u, e.tuple = [u] ∧ Linear u)
  | other (hn : ¬ IsTheoryAtom a)

/-- The constant part of the objective given by the atoms: its value if all variables are zero and no condition holds. -/
def ConstPart (mapper : ℤ → ℤ) (as : List TAtom) (x : ℚ) : Prop := ObjVal mapper (fun _ => False) (fun _ => 0) as x

/-! ### from accepted to well-formed -/

theorem addIneq_wf {be : Backend} {mapper : ℤ → ℤ} {a : TAtom} {gd : String × TTerm} {p p' : Prog} {lhs : List (Term Symbol)}
    (h : addIneq be mapper a gd p lhs = .ok p') : Linear gd.2 ∧ ∃ rel, (gd.1, rel) ∈ relTable := by
  unfold addIneq at h
  obtain ⟨gt, h1, h⟩ := bind_ok.mp h
  obtain ⟨rel, h2, h⟩ := bind_ok.mp h
  exact ⟨(parseSum_ok be _ h1).lin, rel, (evaluateCmp_iff _ _).mp h2⟩

/-- The five kinds of atoms. -/
theorem parseAtom_cases (be : Backend) (mapper : ℤ → ℤ) (p : Prog) (a : TAtom) :
    (Named a "dom" → parseAtom be mapper p a = parseDom be mapper p a) ∧
    (Named a "diff" → parseAtom be mapper p a = parseDiff be mapper p a) ∧
    (Named a "sum" → parseAtom be mapper p a = parseSumAtom be mapper p a) ∧
    (Named a "minimize" → parseAtom be mapper p a = parseObj be mapper p a true) ∧
    (Named a "maximize" → parseAtom be mapper p a = parseObj be mapper p a false) ∧
    (¬ IsTheoryAtom a → parseAtom be mapper p a = .ok p) := by
  have e1 : (isName a.term ['d', 'o', 'm'] = true) = Named a "dom" := propext (isName_iff a "dom")
  have e2 : (isName a.term ['d', 'i', 'f', 'f'] = true) = Named a "diff" := propext (isName_iff a "diff")
  have e3 : (isName a.term ['s', 'u', 'm'] = true) = Named a "sum" := propext (isName_iff a "sum")
  have e4 : (isName a.term "minimize".toList = true) = Named a "minimize" := propext (isName_iff a "minimize")
  have e5 : (isName a.term "maximize".toList = true) = Named a "maximize" := propext (isName_iff a "maximize")
  have n12 : Named a "dom" → ¬ Named a "diff" := fun h k => absurd (h.inj k) (by decide)
  have n13 : Named a "dom" → ¬ Named a "sum" := fun h k => absurd (h.inj k) (by decide)
  have n14 : Named a "dom" → ¬ Named a "minimize" := fun h k => absurd (h.inj k) (by decide)
  have n15 : Named a "dom" → ¬ Named a "maximize" := fun h k => absurd (h.inj k) (by decide)
  have n23 : Named a "diff" → ¬ Named a "sum" := fun h k => absurd (h.inj k) (by decide)
  have n24 : Named a "diff" → ¬ Named a "minimize" := fun h k => absurd (h.inj k) (by decide)
  have n25 : Named a "diff" → ¬ Named a "maximize" := fun h k => absurd (h.inj k) (by decide)
  have n34 : Named a "sum" → ¬ Named a "minimize" := fun h k => absurd (h.inj k) (by decide)
  have n35 : Named a "sum" → ¬ Named a "maximize" := fun h k => absurd (h.inj k) (by decide)
  have n45 : Named a "minimize" → ¬ Named a "maximize" := fun h k => absurd (h.inj k) (by decide)
  unfold parseAtom IsTheoryAtom IsConstraint
  refine ⟨fun h => ?_, fun h => ?_, fun h => ?_, fun h => ?_, fun h => ?_, fun h => ?_⟩
  · rw [if_pos (e1 ▸ h)]
  · rw [if_neg (e1 ▸ fun k => n12 k h), if_pos (e2 ▸ h)]
  · rw [if_neg (e1 ▸ fun k => n13 k h), if_neg (e2 ▸ fun k => n23 k h), if_pos (e3 ▸ h)]
  · rw [if_neg (e1 ▸ fun k => n14 k h), if_neg (e2 ▸ fun k => n24 k h), if_neg (e3 ▸ fun k => n34 k h), if_pos (e4 ▸ h)]
  · rw [if_neg (e1 ▸ fun k => n15 k h), if_neg (e2 ▸ fun k => n25 k h), if_neg (e3 ▸ fun k => n35 k h),
      if_neg (e4 ▸ fun k => n45 k h), if_pos (e5 ▸ h)]
  · push Not at h
    rw [if_neg (e1 ▸ h.1.2.2), if_neg (e2 ▸ h.1.2.1), if_neg (e3 ▸ h.1.1), if_neg (e4 ▸ h.2.1), if_neg (e5 ▸ h.2.2)]

theorem parseAtom_wf {be : Backend} {mapper : ℤ → ℤ} {p p' : Prog} {a : TAtom} (h : parseAtom be mapper p a = .ok p') :
    WellFormed a := by
  obtain ⟨c1, c2, c3, c4, c5, -⟩ := parseAtom_cases be mapper p a
  by_cases hdom : Named a "dom"
  · rw [c1 hdom] at h
    unfold parseDom at h
    split at h
    · rename_i e g he hg
      split at h
      · rename_i name l u htu
        split at h
        · rename_i hc
          obtain ⟨s, h1, h⟩ := bind_ok.mp h
          obtain ⟨hi, h2, h⟩ := bind_ok.mp h
          obtain ⟨lo, h3, h⟩ := bind_ok.mp h
          simp only [Bool.and_eq_true, List.isEmpty_iff, beq_iff_eq] at hc
          obtain ⟨hc, rfl⟩ := hc
          exact .dom g.1 g.2 e l u lo hi s hdom hg ((evaluateVar_iff be _ _).mp h1) he hc htu
            ((evaluateNum_iff be _ _).mp h3) ((evaluateNum_iff be _ _).mp h2)
        · cases h
      · cases h
    · cases h
  by_cases hdiff : Named a "diff"
  · rw [c2 hdiff] at h
    unfold parseDiff at h
    split at h
    · rename_i e g he hg
      split at h
      · rename_i t htu
        split at h
        · rename_i hc
          obtain ⟨lhs, h1, h2⟩ := bind_ok.mp h
          obtain ⟨k1, rel, k2⟩ := addIneq_wf h2
          obtain ⟨l, r, v, w, rfl, hl, hr, -, -⟩ := parseDiffElem_ok h1
          exact .diff g.1 g.2 rel e l r v w hdiff hg k2 k1 he (List.isEmpty_iff.mp hc) htu hl hr
        · cases h
      · cases h
    · cases h
  by_cases hsum : Named a "sum"
  · rw [c3 hsum] at h
    unfold parseSumAtom at h
    split at h
    · rename_i g hg
      obtain ⟨r, h1, h⟩ := bind_ok.mp h
      obtain ⟨k1, rel, k2⟩ := addIneq_wf h
      exact .sum g.1 g.2 rel hsum hg k2 k1 (parseElems_terms h1)
    · cases h
  have obj : ∀ neg, parseObj be mapper p a neg = .ok p' → ∀ e ∈ a.elements, ∃ u, e.tuple = [u] ∧ Linear u := by
    intro neg h
    unfold parseObj at h
    obtain ⟨r, h1, h⟩ := bind_ok.mp h
    exact parseElems_terms h1
  by_cases hmin : Named a "minimize"
  · rw [c4 hmin] at h
    exact .obj (.inl hmin) (obj _ h)
  by_cases hmax : Named a "maximize"
  · rw [c5 hmax] at h
    exact .obj (.inr hmax) (obj _ h)
  exact .other (by rintro ((h | h | h) | h | h) <;> contradiction)

theorem parseAtoms_wf {be : Backend} {mapper : ℤ → ℤ} : ∀ {as : List TAtom} {p p' : Prog},
    parseAtoms be mapper as p = .ok p' → ∀ a ∈ as, WellFormed a := by
  intro as
  induction as with
  | nil => intro p p' _ a ha; cases ha
  | cons b bs ih =>
    intro p p' h a ha
    rw [parseAtoms] at h
    obtain ⟨q, h1, h⟩ := bind_ok.mp h
    rcases List.mem_cons.mp ha with rfl | ha
    · exact parseAtom_wf h1
    · exact ih h a ha

/-- The right-hand side `simplify` computes for the objective is minus the constant part of the new atoms. -/
theorem simplify_const {be : Backend} {mapper : ℤ → ℤ} {as bs : List TAtom} {p q : Prog} (hl : Loaded be mapper as p)
    (h : parseAtoms be mapper bs p = .ok q) : ConstPart mapper bs (-(simplify q.objective).2) := by
  obtain ⟨auxs, iqs, nob, k⟩ := parseAtoms_ok hl.ok.inv h
  have hax : AuxOK mapper (fun _ => False) (fun _ => 0) q.aux := fun e _ => ⟨fun h => h.elim, fun _ => rfl⟩
  have h1 := k.objVal _ _ hax
  have h2 := simplify_value (fun _ => 0) q.objective
  have h0 : ∀ ts : List (Term Symbol), evalTerms (fun _ => 0) ts = 0 := by
    intro ts
    induction ts with
    | nil => rfl
    | cons t ts ih => rw [evalTerms_cons, ih]; ring
  rw [h0, k.obj, evalTerms_append, evalTerms_congr (a := p.objective) (g' := fun _ => 0) fun t ht => ext_ne _ (hl.ok.ovars t ht), h0,
    zero_sub, zero_add] at h2
  rw [k.obj, h2]
  exact h1

/-! ### from well-formed to accepted -/

/-- The result is accepted, or too many auxiliary variables were needed and there is a conditional element. -/
def OkOr {α : Type} (c : Prop) (r : Except Err α) : Prop := (∃ a, r = .ok a) ∨ (r = .error .overflow ∧ c)

theorem OkOr.bind {α β : Type} {c : Prop} {x : Except Err α} {f : α → Except Err β} (hx : OkOr c x)
    (hf : ∀ a, x = .ok a → OkOr c (f a)) : OkOr c (x >>= f) := by
  rcases hx with ⟨a, ha⟩ | ⟨he, hc⟩
  · have h := hf a ha
    rw [ha]
    exact h
  · rw [he]
    exact .inr ⟨rfl, hc⟩

theorem OkOr.ok {α : Type} {c : Prop} (a : α) : OkOr c (.ok a : Except Err α) := .inl ⟨a, rfl⟩
theorem OkOr.mono {α : Type} {c d : Prop} {r : Except Err α} (h : OkOr c r) (hcd : c → d) : OkOr d r :=
  h.imp id fun h => ⟨h.1, hcd h.2⟩

/-- The variable occurs in the linear term. -/
inductive VarOf : TTerm → Symbol → Prop
  | var (t s) : IsVarTerm t → Denotes false t (.sym s) → VarOf t s
  | arg (name args a s) : ArithOp name args.length → a ∈ args → VarOf a s → VarOf (.func name args) s

/-- What auxiliary variables are introduced for: a variable (or the constant part) of a conditional element and its condition. -/
def CondPair (atoms : List TAtom) (k : Symbol × ℤ) : Prop :=
  ∃ a ∈ atoms, ∃ e ∈ a.elements, e.cond ≠ [] ∧ e.condId = k.2 ∧ ∃ u, e.tuple = [u] ∧ (VarOf u k.1 ∨ (ConstSummand u ∧ k.1 = cst))

/-- There are at least 2^31-1 different pairs of this kind. -/
def TooMany (atoms : List TAtom) : Prop := ∃ l : List (Symbol × ℤ), l.Nodup ∧ 2 ^ 31 - 1 ≤ l.length ∧ ∀ k ∈ l, CondPair atoms k

theorem mulRow_var {l : Term Symbol} : ∀ {rs ts : List (Term Symbol)}, mulRow l rs = .ok ts → ∀ x ∈ ts, x.var = l.var ∨ ∃ r ∈ rs, x.var = r.var := by
  intro rs
  induction rs with
  | nil => intro ts h; rw [mulRow] at h; cases h; simp
  | cons r rs ih =>
    intro ts h
    rw [mulRow] at h
    split at h
    · obtain ⟨ts', h1, h2⟩ := bind_ok.mp h
      rw [pure_ok] at h2; subst h2
      intro x hx
      rcases List.mem_cons.mp hx with rfl | hx
      · simp only
        split
        · exact .inr ⟨r, by simp, rfl⟩
        · exact .inl rfl
      · rcases ih h1 x hx with h3 | ⟨r', hr', h3⟩
        · exact .inl h3
        · exact .inr ⟨r', by simp [hr'], h3⟩
    · cases h

theorem mulTerms_var : ∀ {ls rs ts : List (Term Symbol)}, mulTerms ls rs = .ok ts →
    ∀ x ∈ ts, (∃ l ∈ ls, x.var = l.var) ∨ ∃ r ∈ rs, x.var = r.var := by
  intro ls rs
  induction ls with
  | nil => intro ts h; rw [mulTerms] at h; cases h; simp
  | cons l ls ih =>
    intro ts h
    rw [mulTerms] at h
    obtain ⟨x, h1, h⟩ := bind_ok.mp h
    obtain ⟨y, h2, h⟩ := bind_ok.mp h
    rw [pure_ok] at h; subst h
    intro z hz
    rcases List.mem_append.mp hz with hz | hz
    · exact (mulRow_var h1 z hz).imp (fun h => ⟨l, by simp, h⟩) id
    · rcases ih h2 z hz with ⟨l', hl', h3⟩ | h3
      · exact .inl ⟨l', by simp [hl'], h3⟩
      · exact .inr h3

theorem sumVar_var {be : Backend} {t : TTerm} {ts : List (Term Symbol)} (hv : IsVarTerm t)
    (h : (do let v ← evaluateVar be t; return [⟨1, v⟩] : Except Err (List (Term Symbol))) = .ok ts) : ∀ x ∈ ts, VarOf t x.var := by
  obtain ⟨s, h1, h2⟩ := bind_ok.mp h
  rw [pure_ok] at h2; subst h2
  intro x hx
  simp only [List.mem_cons, List.not_mem_nil, or_false] at hx
  subst hx
  exact .var _ _ hv ((evaluateVar_iff be t s).mp h1)

theorem parseSum_var (be : Backend) (t : TTerm) : ∀ {ts}, parseSum be t = .ok ts → ∀ x ∈ ts, x.var ≠ cst → VarOf t x.var := by
  induction t using TTerm.ind with
  | h1 n =>
    intro ts h x hx hc
    rw [parseSum] at h
    cases h
    simp only [List.mem_cons, List.not_mem_nil, or_false] at hx
    subst hx
    exact absurd rfl hc
  | h2 name =>
    intro ts h x hx hc
    rw [parseSum] at h
    split at h
    · rename_i q hq
      cases h
      simp only [List.mem_cons, List.not_mem_nil, or_false] at hx
      subst hx
      exact absurd rfl hc
    · rename_i hq
      refine sumVar_var ?_ h x hx
      rintro ⟨q, hd⟩
      rw [if_pos ((isString_iff _).mpr hd.quoted), (asNum_iff _ _).mpr hd] at hq
      cases hq
  | h3 name args ih =>
    intro ts h x hx hc
    rw [parseSum, parseSums_eq] at h
    match args, ih, h with
    | [], ih, h => exact sumVar_var (by simp [IsVarTerm, ArithOp]) h x hx
    | [a], ih, h =>
      have iha := @ih a (by simp)
      simp only [List.map_cons, List.map_nil, sumFn] at h
      by_cases h1 : name = ['-']
      · subst h1
        rw [if_pos rfl] at h
        obtain ⟨y, hy, h⟩ := bind_ok.mp h
        rw [pure_ok] at h; subst h
        obtain ⟨z, hz, he⟩ := mem_negTerms hx
        exact .arg _ _ a _ (.inr ⟨rfl, by simp⟩) (by simp) (he ▸ iha hy z hz (he ▸ hc))
      rw [if_neg h1] at h
      by_cases h2 : name = ['+']
      · subst h2
        rw [if_pos rfl] at h
        exact .arg _ _ a _ (.inr ⟨rfl, by simp⟩) (by simp) (iha h x hx hc)
      rw [if_neg h2] at h
      exact sumVar_var (by simp [IsVarTerm, ArithOp, h1, h2]) h x hx
    | [a, b], ih, h =>
      have iha := @ih a (by simp)
      have ihb := @ih b (by simp)
      simp only [List.map_cons, List.map_nil, sumFn] at h
      by_cases h1 : name = ['+']
      · subst h1
        rw [if_pos rfl] at h
        obtain ⟨y, hy, h⟩ := bind_ok.mp h
        obtain ⟨z, hz, h⟩ := bind_ok.mp h
        rw [pure_ok] at h; subst h
        rcases List.mem_append.mp hx with hx | hx
        · exact .arg _ _ a _ (.inl ⟨rfl, by simp⟩) (by simp) (iha hy x hx hc)
        · exact .arg _ _ b _ (.inl ⟨rfl, by simp⟩) (by simp) (ihb hz x hx hc)
      rw [if_neg h1] at h
      by_cases h2 : name = ['-']
      · subst h2
        rw [if_pos rfl] at h
        obtain ⟨y, hy, h⟩ := bind_ok.mp h
        obtain ⟨z, hz, h⟩ := bind_ok.mp h
        rw [pure_ok] at h; subst h
        rcases List.mem_append.mp hx with hx | hx
        · exact .arg _ _ a _ (.inl ⟨rfl, by simp⟩) (by simp) (iha hy x hx hc)
        · obtain ⟨w, hw, he⟩ := mem_negTerms hx
          exact .arg _ _ b _ (.inl ⟨rfl, by simp⟩) (by simp) (he ▸ ihb hz w hw (he ▸ hc))
      rw [if_neg h2] at h
      by_cases h3 : name = ['*']
      · subst h3
        rw [if_pos rfl] at h
        obtain ⟨y, hy, h⟩ := bind_ok.mp h
        obtain ⟨z, hz, h⟩ := bind_ok.mp h
        rcases mulTerms_var h x hx with ⟨w, hw, he⟩ | ⟨w, hw, he⟩
        · exact .arg _ _ a _ (.inl ⟨rfl, by simp⟩) (by simp) (he ▸ iha hy w hw (he ▸ hc))
        · exact .arg _ _ b _ (.inl ⟨rfl, by simp⟩) (by simp) (he ▸ ihb hz w hw (he ▸ hc))
      rw [if_neg h3] at h
      by_cases h4 : name = ['/']
      · subst h4
        rw [if_pos rfl] at h
        obtain ⟨y, hy, h⟩ := bind_ok.mp h
        obtain ⟨q, hq, h⟩ := bind_ok.mp h
        by_cases hq0 : q = 0
        · rw [if_pos hq0] at h; cases h
        · rw [if_neg hq0, pure_ok] at h; subst h
          obtain ⟨w, hw, rfl⟩ := List.mem_map.mp hx
          exact .arg _ _ a _ (.inl ⟨rfl, by simp⟩) (by simp) (iha hy w hw hc)
      rw [if_neg h4] at h
      exact sumVar_var (by simp [IsVarTerm, ArithOp, h1, h2, h3, h4]) h x hx
    | a :: b :: c :: as, ih, h => exact sumVar_var (by simp [IsVarTerm, ArithOp]) h x hx
  | h4 args ih =>
    intro ts h x hx hc
    rw [parseSum] at h
    exact sumVar_var (t := .tuple args) trivial h x hx
  | h5 args ih => intro ts h; rw [parseSum] at h; cases h
  | h6 args ih => intro ts h; rw [parseSum] at h; cases h

/-- Auxiliary variables stand for different pairs, all of them of the program. -/
def AuxPairs (atoms : List TAtom) (p : Prog) : Prop := (p.aux.map (·.1)).Nodup ∧ ∀ k ∈ p.aux.map (·.1), CondPair atoms k

theorem condTerm_okOr {atoms : List TAtom} {mapper : ℤ → ℤ} {i : ℤ} {p : Prog} {t : Term Symbol} (hp : AuxPairs atoms p)
    (ht : CondPair atoms (t.var, i)) : OkOr (TooMany atoms) (condTerm mapper i p t) ∧ ∀ r, condTerm mapper i p t = .ok r → AuxPairs atoms r.1 := by
  unfold condTerm castInt
  constructor
  · refine OkOr.bind ?_ fun n _ => by split <;> exact .ok _
    split
    · exact .ok _
    · rename_i hn
      exact .inr ⟨rfl, p.aux.map (·.1), hp.1, by rw [List.length_map]; omega, hp.2⟩
  · intro r h
    obtain ⟨n, hn, h⟩ := bind_ok.mp h
    split at h
    · rw [pure_ok] at h; subst h; exact hp
    · rename_i hf
      rw [pure_ok] at h; subst h
      simp only [AuxPairs, List.map_append, List.map_cons, List.map_nil]
      refine ⟨List.nodup_append.mpr ⟨hp.1, by simp, ?_⟩, ?_⟩
      · intro k hk k' hk' heq
        simp only [List.mem_cons, List.not_mem_nil, or_false] at hk'
        subst hk' heq
        obtain ⟨e, he, hek⟩ := List.mem_map.mp hk
        unfold auxFind at hf
        rw [Option.map_eq_none_iff, List.find?_eq_none] at hf
        exact hf e he (by simpa using hek)
      · intro k hk
        rcases List.mem_append.mp hk with hk | hk
        · exact hp.2 k hk
        · simp only [List.mem_cons, List.not_mem_nil, or_false] at hk
          subst hk; exact ht

theorem condTerms_okOr {atoms : List TAtom} {mapper : ℤ → ℤ} {i : ℤ} : ∀ {ts : List (Term Symbol)} {p : Prog}, AuxPairs atoms p →
    (∀ t ∈ ts, CondPair atoms (t.var, i)) →
    OkOr (TooMany atoms) (condTerms mapper i ts p) ∧ ∀ r, condTerms mapper i ts p = .ok r → AuxPairs atoms r.1 := by
  intro ts
  induction ts with
  | nil => intro p hp _; exact ⟨.ok _, fun r h => by rw [condTerms] at h; cases h; exact hp⟩
  | cons t ts ih =>
    intro p hp ht
    obtain ⟨h1, h2⟩ := condTerm_okOr (mapper := mapper) hp (ht t (by simp))
    rw [condTerms]
    refine ⟨h1.bind fun r hr => (ih (h2 r hr) fun u hu => ht u (by simp [hu])).1.bind fun _ _ => .ok _, fun r h => ?_⟩
    obtain ⟨q, hq, h⟩ := bind_ok.mp h
    obtain ⟨q', hq', h⟩ := bind_ok.mp h
    rw [pure_ok] at h; subst h
    exact (ih (h2 q hq) fun u hu => ht u (by simp [hu])).2 q' hq'

theorem condPair_of {atoms : List TAtom} {a : TAtom} (ha : a ∈ atoms) {e : Elem} (he : e ∈ a.elements) (hc : e.cond ≠ []) {u : TTerm} (hu : e.tuple = [u])
    {be : Backend} {ts : List (Term Symbol)} (hts : parseSum be u = .ok ts) : ∀ t ∈ ts, CondPair atoms (t.var, e.condId) := by
  intro t ht
  refine ⟨a, ha, e, he, hc, rfl, u, hu, ?_⟩
  by_cases hcst : t.var = cst
  · exact .inr ⟨parseSum_cst be u hts ⟨t, ht, hcst⟩, hcst⟩
  · exact .inl (parseSum_var be u hts t ht hcst)

theorem parseElem_pairs {atoms : List TAtom} {a : TAtom} (ha : a ∈ atoms) {be : Backend} {mapper : ℤ → ℤ} {e : Elem} {p : Prog}
    (he : e ∈ a.elements) (hp : AuxPairs atoms p) {r} (h : parseElem be mapper p e = .ok r) : AuxPairs atoms r.1 := by
  unfold parseElem at h
  split at h
  · rename_i u hu
    obtain ⟨ts, hts, h⟩ := bind_ok.mp h
    split at h
    · cases h; exact hp
    · rename_i hc
      exact (condTerms_okOr hp (condPair_of ha he (by simpa using hc) hu hts)).2 r h
  · cases h

theorem parseElems_pairs {atoms : List TAtom} {a : TAtom} (ha : a ∈ atoms) {be : Backend} {mapper : ℤ → ℤ} : ∀ {es : List Elem} {p : Prog} {r},
    (∀ e ∈ es, e ∈ a.elements) → AuxPairs atoms p → parseElems be mapper es p = .ok r → AuxPairs atoms r.1 := by
  intro es
  induction es with
  | nil => intro p r _ hp h; rw [parseElems] at h; cases h; exact hp
  | cons e es ih =>
    intro p r hsub hp h
    rw [parseElems] at h
    obtain ⟨q, hq, h⟩ := bind_ok.mp h
    obtain ⟨q', hq', h⟩ := bind_ok.mp h
    rw [pure_ok] at h; subst h
    exact ih (fun e' he' => hsub e' (by simp [he'])) (parseElem_pairs ha (hsub e (by simp)) hp hq) (r := q') hq'

theorem AuxPairs.congr {atoms : List TAtom} {p q : Prog} (hp : AuxPairs atoms p) (h : q.aux = p.aux) : AuxPairs atoms q := by
  unfold AuxPairs; rw [h]; exact hp

theorem parseAtom_pairs {atoms : List TAtom} {be : Backend} {mapper : ℤ → ℤ} {p p' : Prog} {a : TAtom} (ha : a ∈ atoms) (hp : AuxPairs atoms p)
    (h : parseAtom be mapper p a = .ok p') : AuxPairs atoms p' := by
  have obj : ∀ neg, parseObj be mapper p a neg = .ok p' → AuxPairs atoms p' := by
    intro neg h
    unfold parseObj at h
    obtain ⟨r, h1, h⟩ := bind_ok.mp h
    rw [pure_ok] at h; subst h
    exact (parseElems_pairs ha (fun _ h => h) hp h1).congr rfl
  unfold parseAtom at h
  split at h
  · unfold parseDom at h
    repeat' split at h
    all_goals first | (cases h; done) | skip
    obtain ⟨s, h1, h⟩ := bind_ok.mp h
    obtain ⟨hi, h2, h⟩ := bind_ok.mp h
    obtain ⟨lo, h3, h⟩ := bind_ok.mp h
    rw [pure_ok] at h; subst h
    exact hp.congr rfl
  split at h
  · unfold parseDiff at h
    repeat' split at h
    all_goals first | (cases h; done) | skip
    obtain ⟨lhs, h1, h⟩ := bind_ok.mp h
    exact hp.congr (addIneq_aux h)
  split at h
  · unfold parseSumAtom at h
    split at h
    · obtain ⟨r, h1, h⟩ := bind_ok.mp h
      exact (parseElems_pairs ha (fun _ h => h) hp h1).congr (addIneq_aux h)
    · cases h
  split at h
  · exact obj _ h
  split at h
  · exact obj _ h
  cases h; exact hp

theorem parseAtoms_pairs {atoms : List TAtom} {be : Backend} {mapper : ℤ → ℤ} : ∀ {as : List TAtom} {p p' : Prog}, (∀ a ∈ as, a ∈ atoms) → AuxPairs atoms p →
    parseAtoms be mapper as p = .ok p' → AuxPairs atoms p' := by
  intro as
  induction as with
  | nil => intro p p' _ hp h; rw [parseAtoms] at h; cases h; exact hp
  | cons a as ih =>
    intro p p' hs hp h
    rw [parseAtoms] at h
    obtain ⟨q, hq, h⟩ := bind_ok.mp h
    exact ih (fun b hb => hs b (by simp [hb])) (parseAtom_pairs (hs a (by simp)) hp hq) h

theorem AuxPairs.mono {as bs : List TAtom} {p : Prog} (hp : AuxPairs as p) (h : ∀ a ∈ as, a ∈ bs) : AuxPairs bs p :=
  ⟨hp.1, fun k hk => let ⟨a, ha, r⟩ := hp.2 k hk; ⟨a, h a ha, r⟩⟩

theorem _root_.Lpx.Props.Loaded.pairs {be : Backend} {mapper : ℤ → ℤ} {as : List TAtom} {p : Prog} (h : Loaded be mapper as p) : AuxPairs as p := by
  induction h with
  | start => exact ⟨by simp, by simp⟩
  | step as bs p p' _ h ih =>
    obtain ⟨q, h1, h2, -⟩ := evaluateTheory_cases h
    refine AuxPairs.congr (parseAtoms_pairs (fun b hb => List.mem_append_right _ hb) (ih.mono fun a ha => List.mem_append_left _ ha) h1) ?_
    rw [h2]

theorem parseElems_okOr {atoms : List TAtom} {a : TAtom} (ha : a ∈ atoms) (be : Backend) (mapper : ℤ → ℤ) : ∀ (es : List Elem) (p : Prog),
    (∀ e ∈ es, e ∈ a.elements) → (∀ e ∈ es, ∃ u, e.tuple = [u] ∧ Linear u) → AuxPairs atoms p →
    OkOr (TooMany atoms ∧ ∃ e ∈ es, e.cond ≠ []) (parseElems be mapper es p) := by
  intro es
  induction es with
  | nil => intro p _ _ hp; exact .ok _
  | cons e es ih =>
    intro p hsub h hp
    have key : OkOr (TooMany atoms ∧ e.cond ≠ []) (parseElem be mapper p e) := by
      obtain ⟨u, htu, hu⟩ := h e (by simp)
      obtain ⟨ts, hts⟩ := (parseSum_accepts_iff be u).mpr hu
      have he : parseElem be mapper p e = if e.cond.isEmpty = true then pure (p, ts) else condTerms mapper e.condId ts p := by
        unfold parseElem
        rw [htu]
        show (parseSum be u >>= fun ts => if e.cond.isEmpty = true then pure (p, ts) else condTerms mapper e.condId ts p) = _
        rw [hts]
        rfl
      rw [he]
      split
      · exact .ok _
      · rename_i hc
        have hc' : e.cond ≠ [] := by simpa using hc
        exact (condTerms_okOr hp (condPair_of ha (hsub e (by simp)) hc' htu hts)).1.mono fun k => ⟨k, hc'⟩
    rw [parseElems]
    refine OkOr.bind (key.mono fun k => ⟨k.1, e, by simp, k.2⟩) fun r hr =>
      ((ih r.1 (fun e' he' => hsub e' (by simp [he'])) (fun e' he' => h e' (by simp [he'])) (parseElem_pairs ha (hsub e (by simp)) hp hr)).mono ?_).bind
        fun _ _ => .ok _
    rintro ⟨k, e', he', hc⟩
    exact ⟨k, e', by simp [he'], hc⟩

theorem addIneq_okOr {be : Backend} {mapper : ℤ → ℤ} {a : TAtom} {op : String} {t : TTerm} {rel : Relation} {c : Prop}
    (hr : (op, rel) ∈ relTable) (ht : Linear t) (p : Prog) (lhs : List (Term Symbol)) :
    OkOr c (addIneq be mapper a (op, t) p lhs) := by
  unfold addIneq
  obtain ⟨ts, hts⟩ := (parseSum_accepts_iff be t).mpr ht
  refine OkOr.bind (.inl ⟨ts, hts⟩) fun gt _ => ?_
  exact OkOr.bind (.inl ⟨rel, (evaluateCmp_iff _ _).mpr hr⟩) fun _ _ => .ok _

theorem diffArg_total {be : Backend} {sgn : ℚ} {t : TTerm} {v : Val} (h : Denotes true t v) :
    ∃ x, diffArg sgn (evaluate be true t) = .ok x := by
  rw [(evaluate_iff be t true v).mpr h]
  cases v <;> exact ⟨_, rfl⟩

theorem WellFormed.okOr {atoms : List TAtom} {a : TAtom} (h : WellFormed a) (ha : a ∈ atoms) (be : Backend) (mapper : ℤ → ℤ) {p : Prog} (hp : AuxPairs atoms p) :
    OkOr (TooMany atoms ∧ ∃ e ∈ a.elements, e.cond ≠ []) (parseAtom be mapper p a) := by
  obtain ⟨c1, c2, c3, c4, c5, c6⟩ := parseAtom_cases be mapper p a
  cases h with
  | sum op t rel hn hg hr ht he =>
    rw [c3 hn]
    unfold parseSumAtom
    rw [hg]
    exact (parseElems_okOr ha be mapper _ p (fun _ h => h) he hp).bind fun r _ => addIneq_okOr hr ht _ _
  | diff op t rel e l r v w hn hg hr ht he hc htu hl hrr =>
    rw [c2 hn]
    unfold parseDiff
    rw [he, hg]
    simp only [htu, hc, List.isEmpty_nil, if_true]
    refine OkOr.bind ?_ fun lhs _ => addIneq_okOr hr ht _ _
    show OkOr _ ((diffArg 1 (evaluate be true l)).bind fun x => (diffArg (-1) (evaluate be true r)).bind fun y => .ok [x, y])
    exact OkOr.bind (.inl (diffArg_total hl)) fun x _ => OkOr.bind (.inl (diffArg_total hrr)) fun y _ => .ok _
  | dom op t e l u lo hi s hn hg hs he hc htu hl hu =>
    rw [c1 hn]
    unfold parseDom
    rw [he, hg]
    simp only [htu, hc, List.isEmpty_nil, beq_self_eq_true, Bool.and_true, if_true]
    exact OkOr.bind (.inl ⟨s, (evaluateVar_iff be _ _).mpr hs⟩) fun _ _ =>
      OkOr.bind (.inl ⟨hi, (evaluateNum_iff be _ _).mpr hu⟩) fun _ _ =>
      OkOr.bind (.inl ⟨lo, (evaluateNum_iff be _ _).mpr hl⟩) fun _ _ => .ok _
  | obj hn he =>
    have obj : ∀ neg, OkOr (TooMany atoms ∧ ∃ e ∈ a.elements, e.cond ≠ []) (parseObj be mapper p a neg) := fun neg =>
      (parseElems_okOr ha be mapper _ p (fun _ h => h) he hp).bind fun _ _ => .ok _
    rcases hn with hn | hn
    · rw [c4 hn]; exact obj _
    · rw [c5 hn]; exact obj _
  | other hn =>
    rw [c6 hn]; exact .ok _

theorem parseAtoms_okOr {atoms : List TAtom} (be : Backend) (mapper : ℤ → ℤ) : ∀ (as : List TAtom) (p : Prog), (∀ a ∈ as, a ∈ atoms) →
    (∀ a ∈ as, WellFormed a) → AuxPairs atoms p → OkOr (TooMany atoms ∧ ∃ a ∈ as, ∃ e ∈ a.elements, e.cond ≠ []) (parseAtoms be mapper as p) := by
  intro as
  induction as with
  | nil => intro p _ _ _; exact .ok _
  | cons a as ih =>
    intro p hs h hp
    rw [parseAtoms]
    refine ((h a (by simp)).okOr (hs a (by simp)) be mapper hp |>.mono ?_).bind fun q hq =>
      (ih q (fun b hb => hs b (by simp [hb])) (fun b hb => h b (by simp [hb])) (parseAtom_pairs (hs a (by simp)) hp hq)).mono ?_
    · rintro ⟨k, e, he, hc⟩; exact ⟨k, a, by simp, e, he, hc⟩
    · rintro ⟨k, b, hb, h⟩; exact ⟨k, b, by simp [hb], h⟩

/-! ### C56 -/

/-- C56: whatever was loaded before, atoms are accepted only if each of them is well-formed and the objective they
give has no constant part. -/
theorem C56_accepted_is_wellformed (be : Backend) (mapper : ℤ → ℤ) (as bs : List TAtom) (p p' : Prog)
    (hl : Loaded be mapper as p) (h : evaluateTheory be mapper bs p = .ok p') :
    (∀ b ∈ bs, WellFormed b) ∧ ConstPart mapper bs 0 := by
  obtain ⟨q, h1, -, h2⟩ := evaluateTheory_cases h
  refine ⟨parseAtoms_wf h1, ?_⟩
  have := simplify_const hl h1
  rwa [h2, neg_zero] at this

/-- C56: well-formed atoms giving an objective without constant part are accepted; the only other outcome is an
overflow error, which takes a conditional element in these atoms and at least 2^31-1 different pairs of variables and
conditions in conditional elements of all atoms. -/
theorem C56_wellformed_is_accepted (be : Backend) (mapper : ℤ → ℤ) (as bs : List TAtom) (p : Prog)
    (hl : Loaded be mapper as p) (hw : ∀ b ∈ bs, WellFormed b) (hc : ConstPart mapper bs 0) :
    (∃ p', evaluateTheory be mapper bs p = .ok p') ∨
      (evaluateTheory be mapper bs p = .error .overflow ∧ TooMany (as ++ bs) ∧ ∃ b ∈ bs, ∃ e ∈ b.elements, e.cond ≠ []) := by
  unfold evaluateTheory
  refine OkOr.bind (parseAtoms_okOr be mapper bs p (fun b hb => List.mem_append_right as hb) hw
    (hl.pairs.mono fun a ha => List.mem_append_left _ ha)) fun q hq => ?_
  have := ObjVal.congr (simplify_const hl hq) hc
  have h0 : (simplify q.objective).2 = 0 := by linarith
  simp only [h0, if_true]
  exact .ok _

/-- C56 for programs without conditional elements: accepted if and only if well-formed without a constant part. -/
theorem C56_accepted_iff (be : Backend) (mapper : ℤ → ℤ) (as bs : List TAtom) (p : Prog)
    (hl : Loaded be mapper as p) (hun : ∀ b ∈ bs, ∀ e ∈ b.elements, e.cond = []) :
    (∃ p', evaluateTheory be mapper bs p = .ok p') ↔ (∀ b ∈ bs, WellFormed b) ∧ ConstPart mapper bs 0 := by
  constructor
  · rintro ⟨p', h⟩
    exact C56_accepted_is_wellformed be mapper as bs p p' hl h
  · rintro ⟨hw, hc⟩
    rcases C56_wellformed_is_accepted be mapper as bs p hl hw hc with h | ⟨-, -, b, hb, e, he, h⟩
    · exact h
    · exact absurd (hun b hb e he) h

/-- `&diff { x - y : c } <= 3`. -/
def condDiff : TAtom where
  term := .symbol "diff".toList
  elements := [⟨[.func ['-'] [.symbol ['x'], .symbol ['y']]], [2], 2⟩]
  guard := some ("<=", .number 3)
  literal := 1

/-- Conditions in difference constraints are not allowed: such a program is not well-formed and hence not accepted. -/
theorem condDiff_not_wellFormed : ¬ WellFormed condDiff := by
  intro h
  have hd : Named condDiff "diff" := .inl rfl
  cases h with
  | sum op t rel hn => exact absurd (hd.inj hn) (by decide)
  | diff op t rel e l r v w hn hg hr ht he hc =>
    have he' : e = ⟨[.func ['-'] [.symbol ['x'], .symbol ['y']]], [2], 2⟩ := by
      have : [(⟨[.func ['-'] [.symbol ['x'], .symbol ['y']]], [2], 2⟩ : Elem)] = [e] := he
      injection this with h1 h2
      exact h1.symm
    rw [he'] at hc
    cases hc
  | dom op t e l u lo hi s hn => exact absurd (hd.inj hn) (by decide)
  | obj hn => rcases hn with hn | hn <;> exact absurd (hd.inj hn) (by decide)
  | other hn => exact hn (.inl (.inr (.inl hd)))

/-- `&diff { x - y } <= 3`. -/
def plainDiff : TAtom := { condDiff with elements := [⟨[.func ['-'] [.symbol ['x'], .symbol ['y']]], [], 0⟩] }

/-- The hypotheses of the theorems above are met: a well-formed program with a difference constraint. -/
example : (∀ b ∈ [plainDiff], WellFormed b) ∧ ConstPart id [plainDiff] 0 ∧
    ∀ b ∈ [plainDiff], ∀ e ∈ b.elements, e.cond = [] := by
  refine ⟨fun b hb => ?_, ?_, fun b hb e he => ?_⟩
  · obtain rfl := List.mem_singleton.mp hb
    exact .diff "<=" (.number 3) .le _ (.symbol ['x']) (.symbol ['y']) _ _ (.inl rfl) rfl (by simp [relTable]) (.number 3) rfl rfl rfl
      (.const true _ (by rintro ⟨s, h⟩; cases h)) (.const true _ (by rintro ⟨s, h⟩; cases h))
  · exact .other _ _ _ (by rintro (h | h) <;> cases h) (by rintro (h | h) <;> cases h) .nil
  · obtain rfl := List.mem_singleton.mp hb
    obtain rfl := List.mem_singleton.mp he
    rfl

/-! ### C57: strings -/

/-- How clingo writes a string as a term (gringo's `quote`): newlines, backslashes and quotes are escaped. -/
def quote : List Char → List Char
  | [] => []
  | c :: cs =>
    if c = '\n' then '\\' :: 'n' :: quote cs
    else if c = '\\' then '\\' :: '\\' :: quote cs
    else if c = '"' then '\\' :: '"' :: quote cs
    else c :: quote cs

theorem unquote_quote (s : List Char) : unquote (quote s) = s := by
  induction s with
  | nil => rfl
  | cons c cs ih =>
    rw [quote]
    split
    · rename_i h; subst h; rw [unquote, ih]
    split
    · rename_i h; subst h; rw [unquote, ih]
    split
    · rename_i h; subst h; rw [unquote, ih]
    rename_i h1 h2 h3
    rw [unquote, ih]
    all_goals (intros; simp_all)

/-- The term for the string `s`. -/
def strTerm (s : List Char) : TTerm := .symbol ('"' :: (quote s ++ ['"']))

/-- C57: the term for a string is read as the variable named by exactly this string, whatever characters it contains,
unless it is a number (C27). -/
theorem C57_string_variables (be : Backend) (s : List Char) :
    evaluateVar be (strTerm s) = .ok (.str s) ∧
    ((∃ q, Decimal ('"' :: (quote s ++ ['"'])) q) ∨ parseSum be (strTerm s) = .ok [⟨1, .str s⟩]) := by
  have h : evaluateVar be (strTerm s) = .ok (.str s) := by
    rw [evaluateVar_iff]
    have := Denotes.string false (quote s) (by simp)
    rwa [unquote_quote] at this
  refine ⟨h, ?_⟩
  by_cases hq : ∃ q, Decimal ('"' :: (quote s ++ ['"'])) q
  · exact .inl hq
  refine .inr ?_
  unfold strTerm at h ⊢
  rw [parseSum, (asNum_none_iff _).mpr hq, ite_self]
  show (evaluateVar be _).bind _ = _
  rw [h]
  rfl

/-- C57: terms for different strings are different variables. -/
theorem C57_different_strings (be : Backend) (s t : List Char) (h : evaluateVar be (strTerm s) = evaluateVar be (strTerm t)) :
    s = t := by
  rw [(C57_string_variables be s).1, (C57_string_variables be t).1] at h
  injection h with h
  injection h

example : quote "a\"\n".toList = "a\\\"\\n".toList := by decide

end Lpx.Props
