import Mathlib.Algebra.BigOperators.Group.List.Basic
import Verif.ParsingTerm

/-! # Linear expressions (C21, C22, C43) -/

namespace Lpx

/-- The valuation `g` where the symbol of constants stands for 1. -/
def ext (g : Symbol → ℚ) : Symbol → ℚ := fun s => if s = cst then 1 else g s

theorem ext_cst (g : Symbol → ℚ) : ext g cst = 1 := if_pos rfl
theorem ext_ne (g : Symbol → ℚ) {s : Symbol} (h : s ≠ cst) : ext g s = g s := if_neg h
theorem ext_user (g : Symbol → ℚ) {s : Symbol} (h : UserSym s) : ext g s = g s := ext_ne g h.ne_cst

theorem evalTerms_nil (g : Symbol → ℚ) : evalTerms g [] = 0 := rfl
theorem evalTerms_cons (g : Symbol → ℚ) (t : Term Symbol) (ts) : evalTerms g (t :: ts) = t.co * g t.var + evalTerms g ts := by
  simp [evalTerms]
theorem evalTerms_append (g : Symbol → ℚ) (a b : List (Term Symbol)) :
    evalTerms g (a ++ b) = evalTerms g a + evalTerms g b := by simp [evalTerms]
theorem evalTerms_neg (g : Symbol → ℚ) (a : List (Term Symbol)) : evalTerms g (negTerms a) = - evalTerms g a := by
  induction a with
  | nil => simp [negTerms, evalTerms]
  | cons t ts ih =>
    have : negTerms (t :: ts) = ⟨-t.co, t.var⟩ :: negTerms ts := rfl
    rw [this, evalTerms_cons, evalTerms_cons, ih]; ring
theorem evalTerms_div (g : Symbol → ℚ) (a : List (Term Symbol)) (q : ℚ) :
    evalTerms g (a.map fun t => ⟨t.co / q, t.var⟩) = evalTerms g a / q := by
  induction a with
  | nil => simp [evalTerms]
  | cons t ts ih => rw [List.map_cons, evalTerms_cons, evalTerms_cons, ih]; ring
theorem evalTerms_congr {g g' : Symbol → ℚ} {a : List (Term Symbol)} (h : ∀ t ∈ a, g t.var = g' t.var) :
    evalTerms g a = evalTerms g' a := by
  unfold evalTerms
  congr 1
  exact List.map_congr_left fun t ht => by rw [h t ht]

/-- One row of a product. -/
theorem mulRow_ok {l : Term Symbol} : ∀ {rs ts : List (Term Symbol)}, mulRow l rs = .ok ts →
    (∀ g, evalTerms (ext g) ts = l.co * ext g l.var * evalTerms (ext g) rs) ∧
    (rs ≠ [] → ts ≠ []) ∧ (∀ r ∈ rs, l.var = cst ∨ r.var = cst) ∧
    (∀ x ∈ ts, x.var = l.var ∨ ∃ r ∈ rs, x.var = r.var) ∧
    (l.var ≠ cst → rs ≠ [] → ∃ x ∈ ts, x.var ≠ cst) ∧ (∀ r ∈ rs, r.var ≠ cst → ∃ x ∈ ts, x.var ≠ cst) := by
  intro rs
  induction rs with
  | nil =>
    intro ts h
    rw [mulRow] at h; cases h
    simp [evalTerms]
  | cons r rs ih =>
    intro ts h
    rw [mulRow] at h
    split at h
    · rename_i hc
      obtain ⟨ts', h1, h2⟩ := bind_ok.mp h
      rw [pure_ok] at h2; subst h2
      obtain ⟨i1, i2, i3, i4, i5, i6⟩ := ih h1
      have hc' : l.var = cst ∨ r.var = cst := by
        rw [Bool.or_eq_true, isInvalid_iff, isInvalid_iff] at hc; exact hc
      have hv : (if isInvalid l.var = true then r.var else l.var) = if l.var = cst then r.var else l.var := by
        simp only [isInvalid_iff]
      rw [hv]
      refine ⟨?_, by simp, ?_, ?_, ?_, ?_⟩
      · intro g
        rw [evalTerms_cons, evalTerms_cons, i1 g]
        by_cases hl : l.var = cst
        · rw [if_pos hl, hl, ext_cst]; ring
        · have hr := hc'.resolve_left hl
          rw [if_neg hl, hr, ext_cst]; ring
      · intro r' hr'
        rcases List.mem_cons.mp hr' with rfl | hr'
        · exact hc'
        · exact i3 r' hr'
      · intro x hx
        rcases List.mem_cons.mp hx with rfl | hx
        · by_cases hl : l.var = cst
          · exact .inr ⟨r, by simp, by simp [hl]⟩
          · exact .inl (by simp [hl])
        · rcases i4 x hx with h | ⟨r', h, h'⟩
          · exact .inl h
          · exact .inr ⟨r', by simp [h], h'⟩
      · intro hl _
        exact ⟨_, List.mem_cons_self, by simp [hl]⟩
      · intro r' hr' hne
        rcases List.mem_cons.mp hr' with rfl | hr'
        · exact ⟨_, List.mem_cons_self, by
            by_cases hl : l.var = cst
            · simpa [hl] using hne
            · simp [hl]⟩
        · obtain ⟨x, hx, hx'⟩ := i6 r' hr' hne
          exact ⟨x, by simp [hx], hx'⟩
    · cases h

/-- The product of two sums: its value, and that not both factors contain variables. -/
theorem mulTerms_ok : ∀ {ls rs ts : List (Term Symbol)}, mulTerms ls rs = .ok ts →
    (∀ g, evalTerms (ext g) ts = evalTerms (ext g) ls * evalTerms (ext g) rs) ∧
    (ls ≠ [] → rs ≠ [] → ts ≠ []) ∧ (∀ l ∈ ls, ∀ r ∈ rs, l.var = cst ∨ r.var = cst) ∧
    (∀ x ∈ ts, (∃ r ∈ ls, x.var = r.var) ∨ ∃ r ∈ rs, x.var = r.var) ∧
    (ls ≠ [] → rs ≠ [] → (∃ x ∈ ls ++ rs, x.var ≠ cst) → ∃ x ∈ ts, x.var ≠ cst) := by
  intro ls rs
  induction ls with
  | nil =>
    intro ts h
    rw [mulTerms] at h; cases h
    simp [evalTerms]
  | cons l ls ih =>
    intro ts h
    rw [mulTerms] at h
    obtain ⟨x, h1, h⟩ := bind_ok.mp h
    obtain ⟨y, h2, h⟩ := bind_ok.mp h
    rw [pure_ok] at h; subst h
    obtain ⟨i1, i2, i3, i4, i5, i6⟩ := mulRow_ok h1
    obtain ⟨j1, j2, j3, j4, j5⟩ := ih h2
    refine ⟨?_, ?_, ?_, ?_, ?_⟩
    · intro g; rw [evalTerms_append, evalTerms_cons, i1, j1]; ring
    · intro _ hr h0
      exact i2 hr (List.append_eq_nil_iff.mp h0).1
    · intro l' hl' r hr
      rcases List.mem_cons.mp hl' with rfl | hl'
      · exact i3 r hr
      · exact j3 l' hl' r hr
    · intro z hz
      rcases List.mem_append.mp hz with hz | hz
      · rcases i4 z hz with h | ⟨r, h, h'⟩
        · exact .inl ⟨l, by simp, h⟩
        · exact .inr ⟨r, h, h'⟩
      · rcases j4 z hz with ⟨r, h, h'⟩ | h
        · exact .inl ⟨r, by simp [h], h'⟩
        · exact .inr h
    · rintro - hr ⟨z, hz, hz'⟩
      rw [List.cons_append, List.mem_cons] at hz
      rcases hz with rfl | hz
      · obtain ⟨w, hw, hw'⟩ := i5 hz' hr
        exact ⟨w, by simp [hw], hw'⟩
      · rcases List.mem_append.mp hz with hz | hz
        · obtain ⟨w, hw, hw'⟩ := j5 (List.ne_nil_of_mem hz) hr ⟨z, by simp [hz], hz'⟩
          exact ⟨w, by simp [hw], hw'⟩
        · obtain ⟨w, hw, hw'⟩ := i6 z hz hz'
          exact ⟨w, by simp [hw], hw'⟩

theorem mulRow_total {l : Term Symbol} {rs : List (Term Symbol)} (h : ∀ r ∈ rs, l.var = cst ∨ r.var = cst) :
    ∃ ts, mulRow l rs = .ok ts := by
  induction rs with
  | nil => exact ⟨[], rfl⟩
  | cons r rs ih =>
    obtain ⟨ts, hts⟩ := ih (fun r' hr' => h r' (by simp [hr']))
    rw [mulRow, if_pos (by rw [Bool.or_eq_true, isInvalid_iff, isInvalid_iff]; exact h r (by simp)), hts]
    exact ⟨_, rfl⟩

theorem mulTerms_total {ls rs : List (Term Symbol)} (h : ∀ l ∈ ls, ∀ r ∈ rs, l.var = cst ∨ r.var = cst) :
    ∃ ts, mulTerms ls rs = .ok ts := by
  induction ls with
  | nil => exact ⟨[], rfl⟩
  | cons l ls ih =>
    obtain ⟨x, hx⟩ := mulRow_total (h l (by simp))
    obtain ⟨y, hy⟩ := ih (fun l' hl' => h l' (by simp [hl']))
    rw [mulTerms, hx, hy]
    exact ⟨_, rfl⟩

/-- Numbers mean themselves in sums. -/
theorem Denotes.means {ns : Bool} {t : TTerm} : ∀ {q : ℚ}, Denotes ns t (.rat q) → ∀ g, Means g t q := by
  induction t using TTerm.ind with
  | h1 n => intro q h g; cases h; exact .number _
  | h2 name => intro q h g; cases h with | decimal _ _ hd => exact .decimal _ _ hd
  | h3 name args ih =>
    intro q h g
    cases h with
    | add _ a b x y h1 h2 => exact .add _ _ _ _ (ih a (by simp) h1 g) (ih b (by simp) h2 g)
    | sub _ a b x y h1 h2 => exact .sub _ _ _ _ (ih a (by simp) h1 g) (ih b (by simp) h2 g)
    | mul _ a b x y h1 h2 => exact .mul _ _ _ _ (ih a (by simp) h1 g) (ih b (by simp) h2 g)
    | div _ a b x y h1 h2 h3 => exact .div _ _ _ _ (ih a (by simp) h1 g) (ih b (by simp) h2 g) h3
    | neg _ a x h1 => exact .neg _ _ (ih a (by simp) h1 g)
  | h4 args ih => intro q h g; cases h
  | h5 args ih => intro q h g; cases h
  | h6 args ih => intro q h g; cases h

/-- Numbers contain no variables. -/
theorem Denotes.not_hasVar {t : TTerm} : ∀ {q : ℚ}, Denotes true t (.rat q) → ¬ HasVar t := by
  induction t using TTerm.ind with
  | h1 n => rintro q h ⟨⟩; rename_i hv; exact hv
  | h2 name =>
    intro q h hv
    cases h with
    | decimal _ _ hd =>
      cases hv with
      | var _ hv => exact hv ⟨q, hd⟩
  | h3 name args ih =>
    intro q h hv
    have key : ∀ a ∈ args, (∃ q, Denotes true a (.rat q)) → ¬ HasVar a := fun a ha ⟨q, hq⟩ => ih a ha hq
    cases hv with
    | var _ hv =>
      cases h with
      | add => exact hv (.inl ⟨rfl, by simp⟩)
      | sub => exact hv (.inl ⟨rfl, by simp⟩)
      | mul => exact hv (.inl ⟨rfl, by simp⟩)
      | div => exact hv (.inl ⟨rfl, by simp⟩)
      | neg => exact hv (.inr ⟨rfl, by simp⟩)
    | arg _ _ a h1 h2 h3 =>
      refine key a h2 ?_ h3
      cases h <;> (simp only [List.mem_cons, List.not_mem_nil, or_false] at h2)
      all_goals first
        | (subst h2; exact ⟨_, by assumption⟩)
        | (rcases h2 with rfl | rfl <;> exact ⟨_, by assumption⟩)
  | h4 args ih => intro q h; cases h
  | h5 args ih => intro q h; cases h
  | h6 args ih => intro q h; cases h

/-- What is shown about an accepted linear expression. -/
structure SumOK (t : TTerm) (ts : List (Term Symbol)) : Prop where
  means : ∀ g, Means g t (evalTerms (ext g) ts)
  ne : ts ≠ []
  var : (∃ x ∈ ts, x.var ≠ cst) ↔ HasVar t
  user : ∀ x ∈ ts, x.var = cst ∨ UserSym x.var
  lin : Linear t

theorem SumOK.ofVar {t : TTerm} {s : Symbol} (ht : IsVarTerm t) (h : Denotes false t (.sym s)) : SumOK t [⟨1, s⟩] where
  means g := by
    have : evalTerms (ext g) [⟨1, s⟩] = g s := by simp [evalTerms, ext_user g h.userSym]
    rw [this]; exact .var _ _ ht h
  ne := by simp
  var := ⟨fun _ => .var _ ht, fun _ => ⟨⟨1, s⟩, by simp, h.userSym.ne_cst⟩⟩
  user x hx := by simp at hx; subst hx; exact .inr h.userSym
  lin := .var _ _ ht h

theorem hasVar_bin {name : List Char} {a b : TTerm} (h : ArithOp name 2) : HasVar (.func name [a, b]) ↔ HasVar a ∨ HasVar b := by
  constructor
  · intro hv
    cases hv with
    | var _ hv => exact absurd h hv
    | arg _ _ c _ h2 h3 =>
      simp only [List.mem_cons, List.not_mem_nil, or_false] at h2
      rcases h2 with rfl | rfl
      · exact .inl h3
      · exact .inr h3
  · rintro (hv | hv)
    · exact .arg _ _ a h (by simp) hv
    · exact .arg _ _ b h (by simp) hv

theorem hasVar_un {name : List Char} {a : TTerm} (h : ArithOp name 1) : HasVar (.func name [a]) ↔ HasVar a := by
  constructor
  · intro hv
    cases hv with
    | var _ hv => exact absurd h hv
    | arg _ _ c _ h2 h3 =>
      simp only [List.mem_cons, List.not_mem_nil, or_false] at h2
      subst h2; exact h3
  · intro hv; exact .arg _ _ a h (by simp) hv

theorem mem_negTerms {x : Term Symbol} {ts : List (Term Symbol)} (h : x ∈ negTerms ts) : ∃ y ∈ ts, x.var = y.var := by
  obtain ⟨y, hy, rfl⟩ := List.mem_map.mp h
  exact ⟨y, hy, rfl⟩

theorem negTerms_var (ts : List (Term Symbol)) : (∃ x ∈ negTerms ts, x.var ≠ cst) ↔ ∃ x ∈ ts, x.var ≠ cst := by
  simp [negTerms]

theorem exists_append_var (a b : List (Term Symbol)) :
    (∃ x ∈ a ++ b, x.var ≠ cst) ↔ (∃ x ∈ a, x.var ≠ cst) ∨ ∃ x ∈ b, x.var ≠ cst := by
  constructor
  · rintro ⟨x, hx, h⟩
    rcases List.mem_append.mp hx with hx | hx
    · exact .inl ⟨x, hx, h⟩
    · exact .inr ⟨x, hx, h⟩
  · rintro (⟨x, hx, h⟩ | ⟨x, hx, h⟩)
    · exact ⟨x, List.mem_append_left _ hx, h⟩
    · exact ⟨x, List.mem_append_right _ hx, h⟩

theorem sumVar_ok {be : Backend} {t : TTerm} {ts : List (Term Symbol)} (hv : IsVarTerm t)
    (h : (do let v ← evaluateVar be t; return [⟨1, v⟩] : Except Err (List (Term Symbol))) = .ok ts) : SumOK t ts := by
  obtain ⟨s, h1, h2⟩ := bind_ok.mp h
  rw [pure_ok] at h2; subst h2
  exact .ofVar hv ((evaluateVar_iff be t s).mp h1)

/-- C21/C22: accepted terms are linear and the extracted terms have the arithmetic value of the term. -/
theorem parseSum_ok (be : Backend) (t : TTerm) : ∀ {ts}, parseSum be t = .ok ts → SumOK t ts := by
  induction t using TTerm.ind with
  | h1 n =>
    intro ts h
    rw [parseSum] at h; cases h
    refine ⟨?_, by simp, ?_, by simp, .number n⟩
    · intro g
      have : evalTerms (ext g) [⟨(n : ℚ), cst⟩] = n := by simp [evalTerms, ext_cst]
      rw [this]; exact .number n
    · constructor
      · simp
      · intro h; cases h; rename_i h; exact h.elim
  | h2 name =>
    intro ts h
    rw [parseSum] at h
    split at h
    · rename_i q hq
      cases h
      have hd : Decimal name q := by
        split at hq
        · exact (asNum_iff _ _).mp hq
        · cases hq
      refine ⟨?_, by simp, ?_, by simp, .decimal _ _ hd⟩
      · intro g
        have : evalTerms (ext g) [⟨q, cst⟩] = q := by simp [evalTerms, ext_cst]
        rw [this]; exact .decimal _ _ hd
      · constructor
        · simp
        · intro h; cases h; rename_i h; exact (h ⟨q, hd⟩).elim
    · rename_i hq
      refine sumVar_ok ?_ h
      rintro ⟨q, hd⟩
      rw [if_pos ((isString_iff _).mpr hd.quoted), (asNum_iff _ _).mpr hd] at hq
      cases hq
  | h3 name args ih =>
    intro ts h
    rw [parseSum, parseSums_eq] at h
    match args, ih, h with
    | [], ih, h => exact sumVar_ok (by simp [IsVarTerm, ArithOp]) h
    | [a], ih, h =>
      have iha := @ih a (by simp)
      simp only [List.map_cons, List.map_nil, sumFn] at h
      by_cases h1 : name = ['-']
      · subst h1
        rw [if_pos rfl] at h
        obtain ⟨x, hx, h⟩ := bind_ok.mp h
        rw [pure_ok] at h; subst h
        have ia := iha hx
        refine ⟨?_, ?_, ?_, ?_, .neg _ ia.lin⟩
        · intro g; rw [evalTerms_neg]; exact .neg _ _ (ia.means g)
        · simpa [negTerms] using ia.ne
        · rw [hasVar_un (.inr ⟨rfl, by simp⟩), negTerms_var, ia.var]
        · intro x hx
          obtain ⟨y, hy, he⟩ := mem_negTerms hx
          rw [he]; exact ia.user y hy
      rw [if_neg h1] at h
      by_cases h2 : name = ['+']
      · subst h2
        rw [if_pos rfl] at h
        have ia := iha h
        exact ⟨fun g => .pos _ _ (ia.means g), ia.ne, by rw [hasVar_un (.inr ⟨rfl, by simp⟩), ia.var], ia.user, .pos _ ia.lin⟩
      rw [if_neg h2] at h
      exact sumVar_ok (by simp [IsVarTerm, ArithOp, h1, h2]) h
    | [a, b], ih, h =>
      have iha := @ih a (by simp)
      have ihb := @ih b (by simp)
      simp only [List.map_cons, List.map_nil, sumFn] at h
      by_cases h1 : name = ['+']
      · subst h1
        rw [if_pos rfl] at h
        obtain ⟨x, hx, h⟩ := bind_ok.mp h
        obtain ⟨y, hy, h⟩ := bind_ok.mp h
        rw [pure_ok] at h; subst h
        have ia := iha hx
        have ib := ihb hy
        refine ⟨?_, ?_, ?_, ?_, .add _ _ ia.lin ib.lin⟩
        · intro g; rw [evalTerms_append]; exact .add _ _ _ _ (ia.means g) (ib.means g)
        · simp [ia.ne]
        · rw [hasVar_bin (.inl ⟨rfl, by simp⟩), exists_append_var, ia.var, ib.var]
        · intro z hz
          rcases List.mem_append.mp hz with hz | hz
          · exact ia.user z hz
          · exact ib.user z hz
      rw [if_neg h1] at h
      by_cases h2 : name = ['-']
      · subst h2
        rw [if_pos rfl] at h
        obtain ⟨x, hx, h⟩ := bind_ok.mp h
        obtain ⟨y, hy, h⟩ := bind_ok.mp h
        rw [pure_ok] at h; subst h
        have ia := iha hx
        have ib := ihb hy
        refine ⟨?_, ?_, ?_, ?_, .sub _ _ ia.lin ib.lin⟩
        · intro g; rw [evalTerms_append, evalTerms_neg, ← sub_eq_add_neg]; exact .sub _ _ _ _ (ia.means g) (ib.means g)
        · simp [ia.ne]
        · rw [hasVar_bin (.inl ⟨rfl, by simp⟩), exists_append_var, negTerms_var, ia.var, ib.var]
        · intro z hz
          rcases List.mem_append.mp hz with hz | hz
          · exact ia.user z hz
          · obtain ⟨w, hw, he⟩ := mem_negTerms hz
            rw [he]; exact ib.user w hw
      rw [if_neg h2] at h
      by_cases h3 : name = ['*']
      · subst h3
        rw [if_pos rfl] at h
        obtain ⟨x, hx, h⟩ := bind_ok.mp h
        obtain ⟨y, hy, h⟩ := bind_ok.mp h
        have ia := iha hx
        have ib := ihb hy
        obtain ⟨m1, m2, m3, m4, m5⟩ := mulTerms_ok h
        refine ⟨?_, m2 ia.ne ib.ne, ?_, ?_, .mul _ _ ia.lin ib.lin ?_⟩
        · intro g; rw [m1]; exact .mul _ _ _ _ (ia.means g) (ib.means g)
        · rw [hasVar_bin (.inl ⟨rfl, by simp⟩), ← ia.var, ← ib.var, ← exists_append_var]
          constructor
          · rintro ⟨z, hz, hz'⟩
            rcases m4 z hz with ⟨r, hr, he⟩ | ⟨r, hr, he⟩
            · exact ⟨r, List.mem_append_left _ hr, he ▸ hz'⟩
            · exact ⟨r, List.mem_append_right _ hr, he ▸ hz'⟩
          · exact m5 ia.ne ib.ne
        · intro z hz
          rcases m4 z hz with ⟨r, hr, he⟩ | ⟨r, hr, he⟩
          · rw [he]; exact ia.user r hr
          · rw [he]; exact ib.user r hr
        · rintro ⟨ha, hb⟩
          obtain ⟨l, hl, hl'⟩ := ia.var.mpr ha
          obtain ⟨r, hr, hr'⟩ := ib.var.mpr hb
          rcases m3 l hl r hr with h | h
          · exact hl' h
          · exact hr' h
      rw [if_neg h3] at h
      by_cases h4 : name = ['/']
      · subst h4
        rw [if_pos rfl] at h
        obtain ⟨x, hx, h⟩ := bind_ok.mp h
        obtain ⟨q, hq, h⟩ := bind_ok.mp h
        have ia := iha hx
        have hd := (evaluateNum_iff be b q).mp hq
        by_cases hq0 : q = 0
        · rw [if_pos hq0] at h; cases h
        · rw [if_neg hq0, pure_ok] at h; subst h
          refine ⟨?_, ?_, ?_, ?_, .div _ _ q ia.lin hd hq0⟩
          · intro g; rw [evalTerms_div]; exact .div _ _ _ _ (ia.means g) (hd.means g) hq0
          · simpa using ia.ne
          · rw [hasVar_bin (.inl ⟨rfl, by simp⟩), ← ia.var]
            have := hd.not_hasVar
            simp [this]
          · intro z hz
            obtain ⟨w, hw, rfl⟩ := List.mem_map.mp hz
            exact ia.user w hw
      rw [if_neg h4] at h
      exact sumVar_ok (by simp [IsVarTerm, ArithOp, h1, h2, h3, h4]) h
    | a :: b :: c :: as, ih, h => exact sumVar_ok (by simp [IsVarTerm, ArithOp]) h
  | h4 args ih =>
    intro ts h
    rw [parseSum] at h
    exact sumVar_ok trivial h
  | h5 args ih => intro ts h; rw [parseSum] at h; cases h
  | h6 args ih => intro ts h; rw [parseSum] at h; cases h

theorem sumVar_total {be : Backend} {t : TTerm} {s : Symbol} (hd : Denotes false t (.sym s)) :
    (do let v ← evaluateVar be t; return [⟨1, v⟩] : Except Err (List (Term Symbol))) = .ok [⟨1, s⟩] := by
  rw [(evaluateVar_iff be t s).mpr hd]; rfl

/-- C22: exactly the linear terms are accepted. -/
theorem parseSum_accepts_iff (be : Backend) (t : TTerm) : (∃ ts, parseSum be t = .ok ts) ↔ Linear t := by
  constructor
  · rintro ⟨ts, h⟩; exact (parseSum_ok be t h).lin
  · intro h
    induction h with
    | number n => exact ⟨_, by rw [parseSum]⟩
    | decimal name q hd =>
      refine ⟨[⟨q, cst⟩], ?_⟩
      rw [parseSum, if_pos ((isString_iff _).mpr hd.quoted), (asNum_iff _ _).mpr hd]
    | var t s hv hd =>
      refine ⟨[⟨1, s⟩], ?_⟩
      cases t with
      | number n => exact hv.elim
      | symbol name =>
        rw [parseSum]
        split
        · rename_i q hq
          split at hq
          · exact absurd ⟨q, (asNum_iff _ _).mp hq⟩ hv
          · cases hq
        · exact sumVar_total hd
      | func name args =>
        rw [parseSum, parseSums_eq]
        have hv' : ¬ ArithOp name args.length := hv
        match args, hv', hd with
        | [], hv', hd => exact sumVar_total hd
        | [a], hv', hd =>
          simp only [List.map_cons, List.map_nil, sumFn]
          rw [if_neg (by rintro rfl; exact hv' (.inr ⟨rfl, by simp⟩)), if_neg (by rintro rfl; exact hv' (.inr ⟨rfl, by simp⟩))]
          exact sumVar_total hd
        | [a, b], hv', hd =>
          simp only [List.map_cons, List.map_nil, sumFn]
          rw [if_neg (by rintro rfl; exact hv' (.inl ⟨rfl, by simp⟩)), if_neg (by rintro rfl; exact hv' (.inl ⟨rfl, by simp⟩)),
            if_neg (by rintro rfl; exact hv' (.inl ⟨rfl, by simp⟩)), if_neg (by rintro rfl; exact hv' (.inl ⟨rfl, by simp⟩))]
          exact sumVar_total hd
        | a :: b :: c :: as, hv', hd => exact sumVar_total hd
      | tuple args => rw [parseSum]; exact sumVar_total hd
      | list args => exact hv.elim
      | set args => exact hv.elim
    | add a b _ _ iha ihb =>
      obtain ⟨x, hx⟩ := iha
      obtain ⟨y, hy⟩ := ihb
      refine ⟨x ++ y, ?_⟩
      rw [parseSum, parseSums_eq]
      simp [sumFn, hx, hy, bind, Except.bind, pure, Except.pure]
    | sub a b _ _ iha ihb =>
      obtain ⟨x, hx⟩ := iha
      obtain ⟨y, hy⟩ := ihb
      refine ⟨x ++ negTerms y, ?_⟩
      rw [parseSum, parseSums_eq]
      simp [sumFn, hx, hy, bind, Except.bind, pure, Except.pure]
    | mul a b _ _ hnv iha ihb =>
      obtain ⟨x, hx⟩ := iha
      obtain ⟨y, hy⟩ := ihb
      have hxy : ∀ l ∈ x, ∀ r ∈ y, l.var = cst ∨ r.var = cst := by
        intro l hl r hr
        by_contra hc
        push Not at hc
        exact hnv ⟨(parseSum_ok be a hx).var.mp ⟨l, hl, hc.1⟩, (parseSum_ok be b hy).var.mp ⟨r, hr, hc.2⟩⟩
      obtain ⟨z, hz⟩ := mulTerms_total hxy
      refine ⟨z, ?_⟩
      rw [parseSum, parseSums_eq]
      simp [sumFn, hx, hy, bind, Except.bind, hz]
    | div a b q _ hq hq0 iha =>
      obtain ⟨x, hx⟩ := iha
      refine ⟨x.map fun t => ⟨t.co / q, t.var⟩, ?_⟩
      rw [parseSum, parseSums_eq]
      have := (evaluateNum_iff be b q).mpr hq
      simp [sumFn, hx, bind, Except.bind, pure, Except.pure, this, hq0]
    | neg a _ iha =>
      obtain ⟨x, hx⟩ := iha
      refine ⟨negTerms x, ?_⟩
      rw [parseSum, parseSums_eq]
      simp [sumFn, hx, bind, Except.bind, pure, Except.pure]
    | pos a _ iha =>
      obtain ⟨x, hx⟩ := iha
      refine ⟨x, ?_⟩
      rw [parseSum, parseSums_eq]
      simp [sumFn, hx]

/-- The arithmetic value of a term is unique. -/
theorem Means.unique {g : Symbol → ℚ} {t : TTerm} {x : ℚ} (hx : Means g t x) : ∀ {y}, Means g t y → x = y := by
  have arith : ∀ {name args}, ArithOp name (List.length args) → IsVarTerm (.func name args) → False := fun h1 h2 => h2 h1
  induction hx with
  | number n =>
    intro y hy
    cases hy with
    | number => rfl
    | var _ s h1 => exact h1.elim
  | decimal name q hd =>
    intro y hy
    cases hy with
    | decimal _ _ hd' => exact hd.unique hd'
    | var _ s h1 => exact (h1 ⟨q, hd⟩).elim
  | var t s hv hd =>
    intro y hy
    cases hy with
    | var _ s' _ hd' =>
      have := hd.unique hd'
      injection this with h; rw [h]
    | number => exact hv.elim
    | decimal _ q hd' => exact (hv ⟨_, hd'⟩).elim
    | add => exact (arith (.inl ⟨rfl, by simp⟩) hv).elim
    | sub => exact (arith (.inl ⟨rfl, by simp⟩) hv).elim
    | mul => exact (arith (.inl ⟨rfl, by simp⟩) hv).elim
    | div => exact (arith (.inl ⟨rfl, by simp⟩) hv).elim
    | neg => exact (arith (.inr ⟨rfl, by simp⟩) hv).elim
    | pos => exact (arith (.inr ⟨rfl, by simp⟩) hv).elim
  | add a b x y _ _ iha ihb =>
    intro z hz
    cases hz with
    | add _ _ x' y' h1 h2 => rw [iha h1, ihb h2]
    | var _ _ hv => exact (arith (.inl ⟨rfl, by simp⟩) hv).elim
  | sub a b x y _ _ iha ihb =>
    intro z hz
    cases hz with
    | sub _ _ x' y' h1 h2 => rw [iha h1, ihb h2]
    | var _ _ hv => exact (arith (.inl ⟨rfl, by simp⟩) hv).elim
  | mul a b x y _ _ iha ihb =>
    intro z hz
    cases hz with
    | mul _ _ x' y' h1 h2 => rw [iha h1, ihb h2]
    | var _ _ hv => exact (arith (.inl ⟨rfl, by simp⟩) hv).elim
  | div a b x y _ _ _ iha ihb =>
    intro z hz
    cases hz with
    | div _ _ x' y' h1 h2 => rw [iha h1, ihb h2]
    | var _ _ hv => exact (arith (.inl ⟨rfl, by simp⟩) hv).elim
  | neg a x _ iha =>
    intro z hz
    cases hz with
    | neg _ x' h1 => rw [iha h1]
    | var _ _ hv => exact (arith (.inr ⟨rfl, by simp⟩) hv).elim
  | pos a x _ iha =>
    intro z hz
    cases hz with
    | pos _ x' h1 => rw [iha h1]
    | var _ _ hv => exact (arith (.inr ⟨rfl, by simp⟩) hv).elim

/-- The value of a term depends only on the variables a user can name. -/
theorem Means.congr {g g' : Symbol → ℚ} (hg : ∀ s, UserSym s → g s = g' s) {t : TTerm} {x : ℚ} (hx : Means g t x) :
    Means g' t x := by
  induction hx with
  | number n => exact .number n
  | decimal name q hd => exact .decimal _ _ hd
  | var t s hv hd => rw [hg s hd.userSym]; exact .var _ _ hv hd
  | add a b x y _ _ iha ihb => exact .add _ _ _ _ iha ihb
  | sub a b x y _ _ iha ihb => exact .sub _ _ _ _ iha ihb
  | mul a b x y _ _ iha ihb => exact .mul _ _ _ _ iha ihb
  | div a b x y _ _ h iha ihb => exact .div _ _ _ _ iha ihb h
  | neg a x _ iha => exact .neg _ _ iha
  | pos a x _ iha => exact .pos _ _ iha

/-! ### division by zero -/

theorem Denotes.rat_true {ns : Bool} {t : TTerm} : ∀ {q : ℚ}, Denotes ns t (.rat q) → Denotes true t (.rat q) := by
  induction t using TTerm.ind with
  | h1 n => intro q h; cases h; exact .number _ _
  | h2 name => intro q h; cases h with | decimal _ _ hd => exact .decimal _ _ hd
  | h3 name args ih =>
    intro q h
    cases h with
    | add _ a b x y h1 h2 => exact .add _ _ _ _ _ (ih a (by simp) h1) (ih b (by simp) h2)
    | sub _ a b x y h1 h2 => exact .sub _ _ _ _ _ (ih a (by simp) h1) (ih b (by simp) h2)
    | mul _ a b x y h1 h2 => exact .mul _ _ _ _ _ (ih a (by simp) h1) (ih b (by simp) h2)
    | div _ a b x y h1 h2 h3 => exact .div _ _ _ _ _ (ih a (by simp) h1) (ih b (by simp) h2) h3
    | neg _ a x h1 => exact .neg _ _ _ (ih a (by simp) h1)
  | h4 args ih => intro q h; cases h
  | h5 args ih => intro q h; cases h
  | h6 args ih => intro q h; cases h

theorem DenotesArgs.mem {args : List TTerm} {ss : List Symbol} (h : DenotesArgs args ss) :
    ∀ a ∈ args, ∃ v, Denotes false a v := by
  induction args generalizing ss with
  | nil => simp
  | cons t ts ih =>
    intro a ha
    cases h with
    | num _ _ n ss h1 _ _ h2 =>
      rcases List.mem_cons.mp ha with rfl | ha
      · exact ⟨_, h1⟩
      · exact ih h2 a ha
    | sym _ _ s ss h1 h2 =>
      rcases List.mem_cons.mp ha with rfl | ha
      · exact ⟨_, h1⟩
      · exact ih h2 a ha

/-- A term with a denotation contains no division by zero. -/
theorem Denotes.not_divByZero {t : TTerm} : ∀ {ns : Bool} {v : Val}, Denotes ns t v → ¬ DivByZero t := by
  induction t using TTerm.ind with
  | h1 n => rintro ns v h ⟨a, b, hs, -⟩; cases hs
  | h2 name => rintro ns v h ⟨a, b, hs, -⟩; cases hs
  | h3 name args ih =>
    rintro ns v h ⟨a, b, hs, hb⟩
    have hargs : ∀ c ∈ args, ∃ ns v, Denotes ns c v := by
      intro c hc
      cases h with
      | func _ _ _ ss h1 h2 => obtain ⟨v, hv⟩ := h2.mem c hc; exact ⟨_, _, hv⟩
      | neg _ a x h1 => simp at hc; subst hc; exact ⟨_, _, h1⟩
      | cneg _ a n as p h0 h1 => simp at hc; subst hc; exact ⟨_, _, h1⟩
      | add _ a b x y h1 h2 => simp at hc; rcases hc with rfl | rfl; exacts [⟨_, _, h1⟩, ⟨_, _, h2⟩]
      | sub _ a b x y h1 h2 => simp at hc; rcases hc with rfl | rfl; exacts [⟨_, _, h1⟩, ⟨_, _, h2⟩]
      | mul _ a b x y h1 h2 => simp at hc; rcases hc with rfl | rfl; exacts [⟨_, _, h1⟩, ⟨_, _, h2⟩]
      | div _ a b x y h1 h2 => simp at hc; rcases hc with rfl | rfl; exacts [⟨_, _, h1⟩, ⟨_, _, h2⟩]
    cases hs with
    | refl =>
      cases h with
      | div _ _ _ x y h1 h2 h3 =>
        have := hb.unique h2.rat_true
        injection this with h; exact h3 h.symm
      | func _ _ _ ss h1 h2 => exact h1 (.inl ⟨rfl, by simp⟩)
    | func _ _ c hc hs =>
      obtain ⟨ns, v, hv⟩ := hargs c hc
      exact ih c hc hv ⟨a, b, hs, hb⟩
  | h4 args ih =>
    rintro ns v h ⟨a, b, hs, hb⟩
    cases h with
    | tuple _ _ ss h2 =>
      cases hs with
      | tuple _ c hc hs =>
        obtain ⟨v, hv⟩ := h2.mem c hc
        exact ih c hc hv ⟨a, b, hs, hb⟩
  | h5 args ih => intro ns v h; cases h
  | h6 args ih => intro ns v h; cases h

/-- A term with an arithmetic value contains no division by zero. -/
theorem Means.not_divByZero {g : Symbol → ℚ} {t : TTerm} {x : ℚ} (h : Means g t x) : ¬ DivByZero t := by
  have bin : ∀ {name a b}, name ≠ ['/'] → ¬ DivByZero a → ¬ DivByZero b → ¬ DivByZero (.func name [a, b]) := by
    rintro name a b hn ha hb ⟨c, d, hs, hd⟩
    cases hs with
    | refl => exact hn rfl
    | func _ _ e he hs =>
      simp at he
      rcases he with rfl | rfl
      · exact ha ⟨c, d, hs, hd⟩
      · exact hb ⟨c, d, hs, hd⟩
  have un : ∀ {name a}, ¬ DivByZero a → ¬ DivByZero (.func name [a]) := by
    rintro name a ha ⟨c, d, hs, hd⟩
    cases hs with
    | func _ _ e he hs =>
      simp at he; subst he
      exact ha ⟨c, d, hs, hd⟩
  induction h with
  | number n => rintro ⟨a, b, hs, -⟩; cases hs
  | decimal name q hd => rintro ⟨a, b, hs, -⟩; cases hs
  | var t s hv hd => exact hd.not_divByZero
  | add a b x y _ _ iha ihb => exact bin (by decide) iha ihb
  | sub a b x y _ _ iha ihb => exact bin (by decide) iha ihb
  | mul a b x y _ _ iha ihb => exact bin (by decide) iha ihb
  | div a b x y _ hb hy iha ihb =>
    rintro ⟨c, d, hs, hd⟩
    cases hs with
    | refl => exact hy (hb.unique (hd.means g))
    | func _ _ e he hs =>
      simp at he
      rcases he with rfl | rfl
      · exact iha ⟨c, d, hs, hd⟩
      · exact ihb ⟨c, d, hs, hd⟩
  | neg a x _ iha => exact un iha
  | pos a x _ iha => exact un iha

end Lpx
