import Verif.PrepareMain
import Mathlib.Algebra.Order.Field.Rat
import Mathlib.Tactic.Positivity

/-! # From bounds over values to constraints over the rationals

Values of the solver are rationals or numbers `c + k*e` for an infinitesimal `e`. `conc e` replaces the infinitesimal by a
rational. -/

set_option linter.unusedSectionVars false

namespace Lpx

/-- Relation between values and rationals. -/
class LpSem (V : Type) extends LpValue V where
  /-- strict constraints are supported -/
  strict : Bool
  /-- replace the infinitesimal by a rational -/
  conc : ℚ → V → ℚ
  conc_add : ∀ e v w, conc e (v + w) = conc e v + conc e w
  conc_smul : ∀ e q v, conc e (q • v) = q * conc e v
  conc_ofRat : ∀ e q, conc e (ofRat q) = q
  conc_lt : ∀ v w, v < w → ∃ δ : ℚ, 0 < δ ∧ ∀ e, 0 < e → e ≤ δ → conc e v < conc e w
  conc_eps : strict = true → ∀ e, 0 < e → 0 < conc e eps
  eps_pos : strict = true → 0 < eps
  eps_small : strict = true → ∀ q, 0 < q → eps < ofRat q

instance : LpSem Rat where
  strict := false
  conc _ v := v
  conc_add _ _ _ := rfl
  conc_smul _ _ _ := rfl
  conc_ofRat _ _ := rfl
  conc_lt v w h := ⟨1, one_pos, fun _ _ _ => h⟩
  conc_eps h := absurd h (by simp)
  eps_pos h := absurd h (by simp)
  eps_small h := absurd h (by simp)

instance : LpSem RatQ where
  strict := true
  conc e v := v.c + v.k * e
  conc_add e v w := by simp; ring
  conc_smul e q v := by simp; ring
  conc_ofRat e q := by simp [LpValue.ofRat]
  conc_lt v w h := by
    rw [RatQ.lt_def] at h
    rcases h with h | ⟨h, h'⟩
    · by_cases hk : v.k ≤ w.k
      · refine ⟨1, one_pos, fun e he _ => ?_⟩
        have : v.k * e ≤ w.k * e := mul_le_mul_of_nonneg_right hk he.le
        linarith
      · push Not at hk
        have hd : 0 < v.k - w.k := by linarith
        have hc : 0 < w.c - v.c := by linarith
        refine ⟨(w.c - v.c) / (v.k - w.k) / 2, by positivity, fun e he hle => ?_⟩
        have h1 : e * (v.k - w.k) ≤ (w.c - v.c) / 2 := by
          calc e * (v.k - w.k) ≤ ((w.c - v.c) / (v.k - w.k) / 2) * (v.k - w.k) := mul_le_mul_of_nonneg_right hle hd.le
            _ = (w.c - v.c) / 2 := by field_simp
        nlinarith
    · refine ⟨1, one_pos, fun e he _ => ?_⟩
      have : v.k * e < w.k * e := mul_lt_mul_of_pos_right h' he
      linarith
  conc_eps _ e he := by simp [LpValue.eps]; exact he
  eps_pos _ := by rw [RatQ.lt_def]; right; simp [LpValue.eps]
  eps_small _ q hq := by rw [RatQ.lt_def]; left; simpa [LpValue.eps, LpValue.ofRat] using hq

variable {V : Type} [LpSem V] {Sym : Type}

/-- The relation is supported: strict relations need the infinitesimal. -/
def Supports (V : Type) [LpSem V] (r : Relation) : Prop := (r = .lt ∨ r = .gt) → LpSem.strict V = true

/-- Strict mode supports everything. -/
theorem supports_ratq (r : Relation) : Supports RatQ r := fun _ => rfl
/-- Without strict mode the non-strict relations are supported. -/
theorem supports_rat (r : Relation) : Supports Rat r ↔ (r = .le ∨ r = .ge ∨ r = .eq) := by
  unfold Supports; cases r <;> simp [LpSem.strict]

theorem ofRat_lt_iff (a b : ℚ) : (LpValue.ofRat a : V) < LpValue.ofRat b ↔ a < b := by
  constructor
  · intro h
    rcases lt_trichotomy a b with h1 | h1 | h1
    · exact h1
    · rw [h1] at h; exact absurd h (lt_irrefl _)
    · exact absurd h (lt_asymm (LpValue.ofRat_lt _ _ h1))
  · exact LpValue.ofRat_lt a b
theorem ofRat_le_iff (a b : ℚ) : (LpValue.ofRat a : V) ≤ LpValue.ofRat b ↔ a ≤ b := by
  rw [← not_lt, ofRat_lt_iff, not_lt]
theorem ofRat_eq_iff (a b : ℚ) : (LpValue.ofRat a : V) = LpValue.ofRat b ↔ a = b := by
  rw [le_antisymm_iff, ofRat_le_iff, ofRat_le_iff, ← le_antisymm_iff]

/-- `conc e` as a property that holds for all sufficiently small positive `e`. -/
def Small (P : ℚ → Prop) : Prop := ∃ δ : ℚ, 0 < δ ∧ ∀ e, 0 < e → e ≤ δ → P e

theorem Small.of_all {P : ℚ → Prop} (h : ∀ e, 0 < e → P e) : Small P := ⟨1, one_pos, fun e he _ => h e he⟩
theorem Small.and {P Q : ℚ → Prop} (h : Small P) (k : Small Q) : Small fun e => P e ∧ Q e := by
  obtain ⟨d1, h1, h2⟩ := h
  obtain ⟨d2, k1, k2⟩ := k
  exact ⟨min d1 d2, lt_min h1 k1, fun e he hle => ⟨h2 e he (hle.trans (min_le_left _ _)), k2 e he (hle.trans (min_le_right _ _))⟩⟩
theorem Small.mono {P Q : ℚ → Prop} (h : Small P) (k : ∀ e, 0 < e → P e → Q e) : Small Q := by
  obtain ⟨d1, h1, h2⟩ := h
  exact ⟨d1, h1, fun e he hle => k e he (h2 e he hle)⟩
theorem Small.list {α : Type} {P : α → ℚ → Prop} (l : List α) (h : ∀ a ∈ l, Small (P a)) : Small fun e => ∀ a ∈ l, P a e := by
  induction l with
  | nil => exact Small.of_all fun _ _ => by simp
  | cons a l ih =>
    refine ((h a (by simp)).and (ih fun b hb => h b (by simp [hb]))).mono ?_
    intro e _ ⟨h1, h2⟩ b hb
    rcases List.mem_cons.1 hb with rfl | hb
    · exact h1
    · exact h2 b hb
theorem Small.exists {P : ℚ → Prop} (h : Small P) : ∃ e, 0 < e ∧ P e := by
  obtain ⟨d, h1, h2⟩ := h; exact ⟨d, h1, h2 d h1 le_rfl⟩

theorem conc_zero (e : ℚ) : LpSem.conc e (0 : V) = 0 := by
  have := LpSem.conc_smul e 0 (0 : V); simpa using this
theorem conc_sub (e : ℚ) (v w : V) : LpSem.conc e (v - w) = LpSem.conc e v - LpSem.conc e w := by
  have h1 := LpSem.conc_add e v ((-1 : ℚ) • w)
  rw [LpSem.conc_smul] at h1
  rw [sub_eq_add_neg, ← neg_one_smul ℚ w, h1]; ring
theorem conc_le {v w : V} (h : v ≤ w) : Small fun e => LpSem.conc e v ≤ LpSem.conc e w := by
  rcases h.lt_or_eq with h | h
  · exact Small.mono (show Small _ from LpSem.conc_lt v w h) fun e _ h => h.le
  · rw [h]; exact Small.of_all fun _ _ => le_rfl

/-- The bound over values for `a rel b`. -/
def BRel.holds (r : BRel) (v w : V) : Prop :=
  match r with
  | .le => v ≤ w
  | .ge => w ≤ v
  | .eq => v = w

theorem Bound.holds_iff (bd : Bound V) (asg : ℕ → V) : bd.Holds asg ↔ bd.rel.holds (asg bd.var) bd.value := by
  unfold Bound.Holds BRel.holds; cases bd.rel <;> rfl

/-- On rationals the bound is equivalent to the relation, including strict ones. -/
theorem bound_ofRat {r : Relation} (hs : Supports V r) (a b : ℚ) :
    (boundRel r).holds (LpValue.ofRat a : V) (boundVal b r) ↔ r.holds a b := by
  cases r with
  | le => exact ofRat_le_iff a b
  | ge => exact ofRat_le_iff b a
  | eq => exact ofRat_eq_iff a b
  | lt =>
    have hst := hs (Or.inl rfl)
    show (LpValue.ofRat a : V) ≤ LpValue.ofRat b - LpValue.eps ↔ a < b
    constructor
    · intro h
      rw [← ofRat_lt_iff (V := V)]
      exact lt_of_le_of_lt h (sub_lt_self _ (LpSem.eps_pos hst))
    · intro h
      have h1 := LpSem.eps_small (V := V) hst (b - a) (by linarith)
      have h2 : (LpValue.ofRat b : V) = LpValue.ofRat a + LpValue.ofRat (b - a) := by
        rw [← LpValue.ofRat_add]; congr 1; ring
      rw [h2, le_sub_iff_add_le]
      exact add_le_add_right h1.le _
  | gt =>
    have hst := hs (Or.inr rfl)
    show (LpValue.ofRat b : V) + LpValue.eps ≤ LpValue.ofRat a ↔ b < a
    constructor
    · intro h
      rw [← ofRat_lt_iff (V := V)]
      exact lt_of_lt_of_le (lt_add_of_pos_right _ (LpSem.eps_pos hst)) h
    · intro h
      have h1 := LpSem.eps_small (V := V) hst (a - b) (by linarith)
      have h2 : (LpValue.ofRat a : V) = LpValue.ofRat b + LpValue.ofRat (a - b) := by
        rw [← LpValue.ofRat_add]; congr 1; ring
      rw [h2]
      exact add_le_add_right h1.le _

/-- A value satisfying the bound satisfies the relation for all small enough `e`. -/
theorem bound_conc {r : Relation} (hs : Supports V r) {v : V} {b : ℚ} (h : (boundRel r).holds v (boundVal b r)) :
    Small fun e => r.holds (LpSem.conc e v) b := by
  cases r with
  | le =>
    refine (conc_le (show v ≤ LpValue.ofRat b from h)).mono fun e _ h => ?_
    rw [LpSem.conc_ofRat] at h; exact h
  | ge =>
    refine (conc_le (show LpValue.ofRat b ≤ v from h)).mono fun e _ h => ?_
    rw [LpSem.conc_ofRat] at h; exact h
  | eq =>
    have h' : v = LpValue.ofRat b := h
    refine Small.of_all fun e _ => ?_
    show LpSem.conc e v = b
    rw [h', LpSem.conc_ofRat]
  | lt =>
    have hst := hs (Or.inl rfl)
    refine (conc_le (show v ≤ LpValue.ofRat b - LpValue.eps from h)).mono fun e he h => ?_
    rw [conc_sub, LpSem.conc_ofRat] at h
    have := LpSem.conc_eps (V := V) hst e he
    show LpSem.conc e v < b
    linarith
  | gt =>
    have hst := hs (Or.inr rfl)
    refine (conc_le (show LpValue.ofRat b + LpValue.eps ≤ v from h)).mono fun e he h => ?_
    rw [LpSem.conc_add, LpSem.conc_ofRat] at h
    have := LpSem.conc_eps (V := V) hst e he
    show b < LpSem.conc e v
    linarith

/-- Dividing by the coefficient: the relation flips iff it is negative. -/
theorem Relation.div_holds (r : Relation) {a : ℚ} (ha : a ≠ 0) (x b : ℚ) :
    (if a < 0 then r.invert else r).holds x (b / a) ↔ r.holds (a * x) b := by
  rcases lt_or_gt_of_ne ha with h | h
  · rw [if_pos h]
    cases r <;> simp only [Relation.invert, Relation.holds]
    · rw [div_le_iff_of_neg h, mul_comm]
    · rw [le_div_iff_of_neg h, mul_comm]
    · rw [eq_div_iff ha, mul_comm]
    · rw [div_lt_iff_of_neg h, mul_comm]
    · rw [lt_div_iff_of_neg h, mul_comm]
  · rw [if_neg (not_lt.2 h.le)]
    cases r <;> simp only [Relation.holds]
    · rw [le_div_iff₀ h, mul_comm]
    · rw [div_le_iff₀ h, mul_comm]
    · rw [eq_div_iff ha, mul_comm]
    · rw [lt_div_iff₀ h, mul_comm]
    · rw [div_lt_iff₀ h, mul_comm]

theorem Supports.div {r : Relation} (h : Supports V r) (a : ℚ) : Supports V (if a < 0 then r.invert else r) := by
  unfold Supports at *
  split
  · cases r <;> simp_all [Relation.invert]
  · exact h

theorem evalV_ofRat (g : Sym → ℚ) (ts : List (Term Sym)) :
    evalV (fun y => (LpValue.ofRat (g y) : V)) ts = LpValue.ofRat (evalTerms g ts) := by
  unfold evalV evalTerms
  induction ts with
  | nil =>
    simp only [List.map_nil, List.sum_nil]
    have := LpValue.ofRat_smul (V := V) 0 0
    rw [zero_mul, zero_smul] at this; exact this.symm
  | cons t ts ih => simp only [List.map_cons, List.sum_cons, ih, LpValue.ofRat_add, LpValue.ofRat_smul]

theorem evalV_conc (e : ℚ) (g : Sym → V) (ts : List (Term Sym)) :
    LpSem.conc e (evalV g ts) = evalTerms (fun y => LpSem.conc e (g y)) ts := by
  unfold evalV evalTerms
  induction ts with
  | nil => simp [conc_zero]
  | cons t ts ih => simp only [List.map_cons, List.sum_cons, LpSem.conc_add, LpSem.conc_smul, ih]

theorem evalV_congr {g g' : Sym → V} {ts : List (Term Sym)} (h : ∀ t ∈ ts, g t.var = g' t.var) : evalV g ts = evalV g' ts := by
  unfold evalV
  congr 1
  exact List.map_congr_left fun t ht => by rw [h t ht]

/-- A rational point satisfies a constraint iff the corresponding point satisfies its bound. -/
theorem Represents.rat {idx : Sym → Option ℕ} {size : ℕ} {E : (ℕ → V) → Prop} {x : Ineq Sym} {bd : Bound V}
    (h : Represents idx size E x bd) (hs : Supports V x.rel) {asg : ℕ → V} (hE : E asg) {g : Sym → ℚ}
    (hg : ∀ t ∈ x.lhs, asg (ix idx t.var) = LpValue.ofRat (g t.var)) : bd.Holds asg ↔ x.holds g := by
  rw [Bound.holds_iff]
  cases h with
  | single a y hl ha hlit hvar hval hrel =>
    obtain ⟨j, hj, hv⟩ := hvar
    have hy := hg ⟨a, y⟩ (by rw [hl]; simp)
    simp only [ix, hj, Option.getD_some] at hy
    rw [hrel, hval, hv, hy, bound_ofRat (hs.div a), Relation.div_holds _ ha]
    unfold Ineq.holds evalTerms; rw [hl]; simp
  | row hlen hnew hlit hval hrel hvar =>
    rw [hrel, hval, hvar asg hE, evalV_congr (g' := fun y => LpValue.ofRat (g y)) hg, evalV_ofRat, bound_ofRat hs]
    rfl

/-- A point satisfying the bound satisfies the constraint, for all small enough `e`. -/
theorem Represents.small {idx : Sym → Option ℕ} {size : ℕ} {E : (ℕ → V) → Prop} {x : Ineq Sym} {bd : Bound V}
    (h : Represents idx size E x bd) (hs : Supports V x.rel) {asg : ℕ → V} (hE : E asg) (hb : bd.Holds asg) :
    Small fun e => x.holds fun y => LpSem.conc e (asg (ix idx y)) := by
  rw [Bound.holds_iff] at hb
  cases h with
  | single a y hl ha hlit hvar hval hrel =>
    obtain ⟨j, hj, hv⟩ := hvar
    rw [hrel, hval, hv] at hb
    refine (bound_conc (hs.div a) hb).mono fun e _ h => ?_
    rw [Relation.div_holds _ ha] at h
    unfold Ineq.holds evalTerms; rw [hl]; simpa [ix, hj] using h
  | row hlen hnew hlit hval hrel hvar =>
    rw [hrel, hval, hvar asg hE] at hb
    refine (bound_conc hs hb).mono fun e _ h => ?_
    rw [evalV_conc] at h
    exact h

/-- A value violating the bound of a relation that is not strict violates the relation for all small enough `e`. -/
theorem bound_conc_not {r : Relation} (hr : r ≠ .lt ∧ r ≠ .gt) {v : V} {b : ℚ} (h : ¬ (boundRel r).holds v (boundVal b r)) :
    Small fun e => ¬ r.holds (LpSem.conc e v) b := by
  have key : ∀ {a c : V}, a < c → Small fun e => LpSem.conc e a < LpSem.conc e c := fun h => LpSem.conc_lt _ _ h
  cases r with
  | le =>
    refine (key (not_le.1 (show ¬ v ≤ LpValue.ofRat b from h))).mono fun e _ h => ?_
    rw [LpSem.conc_ofRat] at h; exact not_le.2 h
  | ge =>
    refine (key (not_le.1 (show ¬ LpValue.ofRat b ≤ v from h))).mono fun e _ h => ?_
    rw [LpSem.conc_ofRat] at h; exact not_le.2 h
  | eq =>
    rcases lt_or_gt_of_ne (show ¬ v = LpValue.ofRat b from h) with h | h
    · refine (key h).mono fun e _ h => ?_
      rw [LpSem.conc_ofRat] at h; exact h.ne
    · refine (key h).mono fun e _ h => ?_
      rw [LpSem.conc_ofRat] at h; exact h.ne'
  | lt => exact absurd rfl hr.1
  | gt => exact absurd rfl hr.2

/-- A point violating the bound of a constraint that is not strict violates the constraint, for all small enough `e`. -/
theorem Represents.small_not {idx : Sym → Option ℕ} {size : ℕ} {E : (ℕ → V) → Prop} {x : Ineq Sym} {bd : Bound V}
    (h : Represents idx size E x bd) (hs : x.rel ≠ .lt ∧ x.rel ≠ .gt) {asg : ℕ → V} (hE : E asg) (hb : ¬ bd.Holds asg) :
    Small fun e => ¬ x.holds fun y => LpSem.conc e (asg (ix idx y)) := by
  rw [Bound.holds_iff] at hb
  cases h with
  | single a y hl ha hlit hvar hval hrel =>
    obtain ⟨j, hj, hv⟩ := hvar
    rw [hrel, hval, hv] at hb
    refine (bound_conc_not ?_ hb).mono fun e _ h => ?_
    · split
      · cases hr : x.rel <;> simp_all [Relation.invert]
      · exact hs
    rw [Relation.div_holds _ ha] at h
    unfold Ineq.holds evalTerms; rw [hl]; simpa [ix, hj] using h
  | row hlen hnew hlit hval hrel hvar =>
    rw [hrel, hval, hvar asg hE] at hb
    refine (bound_conc_not hs hb).mono fun e _ h => ?_
    rw [evalV_conc] at h
    exact h

end Lpx
