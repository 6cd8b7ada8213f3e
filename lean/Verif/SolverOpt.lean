import Verif.SolverMain
import Verif.BlandOpt

/-! # `optimize` -/

set_option linter.unusedSectionVars false

namespace Lpx
open Finset

namespace S
variable {V : Type} [LpValue V]

/-- Sign of a tableau entry. -/
def epos (e : ℕ × ℤ × ℤ) : Bool := decide (e.2.1 > 0) == decide (e.2.2 > 0)

/-- The entry cannot be used to improve the objective. -/
def entB (s : S V) (e : ℕ × ℤ × ℤ) : Bool := if epos e then s.atUp (s.index e.1) else s.atLo (s.index e.1)

theorem enter_fold (s : S V) (L : List (ℕ × ℤ × ℤ)) (hL : ∀ e ∈ L, s.index e.1 < s.nvars) :
    ((L.foldl (enterEntry s) (s.nvars, false)).1 = s.nvars ∧ ∀ e ∈ L, s.entB e = true) ∨
    (∃ e ∈ L, s.index e.1 = (L.foldl (enterEntry s) (s.nvars, false)).1 ∧
      (L.foldl (enterEntry s) (s.nvars, false)).2 = epos e ∧ s.entB e = false ∧
      ∀ e' ∈ L, s.index e'.1 < s.index e.1 → s.entB e' = true) := by
  induction L using List.reverseRecOn with
  | nil => left; simp
  | append_singleton L x ih =>
    rw [List.foldl_append]
    simp only [List.foldl_cons, List.foldl_nil]
    have hx := hL x (by simp)
    have ih := ih (fun e he => hL e (by simp [he]))
    generalize L.foldl (enterEntry s) (s.nvars, false) = acc at *
    have hstep : enterEntry s acc x = if s.index x.1 < acc.1 ∧ s.entB x = false then (s.index x.1, epos x) else acc := by
      unfold enterEntry entB epos
      simp only
      cases hp : (decide (x.2.1 > 0) == decide (x.2.2 > 0)) <;> simp only [Bool.false_eq_true, if_false, if_true] <;>
        by_cases h1 : s.index x.1 < acc.1 <;> simp [h1]
    rw [hstep]
    by_cases hc : s.index x.1 < acc.1 ∧ s.entB x = false
    · rw [if_pos hc]
      right
      refine ⟨x, by simp, rfl, rfl, hc.2, ?_⟩
      intro e' he' hlt
      rcases List.mem_append.1 he' with h | h
      · rcases ih with ⟨-, h2⟩ | ⟨e, h1, h2, h3, h4, h5⟩
        · exact h2 e' h
        · exact h5 e' h (by omega)
      · simp at h; subst h; omega
    · rw [if_neg hc]
      rcases ih with ⟨h1, h2⟩ | ⟨e, h1, h2, h3, h4, h5⟩
      · left
        refine ⟨h1, fun e' he' => ?_⟩
        rcases List.mem_append.1 he' with h | h
        · exact h2 e' h
        · simp at h; subst h
          cases hb : s.entB e'
          · exact absurd ⟨by rw [h1]; exact hx, hb⟩ hc
          · rfl
      · right
        refine ⟨e, by simp [h1], h2, h3, h4, ?_⟩
        intro e' he' hlt
        rcases List.mem_append.1 he' with h | h
        · exact h5 e' h hlt
        · simp at h; subst h
          cases hb : s.entB e'
          · exact absurd ⟨by rw [← h2]; exact hlt, hb⟩ hc
          · rfl

/-- The candidate given by one entry of the column. -/
def leaveCand (s : S V) (ee : ℕ) (pos : Bool) (e : ℕ × ℤ × ℤ) : Option (Leave V) :=
  match (if epos e == pos then s.up (s.index (e.1 + s.n)) else s.lo (s.index (e.1 + s.n))) with
  | none => none
  | some vi =>
    let v := s.value ee + divMul (vi - s.value (s.index (e.1 + s.n))) e.2.1 e.2.2
    if (if pos then (match s.up ee with | none => false | some u => decide (u ≤ v))
        else (match s.lo ee with | none => false | some l => decide (v ≤ l))) then none
    else some ⟨s.index (e.1 + s.n), vi, v⟩

/-- `a` is at most `b` in direction `pos`. -/
def sle (pos : Bool) (a b : V) : Prop := if pos then a ≤ b else b ≤ a

theorem sle_refl (pos : Bool) (a : V) : sle pos a a := by unfold sle; split <;> exact le_refl _
theorem sle_trans {pos : Bool} {a b c : V} (h : sle pos a b) (k : sle pos b c) : sle pos a c := by
  unfold sle at *; cases pos
  · simp only [Bool.false_eq_true, if_false] at *; exact k.trans h
  · simp only [if_true] at *; exact h.trans k
theorem sle_antisymm {pos : Bool} {a b : V} (h : sle pos a b) (k : sle pos b a) : a = b := by
  unfold sle at *; cases pos
  · simp only [Bool.false_eq_true, if_false] at *; exact le_antisymm k h
  · simp only [if_true] at *; exact le_antisymm h k

/-- The sign belonging to a direction. -/
def sg (pos : Bool) : ℚ := if pos then 1 else -1

theorem sle_iff {pos : Bool} {a b : V} : sle pos a b ↔ 0 ≤ sg pos • (b - a) := by
  unfold sle sg; cases pos
  · simp
  · simp

theorem leave_fold (s : S V) (ee : ℕ) (pos : Bool) (L : List (ℕ × ℤ × ℤ)) :
    (L.foldl (leaveEntry s ee pos) none = none ∧ ∀ e ∈ L, s.leaveCand ee pos e = none) ∨
    (∃ e ∈ L, ∃ c, L.foldl (leaveEntry s ee pos) none = some c ∧ s.leaveCand ee pos e = some c ∧
      ∀ e' ∈ L, ∀ c', s.leaveCand ee pos e' = some c' → sle pos c.ve c'.ve ∧ (c'.ve = c.ve → c.ll ≤ c'.ll)) := by
  induction L using List.reverseRecOn with
  | nil => left; simp
  | append_singleton L x ih =>
    rw [List.foldl_append]
    simp only [List.foldl_cons, List.foldl_nil]
    generalize L.foldl (leaveEntry s ee pos) none = acc at *
    have hstep : leaveEntry s ee pos acc x = match s.leaveCand ee pos x with
        | none => acc
        | some c' => match acc with
          | none => some c'
          | some c => if (if pos then decide (c'.ve < c.ve) else decide (c.ve < c'.ve)) || (decide (c'.ll < c.ll) && decide (c'.ve = c.ve)) then some c' else acc := by
      unfold leaveEntry leaveCand epos
      simp only
      cases (if ((decide (x.2.1 > 0) == decide (x.2.2 > 0)) == pos) = true then s.up (s.index (x.1 + s.n)) else s.lo (s.index (x.1 + s.n))) with
      | none => rfl
      | some vi =>
        simp only
        cases hk : (if pos = true then (match s.up ee with | none => false | some u => decide (u ≤ s.value ee + divMul (vi - s.value (s.index (x.1 + s.n))) x.2.1 x.2.2)) else (match s.lo ee with | none => false | some l => decide (s.value ee + divMul (vi - s.value (s.index (x.1 + s.n))) x.2.1 x.2.2 ≤ l)))
        · simp only [Bool.false_eq_true, if_false]
          cases acc <;> rfl
        · simp only [if_true]
    rw [hstep]
    cases hcx : s.leaveCand ee pos x with
    | none =>
      simp only
      rcases ih with ⟨h1, h2⟩ | ⟨e, h1, c, h2, h3, h4⟩
      · left
        refine ⟨h1, fun e he => ?_⟩
        rcases List.mem_append.1 he with h | h
        · exact h2 e h
        · simp at h; subst h; exact hcx
      · right
        refine ⟨e, by simp [h1], c, h2, h3, ?_⟩
        intro e' he' c' hc'
        rcases List.mem_append.1 he' with h | h
        · exact h4 e' h c' hc'
        · simp at h; subst h; rw [hcx] at hc'; exact absurd hc' (by simp)
    | some cx =>
      simp only
      rcases ih with ⟨h1, h2⟩ | ⟨e, h1, c, h2, h3, h4⟩
      · right
        subst h1
        refine ⟨x, by simp, cx, rfl, hcx, ?_⟩
        intro e' he' c' hc'
        rcases List.mem_append.1 he' with h | h
        · rw [h2 e' h] at hc'; exact absurd hc' (by simp)
        · simp at h; subst h; rw [hcx] at hc'
          simp only [Option.some.injEq] at hc'; subst hc'
          exact ⟨sle_refl _ _, fun _ => le_refl _⟩
      · right
        subst h2
        simp only
        by_cases hb : ((if pos then decide (cx.ve < c.ve) else decide (c.ve < cx.ve)) || (decide (cx.ll < c.ll) && decide (cx.ve = c.ve))) = true
        · rw [if_pos hb]
          have hle : sle pos cx.ve c.ve ∧ (cx.ve = c.ve → cx.ll < c.ll) := by
            unfold sle
            cases pos <;> simp only [Bool.false_eq_true, if_false, if_true, Bool.or_eq_true, Bool.and_eq_true, decide_eq_true_eq] at hb ⊢
            · rcases hb with hb | ⟨h5, h6⟩
              · exact ⟨hb.le, fun h => absurd h.symm (ne_of_lt hb)⟩
              · exact ⟨h6.symm.le, fun _ => h5⟩
            · rcases hb with hb | ⟨h5, h6⟩
              · exact ⟨hb.le, fun h => absurd h (ne_of_lt hb)⟩
              · exact ⟨h6.le, fun _ => h5⟩
          refine ⟨x, by simp, cx, rfl, hcx, ?_⟩
          intro e' he' c' hc'
          rcases List.mem_append.1 he' with h | h
          · obtain ⟨g1, g2⟩ := h4 e' h c' hc'
            refine ⟨?_, fun heq => ?_⟩
            · exact sle_trans hle.1 g1
            · have he : cx.ve = c.ve := by
                rw [heq] at g1
                exact sle_antisymm hle.1 g1
              have := g2 (heq.trans he)
              have := hle.2 he
              omega
          · simp at h; subst h; rw [hcx] at hc'
            simp only [Option.some.injEq] at hc'; subst hc'
            exact ⟨sle_refl _ _, fun _ => le_refl _⟩
        · rw [if_neg hb]
          have hle : sle pos c.ve cx.ve ∧ (cx.ve = c.ve → c.ll ≤ cx.ll) := by
            unfold sle
            cases pos <;> simp only [Bool.false_eq_true, if_false, if_true, Bool.or_eq_true, Bool.and_eq_true, decide_eq_true_eq, not_or, not_and] at hb ⊢
            · exact ⟨not_lt.1 hb.1, fun h => by by_contra hh; exact hb.2 (by omega) h⟩
            · exact ⟨not_lt.1 hb.1, fun h => by by_contra hh; exact hb.2 (by omega) h⟩
          refine ⟨e, by simp [h1], c, rfl, h3, ?_⟩
          intro e' he' c' hc'
          rcases List.mem_append.1 he' with h | h
          · exact h4 e' h c' hc'
          · simp at h; subst h; rw [hcx] at hc'
            simp only [Option.some.injEq] at hc'; subst hc'
            exact hle

/-! ### moving along a column -/

/-- A basic variable stays within its bounds if the entering variable does not move too far. -/
theorem move_win {lo up : Option V} {y : V} {a : ℚ} {θ : V} {pos : Bool} (hw : Within lo up y) (hdir : 0 ≤ sg pos • θ)
    (h : a ≠ 0 → ∀ b, (if 0 < sg pos * a then up else lo) = some b → 0 ≤ sg pos • ((1 / a) • (b - y) - θ)) :
    Within lo up (y + a • θ) := by
  have hs : sg pos * sg pos = 1 := by unfold sg; split <;> norm_num
  have haθ : a • θ = (sg pos * a) • (sg pos • θ) := by
    rw [smul_smul, mul_right_comm, hs, one_mul]
  have key : ∀ b, a ≠ 0 → (sg pos * a) • (sg pos • ((1 / a) • (b - y) - θ)) = b - (y + a • θ) := by
    intro b ha
    rw [smul_smul, mul_right_comm, hs, one_mul, smul_sub, smul_smul, mul_one_div_cancel ha, one_smul]; abel
  rcases lt_trichotomy (sg pos * a) 0 with h0 | h0 | h0
  · have ha : a ≠ 0 := by rintro rfl; simp at h0
    have hle : a • θ ≤ 0 := by rw [haθ]; exact smul_nonpos_of_nonpos_of_nonneg h0.le hdir
    refine ⟨fun b hb => ?_, fun b hb => ?_⟩
    · have := h ha b (by rw [if_neg (not_lt.2 h0.le)]; exact hb)
      have h1 := smul_nonpos_of_nonpos_of_nonneg h0.le this
      rw [key b ha] at h1
      exact sub_nonpos.1 h1
    · exact (add_le_of_nonpos_right hle).trans (hw.2 b hb)
  · have ha : a = 0 := by
      rcases mul_eq_zero.1 h0 with h1 | h1
      · unfold sg at h1; split at h1 <;> norm_num at h1
      · exact h1
    rw [ha, zero_smul, add_zero]; exact hw
  · have ha : a ≠ 0 := by rintro rfl; simp at h0
    have hle : 0 ≤ a • θ := by rw [haθ]; exact smul_nonneg h0.le hdir
    refine ⟨fun b hb => ?_, fun b hb => ?_⟩
    · exact (hw.1 b hb).trans (le_add_of_nonneg_right hle)
    · have := h ha b (by rw [if_pos h0]; exact hb)
      have h1 := smul_nonneg h0.le this
      rw [key b ha] at h1
      exact sub_nonneg.1 h1

/-- All variables stay within their bounds. -/
theorem shift_win {s : S V} (hs : Struct s) (hw : ∀ v, v < s.nvars → s.Win v) {val' : ℕ → V} {j : ℕ} (hj : j < s.n) {θ : V}
    {pos : Bool} (hsh : Shift s val' j θ) (hdir : 0 ≤ sg pos • θ)
    (hee : ∀ b, (if pos then s.up (s.index j) else s.lo (s.index j)) = some b → 0 ≤ sg pos • (b - s.value (s.index j) - θ))
    (hrow : ∀ k, k < s.m → s.tab.coef k j ≠ 0 → ∀ b,
      (if 0 < sg pos * s.tab.coef k j then s.up (s.index (k + s.n)) else s.lo (s.index (k + s.n))) = some b →
      0 ≤ sg pos • ((1 / s.tab.coef k j) • (b - s.value (s.index (k + s.n))) - θ)) :
    ∀ v, v < s.nvars → Within (s.lo v) (s.up v) (val' v) := by
  intro v hv
  rcases cases_var hs hv with ⟨l, hl, rfl⟩ | ⟨k, hk, rfl⟩
  · rw [hsh.nb l hl]
    by_cases hlj : l = j
    · subst hlj
      rw [if_pos rfl]
      have := move_win (a := 1) (θ := θ) (pos := pos) (hw (s.index l) hv) hdir (fun _ b hb => by
        rw [one_div_one, one_smul]
        apply hee b
        rw [← hb]
        unfold sg; cases pos <;> norm_num)
      rwa [one_smul] at this
    · rw [if_neg hlj, add_zero]; exact hw _ hv
  · rw [hsh.b k hk]
    exact move_win (hw _ hv) hdir (fun ha b hb => hrow k hk ha b hb)

theorem epos_sign {s : S V} (hs : Struct s) {i j : ℕ} {e : ℕ × ℤ × ℤ} (he : e ∈ s.tab.colEntries j) (hi : e.1 = i) (pos : Bool) :
    (epos e == pos) = true ↔ 0 < sg pos * s.tab.coef i j := by
  subst hi
  obtain ⟨h1, h2, h3, h4⟩ := Tableau.colEntries_coef hs.wf (i := e.1) (a := e.2.1) (d := e.2.2) he
  have hp : epos e = true ↔ 0 < s.tab.coef e.1 j := by rw [← h1]; exact pos_iff h2 h3
  unfold sg
  cases pos
  · simp only [Bool.false_eq_true, if_false, neg_mul, one_mul, Left.neg_pos_iff, beq_false, Bool.not_eq_true']
    constructor
    · intro h
      rcases lt_or_gt_of_ne h4 with h5 | h5
      · exact h5
      · rw [hp.2 h5] at h; simp at h
    · intro h
      cases hh : epos e
      · rfl
      · exact absurd (hp.1 hh) (not_lt.2 h.le)
  · simp only [if_true, one_mul, beq_true]; exact hp

/-- Candidates and the distance at which a bound is reached. -/
theorem leaveCand_spec {s : S V} (hs : Struct s) {ee j : ℕ} (hj : s.index j = ee) {pos : Bool} {e : ℕ × ℤ × ℤ}
    (he : e ∈ s.tab.colEntries j) {b : V}
    (hb : (if 0 < sg pos * s.tab.coef e.1 j then s.up (s.index (e.1 + s.n)) else s.lo (s.index (e.1 + s.n))) = some b) :
    (s.leaveCand ee pos e = some ⟨s.index (e.1 + s.n), b, s.value ee + (1 / s.tab.coef e.1 j) • (b - s.value (s.index (e.1 + s.n)))⟩ ∧
      ∀ u, (if pos then s.up ee else s.lo ee) = some u →
        0 < sg pos • (u - (s.value ee + (1 / s.tab.coef e.1 j) • (b - s.value (s.index (e.1 + s.n)))))) ∨
    (s.leaveCand ee pos e = none ∧ ∃ u, (if pos then s.up ee else s.lo ee) = some u ∧
      0 ≤ sg pos • ((s.value ee + (1 / s.tab.coef e.1 j) • (b - s.value (s.index (e.1 + s.n)))) - u)) := by
  obtain ⟨h1, h2, h3, h4⟩ := Tableau.colEntries_coef hs.wf (i := e.1) (a := e.2.1) (d := e.2.2) he
  have hd : divMul (b - s.value (s.index (e.1 + s.n))) e.2.1 e.2.2 = (1 / s.tab.coef e.1 j) • (b - s.value (s.index (e.1 + s.n))) := by
    unfold divMul; rw [← h1, one_div_div]
  have hsel : (if (epos e == pos) = true then s.up (s.index (e.1 + s.n)) else s.lo (s.index (e.1 + s.n))) = some b := by
    rw [← hb]
    have := epos_sign hs he rfl pos
    by_cases hh : (epos e == pos) = true
    · rw [if_pos hh, if_pos (this.1 hh)]
    · rw [if_neg hh, if_neg (fun h => hh (this.2 h))]
  unfold leaveCand
  rw [hsel]
  simp only [hd]
  generalize s.value ee + (1 / s.tab.coef e.1 j) • (b - s.value (s.index (e.1 + s.n))) = v
  unfold sg
  cases pos
  · simp only [Bool.false_eq_true, if_false]
    cases hlo : s.lo ee with
    | none => left; simp
    | some l =>
      simp only [decide_eq_true_eq, Option.some.injEq]
      by_cases hvl : v ≤ l
      · right; rw [if_pos hvl]; exact ⟨rfl, l, rfl, by simpa using hvl⟩
      · left; rw [if_neg hvl]; refine ⟨rfl, ?_⟩; rintro u rfl; simpa using hvl
  · simp only [if_true]
    cases hup : s.up ee with
    | none => left; simp
    | some u =>
      simp only [decide_eq_true_eq, Option.some.injEq]
      by_cases hvl : u ≤ v
      · right; rw [if_pos hvl]; exact ⟨rfl, u, rfl, by simpa using hvl⟩
      · left; rw [if_neg hvl]; refine ⟨rfl, ?_⟩; rintro u rfl; simpa using hvl

theorem leaveCand_some {s : S V} (hs : Struct s) {ee j : ℕ} {pos : Bool} {e : ℕ × ℤ × ℤ}
    (he : e ∈ s.tab.colEntries j) {c : Leave V} (hc : s.leaveCand ee pos e = some c) :
    c.ll = s.index (e.1 + s.n) ∧ c.ve = s.value ee + (1 / s.tab.coef e.1 j) • (c.bnd - s.value (s.index (e.1 + s.n))) ∧
    (if 0 < sg pos * s.tab.coef e.1 j then s.up (s.index (e.1 + s.n)) else s.lo (s.index (e.1 + s.n))) = some c.bnd := by
  obtain ⟨h1, h2, h3, h4⟩ := Tableau.colEntries_coef hs.wf (i := e.1) (a := e.2.1) (d := e.2.2) he
  have hsel : (if (epos e == pos) = true then s.up (s.index (e.1 + s.n)) else s.lo (s.index (e.1 + s.n))) =
      (if 0 < sg pos * s.tab.coef e.1 j then s.up (s.index (e.1 + s.n)) else s.lo (s.index (e.1 + s.n))) := by
    have := epos_sign hs he rfl pos
    by_cases hh : (epos e == pos) = true
    · rw [if_pos hh, if_pos (this.1 hh)]
    · rw [if_neg hh, if_neg (fun h => hh (this.2 h))]
  unfold leaveCand at hc
  rw [hsel] at hc
  split at hc
  · exact absurd hc (by simp)
  · rename_i vi hvi
    simp only at hc
    generalize (if pos = true then (match s.up ee with | none => false | some u => decide (u ≤ s.value ee + divMul (vi - s.value (s.index (e.1 + s.n))) e.2.1 e.2.2)) else (match s.lo ee with | none => false | some l => decide (s.value ee + divMul (vi - s.value (s.index (e.1 + s.n))) e.2.1 e.2.2 ≤ l))) = k at hc
    cases k
    swap
    · exact absurd hc (by simp)
    · simp only [Bool.false_eq_true, if_false, Option.some.injEq] at hc
      subst hc
      refine ⟨rfl, ?_, hvi⟩
      simp only
      unfold divMul; rw [← h1, one_div_div]

end S
end Lpx
