import Verif.Data
import Verif.TableauLemmas
import Mathlib.Algebra.BigOperators.Group.Finset.Basic
import Mathlib.Algebra.BigOperators.Group.Finset.Piecewise
import Mathlib.Algebra.Module.BigOperators
import Mathlib.Algebra.BigOperators.Pi
import Mathlib.Data.Rat.Lemmas
import Mathlib.Tactic.Abel

/-!
# Properties of the tableau, the numbers, printing and casts (C14-C17, C40, C41)
-/

set_option linter.unusedSectionVars false

namespace Lpx.Props

open Lpx Finset

/-! ## Specification of the tableau: an ordinary matrix -/

/-- A matrix with rational entries. -/
abbrev Mat := Nat → Nat → Rat

/-- What a user of the tableau may do: write an entry, iterate over a column, pivot. -/
inductive TOp where
  | set (i j : Nat) (a : Rat)
  | iterate (j : Nat)
  | pivot (i j : Nat)

/-- The matrix that results from exchanging row variable `i` and column variable `j`. -/
def exchange (M : Mat) (i j : Nat) : Mat := fun k l =>
  if k = i then (if l = j then 1 / M i j else - M i l / M i j)
  else (if l = j then M k j / M i j else M k l - M k j * M i l / M i j)

/-- Effect of an operation on the matrix. -/
def TOp.spec (M : Mat) : TOp → Mat
  | .set i j a => fun k l => if k = i ∧ l = j then a else M k l
  | .iterate _ => M
  | .pivot i j => exchange M i j

/-- Pivoting requires a non-zero pivot element. -/
def TOp.allowed (M : Mat) : TOp → Prop
  | .pivot i j => M i j ≠ 0
  | _ => True

/-- The same operations on the sparse tableau of the code. -/
def TOp.run (t : Tableau) : TOp → Tableau
  | .set i j a => t.set i j a
  | .iterate j => t.compactCol j
  | .pivot i j => t.pivot i j

/-- `Runs ops M t`: performing the operations `ops` (latest last) starting with an empty tableau is allowed, gives the
matrix `M` according to the specification and the tableau `t` of the code. -/
inductive Runs : Mat → Tableau → Prop
  | empty : Runs (fun _ _ => 0) Tableau.empty
  | step {M : Mat} {t : Tableau} (o : TOp) : Runs M t → o.allowed M → Runs (o.spec M) (o.run t)

theorem Runs.inv {M : Mat} {t : Tableau} (h : Runs M t) : t.WF ∧ ∀ i j, t.coef i j = M i j := by
  induction h with
  | empty => exact ⟨Tableau.wf_empty, fun i j => by simp [Tableau.coef, Tableau.rowCoef, Tableau.empty, Tableau.coefL]⟩
  | step o _ ha ih =>
    obtain ⟨hw, hc⟩ := ih
    cases o with
    | set i j a =>
      refine ⟨Tableau.wf_set hw i j a, fun k l => ?_⟩
      simp only [TOp.run, TOp.spec, Tableau.coef_set hw, hc]
    | iterate j =>
      exact ⟨Tableau.wf_compactCol hw j, fun k l => by simp only [TOp.run, TOp.spec, Tableau.coef_compactCol, hc]⟩
    | pivot i j =>
      have hne := ha
      simp only [TOp.allowed, ← hc] at hne
      refine ⟨Tableau.wf_pivot hw hne, fun k l => ?_⟩
      simp only [TOp.run, TOp.spec, exchange, Tableau.coef_pivot hw hne, hc]

/-- **C15.** After any sequence of writes, column iterations and (allowed) pivots, reading position `(i,j)` returns
the entry of the matrix the sequence describes. -/
theorem C15_get_is_matrix {M : Mat} {t : Tableau} (h : Runs M t) (i j : Nat) : t.get i j = M i j := by
  obtain ⟨hw, hc⟩ := h.inv
  rw [Tableau.get_eq_coef hw, hc]

theorem sum_list_range (m : Nat) (f : Nat → Nat) : ((List.range m).map f).sum = ∑ i ∈ range m, f i := by
  induction m with
  | zero => simp
  | succ m ih => simp [List.range_succ, Finset.sum_range_succ, ih]

/-- Number of entries different from zero in the first `m` rows and `n` columns. -/
def nonzeros (M : Mat) (m n : Nat) : Nat := (((range m) ×ˢ (range n)).filter fun p => M p.1 p.2 ≠ 0).card

theorem row_length {t : Tableau} (h : t.WF) (i n : Nat) (hn : t.ncols ≤ n) :
    (t.rows i).cells.length = ((range n).filter fun j => t.coef i j ≠ 0).card := by
  have hnd : ((t.rows i).cells.map (·.col)).Nodup := by
    have := (h.row i).sorted
    unfold List.Nodup
    rw [List.pairwise_map]
    exact this.imp fun hab => Nat.ne_of_lt hab
  have : ((range n).filter fun j => t.coef i j ≠ 0) = ((t.rows i).cells.map (·.col)).toFinset := by
    ext j
    simp only [mem_filter, mem_range, List.mem_toFinset, List.mem_map]
    constructor
    · rintro ⟨-, hj⟩
      obtain ⟨v, hv⟩ := (Tableau.coef_ne_zero h).1 hj
      exact ⟨_, hv, rfl⟩
    · rintro ⟨c, hc, rfl⟩
      refine ⟨lt_of_lt_of_le (h.rowRange i c hc) hn, (Tableau.coef_ne_zero h).2 ⟨c.val, ?_⟩⟩
      exact hc
  rw [this, List.toFinset_card_of_nodup hnd, List.length_map]

/-- **C15.** `size` is the number of non-zero entries, and all of them lie within some finite range. -/
theorem C15_size {M : Mat} {t : Tableau} (h : Runs M t) :
    ∃ m n, (∀ i j, M i j ≠ 0 → i < m ∧ j < n) ∧ t.size = nonzeros M m n := by
  obtain ⟨hw, hc⟩ := h.inv
  refine ⟨t.nrows, t.ncols, fun i j hij => ?_, ?_⟩
  · rw [← hc] at hij
    obtain ⟨v, hv⟩ := (Tableau.coef_ne_zero hw).1 hij
    exact ⟨hw.colRange j i (hw.colCover i _ hv), hw.rowRange i _ hv⟩
  · unfold Tableau.size nonzeros
    rw [Finset.card_filter, Finset.sum_product]
    simp only [← hc]
    rw [sum_list_range]
    apply Finset.sum_congr rfl
    intro i _
    rw [row_length hw i _ le_rfl, Finset.card_filter]

/-- **C15.** `empty` holds iff the matrix is zero. -/
theorem C15_empty {M : Mat} {t : Tableau} (h : Runs M t) : t.isEmpty = true ↔ ∀ i j, M i j = 0 := by
  obtain ⟨hw, hc⟩ := h.inv
  unfold Tableau.isEmpty
  simp only [List.all_eq_true, List.mem_range, List.isEmpty_iff]
  constructor
  · intro he i j
    by_contra hne
    rw [← hc] at hne
    obtain ⟨v, hv⟩ := (Tableau.coef_ne_zero hw).1 hne
    have := he i (hw.colRange j i (hw.colCover i _ hv))
    rw [this] at hv
    simp at hv
  · intro hz i _
    rw [List.eq_nil_iff_forall_not_mem]
    intro c hcm
    exact (Tableau.coef_ne_zero hw).2 ⟨c.val, hcm⟩ ((hc i c.col).trans (hz i c.col))

/-- **C16.** Iterating over column `j` visits exactly the rows with a non-zero entry, each exactly once and in
increasing order, and passes for each of them a numerator and a denominator of the entry. -/
theorem C16_column_iteration {M : Mat} {t : Tableau} (h : Runs M t) (j : Nat) :
    (∀ i, i ∈ (t.colEntries j).map (·.1) ↔ M i j ≠ 0) ∧
    ((t.colEntries j).map (·.1)).Pairwise (· < ·) ∧
    (∀ e ∈ t.colEntries j, e.2.2 ≠ 0 ∧ (e.2.1 : Rat) / e.2.2 = M e.1 j) := by
  obtain ⟨hw, hc⟩ := h.inv
  refine ⟨fun i => ?_, Tableau.colEntries_sorted hw j, ?_⟩
  · rw [Tableau.mem_colEntries_fst hw, hc]
  · rintro ⟨i, a, d⟩ he
    have := Tableau.colEntries_coef hw he
    exact ⟨this.2.2.1, by rw [← hc]; exact this.1⟩

/-- **C16.** The same for rows (and columns in increasing order). -/
theorem C16_row_iteration {M : Mat} {t : Tableau} (h : Runs M t) (i : Nat) :
    (∀ j, j ∈ (t.rowEntries i).map (·.1) ↔ M i j ≠ 0) ∧
    ((t.rowEntries i).map (·.1)).Pairwise (· < ·) ∧
    (∀ e ∈ t.rowEntries i, e.2.2 ≠ 0 ∧ (e.2.1 : Rat) / e.2.2 = M i e.1) := by
  obtain ⟨hw, hc⟩ := h.inv
  refine ⟨fun j => ?_, Tableau.rowEntries_sorted hw i, ?_⟩
  · rw [Tableau.mem_rowEntries_fst hw, hc]
  · rintro ⟨j, a, d⟩ he
    have := Tableau.rowEntries_coef hw he
    exact ⟨this.2.2.1, by rw [← hc]; exact this.1⟩

/-! ## C14 -/

/-- `x` (values of the column variables) and `y` (values of the row variables) satisfy the `m` equations
`y_k = sum_{l < n} M_kl x_l`. -/
def IsSol {V : Type} [AddCommGroup V] [Module Rat V] (M : Mat) (m n : Nat) (x y : Nat → V) : Prop :=
  ∀ k < m, y k = ∑ l ∈ range n, M k l • x l

theorem sum_update {V : Type} [AddCommGroup V] [Module Rat V] (f : Nat → Rat) (x : Nat → V) (n j : Nat) (v : V)
    (hj : j < n) :
    ∑ l ∈ range n, f l • (Function.update x j v) l = (∑ l ∈ range n, f l • x l) - f j • x j + f j • v := by
  rw [← Finset.add_sum_erase _ _ (mem_range.2 hj),
    ← Finset.add_sum_erase (range n) (fun l => f l • x l) (mem_range.2 hj)]
  simp only [Function.update_self]
  have : ∑ l ∈ (range n).erase j, f l • (Function.update x j v) l = ∑ l ∈ (range n).erase j, f l • x l := by
    apply Finset.sum_congr rfl
    intro l hl
    rw [Function.update_of_ne (Finset.ne_of_mem_erase hl)]
  rw [this]
  abel

/-- One direction of the exchange; it is its own inverse. -/
theorem exchange_sol {V : Type} [AddCommGroup V] [Module Rat V] {M : Mat} {m n i j : Nat} {x y : Nat → V}
    (hi : i < m) (hj : j < n) (hij : M i j ≠ 0) (h : IsSol M m n x y) :
    IsSol (exchange M i j) m n (Function.update x j (y i)) (Function.update y i (x j)) := by
  have hyi := h i hi
  have key : ∀ k, k ≠ i → ∑ l ∈ range n, exchange M i j k l • (Function.update x j (y i)) l =
      ∑ l ∈ range n, M k l • x l := by
    intro k hk
    rw [sum_update _ _ _ _ _ hj]
    have h1 : ∑ l ∈ range n, exchange M i j k l • x l
        = ∑ l ∈ range n, (M k l • x l - (M k j / M i j) • (M i l • x l)
          + (if l = j then (M k j / M i j) • x j else 0)) := by
      apply Finset.sum_congr rfl
      intro l _
      by_cases hl : l = j
      · subst hl
        simp only [exchange, if_neg hk, if_true]
        rw [← mul_smul, ← sub_smul, ← add_smul]
        congr 1
        field_simp
        ring
      · simp only [exchange, if_neg hk, if_neg hl, add_zero]
        rw [← mul_smul, ← sub_smul]
        congr 1
        field_simp
    rw [h1, Finset.sum_add_distrib, Finset.sum_sub_distrib, ← Finset.smul_sum, ← hyi,
      Finset.sum_ite_eq' (range n) j, if_pos (mem_range.2 hj)]
    simp only [exchange, if_neg hk, if_true]
    abel
  intro k hk
  by_cases hki : k = i
  · subst hki
    rw [Function.update_self, sum_update _ _ _ _ _ hj]
    have h1 : ∑ l ∈ range n, exchange M k j k l • x l
        = ∑ l ∈ range n, (-(1 / M k j) • (M k l • x l)
          + (if l = j then (1 + 1 / M k j) • x j else 0)) := by
      apply Finset.sum_congr rfl
      intro l _
      by_cases hl : l = j
      · subst hl
        simp only [exchange, if_true]
        rw [← mul_smul, ← add_smul]
        congr 1
        field_simp
        ring
      · simp only [exchange, if_true, if_neg hl, add_zero]
        rw [← mul_smul]
        congr 1
        field_simp
    rw [h1, Finset.sum_add_distrib, ← Finset.smul_sum, ← hyi,
      Finset.sum_ite_eq' (range n) j, if_pos (mem_range.2 hj)]
    simp only [exchange, if_true]
    rw [neg_smul, add_smul, one_smul]
    abel
  · rw [Function.update_of_ne hki, key k hki]
    exact h k hk

theorem exchange_exchange {M : Mat} {i j : Nat} (hij : M i j ≠ 0) : exchange (exchange M i j) i j = M := by
  funext k l
  unfold exchange
  by_cases hk : k = i
  · subst hk
    by_cases hl : l = j
    · subst hl; simp
    · simp only [if_true, if_neg hl]; field_simp
  · by_cases hl : l = j
    · subst hl; simp only [if_neg hk, if_true]; field_simp
    · simp only [if_true, if_neg hl, if_neg hk]; field_simp; ring

/-- **C14.** Whatever operations have been performed before: pivoting on a non-zero entry `(i,j)` succeeds and yields a
tableau whose solutions are exactly those of the old one with the row variable `i` and the column variable `j`
exchanged. (For values in any rational vector space, in particular rationals and epsilon numbers.) -/
theorem C14_pivot_preserves_solutions {V : Type} [AddCommGroup V] [Module Rat V] {M : Mat} {t : Tableau}
    (h : Runs M t) {m n i j : Nat} (hi : i < m) (hj : j < n) (hij : t.get i j ≠ 0) (x y : Nat → V) :
    IsSol t.get m n x y ↔
      IsSol (t.pivot i j).get m n (Function.update x j (y i)) (Function.update y i (x j)) := by
  have hM : t.get = M := by funext a b; exact C15_get_is_matrix h a b
  have hij' : M i j ≠ 0 := by rw [← hM]; exact hij
  have hP : (t.pivot i j).get = exchange M i j := by
    funext a b; exact C15_get_is_matrix (h.step (.pivot i j) hij') a b
  rw [hM, hP]
  constructor
  · exact exchange_sol hi hj hij'
  · intro hs
    have hne : exchange M i j i j ≠ 0 := by simp [exchange, hij']
    have := exchange_sol hi hj hne hs
    rw [exchange_exchange hij'] at this
    simpa using this

/-- **C14.** Pivoting is exact: each entry is the rational number given by the exchange formula; in particular an entry
is stored iff that number is not zero (no lost and no spurious entries). -/
theorem C14_pivot_exact {M : Mat} {t : Tableau} (h : Runs M t) {i j : Nat} (hij : t.get i j ≠ 0) :
    (t.pivot i j).get = exchange t.get i j ∧
    ∀ k l, l ∈ ((t.pivot i j).rowEntries k).map (·.1) ↔ exchange t.get i j k l ≠ 0 := by
  have hM : t.get = M := by funext a b; exact C15_get_is_matrix h a b
  have hij' : M i j ≠ 0 := by rw [← hM]; exact hij
  have h' := h.step (.pivot i j) hij'
  rw [hM]
  exact ⟨by funext a b; exact C15_get_is_matrix h' a b, fun k l => (C16_row_iteration h' k).1 l⟩

/-- The hypotheses of C14-C16 are met, e.g. after writing three entries, deleting one and pivoting. -/
example : ∃ M t, Runs M t ∧ t.get 0 1 ≠ 0 ∧ t.get 1 0 ≠ 0 ∧ t.get 1 1 = 0 := by
  have h0 := Runs.empty
  have h1 := h0.step (.set 0 0 2) trivial
  have h2 := h1.step (.set 0 1 (3 / 2)) trivial
  have h3 := h2.step (.set 1 0 (-1 / 3)) trivial
  have h4 := h3.step (.set 1 1 7) trivial
  have h5 := h4.step (.set 1 1 ((-1 / 3) * (3 / 2) / 2 )) trivial
  have h6 := h5.step (.iterate 1) trivial
  have h7 := h6.step (.pivot 0 0) (by simp [TOp.allowed, TOp.spec])
  refine ⟨_, _, h7, ?_, ?_, ?_⟩ <;> rw [C15_get_is_matrix h7] <;>
    simp [TOp.spec, exchange]

/-! ## C17 -/

/-- Embedding of the rationals into the epsilon numbers. -/
def RatQ.emb (q : Rat) : RatQ := ⟨q, 0⟩

/-- **C17.** The comparison operators of epsilon numbers are the lexicographic order, which is total. -/
theorem C17_lexicographic (a b : RatQ) :
    (RatQ.compare a b < 0 ↔ a.c < b.c ∨ (a.c = b.c ∧ a.k < b.k)) ∧
    (RatQ.compare a b = 0 ↔ a.c = b.c ∧ a.k = b.k) ∧
    (0 < RatQ.compare a b ↔ b.c < a.c ∨ (a.c = b.c ∧ b.k < a.k)) := by
  unfold RatQ.compare cmpRat
  rcases lt_trichotomy a.c b.c with h | h | h
  · simp [h, h.ne, h.not_gt]
  · rcases lt_trichotomy a.k b.k with h' | h' | h'
    · simp [h, h', h'.ne, h'.not_gt]
    · simp [h, h']
    · simp [h, h', h'.ne', h'.not_gt]
  · simp [h, h.ne', h.not_gt]

/-- **C17.** The order is total and transitive. -/
theorem C17_total_order (a b c : RatQ) :
    (RatQ.compare a b ≤ 0 ∨ RatQ.compare b a ≤ 0) ∧
    (RatQ.compare a b ≤ 0 → RatQ.compare b a ≤ 0 → a = b) ∧
    (RatQ.compare a b ≤ 0 → RatQ.compare b c ≤ 0 → RatQ.compare a c ≤ 0) :=
  ⟨le_total a b, fun h1 h2 => le_antisymm (a := a) (b := b) h1 h2, fun h1 h2 => le_trans (a := a) (b := b) h1 h2⟩

/-- **C17.** Vector space laws and compatibility of the order with addition, subtraction, negation, multiplication
and division. -/
theorem C17_ordered_vector_space (a b c : RatQ) (q r : Rat) :
    (a.add b).add c = a.add (b.add c) ∧ a.add b = b.add a ∧ a.add (RatQ.emb 0) = a ∧ a.add a.neg = RatQ.emb 0 ∧
    a.sub b = a.add b.neg ∧ (a.add b).mulRat q = (a.mulRat q).add (b.mulRat q) ∧
    a.mulRat (q + r) = (a.mulRat q).add (a.mulRat r) ∧ (a.mulRat q).mulRat r = a.mulRat (q * r) ∧ a.mulRat 1 = a ∧
    (q ≠ 0 → (a.mulRat q).divRat q = a) ∧
    (RatQ.compare a b < 0 → RatQ.compare (a.add c) (b.add c) < 0) ∧
    (RatQ.compare a b < 0 → RatQ.compare b.neg a.neg < 0) ∧
    (0 < q → RatQ.compare a b < 0 → RatQ.compare (a.mulRat q) (b.mulRat q) < 0) ∧
    (q < 0 → RatQ.compare a b < 0 → RatQ.compare (b.mulRat q) (a.mulRat q) < 0) ∧
    (0 < q → RatQ.compare a b < 0 → RatQ.compare (a.divRat q) (b.divRat q) < 0) ∧
    (q < 0 → RatQ.compare a b < 0 → RatQ.compare (b.divRat q) (a.divRat q) < 0) := by
  have hL : ∀ x y : RatQ, RatQ.compare x y < 0 ↔ x.c < y.c ∨ (x.c = y.c ∧ x.k < y.k) :=
    fun x y => (C17_lexicographic x y).1
  simp only [hL]
  refine ⟨?_, ?_, ?_, ?_, ?_, ?_, ?_, ?_, ?_, ?_, ?_, ?_, ?_, ?_, ?_, ?_⟩
  · simp [RatQ.add, add_assoc]
  · simp [RatQ.add, add_comm]
  · simp [RatQ.add, RatQ.emb]
  · simp [RatQ.add, RatQ.neg, RatQ.emb]
  · simp [RatQ.add, RatQ.neg, RatQ.sub, sub_eq_add_neg]
  · simp [RatQ.add, RatQ.mulRat, add_mul]
  · simp [RatQ.add, RatQ.mulRat, mul_add]
  · simp [RatQ.mulRat, mul_assoc]
  · simp [RatQ.mulRat]
  · intro hq; simp [RatQ.mulRat, RatQ.divRat, hq]
  · rintro (h | ⟨h, h'⟩)
    · left; simpa [RatQ.add] using h
    · right; simpa [RatQ.add, h] using h'
  · rintro (h | ⟨h, h'⟩)
    · left; simpa [RatQ.neg] using h
    · right; simpa [RatQ.neg, h] using h'
  · rintro hq (h | ⟨h, h'⟩)
    · left; exact mul_lt_mul_of_pos_right h hq
    · right; exact ⟨by simp [RatQ.mulRat, h], mul_lt_mul_of_pos_right h' hq⟩
  · rintro hq (h | ⟨h, h'⟩)
    · left; exact mul_lt_mul_of_neg_right h hq
    · right; exact ⟨by simp [RatQ.mulRat, h], mul_lt_mul_of_neg_right h' hq⟩
  · rintro hq (h | ⟨h, h'⟩)
    · left; exact div_lt_div_of_pos_right h hq
    · right; exact ⟨by simp [RatQ.divRat, h], div_lt_div_of_pos_right h' hq⟩
  · rintro hq (h | ⟨h, h'⟩)
    · left; simp only [RatQ.divRat, div_eq_mul_inv]; exact mul_lt_mul_of_neg_right h (inv_lt_zero.2 hq)
    · right; simp only [RatQ.divRat, div_eq_mul_inv]
      exact ⟨by rw [h], mul_lt_mul_of_neg_right h' (inv_lt_zero.2 hq)⟩

/-- **C17.** The operators mixing epsilon numbers and rationals (or integers) agree with the embedding. -/
theorem C17_mixed (a : RatQ) (q : Rat) :
    a.compareRat q = a.compare (RatQ.emb q) ∧
    (a.ltRat q ↔ a < RatQ.emb q) ∧ (a.leRat q ↔ a ≤ RatQ.emb q) ∧
    (a.gtRat q ↔ RatQ.emb q < a) ∧ (a.geRat q ↔ RatQ.emb q ≤ a) ∧
    (a.eqRat q ↔ a = RatQ.emb q) ∧
    a.addRat q = a.add (RatQ.emb q) ∧ a.subRat q = a.sub (RatQ.emb q) ∧
    (a.asRational = some q ↔ a = RatQ.emb q) := by
  have hc : a.compareRat q = a.compare (RatQ.emb q) := by
    unfold RatQ.compareRat RatQ.compare RatQ.emb cmpRat
    rcases lt_trichotomy a.k 0 with h' | h' | h'
    · simp [h']
    · simp [h']
    · simp [h', h'.not_gt, h'.ne']
  have hL := C17_lexicographic a (RatQ.emb q)
  refine ⟨hc, ?_, ?_, ?_, ?_, ?_, ?_, ?_, ?_⟩
  · simp only [RatQ.ltRat, decide_eq_true_eq, hc]; rfl
  · simp only [RatQ.leRat, decide_eq_true_eq, hc]; rfl
  · simp only [RatQ.gtRat, decide_eq_true_eq, hc]
    rw [RatQ.lt_def]
    have := hL.2.2
    rw [gt_iff_lt, this]
    constructor
    · rintro (h | ⟨h, h'⟩)
      · exact Or.inl h
      · exact Or.inr ⟨h.symm, h'⟩
    · rintro (h | ⟨h, h'⟩)
      · exact Or.inl h
      · exact Or.inr ⟨h.symm, h'⟩
  · simp only [RatQ.geRat, decide_eq_true_eq, hc]
    rw [ge_iff_le, ← not_lt, ← not_lt, not_iff_not]; rfl
  · simp [RatQ.eqRat, RatQ.emb, RatQ.ext_iff, and_comm]
  · simp [RatQ.addRat, RatQ.add, RatQ.emb]
  · simp [RatQ.subRat, RatQ.sub, RatQ.emb]
  · simp only [RatQ.asRational, RatQ.isRational, RatQ.emb, RatQ.ext_iff]
    by_cases h : a.k = 0 <;> simp [h]

/-- Non-trivial instances of the order: `1 < 1 + e < 2 - 5e < 2`. -/
example : RatQ.compare ⟨1, 0⟩ ⟨1, 1⟩ < 0 ∧ RatQ.compare ⟨1, 1⟩ ⟨2, -5⟩ < 0 ∧ RatQ.ltRat ⟨2, -5⟩ 2 := by
  decide +kernel

/-! ## C40 -/

/-- `s` is a value of type `T`. -/
def IntType.Has (T : IntType) (s : Int) : Prop :=
  if T.signed then -(2 ^ (T.bits - 1)) ≤ s ∧ s < 2 ^ (T.bits - 1) else 0 ≤ s ∧ s < 2 ^ T.bits

theorem wrap_has {T : IntType} (hb : 0 < T.bits) {s : Int} (h : IntType.Has T s) : T.wrap s = s := by
  unfold IntType.Has at h
  unfold IntType.wrap
  obtain ⟨n, hn⟩ : ∃ n, T.bits = n + 1 := ⟨T.bits - 1, by omega⟩
  have hp : (2 : Int) ^ T.bits = 2 * 2 ^ (T.bits - 1) := by rw [hn]; simp [pow_succ, mul_comm]
  have hpos : (0 : Int) < 2 ^ (T.bits - 1) := by positivity
  cases hs : T.signed
  · simp only [hs, Bool.false_eq_true, if_false] at h
    simp only [Bool.false_eq_true, false_and, if_false]
    exact Int.emod_eq_of_lt h.1 h.2
  · simp only [hs, if_true] at h
    simp only [true_and]
    by_cases h0 : 0 ≤ s
    · rw [Int.emod_eq_of_lt h0 (by omega), if_neg (by omega)]
    · have : s % 2 ^ T.bits = s + 2 ^ T.bits := by
        rw [← Int.add_emod_right]; exact Int.emod_eq_of_lt (by omega) (by omega)
      rw [this, if_pos (by omega)]
      omega

/-- **C40.** For all integer types `T` and `S` and every value `s` of type `S`: `safe_cast<T>(s)` yields exactly `s` if
`s` is a value of type `T` and throws otherwise. -/
theorem C40_safe_cast (T S : IntType) (hT : 0 < T.bits) (hS : 0 < S.bits) (s : Int) (hs : IntType.Has S s) :
    (IntType.Has T s → safeCast T S s = some s) ∧ (¬ IntType.Has T s → safeCast T S s = none) := by
  have hchk : scCheck T S s = true ↔ IntType.Has T s := by
    unfold scCheck
    cases hts : T.signed <;> cases hss : S.signed
    · simp only [if_true, Bool.not_eq_true', decide_eq_false_iff_not]
      have hTS : T = S → IntType.Has T s := fun e => e ▸ hs
      simp only [IntType.min, IntType.max, hts, Bool.false_eq_true, if_false]
      unfold IntType.Has at hTS ⊢
      simp only [hts, Bool.false_eq_true, if_false] at hTS ⊢
      by_cases e : T = S
      · simp only [ne_eq, e, not_true, false_and, not_false_iff, true_iff]; rw [← e]; exact hTS e
      · simp only [ne_eq, e, not_false_iff, true_and]; omega
    · simp only [Bool.false_eq_true, if_false, if_true, Bool.not_eq_true', decide_eq_false_iff_not]
      unfold IntType.Has at hs ⊢
      simp only [hts, hss, Bool.false_eq_true, if_false, if_true] at hs ⊢
      have hposT : (0 : Int) < 2 ^ T.bits := by positivity
      have hw : T.wrap s = s % 2 ^ T.bits := by simp [IntType.wrap, hts]
      constructor
      · intro h
        have h0 : 0 ≤ s := by omega
        refine ⟨h0, ?_⟩
        by_contra hlt
        have hne : S.wrap (T.wrap s) = s := by
          by_contra hne; exact h (Or.inr hne)
        have hr0 := Int.emod_nonneg s hposT.ne'
        have hr1 := Int.emod_lt_of_pos s hposT
        rw [hw, wrap_has hS (by unfold IntType.Has; simp only [hss, if_true]; omega)] at hne
        omega
      · rintro ⟨h0, h1⟩
        rintro (h | h)
        · omega
        · apply h
          rw [hw, Int.emod_eq_of_lt h0 h1]
          exact wrap_has hS (by unfold IntType.Has; simp only [hss, if_true]; exact hs)
    · simp only [Bool.true_eq_false, Bool.false_eq_true, if_false, Bool.not_eq_true', decide_eq_false_iff_not]
      unfold IntType.Has at hs ⊢
      simp only [hts, hss, Bool.false_eq_true, if_false, if_true] at hs ⊢
      simp only [IntType.max, hts, if_true]
      have hposT : (0 : Int) < 2 ^ (T.bits - 1) := by positivity
      omega
    · simp only [if_true, Bool.not_eq_true', decide_eq_false_iff_not]
      have hTS : T = S → IntType.Has T s := fun e => e ▸ hs
      simp only [IntType.min, IntType.max, hts, if_true]
      unfold IntType.Has at hTS ⊢
      simp only [hts, if_true] at hTS ⊢
      by_cases e : T = S
      · simp only [ne_eq, e, not_true, false_and, not_false_iff, true_iff]; rw [← e]; exact hTS e
      · simp only [ne_eq, e, not_false_iff, true_and]; omega
  unfold safeCast
  constructor
  · intro h; rw [if_pos (hchk.2 h), wrap_has hT h]
  · intro h; rw [if_neg (fun hc => h (hchk.1 hc))]

example : IntType.Has ⟨true, 32⟩ (-5) ∧ ¬ IntType.Has ⟨false, 64⟩ (-5) ∧ IntType.Has ⟨false, 64⟩ (2 ^ 40) ∧
    ¬ IntType.Has ⟨true, 32⟩ (2 ^ 40) := by
  unfold IntType.Has; norm_num

/-! ## C41 -/

theorem digitChar_inj {a b : Nat} (ha : a < 10) (hb : b < 10) (h : Nat.digitChar a = Nat.digitChar b) : a = b := by
  have key : ∀ a < 10, ∀ b < 10, Nat.digitChar a = Nat.digitChar b → a = b := by decide
  exact key a ha b hb h

theorem digitChar_props {a : Nat} (ha : a < 10) :
    Nat.digitChar a ≠ '/' ∧ Nat.digitChar a ≠ '-' ∧ Nat.digitChar a ≠ '+' ∧ Nat.digitChar a ≠ '*' ∧
    Nat.digitChar a ≠ 'e' := by
  have key : ∀ a < 10, Nat.digitChar a ≠ '/' ∧ Nat.digitChar a ≠ '-' ∧ Nat.digitChar a ≠ '+' ∧
      Nat.digitChar a ≠ '*' ∧ Nat.digitChar a ≠ 'e' := by decide
  exact key a ha

theorem showNat_inj {m n : Nat} (h : showNat m = showNat n) : m = n := by
  have key : ∀ n, n ≠ 0 → ((Nat.digits 10 n).map Nat.digitChar).reverse ≠ ['0'] := by
    intro n hn he
    have h1 : (Nat.digits 10 n).map Nat.digitChar = ['0'] := by
      rw [← List.reverse_reverse ((Nat.digits 10 n).map Nat.digitChar), he]; rfl
    obtain ⟨d, hd, hd'⟩ := List.map_eq_singleton_iff.1 h1
    have hd0 : d = 0 := digitChar_inj (Nat.digits_lt_base (by norm_num) (hd ▸ List.mem_singleton_self d))
      (by norm_num) (hd'.trans rfl)
    have := Nat.ofDigits_digits 10 n
    rw [hd, hd0] at this
    simp at this
    exact hn this.symm
  have map_inj : ∀ l l' : List Nat, (∀ d ∈ l, d < 10) → (∀ d ∈ l', d < 10) →
      l.map Nat.digitChar = l'.map Nat.digitChar → l = l' := by
    intro l
    induction l with
    | nil => intro l' _ _ h; simpa using h.symm
    | cons a l ih =>
      intro l' h1 h2 h
      cases l' with
      | nil => simp at h
      | cons b l' =>
        simp only [List.map_cons, List.cons.injEq] at h
        rw [digitChar_inj (h1 a (by simp)) (h2 b (by simp)) h.1,
          ih l' (fun d hd => h1 d (by simp [hd])) (fun d hd => h2 d (by simp [hd])) h.2]
  unfold showNat at h
  by_cases hm : m = 0 <;> by_cases hn : n = 0
  · omega
  · simp only [hm, if_true, hn, if_false] at h; exact absurd h.symm (key n hn)
  · simp only [hm, if_false, hn, if_true] at h; exact absurd h (key m hm)
  · simp only [hm, hn, if_false, List.reverse_inj] at h
    have := map_inj _ _ (fun d hd => Nat.digits_lt_base (by norm_num) hd)
      (fun d hd => Nat.digits_lt_base (by norm_num) hd) h
    exact Nat.digits_inj_iff.1 this

theorem showNat_char {n : Nat} {c : Char} (h : c ∈ showNat n) :
    c ≠ '/' ∧ c ≠ '-' ∧ c ≠ '+' ∧ c ≠ '*' ∧ c ≠ 'e' := by
  unfold showNat at h
  split at h
  · simp only [List.mem_singleton] at h; subst h; decide
  · simp only [List.mem_reverse, List.mem_map] at h
    obtain ⟨d, hd, rfl⟩ := h
    exact digitChar_props (Nat.digits_lt_base (by norm_num) hd)

theorem showNat_ne_nil (n : Nat) : showNat n ≠ [] := by
  unfold showNat
  split
  · simp
  · rename_i h
    intro he
    rw [List.reverse_eq_nil_iff, List.map_eq_nil_iff, Nat.digits_eq_nil_iff_eq_zero] at he
    exact h he

theorem showInt_inj {m n : Int} (h : showInt m = showInt n) : m = n := by
  unfold showInt at h
  have hd : ∀ k l : Nat, showNat k ≠ '-' :: showNat l := by
    intro k l he
    have : '-' ∈ showNat k := by rw [he]; simp
    exact (showNat_char this).2.1 rfl
  split at h <;> split at h
  · have := showNat_inj (List.cons_injective h); omega
  · exact absurd h.symm (hd _ _)
  · exact absurd h (hd _ _)
  · have := showNat_inj h; omega

theorem showInt_char {n : Int} {c : Char} (h : c ∈ showInt n) : c ≠ '/' ∧ c ≠ '+' ∧ c ≠ '*' ∧ c ≠ 'e' := by
  have : c = '-' ∨ c ∈ showNat n.natAbs := by
    unfold showInt at h
    split at h
    · simpa using h
    · exact Or.inr h
  rcases this with rfl | h
  · decide
  · have := showNat_char h; tauto

theorem showRat_inj {p q : Rat} (h : showRat p = showRat q) : p = q := by
  unfold showRat at h
  have hsl : ∀ (n m : Int) (k : Nat), showInt n ≠ showInt m ++ '/' :: showNat k := by
    intro n m k he
    have : '/' ∈ showInt n := by rw [he]; simp
    exact (showInt_char this).1 rfl
  split at h <;> split at h
  · rename_i h1 h2
    exact Rat.ext (showInt_inj h) (h1.trans h2.symm)
  · exact absurd h (hsl _ _ _)
  · exact absurd h.symm (hsl _ _ _)
  · have := (List.append_cons_inj_of_notMem (fun hm => (showInt_char hm).1 rfl)
      (fun hm => (showNat_char hm).1 rfl)).1 h
    exact Rat.ext (showInt_inj this.1) (showNat_inj this.2.2)

theorem showRat_char {q : Rat} {c : Char} (h : c ∈ showRat q) : c ≠ '+' ∧ c ≠ '*' ∧ c ≠ 'e' := by
  unfold showRat at h
  split at h
  · have := showInt_char h; tauto
  · simp only [List.mem_append, List.mem_cons] at h
    rcases h with h | rfl | h
    · have := showInt_char h; tauto
    · decide
    · have := showNat_char h; tauto

theorem showInt_ne_nil (n : Int) : showInt n ≠ [] := by
  unfold showInt; split
  · simp
  · exact showNat_ne_nil _

theorem showRat_ne_nil (q : Rat) : showRat q ≠ [] := by
  unfold showRat; split
  · exact showInt_ne_nil _
  · simp

/-- **C41.** Without `--strict`: two values that print alike are equal. -/
theorem C41_print_rational (p q : Rat) (h : showRat p = showRat q) : p = q := showRat_inj h

/-- The coefficient of the infinitesimal as printed. -/
def RatQ.printK (k : Rat) : List Char := if k ≠ 1 then showRat k ++ ['*'] else []

theorem printK_inj {k k' : Rat} (h : RatQ.printK k = RatQ.printK k') : k = k' := by
  unfold RatQ.printK at h
  split at h <;> split at h
  · exact showRat_inj (List.append_left_injective _ h)
  · simp at h
  · simp at h
  · rename_i h1 h2; push Not at h1 h2; rw [h1, h2]

theorem printK_char {k : Rat} {c : Char} (h : c ∈ RatQ.printK k) : c ≠ '+' ∧ c ≠ 'e' := by
  unfold RatQ.printK at h
  split at h
  · simp only [List.mem_append, List.mem_singleton] at h
    rcases h with h | rfl
    · have := showRat_char h; tauto
    · decide
  · simp at h

theorem print_cases (a : RatQ) :
    (a.k = 0 ∧ a.print = showRat a.c) ∨
    (a.k ≠ 0 ∧ a.c = 0 ∧ a.print = RatQ.printK a.k ++ ['e']) ∨
    (a.k ≠ 0 ∧ a.c ≠ 0 ∧ a.print = showRat a.c ++ '+' :: (RatQ.printK a.k ++ ['e'])) := by
  unfold RatQ.print RatQ.printK
  by_cases hk : a.k = 0
  · left; simp [hk]
  · right
    by_cases hc : a.c = 0
    · left; simp [hk, hc]
    · right; simp [hk, hc]

/-- **C41.** With `--strict`: two values that print alike are equal. -/
theorem C41_print_epsilon (a b : RatQ) (h : a.print = b.print) : a = b := by
  have he : ∀ (q : Rat) (l : List Char), 'e' ∈ l → showRat q ≠ l := by
    intro q l hl hq
    rw [← hq] at hl
    exact (showRat_char hl).2.2 rfl
  have hp : ∀ (k : Rat) (l : List Char), '+' ∈ l → RatQ.printK k ++ ['e'] ≠ l := by
    intro k l hl hq
    rw [← hq] at hl
    simp only [List.mem_append, List.mem_singleton] at hl
    rcases hl with hl | hl
    · exact (printK_char hl).1 rfl
    · exact absurd hl (by decide)
  rcases print_cases a with ⟨ak, ap⟩ | ⟨ak, ac, ap⟩ | ⟨ak, ac, ap⟩ <;>
    rcases print_cases b with ⟨bk, bp⟩ | ⟨bk, bc, bp⟩ | ⟨bk, bc, bp⟩ <;> rw [ap, bp] at h
  · exact RatQ.ext (showRat_inj h) (ak.trans bk.symm)
  · exact absurd h (he _ _ (by simp))
  · exact absurd h (he _ _ (by simp))
  · exact absurd h.symm (he _ _ (by simp))
  · exact RatQ.ext (ac.trans bc.symm) (printK_inj (List.append_left_injective _ h))
  · exact absurd h (hp _ _ (by simp))
  · exact absurd h.symm (he _ _ (by simp))
  · exact absurd h.symm (hp _ _ (by simp))
  · have := (List.append_cons_inj_of_notMem (fun hm => (showRat_char hm).1 rfl)
      (fun hm => by
        simp only [List.mem_append, List.mem_singleton] at hm
        rcases hm with hm | hm
        · exact (printK_char hm).1 rfl
        · exact absurd hm (by decide))).1 h
    exact RatQ.ext (showRat_inj this.1) (printK_inj (List.append_left_injective _ this.2.2))

/-- Printed values of some numbers. -/
example : String.ofList (RatQ.print ⟨5, -1/2⟩) = "5+-1/2*e" ∧ String.ofList (RatQ.print ⟨0, 1⟩) = "e" ∧
    String.ofList (RatQ.print ⟨-7/3, 0⟩) = "-7/3" := by
  decide +kernel

end Lpx.Props
