import Verif.Tableau
import Mathlib.Tactic.Ring
import Mathlib.Tactic.FieldSimp
import Mathlib.Tactic.Linarith
import Mathlib.Algebra.BigOperators.Group.List.Basic

/-! Lemmas about the sparse tableau: representation invariant and matrix semantics. -/

namespace Lpx
namespace Tableau

/-- Sum of the values stored for column `j`. -/
def coefL : List Cell → Nat → Int
  | [], _ => 0
  | c :: cs, j => (if c.col = j then c.val else 0) + coefL cs j

def Sorted (cells : List Cell) : Prop := cells.Pairwise fun a b => a.col < b.col

/-- Representation invariant of a row. -/
structure RowOK (r : Row) : Prop where
  den : r.den ≠ 0
  sorted : Sorted r.cells
  nz : ∀ c ∈ r.cells, c.val ≠ 0

/-- Representation invariant of the tableau. -/
structure WF (t : Tableau) : Prop where
  row : ∀ i, RowOK (t.rows i)
  colSorted : ∀ j, (t.cols j).Pairwise (· < ·)
  colCover : ∀ i, ∀ c ∈ (t.rows i).cells, i ∈ t.cols c.col
  colRange : ∀ j, ∀ i ∈ t.cols j, i < t.nrows
  rowRange : ∀ i, ∀ c ∈ (t.rows i).cells, c.col < t.ncols
  rowBeyond : ∀ i, t.nrows ≤ i → t.rows i = {}
  colBeyond : ∀ j, t.ncols ≤ j → t.cols j = []

theorem coefL_eq_zero {cells : List Cell} {j : Nat} (h : ∀ c ∈ cells, c.col ≠ j) : coefL cells j = 0 := by
  induction cells with
  | nil => rfl
  | cons c cs ih =>
    simp only [coefL]
    rw [if_neg (h c (by simp)), ih (fun d hd => h d (by simp [hd])), zero_add]

theorem Sorted.tail {c : Cell} {cs : List Cell} (h : Sorted (c :: cs)) : Sorted cs :=
  (List.pairwise_cons.1 h).2

theorem Sorted.head {c : Cell} {cs : List Cell} (h : Sorted (c :: cs)) : ∀ d ∈ cs, c.col < d.col :=
  (List.pairwise_cons.1 h).1

theorem coefL_mem {cells : List Cell} (h : Sorted cells) {c : Cell} (hc : c ∈ cells) :
    coefL cells c.col = c.val := by
  induction cells with
  | nil => simp at hc
  | cons d ds ih =>
    simp only [coefL]
    rcases List.mem_cons.1 hc with rfl | hc
    · rw [if_pos rfl, coefL_eq_zero, add_zero]
      intro e he; have := h.head e he; omega
    · have := h.head c hc
      rw [if_neg (by omega), ih h.tail hc, zero_add]

theorem findCell_none {cells : List Cell} (h : Sorted cells) {j : Nat} :
    findCell cells j = none ↔ ∀ c ∈ cells, c.col ≠ j := by
  induction cells with
  | nil => simp [findCell]
  | cons c cs ih =>
    simp only [findCell]
    split
    · rename_i hlt
      rw [ih h.tail]
      constructor
      · intro h' d hd; rcases List.mem_cons.1 hd with rfl | hd
        · omega
        · exact h' d hd
      · intro h' d hd; exact h' d (by simp [hd])
    · split
      · rename_i heq; simp; intro h'; exact absurd heq h'
      · rename_i h1 h2
        simp only [true_iff]
        intro d hd; rcases List.mem_cons.1 hd with rfl | hd
        · exact h2
        · have := h.head d hd; omega

theorem findCell_some {cells : List Cell} (h : Sorted cells) {j : Nat} {v : Int} :
    findCell cells j = some v ↔ (⟨j, v⟩ : Cell) ∈ cells := by
  induction cells with
  | nil => simp [findCell]
  | cons c cs ih =>
    simp only [findCell]
    split
    · rename_i hlt
      rw [ih h.tail]
      constructor
      · intro h'; simp [h']
      · intro h'; rcases List.mem_cons.1 h' with h' | h'
        · subst h'; simp at hlt
        · exact h'
    · split
      · rename_i h1 heq
        constructor
        · intro h'; cases h'; cases c; simp at heq; subst heq; simp
        · intro h'; rcases List.mem_cons.1 h' with h' | h'
          · subst h'; simp
          · have := h.head _ h'; simp at this; omega
      · rename_i h1 h2
        simp only [reduceCtorEq, false_iff]
        intro h'; rcases List.mem_cons.1 h' with h' | h'
        · subst h'; simp at h2
        · have := h.head _ h'; simp at this; omega

theorem findCell_getD {cells : List Cell} (h : Sorted cells) (j : Nat) :
    (findCell cells j).getD 0 = coefL cells j := by
  cases hf : findCell cells j with
  | none => simp only [Option.getD]; rw [coefL_eq_zero ((findCell_none h).1 hf)]
  | some v => simp only [Option.getD]; exact (coefL_mem h ((findCell_some h).1 hf)).symm

theorem findCell_ne_none {r : Row} (h : RowOK r) {j : Nat} :
    (findCell r.cells j).isSome ↔ coefL r.cells j ≠ 0 := by
  cases hf : findCell r.cells j with
  | none => simp [coefL_eq_zero ((findCell_none h.sorted).1 hf)]
  | some v =>
    have hm := (findCell_some h.sorted).1 hf
    have := coefL_mem h.sorted hm
    simp only at this
    simp [this, h.nz _ hm]

/-- Coefficient of column `j` in a row. -/
def rowCoef (r : Row) (j : Nat) : Rat := (coefL r.cells j : Rat) / (r.den : Rat)

/-- The matrix represented by the tableau. -/
def coef (t : Tableau) (i j : Nat) : Rat := rowCoef (t.rows i) j

theorem get_eq_coef {t : Tableau} (h : WF t) (i j : Nat) : t.get i j = t.coef i j := by
  unfold get coef rowCoef
  split
  · rw [← findCell_getD (h.row i).sorted j]
    cases findCell (t.rows i).cells j <;> simp
  · rw [h.rowBeyond i (by omega)]; simp [coefL]

/-! ### set -/

theorem ediv_eq_zero_dvd {a b : Int} (h : b ∣ a) : a / b = 0 ↔ a = 0 := by
  constructor
  · intro h0; have := Int.ediv_mul_cancel h; rw [h0, zero_mul] at this; exact this.symm
  · rintro rfl; simp

theorem eraseCell_subset {cells : List Cell} {j : Nat} : ∀ c ∈ eraseCell cells j, c ∈ cells := by
  induction cells with
  | nil => simp [eraseCell]
  | cons d ds ih =>
    intro c hc
    simp only [eraseCell] at hc
    split at hc
    · rcases List.mem_cons.1 hc with rfl | hc
      · simp
      · simp [ih c hc]
    · split at hc
      · simp [hc]
      · exact hc

theorem eraseCell_sublist (cells : List Cell) (j : Nat) : (eraseCell cells j).Sublist cells := by
  induction cells with
  | nil => simp [eraseCell]
  | cons d ds ih =>
    simp only [eraseCell]
    split
    · exact ih.cons_cons d
    · split
      · exact List.sublist_cons_self d ds
      · exact List.Sublist.refl _

theorem coefL_eraseCell {cells : List Cell} (h : Sorted cells) (j l : Nat) :
    coefL (eraseCell cells j) l = if l = j then 0 else coefL cells l := by
  induction cells with
  | nil => simp [eraseCell, coefL]
  | cons d ds ih =>
    simp only [eraseCell]
    split
    · simp only [coefL]; rw [ih h.tail]
      by_cases hl : l = j
      · subst hl; rw [if_neg (by omega), if_pos rfl, if_pos rfl, zero_add]
      · rw [if_neg hl, if_neg hl]
    · split
      · rename_i h1 h2
        split
        · subst_vars
          apply coefL_eq_zero; intro c hc; have := h.head c hc; omega
        · simp only [coefL]; rw [if_neg (by omega), zero_add]
      · rename_i h1 h2
        split
        · subst_vars
          apply coefL_eq_zero; intro c hc
          rcases List.mem_cons.1 hc with rfl | hc
          · exact h2
          · have := h.head c hc; omega
        · rfl

theorem coefL_map_mul (cells : List Cell) (a : Int) (l : Nat) :
    coefL (cells.map fun e => (⟨e.col, e.val * a⟩ : Cell)) l = coefL cells l * a := by
  induction cells with
  | nil => simp [coefL]
  | cons d ds ih => simp only [List.map_cons, coefL]; rw [ih]; split <;> ring

theorem mem_putCell {ag v : Int} {cells : List Cell} {j : Nat} {c : Cell} (hc : c ∈ putCell ag v cells j) :
    c = ⟨j, v⟩ ∨ ∃ d ∈ cells, c = ⟨d.col, d.val * ag⟩ := by
  induction cells with
  | nil => simp [putCell] at hc; exact Or.inl hc
  | cons d ds ih =>
    simp only [putCell] at hc
    split at hc
    · rcases List.mem_cons.1 hc with rfl | hc
      · exact Or.inr ⟨d, by simp, rfl⟩
      · rcases ih hc with h | ⟨e, he, h⟩
        · exact Or.inl h
        · exact Or.inr ⟨e, by simp [he], h⟩
    · split at hc
      · rcases List.mem_cons.1 hc with rfl | hc
        · exact Or.inl rfl
        · obtain ⟨e, he, rfl⟩ := List.mem_map.1 hc
          exact Or.inr ⟨e, by simp [he], rfl⟩
      · rcases List.mem_cons.1 hc with rfl | hc
        · exact Or.inl rfl
        · obtain ⟨e, he, rfl⟩ := List.mem_map.1 hc
          exact Or.inr ⟨e, he, rfl⟩

theorem sorted_map {cells : List Cell} (h : Sorted cells) (f : Cell → Cell) (hf : ∀ c, (f c).col = c.col) :
    Sorted (cells.map f) := by
  unfold Sorted at *
  rw [List.pairwise_map]
  simpa [hf] using h

theorem sorted_putCell {ag v : Int} {cells : List Cell} (h : Sorted cells) (j : Nat) :
    Sorted (putCell ag v cells j) := by
  induction cells with
  | nil => simp [putCell, Sorted]
  | cons d ds ih =>
    simp only [putCell]
    split
    · refine List.pairwise_cons.2 ⟨?_, ih h.tail⟩
      intro c hc
      rcases mem_putCell hc with rfl | ⟨e, he, rfl⟩
      · assumption
      · exact h.head e he
    · split
      · rename_i h1 h2
        refine List.pairwise_cons.2 ⟨?_, sorted_map h.tail _ (by simp)⟩
        intro c hc
        obtain ⟨e, he, rfl⟩ := List.mem_map.1 hc
        have := h.head e he; simp; omega
      · rename_i h1 h2
        refine List.pairwise_cons.2 ⟨?_, sorted_map h _ (by simp)⟩
        intro c hc
        obtain ⟨e, he, rfl⟩ := List.mem_map.1 hc
        rcases List.mem_cons.1 he with rfl | he
        · simp; omega
        · have := h.head e he; simp; omega

theorem coefL_putCell {ag v : Int} {cells : List Cell} (h : Sorted cells) (j l : Nat) :
    coefL (putCell ag v cells j) l = if l = j then v else coefL cells l * ag := by
  induction cells with
  | nil => simp only [putCell, coefL]; split <;> split <;> simp_all
  | cons d ds ih =>
    simp only [putCell]
    split
    · simp only [coefL]; rw [ih h.tail]
      by_cases hl : l = j
      · subst hl; rw [if_neg (by omega), if_pos rfl, if_pos rfl, zero_add]
      · rw [if_neg hl, if_neg hl]; split <;> ring
    · split
      · rename_i h1 h2
        simp only [coefL]
        rw [coefL_map_mul]
        by_cases hl : l = j
        · subst hl
          rw [if_pos rfl, if_pos rfl, coefL_eq_zero, zero_mul, add_zero]
          intro c hc; have := h.head c hc; omega
        · rw [if_neg (by omega), if_neg hl, if_neg (by omega)]; ring
      · rename_i h1 h2
        rw [coefL, coefL_map_mul]
        by_cases hl : l = j
        · subst hl
          rw [if_pos rfl, if_pos rfl, coefL_eq_zero, zero_mul, add_zero]
          intro c hc
          rcases List.mem_cons.1 hc with rfl | hc
          · exact h2
          · have := h.head c hc; omega
        · simp only [if_neg hl, if_neg (Ne.symm hl)]; ring

theorem mem_insertIdx {ks : List Nat} {i k : Nat} : k ∈ insertIdx ks i ↔ k = i ∨ k ∈ ks := by
  induction ks with
  | nil => simp [insertIdx]
  | cons d ds ih =>
    simp only [insertIdx]
    split
    · simp only [List.mem_cons, ih]; tauto
    · split
      · subst_vars; simp
      · simp

theorem sorted_insertIdx {ks : List Nat} {i : Nat} (h : ks.Pairwise (· < ·)) : (insertIdx ks i).Pairwise (· < ·) := by
  induction ks with
  | nil => simp [insertIdx]
  | cons d ds ih =>
    have hd := List.pairwise_cons.1 h
    simp only [insertIdx]
    split
    · refine List.pairwise_cons.2 ⟨?_, ih hd.2⟩
      intro k hk
      rcases mem_insertIdx.1 hk with rfl | hk
      · assumption
      · exact hd.1 k hk
    · split
      · exact h
      · refine List.pairwise_cons.2 ⟨?_, h⟩
        intro k hk
        rcases List.mem_cons.1 hk with rfl | hk
        · omega
        · have := hd.1 k hk; omega

theorem wf_empty : WF empty := by
  constructor <;> simp [empty, Sorted]
  constructor <;> simp [Sorted]

theorem wf_set {t : Tableau} (h : WF t) (i j : Nat) (a : Rat) : WF (t.set i j a) := by
  unfold set
  split
  · split
    · rename_i hi
      have hsub := eraseCell_sublist (t.rows i).cells j
      constructor
      · intro k
        by_cases hk : k = i
        · subst hk; simp only [Function.update_self]
          exact ⟨(h.row k).den, (h.row k).sorted.sublist hsub, fun c hc => (h.row k).nz c (hsub.subset hc)⟩
        · simp only [Function.update_of_ne hk]; exact h.row k
      · exact h.colSorted
      · intro k c hc
        by_cases hk : k = i
        · subst hk; simp only [Function.update_self] at hc; exact h.colCover k c (hsub.subset hc)
        · simp only [Function.update_of_ne hk] at hc; exact h.colCover k c hc
      · exact h.colRange
      · intro k c hc
        by_cases hk : k = i
        · subst hk; simp only [Function.update_self] at hc; exact h.rowRange k c (hsub.subset hc)
        · simp only [Function.update_of_ne hk] at hc; exact h.rowRange k c hc
      · intro k hk
        simp only at hk ⊢
        rw [Function.update_of_ne (by omega)]; exact h.rowBeyond k hk
      · exact h.colBeyond
    · exact h
  · rename_i ha
    have hden : (a.den : Int) ≠ 0 := by exact_mod_cast a.den_nz
    have hrd := (h.row i).den
    have hg : (Int.gcd (a.den : Int) (t.rows i).den : Int) ≠ 0 := by
      intro h0
      rw [Int.natCast_eq_zero, Int.gcd_eq_zero_iff] at h0
      exact hden h0.1
    have h1 : (a.den : Int) / (Int.gcd (a.den : Int) (t.rows i).den : Int) ≠ 0 :=
      fun h0 => hden ((ediv_eq_zero_dvd (Int.gcd_dvd_left ..)).1 h0)
    have h2 : (t.rows i).den / (Int.gcd (a.den : Int) (t.rows i).den : Int) ≠ 0 :=
      fun h0 => hrd ((ediv_eq_zero_dvd (Int.gcd_dvd_right ..)).1 h0)
    have hnum : a.num ≠ 0 := fun h0 => ha (Rat.num_eq_zero.1 h0)
    constructor
    · intro k
      by_cases hk : k = i
      · subst hk; simp only [Function.update_self]
        refine ⟨mul_ne_zero hrd h1, sorted_putCell (h.row k).sorted j, ?_⟩
        intro c hc
        rcases mem_putCell hc with rfl | ⟨e, he, rfl⟩
        · exact mul_ne_zero hnum h2
        · exact mul_ne_zero ((h.row k).nz e he) h1
      · simp only [Function.update_of_ne hk]; exact h.row k
    · intro l
      by_cases hl : l = j
      · subst hl; simp only [Function.update_self]; exact sorted_insertIdx (h.colSorted l)
      · simp only [Function.update_of_ne hl]; exact h.colSorted l
    · intro k c hc
      simp only at hc ⊢
      have key : (c.col = j ∧ k = i) ∨ k ∈ t.cols c.col := by
        by_cases hk : k = i
        · subst hk; rw [Function.update_self] at hc
          rcases mem_putCell hc with rfl | ⟨e, he, rfl⟩
          · exact Or.inl ⟨rfl, rfl⟩
          · exact Or.inr (h.colCover k e he)
        · rw [Function.update_of_ne hk] at hc; exact Or.inr (h.colCover k c hc)
      by_cases hl : c.col = j
      · rw [hl, Function.update_self, mem_insertIdx]
        rcases key with ⟨_, rfl⟩ | key
        · exact Or.inl rfl
        · rw [hl] at key; exact Or.inr key
      · rw [Function.update_of_ne hl]; tauto
    · intro l k hk
      simp only at hk ⊢
      by_cases hl : l = j
      · subst hl; rw [Function.update_self, mem_insertIdx] at hk
        rcases hk with rfl | hk
        · omega
        · have := h.colRange l k hk; omega
      · rw [Function.update_of_ne hl] at hk; have := h.colRange l k hk; omega
    · intro k c hc
      simp only at hc ⊢
      by_cases hk : k = i
      · subst hk; rw [Function.update_self] at hc
        rcases mem_putCell hc with rfl | ⟨e, he, rfl⟩
        · simp
        · have := h.rowRange k e he; simp; omega
      · rw [Function.update_of_ne hk] at hc; have := h.rowRange k c hc; omega
    · intro k hk
      simp only at hk ⊢
      rw [Function.update_of_ne (by omega)]; exact h.rowBeyond k (by omega)
    · intro l hl
      simp only at hl ⊢
      rw [Function.update_of_ne (by omega)]; exact h.colBeyond l (by omega)

theorem coef_set {t : Tableau} (h : WF t) (i j : Nat) (a : Rat) (k l : Nat) :
    (t.set i j a).coef k l = if k = i ∧ l = j then a else t.coef k l := by
  unfold set
  split
  · rename_i ha
    subst ha
    split
    · unfold coef rowCoef
      by_cases hk : k = i
      · subst hk; simp only [Function.update_self]
        rw [coefL_eraseCell (h.row k).sorted]
        by_cases hl : l = j <;> simp [hl]
      · simp only [Function.update_of_ne hk]; simp [hk]
    · rename_i hi
      by_cases hk : k = i
      · subst hk
        have : t.coef k l = 0 := by unfold coef; rw [h.rowBeyond k (by omega)]; simp [rowCoef, coefL]
        rw [this]; simp
      · simp [hk]
  · rename_i ha
    by_cases hk : k = i
    · subst hk
      unfold coef rowCoef
      simp only [Function.update_self]
      rw [coefL_putCell (h.row k).sorted]
      have hden : (a.den : Int) ≠ 0 := by exact_mod_cast a.den_nz
      have hrd := (h.row k).den
      have e1 := Int.ediv_mul_cancel (Int.gcd_dvd_left (a := (a.den : Int)) (b := (t.rows k).den))
      have e2 := Int.ediv_mul_cancel (Int.gcd_dvd_right (a := (a.den : Int)) (b := (t.rows k).den))
      generalize (a.den : Int) / ((a.den : Int).gcd (t.rows k).den : Int) = ag at *
      generalize (t.rows k).den / ((a.den : Int).gcd (t.rows k).den : Int) = rg at *
      generalize ((a.den : Int).gcd (t.rows k).den : Int) = g at *
      have hag : ag ≠ 0 := by rintro rfl; simp at e1; omega
      have hrg : rg ≠ 0 := by rintro rfl; simp at e2; omega
      have hg : g ≠ 0 := by rintro rfl; simp at e2; omega
      by_cases hl : l = j
      · simp only [hl, and_self, if_true]
        rw [← e2]
        have hq : ((a.num : Int) : Rat) / ((a.den : Int) : Rat) = a := by
          have := Rat.num_div_den a
          push_cast; exact this
        conv_rhs => rw [← hq, ← e1]
        have : (ag : Rat) ≠ 0 := by exact_mod_cast hag
        have : (rg : Rat) ≠ 0 := by exact_mod_cast hrg
        have : (g : Rat) ≠ 0 := by exact_mod_cast hg
        push_cast
        field_simp
      · simp only [hl, and_false, if_false]
        have : (ag : Rat) ≠ 0 := by exact_mod_cast hag
        have : ((t.rows k).den : Rat) ≠ 0 := by exact_mod_cast hrd
        push_cast
        field_simp
    · unfold coef rowCoef
      simp only [Function.update_of_ne hk, hk, false_and, if_false]

/-! ### rows, columns -/

theorem wf_compactCol {t : Tableau} (h : WF t) (j : Nat) : WF (t.compactCol j) := by
  unfold compactCol
  constructor
  · exact h.row
  · intro l
    by_cases hl : l = j
    · subst hl; simp only [Function.update_self]; exact (h.colSorted l).filter _
    · simp only [Function.update_of_ne hl]; exact h.colSorted l
  · intro k c hc
    simp only at hc ⊢
    by_cases hl : c.col = j
    · subst hl
      rw [Function.update_self, List.mem_filter]
      refine ⟨h.colCover k c hc, ?_⟩
      rw [findCell_ne_none (h.row k), coefL_mem (h.row k).sorted hc]
      exact (h.row k).nz c hc
    · rw [Function.update_of_ne hl]; exact h.colCover k c hc
  · intro l k hk
    simp only at hk ⊢
    by_cases hl : l = j
    · subst hl; rw [Function.update_self] at hk; exact h.colRange l k (List.mem_filter.1 hk).1
    · rw [Function.update_of_ne hl] at hk; exact h.colRange l k hk
  · exact h.rowRange
  · exact h.rowBeyond
  · intro l hl
    simp only at hl ⊢
    by_cases h' : l = j
    · subst h'; rw [Function.update_self, h.colBeyond l hl]; rfl
    · rw [Function.update_of_ne h']; exact h.colBeyond l hl

theorem coef_compactCol (t : Tableau) (j k l : Nat) : (t.compactCol j).coef k l = t.coef k l := rfl

theorem coef_ne_zero {t : Tableau} (h : WF t) {i j : Nat} :
    t.coef i j ≠ 0 ↔ ∃ v, (⟨j, v⟩ : Cell) ∈ (t.rows i).cells := by
  unfold coef rowCoef
  have hd : ((t.rows i).den : Rat) ≠ 0 := by exact_mod_cast (h.row i).den
  rw [div_ne_zero_iff]
  constructor
  · rintro ⟨h1, -⟩
    have h1 : coefL (t.rows i).cells j ≠ 0 := by exact_mod_cast h1
    rw [← findCell_ne_none (h.row i), Option.isSome_iff_exists] at h1
    obtain ⟨v, hv⟩ := h1
    exact ⟨v, (findCell_some (h.row i).sorted).1 hv⟩
  · rintro ⟨v, hv⟩
    refine ⟨?_, hd⟩
    have := coefL_mem (h.row i).sorted hv
    simp only at this
    rw [this]
    exact_mod_cast (h.row i).nz _ hv

theorem mem_rowEntries {t : Tableau} (h : WF t) {i j : Nat} {a d : Int} :
    (j, a, d) ∈ t.rowEntries i ↔ d = (t.rows i).den ∧ (⟨j, a⟩ : Cell) ∈ (t.rows i).cells := by
  unfold rowEntries
  simp only [List.mem_map, Prod.mk.injEq]
  constructor
  · rintro ⟨c, hc, rfl, rfl, rfl⟩; exact ⟨rfl, hc⟩
  · rintro ⟨rfl, hc⟩; exact ⟨_, hc, rfl, rfl, rfl⟩

theorem rowEntries_coef {t : Tableau} (h : WF t) {i j : Nat} {a d : Int} (hm : (j, a, d) ∈ t.rowEntries i) :
    (a : Rat) / d = t.coef i j ∧ a ≠ 0 ∧ d ≠ 0 ∧ t.coef i j ≠ 0 := by
  obtain ⟨rfl, hm2⟩ := (mem_rowEntries h).1 hm
  have := coefL_mem (h.row i).sorted hm2
  simp only at this
  exact ⟨by unfold coef rowCoef; rw [this], (h.row i).nz _ hm2, (h.row i).den, (coef_ne_zero h).2 ⟨a, hm2⟩⟩

theorem colEntries_coef {t : Tableau} (h : WF t) {i j : Nat} {a d : Int} (hm : (i, a, d) ∈ t.colEntries j) :
    (a : Rat) / d = t.coef i j ∧ a ≠ 0 ∧ d ≠ 0 ∧ t.coef i j ≠ 0 := by
  unfold colEntries at hm
  simp only [List.mem_filterMap, Option.map_eq_some_iff, Prod.mk.injEq] at hm
  obtain ⟨k, hk, b, hb, rfl, rfl, rfl⟩ := hm
  exact rowEntries_coef h ((mem_rowEntries h).2 ⟨rfl, (findCell_some (h.row k).sorted).1 hb⟩)

theorem colEntries_fst {t : Tableau} (j : Nat) :
    (t.colEntries j).map (·.1) = (t.cols j).filter fun i => (findCell (t.rows i).cells j).isSome := by
  unfold colEntries
  generalize t.cols j = l
  induction l with
  | nil => rfl
  | cons k ks ih =>
    simp only [List.filterMap_cons, List.filter_cons]
    cases hf : findCell (t.rows k).cells j with
    | none => simpa using ih
    | some v => simpa using ih

theorem colEntries_sorted {t : Tableau} (h : WF t) (j : Nat) : ((t.colEntries j).map (·.1)).Pairwise (· < ·) := by
  rw [colEntries_fst]; exact (h.colSorted j).filter _

theorem mem_colEntries_fst {t : Tableau} (h : WF t) {i j : Nat} :
    i ∈ (t.colEntries j).map (·.1) ↔ t.coef i j ≠ 0 := by
  rw [colEntries_fst, List.mem_filter, findCell_ne_none (h.row i)]
  constructor
  · rintro ⟨-, h1⟩
    unfold coef rowCoef
    exact div_ne_zero (by exact_mod_cast h1) (by exact_mod_cast (h.row i).den)
  · intro h1
    obtain ⟨v, hv⟩ := (coef_ne_zero h).1 h1
    refine ⟨h.colCover i _ hv, ?_⟩
    have := coefL_mem (h.row i).sorted hv
    simp only at this
    rw [this]; exact (h.row i).nz _ hv

theorem rowEntries_sorted {t : Tableau} (h : WF t) (i : Nat) : ((t.rowEntries i).map (·.1)).Pairwise (· < ·) := by
  unfold rowEntries
  rw [List.map_map, List.pairwise_map]
  exact (h.row i).sorted

theorem mem_rowEntries_fst {t : Tableau} (h : WF t) {i j : Nat} :
    j ∈ (t.rowEntries i).map (·.1) ↔ t.coef i j ≠ 0 := by
  rw [coef_ne_zero h]
  unfold rowEntries
  simp only [List.map_map, List.mem_map, Function.comp]
  constructor
  · rintro ⟨c, hc, rfl⟩; exact ⟨c.val, hc⟩
  · rintro ⟨v, hv⟩; exact ⟨_, hv, rfl⟩

/-! ### pivot -/

theorem coefL_map_div {cells : List Cell} {g : Int} (h : ∀ c ∈ cells, g ∣ c.val) (l : Nat) :
    coefL (cells.map fun e => (⟨e.col, e.val / g⟩ : Cell)) l * g = coefL cells l := by
  induction cells with
  | nil => simp [coefL]
  | cons d ds ih =>
    simp only [List.map_cons, coefL]
    rw [add_mul, ih (fun c hc => h c (by simp [hc]))]
    have := Int.ediv_mul_cancel (h d (by simp))
    split
    · rw [this]
    · simp

theorem gcdCells_dvd {g g' : Int} {cells : List Cell} (h : gcdCells g cells = some g') :
    g' ∣ g ∧ ∀ c ∈ cells, g' ∣ c.val := by
  induction cells generalizing g with
  | nil => simp [gcdCells] at h; subst h; simp
  | cons c cs ih =>
    simp only [gcdCells] at h
    split at h
    · simp at h
    · obtain ⟨h1, h2⟩ := ih h
      refine ⟨h1.trans (Int.gcd_dvd_right ..), ?_⟩
      intro d hd
      rcases List.mem_cons.1 hd with rfl | hd
      · exact h1.trans (Int.gcd_dvd_left ..)
      · exact h2 d hd

theorem simplifyRow_ok {r : Row} (h : RowOK r) : RowOK (simplifyRow r) := by
  unfold simplifyRow
  split
  · exact h
  · split
    · exact h
    · rename_i g hg
      obtain ⟨h1, h2⟩ := gcdCells_dvd hg
      refine ⟨?_, sorted_map h.sorted _ (by simp), ?_⟩
      · intro h0; exact h.den ((ediv_eq_zero_dvd h1).1 h0)
      · intro c hc
        obtain ⟨d, hd, rfl⟩ := List.mem_map.1 hc
        intro h0; exact h.nz d hd ((ediv_eq_zero_dvd (h2 d hd)).1 h0)

theorem simplifyRow_coef {r : Row} (h : RowOK r) (l : Nat) : rowCoef (simplifyRow r) l = rowCoef r l := by
  unfold simplifyRow
  split
  · rfl
  · split
    · rfl
    · rename_i g hg
      obtain ⟨h1, h2⟩ := gcdCells_dvd hg
      unfold rowCoef
      simp only
      rw [← coefL_map_div h2 l]
      have hd := Int.ediv_mul_cancel h1
      have hd0 := h.den
      conv_rhs => rw [← hd]
      generalize r.den / g = q at *
      have hq : q ≠ 0 := by rintro rfl; simp at hd; omega
      have hg0 : g ≠ 0 := by rintro rfl; simp at hd; omega
      have : (q : Rat) ≠ 0 := by exact_mod_cast hq
      have : (g : Rat) ≠ 0 := by exact_mod_cast hg0
      push_cast
      field_simp

theorem simplifyRow_cols (r : Row) : (simplifyRow r).cells.map (·.col) = r.cells.map (·.col) := by
  unfold simplifyRow
  split
  · rfl
  · split
    · rfl
    · simp

theorem mem_cols_of_map_eq {a b : List Cell} (h : a.map (·.col) = b.map (·.col)) {c : Cell} (hc : c ∈ a) :
    ∃ d ∈ b, d.col = c.col := by
  have : c.col ∈ a.map (·.col) := List.mem_map_of_mem hc
  rw [h] at this
  obtain ⟨d, hd, e⟩ := List.mem_map.1 this
  exact ⟨d, hd, e⟩

theorem coefL_negRow (cells : List Cell) (j l : Nat) :
    coefL (negRow j cells) l = if l = j then coefL cells l else - coefL cells l := by
  induction cells with
  | nil => simp [negRow, coefL]
  | cons d ds ih =>
    have ih' : coefL (ds.map fun c => if c.col ≠ j then (⟨c.col, -c.val⟩ : Cell) else c) l =
      if l = j then coefL ds l else - coefL ds l := ih
    simp only [negRow, List.map_cons, coefL]
    rw [ih']
    by_cases hl : l = j
    · subst hl; by_cases hd : d.col = l <;> simp [hd]
    · by_cases hd : d.col = j
      · simp [hd, hl, Ne.symm hl]
      · simp [hd, hl]; split <;> ring

theorem negRow_cols (j : Nat) (cells : List Cell) : (negRow j cells).map (·.col) = cells.map (·.col) := by
  unfold negRow
  rw [List.map_map]
  apply List.map_congr_left
  intro c _; simp only [Function.comp]; split <;> rfl

theorem mergeRow_coef (gaij gakj p : Int) (j : Nat) (cs es : List Cell) (l : Nat) (hl : l ≠ j) :
    coefL (mergeRow gaij gakj p j cs es).1 l = gaij * coefL es l + gakj * coefL cs l := by
  fun_induction mergeRow gaij gakj p j cs es with
  | case1 => simp [coefL]
  | case2 c cs r ih => simp only [coefL] at ih ⊢; rw [ih]; split <;> ring
  | case3 e es r ih => simp only [coefL] at ih ⊢; rw [ih]; split <;> ring
  | case4 c cs e es hlt r ih => simp only [coefL] at ih ⊢; rw [ih]; split <;> ring
  | case5 c cs e es h1 h2 r ih => simp only [coefL] at ih ⊢; rw [ih]; split <;> ring
  | case6 c cs e es h1 h2 r h3 v hv ih =>
    simp only [coefL] at ih ⊢; rw [ih]
    have hce : c.col = e.col := by omega
    rw [hce]
    split
    · have : e.val * gaij + gakj * c.val = 0 := hv
      linarith
    · ring
  | case7 c cs e es h1 h2 r h3 v hv ih =>
    simp only [coefL] at ih ⊢; rw [ih]
    have hce : c.col = e.col := by omega
    rw [hce]
    split
    · show e.val * gaij + gakj * c.val + _ = _
      ring
    · ring
  | case8 c cs e es h1 h2 r h3 ih =>
    simp only [coefL] at ih ⊢; rw [ih]
    have hce : c.col = e.col := by omega
    have hej : e.col = j := by simpa using h3
    rw [hce, if_neg (by omega), if_neg (by omega), if_neg (by omega)]
    ring

/-- Every cell of the merged row comes from one of the two rows, at a column not smaller than both heads. -/
theorem mergeRow_mem (gaij gakj p : Int) (j : Nat) (cs es : List Cell) :
    ∀ c ∈ (mergeRow gaij gakj p j cs es).1, (∃ d ∈ cs, d.col = c.col) ∨ (∃ d ∈ es, d.col = c.col) := by
  fun_induction mergeRow gaij gakj p j cs es with
  | case1 => simp
  | case2 c cs r ih =>
    intro d hd
    rcases List.mem_cons.1 hd with rfl | hd
    · exact Or.inl ⟨c, by simp⟩
    · rcases ih d hd with ⟨x, hx, e⟩ | ⟨x, hx, e⟩
      · exact Or.inl ⟨x, by simp [hx], e⟩
      · exact Or.inr ⟨x, by simpa using hx, e⟩
  | case3 e es r ih =>
    intro d hd
    rcases List.mem_cons.1 hd with rfl | hd
    · exact Or.inr ⟨e, by simp⟩
    · rcases ih d hd with ⟨x, hx, e⟩ | ⟨x, hx, e⟩
      · exact Or.inl ⟨x, by simpa using hx, e⟩
      · exact Or.inr ⟨x, by simp [hx], e⟩
  | case4 c cs e es hlt r ih =>
    intro d hd
    rcases List.mem_cons.1 hd with rfl | hd
    · exact Or.inl ⟨c, by simp⟩
    · rcases ih d hd with ⟨x, hx, e⟩ | ⟨x, hx, e⟩
      · exact Or.inl ⟨x, by simp [hx], e⟩
      · exact Or.inr ⟨x, hx, e⟩
  | case5 c cs e es h1 h2 r ih =>
    intro d hd
    rcases List.mem_cons.1 hd with rfl | hd
    · exact Or.inr ⟨e, by simp⟩
    · rcases ih d hd with ⟨x, hx, e⟩ | ⟨x, hx, e⟩
      · exact Or.inl ⟨x, hx, e⟩
      · exact Or.inr ⟨x, by simp [hx], e⟩
  | case6 c cs e es h1 h2 r h3 v hv ih =>
    intro d hd
    rcases ih d hd with ⟨x, hx, e⟩ | ⟨x, hx, e⟩
    · exact Or.inl ⟨x, by simp [hx], e⟩
    · exact Or.inr ⟨x, by simp [hx], e⟩
  | case7 c cs e es h1 h2 r h3 v hv ih =>
    intro d hd
    rcases List.mem_cons.1 hd with rfl | hd
    · exact Or.inr ⟨e, by simp⟩
    rcases ih d hd with ⟨x, hx, e⟩ | ⟨x, hx, e⟩
    · exact Or.inl ⟨x, by simp [hx], e⟩
    · exact Or.inr ⟨x, by simp [hx], e⟩
  | case8 c cs e es h1 h2 r h3 ih =>
    intro d hd
    rcases List.mem_cons.1 hd with rfl | hd
    · exact Or.inr ⟨e, by simp⟩
    rcases ih d hd with ⟨x, hx, e⟩ | ⟨x, hx, e⟩
    · exact Or.inl ⟨x, by simp [hx], e⟩
    · exact Or.inr ⟨x, by simp [hx], e⟩

theorem mergeRow_coef_j (gaij gakj p : Int) (j : Nat) (cs es : List Cell) (hcs : Sorted cs) (hes : Sorted es)
    (h1 : ∃ c ∈ cs, c.col = j) (h2 : ∃ c ∈ es, c.col = j) :
    coefL (mergeRow gaij gakj p j cs es).1 j = p := by
  fun_induction mergeRow gaij gakj p j cs es with
  | case1 => simp at h1
  | case2 c cs r ih => simp at h2
  | case3 e es r ih => simp at h1
  | case4 c cs e es hlt r ih =>
    have hcj : c.col ≠ j := by
      obtain ⟨d, hd, rfl⟩ := h2
      rcases List.mem_cons.1 hd with rfl | hd
      · omega
      · have := hes.head d hd; omega
    simp only [coefL]
    rw [if_neg hcj, zero_add, ih hcs.tail hes ?_ h2]
    obtain ⟨d, hd, e'⟩ := h1
    rcases List.mem_cons.1 hd with rfl | hd
    · exact absurd e' hcj
    · exact ⟨d, hd, e'⟩
  | case5 c cs e es h1' h2' r ih =>
    have hcj : e.col ≠ j := by
      obtain ⟨d, hd, rfl⟩ := h1
      rcases List.mem_cons.1 hd with rfl | hd
      · omega
      · have := hcs.head d hd; omega
    simp only [coefL]
    rw [if_neg hcj, zero_add, ih hcs hes.tail h1 ?_]
    obtain ⟨d, hd, e'⟩ := h2
    rcases List.mem_cons.1 hd with rfl | hd
    · exact absurd e' hcj
    · exact ⟨d, hd, e'⟩
  | case6 c cs e es h1' h2' r h3 v hv ih =>
    have hce : c.col = e.col := by omega
    apply ih hcs.tail hes.tail
    · obtain ⟨d, hd, e'⟩ := h1
      rcases List.mem_cons.1 hd with rfl | hd
      · omega
      · exact ⟨d, hd, e'⟩
    · obtain ⟨d, hd, e'⟩ := h2
      rcases List.mem_cons.1 hd with rfl | hd
      · omega
      · exact ⟨d, hd, e'⟩
  | case7 c cs e es h1' h2' r h3 v hv ih =>
    have hce : c.col = e.col := by omega
    simp only [coefL]
    rw [if_neg h3, zero_add]
    apply ih hcs.tail hes.tail
    · obtain ⟨d, hd, e'⟩ := h1
      rcases List.mem_cons.1 hd with rfl | hd
      · omega
      · exact ⟨d, hd, e'⟩
    · obtain ⟨d, hd, e'⟩ := h2
      rcases List.mem_cons.1 hd with rfl | hd
      · omega
      · exact ⟨d, hd, e'⟩
  | case8 c cs e es h1' h2' r h3 ih =>
    have hce : c.col = e.col := by omega
    have hej : e.col = j := by simpa using h3
    simp only [coefL]
    rw [if_pos hej, coefL_eq_zero, add_zero]
    intro d hd
    rcases mergeRow_mem _ _ _ _ _ _ d hd with ⟨x, hx, ex⟩ | ⟨x, hx, ex⟩
    · have := hcs.head x hx; omega
    · have := hes.head x hx; omega

theorem mergeRow_sorted (gaij gakj p : Int) (j : Nat) (cs es : List Cell) (hcs : Sorted cs) (hes : Sorted es) :
    Sorted (mergeRow gaij gakj p j cs es).1 := by
  fun_induction mergeRow gaij gakj p j cs es with
  | case1 => simp [Sorted]
  | case2 c cs r ih =>
    refine List.pairwise_cons.2 ⟨?_, ih hcs.tail hes⟩
    intro d hd
    rcases mergeRow_mem _ _ _ _ _ _ d hd with ⟨x, hx, ex⟩ | ⟨x, hx, ex⟩
    · have := hcs.head x hx; simp only; omega
    · simp at hx
  | case3 e es r ih =>
    refine List.pairwise_cons.2 ⟨?_, ih hcs hes.tail⟩
    intro d hd
    rcases mergeRow_mem _ _ _ _ _ _ d hd with ⟨x, hx, ex⟩ | ⟨x, hx, ex⟩
    · simp at hx
    · have := hes.head x hx; simp only; omega
  | case4 c cs e es hlt r ih =>
    refine List.pairwise_cons.2 ⟨?_, ih hcs.tail hes⟩
    intro d hd
    rcases mergeRow_mem _ _ _ _ _ _ d hd with ⟨x, hx, ex⟩ | ⟨x, hx, ex⟩
    · have := hcs.head x hx; simp only; omega
    · rcases List.mem_cons.1 hx with rfl | hx
      · simp only; omega
      · have := hes.head x hx; simp only; omega
  | case5 c cs e es h1 h2 r ih =>
    refine List.pairwise_cons.2 ⟨?_, ih hcs hes.tail⟩
    intro d hd
    rcases mergeRow_mem _ _ _ _ _ _ d hd with ⟨x, hx, ex⟩ | ⟨x, hx, ex⟩
    · rcases List.mem_cons.1 hx with rfl | hx
      · simp only; omega
      · have := hcs.head x hx; simp only; omega
    · have := hes.head x hx; simp only; omega
  | case6 c cs e es h1 h2 r h3 v hv ih => exact ih hcs.tail hes.tail
  | case7 c cs e es h1 h2 r h3 v hv ih =>
    refine List.pairwise_cons.2 ⟨?_, ih hcs.tail hes.tail⟩
    intro d hd
    rcases mergeRow_mem _ _ _ _ _ _ d hd with ⟨x, hx, ex⟩ | ⟨x, hx, ex⟩
    · have := hcs.head x hx; simp only; omega
    · have := hes.head x hx; simp only; omega
  | case8 c cs e es h1 h2 r h3 ih =>
    refine List.pairwise_cons.2 ⟨?_, ih hcs.tail hes.tail⟩
    intro d hd
    rcases mergeRow_mem _ _ _ _ _ _ d hd with ⟨x, hx, ex⟩ | ⟨x, hx, ex⟩
    · have := hcs.head x hx; simp only; omega
    · have := hes.head x hx; simp only; omega

theorem mergeRow_nz (gaij gakj p : Int) (j : Nat) (cs es : List Cell) (hcs : ∀ c ∈ cs, c.val ≠ 0)
    (hes : ∀ c ∈ es, c.val ≠ 0) (h1 : gaij ≠ 0) (h2 : gakj ≠ 0) (h3 : p ≠ 0) :
    ∀ c ∈ (mergeRow gaij gakj p j cs es).1, c.val ≠ 0 := by
  fun_induction mergeRow gaij gakj p j cs es with
  | case1 => simp
  | case2 c cs r ih =>
    intro d hd
    rcases List.mem_cons.1 hd with rfl | hd
    · exact mul_ne_zero h2 (hcs c (by simp))
    · exact ih (fun c hc => hcs c (by simp [hc])) hes d hd
  | case3 e es r ih =>
    intro d hd
    rcases List.mem_cons.1 hd with rfl | hd
    · exact mul_ne_zero (hes e (by simp)) h1
    · exact ih hcs (fun c hc => hes c (by simp [hc])) d hd
  | case4 c cs e es hlt r ih =>
    intro d hd
    rcases List.mem_cons.1 hd with rfl | hd
    · exact mul_ne_zero h2 (hcs c (by simp))
    · exact ih (fun c hc => hcs c (by simp [hc])) hes d hd
  | case5 c cs e es h1 h2 r ih =>
    intro d hd
    rcases List.mem_cons.1 hd with rfl | hd
    · exact mul_ne_zero (hes e (by simp)) (by assumption)
    · exact ih hcs (fun c hc => hes c (by simp [hc])) d hd
  | case6 c cs e es h1 h2 r h3 v hv ih =>
    exact ih (fun c hc => hcs c (by simp [hc])) (fun c hc => hes c (by simp [hc]))
  | case7 c cs e es h1 h2 r h3 v hv ih =>
    intro d hd
    rcases List.mem_cons.1 hd with rfl | hd
    · exact hv
    · exact ih (fun c hc => hcs c (by simp [hc])) (fun c hc => hes c (by simp [hc])) d hd
  | case8 c cs e es h1 h2 r h3 ih =>
    intro d hd
    rcases List.mem_cons.1 hd with rfl | hd
    · assumption
    · exact ih (fun c hc => hcs c (by simp [hc])) (fun c hc => hes c (by simp [hc])) d hd

/-- The columns reported as inserted: those of row `i` that are not in row `k`; no duplicates. -/
theorem mergeRow_ins (gaij gakj p : Int) (j : Nat) (cs es : List Cell) (hcs : Sorted cs) (hes : Sorted es) :
    (mergeRow gaij gakj p j cs es).2 = (cs.map (·.col)).filter fun l => ∀ e ∈ es, e.col ≠ l := by
  fun_induction mergeRow gaij gakj p j cs es with
  | case1 => simp
  | case2 c cs r ih =>
    have := ih hcs.tail hes
    simp at this ⊢; exact this
  | case3 e es r ih => have := ih hcs hes.tail; simp at this ⊢; exact this
  | case4 c cs e es hlt r ih =>
    have := ih hcs.tail hes
    simp only [List.map_cons, List.filter_cons]
    rw [if_pos]
    · rw [← this]
    · simp only [decide_eq_true_eq]
      intro d hd
      rcases List.mem_cons.1 hd with rfl | hd
      · omega
      · have := hes.head d hd; omega
  | case5 c cs e es h1 h2 r ih =>
    have := ih hcs hes.tail
    refine Eq.trans this ?_
    apply List.filter_congr
    intro l hl
    obtain ⟨d, hd, rfl⟩ := List.mem_map.1 hl
    have : e.col ≠ d.col := by
      rcases List.mem_cons.1 hd with rfl | hd
      · omega
      · have := hcs.head d hd; omega
    simp [this]
  | case6 c cs e es h1 h2 r h3 v hv ih | case7 c cs e es h1 h2 r h3 v hv ih | case8 c cs e es h1 h2 r h3 ih =>
    have hce : c.col = e.col := by omega
    have := ih hcs.tail hes.tail
    refine Eq.trans this ?_
    simp only [List.map_cons, List.filter_cons]
    rw [if_neg (by simp [hce])]
    apply List.filter_congr
    intro l hl
    obtain ⟨d, hd, rfl⟩ := List.mem_map.1 hl
    have : e.col ≠ d.col := by
      have := hcs.head d hd; omega
    simp [this]

theorem mem_setUnion (as bs : List Nat) (k : Nat) : k ∈ setUnion as bs ↔ k ∈ as ∨ k ∈ bs := by
  fun_induction setUnion as bs with
  | case1 bs => simp
  | case2 as h => simp
  | case3 a as b bs h ih => simp only [List.mem_cons] at ih ⊢; rw [ih]; tauto
  | case4 a as b bs h h' ih => simp only [List.mem_cons] at ih ⊢; rw [ih]; tauto
  | case5 a as b bs h h' ih =>
    have : a = b := by omega
    subst this
    simp only [List.mem_cons] at ih ⊢; rw [ih]; tauto

theorem sorted_setUnion (as bs : List Nat) (ha : as.Pairwise (· < ·)) (hb : bs.Pairwise (· < ·)) :
    (setUnion as bs).Pairwise (· < ·) := by
  fun_induction setUnion as bs with
  | case1 bs => exact hb
  | case2 as h => exact ha
  | case3 a as b bs h ih =>
    have ha' := List.pairwise_cons.1 ha
    have hb' := List.pairwise_cons.1 hb
    refine List.pairwise_cons.2 ⟨?_, ih ha'.2 hb⟩
    intro k hk
    rw [mem_setUnion, List.mem_cons] at hk
    rcases hk with hk | rfl | hk
    · exact ha'.1 k hk
    · exact h
    · have := hb'.1 k hk; omega
  | case4 a as b bs h h' ih =>
    have ha' := List.pairwise_cons.1 ha
    have hb' := List.pairwise_cons.1 hb
    refine List.pairwise_cons.2 ⟨?_, ih ha hb'.2⟩
    intro k hk
    rw [mem_setUnion, List.mem_cons] at hk
    rcases hk with (rfl | hk) | hk
    · exact h'
    · have := ha'.1 k hk; omega
    · exact hb'.1 k hk
  | case5 a as b bs h h' ih =>
    have ha' := List.pairwise_cons.1 ha
    have hb' := List.pairwise_cons.1 hb
    refine List.pairwise_cons.2 ⟨?_, ih ha'.2 hb'.2⟩
    intro k hk
    rw [mem_setUnion] at hk
    rcases hk with hk | hk
    · exact ha'.1 k hk
    · have := hb'.1 k hk; omega

theorem fixCol_spec (as bs : List Nat) (ha : as.Pairwise (· < ·)) (hb : bs.Pairwise (· < ·)) :
    (fixCol (as ++ bs) bs.length).Pairwise (· < ·) ∧ ∀ k, k ∈ fixCol (as ++ bs) bs.length ↔ k ∈ as ∨ k ∈ bs := by
  unfold fixCol
  split
  · rename_i h
    have : bs = [] := List.length_eq_zero_iff.1 h
    subst this
    simpa using ha
  · split
    · rename_i h
      obtain ⟨b, rfl⟩ := List.length_eq_one_iff.1 h
      simp only [List.getLast?_append, List.getLast?_singleton, Option.some_or, List.dropLast_concat]
      refine ⟨sorted_insertIdx ha, fun k => ?_⟩
      rw [mem_insertIdx]; simp; tauto
    · have : (as ++ bs).length - bs.length = as.length := by simp
      rw [this, List.take_left, List.drop_left]
      exact ⟨sorted_setUnion _ _ ha hb, mem_setUnion _ _⟩

theorem pushCols_rows (k : Nat) (ins : List Nat) (st : PivotSt) :
    (pushCols k ins st).rows = st.rows ∧ (pushCols k ins st).kept = st.kept := by
  unfold pushCols
  induction ins generalizing st with
  | nil => simp
  | cons a as ih => simp only [List.foldl_cons]; rw [(ih _).1, (ih _).2]; simp

theorem pushCols_cols (k : Nat) (ins : List Nat) (st : PivotSt) (h : ins.Nodup) (l : Nat) :
    (pushCols k ins st).cols l = st.cols l ++ (if l ∈ ins then [k] else []) ∧
    (pushCols k ins st).sizes l = st.sizes l + (if l ∈ ins then 1 else 0) := by
  unfold pushCols
  induction ins generalizing st with
  | nil => simp
  | cons a as ih =>
    have hn := List.nodup_cons.1 h
    simp only [List.foldl_cons]
    rw [(ih _ hn.2).1, (ih _ hn.2).2]
    by_cases hl : l = a
    · subst hl; simp [hn.1]
    · simp [hl]

section pivot
variable (t : Tableau) (i j : Nat)

/-- pivot cell -/
abbrev pa : Int := (findCell (t.rows i).cells j).getD 0
abbrev prow : List Cell := negRow j (t.rows i).cells

def mrg (k : Nat) (akj : Int) : List Cell × List Nat :=
  let aij := pa t i j
  let g : Int := Int.gcd aij akj
  mergeRow (aij / g) (akj / g) (akj / g * (t.rows i).den) j (prow t i j) (t.rows k).cells

def newRow (k : Nat) : Row :=
  match findCell (t.rows k).cells j with
  | none => t.rows k
  | some akj =>
    let aij := pa t i j
    let g : Int := Int.gcd aij akj
    simplifyRow { den := (t.rows k).den * (aij / g), cells := (mrg t i j k akj).1 }

def insCols (k : Nat) : List Nat :=
  if k = i then [] else
  match findCell (t.rows k).cells j with
  | none => []
  | some akj => (mrg t i j k akj).2

structure PInv (done : List Nat) (st : PivotSt) : Prop where
  rows : ∀ k, st.rows k = if k = i then { t.rows i with cells := prow t i j }
    else if k ∈ done then newRow t i j k else t.rows k
  cols : ∀ l, st.cols l = t.cols l ++ done.filter fun k => l ∈ insCols t i j k
  sizes : ∀ l, st.sizes l = (done.filter fun k => l ∈ insCols t i j k).length
  kept : st.kept = done.filter fun k => (findCell (t.rows k).cells j).isSome

variable {t i j}

theorem sorted_prow (h : WF t) : Sorted (prow t i j) := by
  unfold prow negRow
  exact sorted_map (h.row i).sorted _ (by intro c; split <;> rfl)

theorem insCols_nodup (h : WF t) (k : Nat) : (insCols t i j k).Nodup := by
  unfold insCols
  split
  · simp
  · split
    · simp
    · unfold mrg
      simp only
      rw [mergeRow_ins _ _ _ _ _ _ (sorted_prow h) (h.row k).sorted]
      apply List.Pairwise.filter
      have := sorted_prow (i := i) (j := j) h
      unfold Sorted at this
      rw [List.pairwise_map]
      exact this.imp (fun h => by omega)

theorem findCell_prow (h : WF t) (hij : t.coef i j ≠ 0) :
    findCell (prow t i j) j = some (pa t i j) ∧ findCell (t.rows i).cells j = some (pa t i j) := by
  obtain ⟨v, hv⟩ := (coef_ne_zero h).1 hij
  have h2 := (findCell_some (h.row i).sorted).2 hv
  have hpa : pa t i j = v := by unfold pa; rw [h2]; rfl
  refine ⟨?_, by rw [hpa, h2]⟩
  rw [findCell_some (sorted_prow h), hpa]
  unfold prow negRow
  exact List.mem_map.2 ⟨_, hv, by simp⟩

theorem pinv_step (h : WF t) (hij : t.coef i j ≠ 0) {done : List Nat} {st : PivotSt}
    (hi : PInv t i j done st) {k : Nat} (hk : k ∉ done) :
    PInv t i j (done ++ [k]) (pivotStep i j (pa t i j) (t.rows i).den st k) := by
  have hrow_i : st.rows i = { t.rows i with cells := prow t i j } := by rw [hi.rows i, if_pos rfl]
  by_cases hki : k = i
  · subst hki
    have hins : insCols t k j k = [] := by simp [insCols]
    have hf := (findCell_prow h hij)
    have hst : pivotStep k j (pa t k j) (t.rows k).den st k = { st with kept := st.kept ++ [k] } := by
      unfold pivotStep
      rw [hrow_i]; simp only [hf.1, if_true]
    rw [hst]
    constructor
    · intro m; rw [hi.rows m]
      by_cases hm : m = k
      · simp [hm]
      · simp [hm]
    · intro l; simp only [hi.cols l, List.filter_append]; simp [hins]
    · intro l; simp only [hi.sizes l, List.filter_append]; simp [hins]
    · simp only [hi.kept, List.filter_append]; simp [hf.2]
  · have hrow_k : st.rows k = t.rows k := by rw [hi.rows k, if_neg hki, if_neg hk]
    cases hf : findCell (t.rows k).cells j with
    | none =>
      have hins : insCols t i j k = [] := by simp [insCols, hf]
      have hst : pivotStep i j (pa t i j) (t.rows i).den st k = st := by
        unfold pivotStep; rw [hrow_k, hf]
      rw [hst]
      constructor
      · intro m; rw [hi.rows m]
        by_cases hm : m = i
        · simp [hm]
        · by_cases hmk : m = k
          · subst hmk; simp [hm, hk, newRow, hf]
          · simp [hm, hmk]
      · intro l; simp only [hi.cols l, List.filter_append]; simp [hins]
      · intro l; simp only [hi.sizes l, List.filter_append]; simp [hins]
      · simp only [hi.kept, List.filter_append]; simp [hf]
    | some akj =>
      have hins : insCols t i j k = (mrg t i j k akj).2 := by simp [insCols, hf, hki]
      have hst : pivotStep i j (pa t i j) (t.rows i).den st k =
          { pushCols k (mrg t i j k akj).2 { st with kept := st.kept ++ [k] } with
            rows := Function.update st.rows k (newRow t i j k) } := by
        unfold pivotStep
        rw [hrow_k, hf]
        simp only [if_neg hki]
        rw [(pushCols_rows _ _ _).1, hrow_i, hrow_k]
        simp only [newRow, hf, mrg]
      rw [hst]
      have hnd := insCols_nodup (i := i) (j := j) h k
      rw [hins] at hnd
      constructor
      · intro m; simp only
        by_cases hmk : m = k
        · subst hmk; rw [Function.update_self]; simp [hki]
        · rw [Function.update_of_ne hmk, hi.rows m]; simp [hmk]
      · intro l; simp only
        rw [(pushCols_cols _ _ _ hnd l).1, hi.cols l, List.filter_append]
        simp only [List.append_assoc, List.filter_cons, List.filter_nil, hins, decide_eq_true_eq]
      · intro l; simp only
        rw [(pushCols_cols _ _ _ hnd l).2, hi.sizes l, List.filter_append]
        simp only [List.filter_cons, List.filter_nil, hins, decide_eq_true_eq, List.length_append]
        split <;> rfl
      · simp only [(pushCols_rows _ _ _).2, hi.kept, List.filter_append]; simp [hf]

theorem pinv_fold (h : WF t) (hij : t.coef i j ≠ 0) (rest done : List Nat) (st : PivotSt)
    (hi : PInv t i j done st) (hnd : (done ++ rest).Nodup) :
    PInv t i j (done ++ rest) (rest.foldl (pivotStep i j (pa t i j) (t.rows i).den) st) := by
  induction rest generalizing done st with
  | nil => simpa using hi
  | cons k ks ih =>
    simp only [List.foldl_cons]
    have hk : k ∉ done := by
      rw [List.nodup_append] at hnd
      intro hm; exact hnd.2.2 k hm k (by simp) rfl
    have := ih (done ++ [k]) _ (pinv_step h hij hi hk) (by simpa using hnd)
    simpa using this

theorem fixFold (cells : List Cell) (hs : Sorted cells) (cols : Nat → List Nat) (sz : Nat → Nat) (l : Nat) :
    cells.foldl (fun cols c => Function.update cols c.col (fixCol (cols c.col) (sz c.col))) cols l =
      if l ∈ cells.map (·.col) then fixCol (cols l) (sz l) else cols l := by
  induction cells generalizing cols with
  | nil => simp
  | cons c cs ih =>
    simp only [List.foldl_cons]
    rw [ih hs.tail]
    by_cases hl : l = c.col
    · subst hl
      have : c.col ∉ cs.map (·.col) := by
        intro hm; obtain ⟨d, hd, e⟩ := List.mem_map.1 hm; have := hs.head d hd; omega
      rw [if_neg this, Function.update_self, if_pos (by simp)]
    · rw [Function.update_of_ne hl]
      simp [hl]

/-- Closed form of the pivoted tableau. -/
theorem pivot_eq (h : WF t) (hij : t.coef i j ≠ 0) :
    (∀ k, (t.pivot i j).rows k = if k = i then swapRow j (pa t i j) (t.rows i).den { t.rows i with cells := prow t i j }
      else newRow t i j k) ∧
    (∀ l, (t.pivot i j).cols l = if l ∈ (prow t i j).map (·.col) then
        fixCol ((if l = j then (t.cols j).filter fun k => (findCell (t.rows k).cells j).isSome
            else t.cols l ++ (t.cols j).filter fun k => l ∈ insCols t i j k))
          ((t.cols j).filter fun k => l ∈ insCols t i j k).length
        else t.cols l) := by
  have hnd : (t.cols j).Nodup := by
    rw [List.nodup_iff_pairwise_ne]; exact (h.colSorted j).imp (fun h => by omega)
  have hinit : PInv t i j [] (PivotSt.mk (Function.update t.rows i { t.rows i with cells := prow t i j })
      t.cols (fun _ => 0) []) := by
    constructor
    · intro k; simp only
      by_cases hk : k = i
      · subst hk; simp
      · simp [hk]
    · simp
    · simp
    · simp
  have hp := pinv_fold h hij (t.cols j) [] _ hinit (by simpa using hnd)
  rw [List.nil_append] at hp
  have hri := hp.rows i
  rw [if_pos rfl] at hri
  have hprowcols : ∀ l, l ∉ (prow t i j).map (·.col) → ∀ k, l ∉ insCols t i j k := by
    intro l hl k hm
    unfold insCols at hm
    split at hm
    · simp at hm
    · split at hm
      · simp at hm
      · unfold mrg at hm; simp only at hm
        rw [mergeRow_ins _ _ _ _ _ _ (sorted_prow h) (h.row k).sorted] at hm
        exact hl (List.mem_filter.1 hm).1
  constructor
  · intro k
    unfold pivot
    simp only
    by_cases hk : k = i
    · subst hk; rw [Function.update_self, if_pos rfl]
      rw [hri]
    · rw [Function.update_of_ne hk, if_neg hk, hp.rows k, if_neg hk]
      split
      · rfl
      · rename_i hm
        have hf : findCell (t.rows k).cells j = none := by
          rw [findCell_none (h.row k).sorted]
          intro c hc e; subst e; exact hm (h.colCover k c hc)
        simp [newRow, hf]
  · intro l
    unfold pivot
    simp only
    rw [hri]
    simp only
    rw [fixFold _ (sorted_prow h)]
    split
    · rw [hp.sizes l]
      by_cases hl : l = j
      · subst hl; rw [Function.update_self, hp.kept, if_pos rfl]
      · rw [Function.update_of_ne hl, hp.cols l, if_neg hl]
    · rename_i hl
      have hlj : l ≠ j := by
        rintro rfl
        apply hl
        have := (findCell_some (sorted_prow h)).1 (findCell_prow h hij).1
        exact List.mem_map.2 ⟨_, this, rfl⟩
      rw [Function.update_of_ne hlj, hp.cols l]
      have : ((t.cols j).filter fun k => decide (l ∈ insCols t i j k)) = [] := by
        rw [List.filter_eq_nil_iff]; intro k _; simpa using hprowcols l hl k
      rw [this, List.append_nil]

theorem pa_ne (h : WF t) (hij : t.coef i j ≠ 0) : pa t i j ≠ 0 := by
  have := (findCell_some (h.row i).sorted).1 (findCell_prow h hij).2
  exact (h.row i).nz _ this

theorem prow_nz (h : WF t) : ∀ c ∈ prow t i j, c.val ≠ 0 := by
  intro c hc
  obtain ⟨d, hd, rfl⟩ := List.mem_map.1 hc
  have := (h.row i).nz d hd
  split
  · simpa using this
  · exact this

theorem prow_mem_j (h : WF t) (hij : t.coef i j ≠ 0) : ∃ c ∈ prow t i j, c.col = j :=
  ⟨_, (findCell_some (sorted_prow h)).1 (findCell_prow h hij).1, rfl⟩

theorem gcd_facts {a b : Int} (ha : a ≠ 0) (hb : b ≠ 0) :
    ∃ g : Int, g ≠ 0 ∧ g = (Int.gcd a b : Int) ∧ a / g * g = a ∧ b / g * g = b ∧ a / g ≠ 0 ∧ b / g ≠ 0 := by
  refine ⟨(Int.gcd a b : Int), ?_, rfl, Int.ediv_mul_cancel (Int.gcd_dvd_left ..),
    Int.ediv_mul_cancel (Int.gcd_dvd_right ..), ?_, ?_⟩
  · intro h0; rw [Int.natCast_eq_zero, Int.gcd_eq_zero_iff] at h0; exact ha h0.1
  · intro h0; exact ha ((ediv_eq_zero_dvd (Int.gcd_dvd_left ..)).1 h0)
  · intro h0; exact hb ((ediv_eq_zero_dvd (Int.gcd_dvd_right ..)).1 h0)

theorem newRow_ok (h : WF t) (hij : t.coef i j ≠ 0) (k : Nat) : RowOK (newRow t i j k) := by
  unfold newRow
  cases hf : findCell (t.rows k).cells j with
  | none => exact h.row k
  | some akj =>
    simp only
    have hakj : akj ≠ 0 := (h.row k).nz _ ((findCell_some (h.row k).sorted).1 hf)
    obtain ⟨g, hg, hge, -, -, h3, h4⟩ := gcd_facts (pa_ne h hij) hakj
    rw [← hge]
    apply simplifyRow_ok
    refine ⟨mul_ne_zero (h.row k).den h3, ?_, ?_⟩
    · exact mergeRow_sorted _ _ _ _ _ _ (sorted_prow h) (h.row k).sorted
    · unfold mrg; simp only; rw [← hge]
      exact mergeRow_nz _ _ _ _ _ _ (prow_nz h) (h.row k).nz h3 h4 (mul_ne_zero h4 (h.row i).den)

theorem rowCoef_of_some {r : Row} (h : RowOK r) {v : Int} (hf : findCell r.cells j = some v) :
    rowCoef r j = (v : Rat) / r.den := by
  unfold rowCoef
  have := coefL_mem h.sorted ((findCell_some h.sorted).1 hf)
  simp only at this
  rw [this]

theorem newRow_coef (h : WF t) (hij : t.coef i j ≠ 0) (k l : Nat) :
    rowCoef (newRow t i j k) l = if l = j then t.coef k j / t.coef i j
      else t.coef k l - t.coef k j * t.coef i l / t.coef i j := by
  have hok := newRow_ok h hij k
  unfold newRow at hok ⊢
  cases hf : findCell (t.rows k).cells j with
  | none =>
    have h0 : t.coef k j = 0 := by
      unfold coef rowCoef; rw [coefL_eq_zero ((findCell_none (h.row k).sorted).1 hf)]; simp
    simp only [h0]
    by_cases hl : l = j
    · subst hl; simp only [if_true]; show t.coef k l = _; rw [h0]; simp
    · simp only [if_neg hl]; show t.coef k l = _; simp
  | some akj =>
    simp only
    have hkm := (findCell_some (h.row k).sorted).1 hf
    have hakj : akj ≠ 0 := (h.row k).nz _ hkm
    have hpa := pa_ne h hij
    obtain ⟨g, hg, hge, e1, e2, h3, h4⟩ := gcd_facts hpa hakj
    have hok2 : RowOK { den := (t.rows k).den * (pa t i j / g), cells := (mrg t i j k akj).1 } := by
      refine ⟨mul_ne_zero (h.row k).den h3, ?_, ?_⟩
      · exact mergeRow_sorted _ _ _ _ _ _ (sorted_prow h) (h.row k).sorted
      · unfold mrg; simp only; rw [← hge]
        exact mergeRow_nz _ _ _ _ _ _ (prow_nz h) (h.row k).nz h3 h4 (mul_ne_zero h4 (h.row i).den)
    rw [← hge, simplifyRow_coef hok2]
    have ckj : t.coef k j = (akj : Rat) / (t.rows k).den := rowCoef_of_some (h.row k) hf
    have cij : t.coef i j = (pa t i j : Rat) / (t.rows i).den := rowCoef_of_some (h.row i) (findCell_prow h hij).2
    rw [ckj, cij]
    have hdk : ((t.rows k).den : Rat) ≠ 0 := by exact_mod_cast (h.row k).den
    have hdi : ((t.rows i).den : Rat) ≠ 0 := by exact_mod_cast (h.row i).den
    have hgq : (g : Rat) ≠ 0 := by exact_mod_cast hg
    have h3q : ((pa t i j / g : Int) : Rat) ≠ 0 := by exact_mod_cast h3
    have h4q : ((akj / g : Int) : Rat) ≠ 0 := by exact_mod_cast h4
    have e1q : (pa t i j : Rat) = ((pa t i j / g : Int) : Rat) * g := by exact_mod_cast e1.symm
    have e2q : (akj : Rat) = ((akj / g : Int) : Rat) * g := by exact_mod_cast e2.symm
    rw [e1q, e2q]
    unfold rowCoef mrg
    simp only
    rw [← hge]
    generalize pa t i j / g = A at *
    generalize akj / g = B at *
    by_cases hl : l = j
    · subst hl
      rw [if_pos rfl, mergeRow_coef_j _ _ _ _ _ _ (sorted_prow h) (h.row k).sorted (prow_mem_j h hij) ⟨_, hkm, rfl⟩]
      push_cast
      field_simp
    · rw [if_neg hl, mergeRow_coef _ _ _ _ _ _ _ hl]
      unfold coef rowCoef prow
      rw [coefL_negRow, if_neg hl]
      push_cast
      field_simp
      ring

theorem swap_aux (cells : List Cell) (hs : Sorted cells) (d : Int) (l : Nat) (hm : ∃ c ∈ cells, c.col = j) :
    coefL (cells.map fun c => if c.col = j then (⟨c.col, d⟩ : Cell) else c) l = if l = j then d else coefL cells l := by
  induction cells with
  | nil => simp at hm
  | cons c cs ih =>
    simp only [List.map_cons, coefL]
    by_cases hc : c.col = j
    · have hcs : cs.map (fun c => if c.col = j then (⟨c.col, d⟩ : Cell) else c) = cs := by
        conv_rhs => rw [← List.map_id cs]
        apply List.map_congr_left
        intro e he; have := hs.head e he; rw [if_neg (by omega)]; rfl
      rw [hcs]
      by_cases hl : l = j
      · subst hl; simp only [hc, if_true]
        rw [coefL_eq_zero, add_zero]
        intro e he; have := hs.head e he; omega
      · rw [if_neg hl, if_pos hc]; simp only
        rw [if_neg (by omega), if_neg (by omega)]
    · have : ∃ c ∈ cs, c.col = j := by
        obtain ⟨d, hd, e⟩ := hm
        rcases List.mem_cons.1 hd with rfl | hd
        · exact absurd e hc
        · exact ⟨d, hd, e⟩
      rw [ih hs.tail this, if_neg hc]
      by_cases hl : l = j
      · subst hl; simp [hc]
      · simp [hl]

theorem swapRow_pre_ok (h : WF t) (hij : t.coef i j ≠ 0) :
    RowOK { den := pa t i j, cells := (prow t i j).map fun c => if c.col = j then ⟨c.col, (t.rows i).den⟩ else c } := by
  refine ⟨pa_ne h hij, sorted_map (sorted_prow h) _ (by intro c; split <;> rfl), ?_⟩
  intro c hc
  obtain ⟨d, hd, rfl⟩ := List.mem_map.1 hc
  split
  · exact (h.row i).den
  · exact prow_nz h d hd

theorem swapRow_coef (h : WF t) (hij : t.coef i j ≠ 0) (l : Nat) :
    rowCoef (swapRow j (pa t i j) (t.rows i).den { t.rows i with cells := prow t i j }) l =
      if l = j then 1 / t.coef i j else - t.coef i l / t.coef i j := by
  unfold swapRow
  rw [simplifyRow_coef (swapRow_pre_ok h hij)]
  have cij : t.coef i j = (pa t i j : Rat) / (t.rows i).den := rowCoef_of_some (h.row i) (findCell_prow h hij).2
  have hdi : ((t.rows i).den : Rat) ≠ 0 := by exact_mod_cast (h.row i).den
  have hpa : (pa t i j : Rat) ≠ 0 := by exact_mod_cast pa_ne h hij
  rw [cij]
  unfold rowCoef
  simp only
  rw [swap_aux _ (sorted_prow h) _ _ (prow_mem_j h hij)]
  by_cases hl : l = j
  · rw [if_pos hl, if_pos hl]; field_simp
  · rw [if_neg hl, if_neg hl]
    unfold coef rowCoef prow
    rw [coefL_negRow, if_neg hl]
    push_cast
    field_simp

/-- The pivoted matrix, entry by entry. -/
theorem coef_pivot (h : WF t) (hij : t.coef i j ≠ 0) (k l : Nat) :
    (t.pivot i j).coef k l =
      if k = i then (if l = j then 1 / t.coef i j else - t.coef i l / t.coef i j)
      else (if l = j then t.coef k j / t.coef i j else t.coef k l - t.coef k j * t.coef i l / t.coef i j) := by
  unfold coef
  rw [(pivot_eq h hij).1 k]
  by_cases hk : k = i
  · rw [if_pos hk, if_pos hk]; exact swapRow_coef h hij l
  · rw [if_neg hk, if_neg hk]; exact newRow_coef h hij k l

theorem pivot_dims : (t.pivot i j).nrows = t.nrows ∧ (t.pivot i j).ncols = t.ncols := ⟨rfl, rfl⟩

theorem insCols_mem (h : WF t) {k l : Nat} (hm : l ∈ insCols t i j k) :
    (∃ c ∈ (t.rows i).cells, c.col = l) ∧ k ≠ i ∧ t.coef k j ≠ 0 ∧ ∀ e ∈ (t.rows k).cells, e.col ≠ l := by
  unfold insCols at hm
  split at hm
  · simp at hm
  · rename_i hki
    split at hm
    · simp at hm
    · rename_i akj hf
      unfold mrg at hm; simp only at hm
      rw [mergeRow_ins _ _ _ _ _ _ (sorted_prow h) (h.row k).sorted] at hm
      obtain ⟨h1, h2⟩ := List.mem_filter.1 hm
      unfold prow at h1
      rw [negRow_cols] at h1
      obtain ⟨c, hc, e⟩ := List.mem_map.1 h1
      refine ⟨⟨c, hc, e⟩, hki, (coef_ne_zero h).2 ⟨akj, (findCell_some (h.row k).sorted).1 hf⟩, ?_⟩
      simpa using h2

theorem wf_pivot (h : WF t) (hij : t.coef i j ≠ 0) : WF (t.pivot i j) := by
  obtain ⟨hr, hc⟩ := pivot_eq h hij
  have hilt : i < t.nrows := by
    obtain ⟨v, hv⟩ := (coef_ne_zero h).1 hij
    exact h.colRange j i (h.colCover i _ hv)
  have hjlt : j < t.ncols := by
    obtain ⟨v, hv⟩ := (coef_ne_zero h).1 hij
    exact h.rowRange i _ hv
  have hrow : ∀ k, RowOK ((t.pivot i j).rows k) := by
    intro k
    rw [hr k]
    split
    · exact simplifyRow_ok (swapRow_pre_ok h hij)
    · exact newRow_ok h hij k
  -- membership in the final columns
  have hinsj : ∀ k, j ∉ insCols t i j k := by
    intro k hm
    obtain ⟨-, -, h3, h4⟩ := insCols_mem h hm
    obtain ⟨v, hv⟩ := (coef_ne_zero h).1 h3
    exact h4 _ hv rfl
  have hfs : ∀ l, (((t.cols j).filter fun k => decide (l ∈ insCols t i j k))).Pairwise (· < ·) :=
    fun l => (h.colSorted j).filter _
  have hcol : ∀ l, ((t.pivot i j).cols l).Pairwise (· < ·) ∧ (∀ k, k ∈ (t.pivot i j).cols l ↔
      (if l = j then t.coef k j ≠ 0 else k ∈ t.cols l ∨ l ∈ insCols t i j k)) := by
    intro l
    by_cases hl : l = j
    · subst hl
      rw [hc l]
      have hin : l ∈ (prow t i l).map (·.col) := by
        obtain ⟨c, hc, e⟩ := prow_mem_j h hij; exact List.mem_map.2 ⟨c, hc, e⟩
      rw [if_pos hin, if_pos rfl]
      have : ((t.cols l).filter fun k => decide (l ∈ insCols t i l k)) = [] := by
        rw [List.filter_eq_nil_iff]; intro k _; simpa using hinsj k
      rw [this]
      simp only [List.length_nil, fixCol, if_true]
      rw [← colEntries_fst]
      exact ⟨colEntries_sorted h l, fun k => mem_colEntries_fst h⟩
    · rw [hc l]
      simp only [if_neg hl]
      split
      · obtain ⟨h1, h2⟩ := fixCol_spec _ _ (h.colSorted l) (hfs l)
        refine ⟨h1, fun k => ?_⟩
        rw [h2 k, List.mem_filter]
        constructor
        · rintro (h | ⟨-, h⟩)
          · exact Or.inl h
          · exact Or.inr (by simpa using h)
        · rintro (h' | h')
          · exact Or.inl h'
          · obtain ⟨-, -, h3, -⟩ := insCols_mem h h'
            obtain ⟨v, hv⟩ := (coef_ne_zero h).1 h3
            exact Or.inr ⟨h.colCover k _ hv, by simpa using h'⟩
      · rename_i hnot
        refine ⟨h.colSorted l, fun k => ⟨Or.inl, ?_⟩⟩
        rintro (h' | h')
        · exact h'
        · exfalso
          obtain ⟨⟨c, hc, e⟩, -⟩ := insCols_mem h h'
          apply hnot
          unfold prow; rw [negRow_cols]; exact List.mem_map.2 ⟨c, hc, e⟩
  -- columns of new rows
  have hcells : ∀ k, ∀ c ∈ ((t.pivot i j).rows k).cells,
      (∃ e ∈ (t.rows k).cells, e.col = c.col) ∨ (c.col ∈ insCols t i j k) := by
    intro k c hcm
    rw [hr k] at hcm
    split at hcm
    · rename_i hk; subst hk
      left
      unfold swapRow at hcm
      obtain ⟨d, hd, e⟩ := mem_cols_of_map_eq (simplifyRow_cols _) hcm
      obtain ⟨f, hf, rfl⟩ := List.mem_map.1 hd
      have hfc : f.col = c.col := by rw [← e]; split <;> rfl
      unfold prow at hf
      obtain ⟨g, hg, e'⟩ := mem_cols_of_map_eq (negRow_cols j _) hf
      exact ⟨g, hg, by omega⟩
    · rename_i hk
      unfold newRow at hcm
      cases hf : findCell (t.rows k).cells j with
      | none => rw [hf] at hcm; exact Or.inl ⟨c, hcm, rfl⟩
      | some akj =>
        rw [hf] at hcm; simp only at hcm
        obtain ⟨d, hd, e⟩ := mem_cols_of_map_eq (simplifyRow_cols _) hcm
        simp only at hd
        have hd' := hd
        unfold mrg at hd
        simp only at hd
        rw [← e]
        by_cases hex : ∃ x ∈ (t.rows k).cells, x.col = d.col
        · exact Or.inl hex
        · right
          rcases mergeRow_mem _ _ _ _ _ _ d hd with ⟨x, hx, ex⟩ | ⟨x, hx, ex⟩
          · unfold insCols; rw [if_neg hk, hf]; simp only
            unfold mrg; simp only
            rw [mergeRow_ins _ _ _ _ _ _ (sorted_prow h) (h.row k).sorted, List.mem_filter]
            refine ⟨List.mem_map.2 ⟨x, hx, ex⟩, ?_⟩
            simp only [decide_eq_true_eq]
            intro y hy e; exact hex ⟨y, hy, e⟩
          · exact absurd ⟨x, hx, ex⟩ hex
  constructor
  · exact hrow
  · exact fun l => (hcol l).1
  · intro k c hcm
    rw [(hcol c.col).2 k]
    by_cases hl : c.col = j
    · rw [if_pos hl]
      rcases hcells k c hcm with ⟨e, he, e'⟩ | h'
      · rw [coef_ne_zero h]
        refine ⟨e.val, ?_⟩
        have : e = ⟨j, e.val⟩ := by cases e; simp at e'; simp [← hl, e']
        rw [← this]; exact he
      · rw [hl] at h'; exact absurd h' (hinsj k)
    · rw [if_neg hl]
      rcases hcells k c hcm with ⟨e, he, e'⟩ | h'
      · left; rw [← e']; exact h.colCover k e he
      · exact Or.inr h'
  · intro l k hk
    rw [(hcol l).2 k] at hk
    show k < t.nrows
    split at hk
    · obtain ⟨v, hv⟩ := (coef_ne_zero h).1 hk
      exact h.colRange j k (h.colCover k _ hv)
    · rcases hk with hk | hk
      · exact h.colRange l k hk
      · obtain ⟨-, -, h3, -⟩ := insCols_mem h hk
        obtain ⟨v, hv⟩ := (coef_ne_zero h).1 h3
        exact h.colRange j k (h.colCover k _ hv)
  · intro k c hcm
    show c.col < t.ncols
    rcases hcells k c hcm with ⟨e, he, e'⟩ | h'
    · rw [← e']; exact h.rowRange k e he
    · obtain ⟨⟨d, hd, e⟩, -⟩ := insCols_mem h h'
      rw [← e]; exact h.rowRange i d hd
  · intro k hk
    have hk : t.nrows ≤ k := hk
    rw [hr k, if_neg (by omega)]
    unfold newRow
    rw [h.rowBeyond k hk]; rfl
  · intro l hl
    have hl : t.ncols ≤ l := hl
    rw [List.eq_nil_iff_forall_not_mem]
    intro k hk
    rw [(hcol l).2 k, if_neg (by omega)] at hk
    rcases hk with hk | hk
    · rw [h.colBeyond l hl] at hk; simp at hk
    · obtain ⟨⟨d, hd, e⟩, -⟩ := insCols_mem h hk
      have := h.rowRange i d hd; omega

end pivot

end Tableau
end Lpx
