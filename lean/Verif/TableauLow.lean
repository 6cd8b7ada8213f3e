import Verif.TableauLemmas
import Mathlib.RingTheory.Int.Basic

/-!
# Rows of the tableau are in lowest terms

`Low r`: the denominator and the numerators of the row have no common divisor but 1 and -1.
-/

namespace Lpx
namespace Tableau

/-- The row is in lowest terms. -/
def Low (r : Row) : Prop := ∀ g : ℤ, g ∣ r.den → (∀ c ∈ r.cells, g ∣ c.val) → IsUnit g

theorem low_default : Low {} := fun _ h _ => isUnit_of_dvd_one h

theorem gcdCells_some {g g' : ℤ} {cells : List Cell} (h : gcdCells g cells = some g') (k : ℤ) (hk : k ∣ g) (hc : ∀ c ∈ cells, k ∣ c.val) : k ∣ g' := by
  induction cells generalizing g with
  | nil => simp only [gcdCells, Option.some.injEq] at h; exact h ▸ hk
  | cons c cs ih =>
    simp only [gcdCells] at h
    split at h
    · simp at h
    · exact ih h (Int.dvd_coe_gcd (hc c (by simp)) hk) fun d hd => hc d (by simp [hd])

theorem gcdCells_none {g : ℤ} {cells : List Cell} (h : gcdCells g cells = none) (k : ℤ) (hk : k ∣ g) (hc : ∀ c ∈ cells, k ∣ c.val) : IsUnit k := by
  induction cells generalizing g with
  | nil => simp [gcdCells] at h
  | cons c cs ih =>
    simp only [gcdCells] at h
    have hd : k ∣ (Int.gcd c.val g : ℤ) := Int.dvd_coe_gcd (hc c (by simp)) hk
    split at h
    · rename_i h1; exact isUnit_of_dvd_one (h1 ▸ hd)
    · exact ih h hd fun d hd => hc d (by simp [hd])

/-- tableau.cc:65-82: `simplify_` reduces a row to lowest terms. -/
theorem low_simplifyRow {r : Row} (h0 : r.den ≠ 0) : Low (simplifyRow r) := by
  unfold simplifyRow
  split
  · rename_i h1
    intro g hg _
    exact isUnit_of_dvd_one (h1 ▸ hg)
  · split
    · rename_i hn
      exact fun g hg hc => gcdCells_none hn g hg hc
    · rename_i g' hs
      obtain ⟨hd, hcs⟩ := gcdCells_dvd hs
      have hg0 : g' ≠ 0 := by rintro rfl; exact h0 (zero_dvd_iff.1 hd)
      intro k hk hkc
      have h1 : k * g' ∣ r.den := by
        have := mul_dvd_mul_right hk g'
        rwa [Int.ediv_mul_cancel hd] at this
      have h2 : ∀ c ∈ r.cells, k * g' ∣ c.val := by
        intro c hc
        have := mul_dvd_mul_right (hkc ⟨c.col, c.val / g'⟩ (List.mem_map.2 ⟨c, hc, rfl⟩)) g'
        rwa [Int.ediv_mul_cancel (hcs c hc)] at this
      have h3 := gcdCells_some hs _ h1 h2
      have h4 : k * g' ∣ 1 * g' := by rwa [one_mul]
      exact isUnit_of_dvd_one ((mul_dvd_mul_iff_right hg0).1 h4)

theorem eraseCell_none {cells : List Cell} {j : ℕ} (h : findCell cells j = none) : eraseCell cells j = cells := by
  induction cells with
  | nil => rfl
  | cons c cs ih =>
    simp only [findCell] at h
    simp only [eraseCell]
    by_cases h1 : c.col < j
    · rw [if_pos h1] at h ⊢; rw [ih h]
    · rw [if_neg h1] at h ⊢
      by_cases h2 : c.col = j
      · rw [if_pos h2] at h; exact absurd h (by simp)
      · rw [if_neg h2]

theorem putCell_mem {ag v : ℤ} {cells : List Cell} {j : ℕ} (h : findCell cells j = none) :
    ⟨j, v⟩ ∈ putCell ag v cells j ∧ ∀ c ∈ cells, ⟨c.col, c.val * ag⟩ ∈ putCell ag v cells j := by
  induction cells with
  | nil => simp [putCell]
  | cons c cs ih =>
    simp only [findCell] at h
    simp only [putCell]
    by_cases h1 : c.col < j
    · rw [if_pos h1] at h ⊢
      obtain ⟨a, b⟩ := ih h
      refine ⟨List.mem_cons_of_mem _ a, fun d hd => ?_⟩
      rcases List.mem_cons.1 hd with rfl | hd
      · simp
      · exact List.mem_cons_of_mem _ (b d hd)
    · rw [if_neg h1] at h ⊢
      by_cases h2 : c.col = j
      · rw [if_pos h2] at h; exact absurd h (by simp)
      · rw [if_neg h2]
        refine ⟨by simp, fun d hd => List.mem_cons_of_mem _ (List.mem_map.2 ⟨d, hd, rfl⟩)⟩

/-- tableau.cc:25-62: entering a new coefficient keeps rows in lowest terms. -/
theorem low_set {t : Tableau} (h : WF t) {i j : ℕ} (h0 : t.coef i j = 0) (a : ℚ) (hl : ∀ k, Low (t.rows k)) : ∀ k, Low ((t.set i j a).rows k) := by
  have hf : findCell (t.rows i).cells j = none := by
    rw [findCell_none (h.row i).sorted]
    intro c hc e
    exact (coef_ne_zero h).2 ⟨c.val, by subst e; exact hc⟩ h0
  intro k
  unfold set
  by_cases ha : a = 0
  · rw [if_pos ha, eraseCell_none hf]
    split
    · by_cases hk : k = i
      · subst hk; simp only [Function.update_self]; exact hl k
      · simp only [Function.update_of_ne hk]; exact hl k
    · exact hl k
  · rw [if_neg ha]
    dsimp only
    by_cases hk : k = i
    · subst hk
      rw [Function.update_self]
      obtain ⟨m1, m2⟩ := putCell_mem (ag := (a.den : ℤ) / (Int.gcd (a.den : ℤ) (t.rows k).den : ℤ))
        (v := a.num * ((t.rows k).den / (Int.gcd (a.den : ℤ) (t.rows k).den : ℤ))) hf
      intro g hg hc
      have n1 := hc _ m1
      have n2 := fun c hc' => hc _ (m2 c hc')
      dsimp only at hg n1 n2
      have hgpos : 0 < Int.gcd (a.den : ℤ) (t.rows k).den := Int.gcd_pos_of_ne_zero_left _ (by exact_mod_cast a.den_nz)
      have hcop := Int.isCoprime_iff_gcd_eq_one.2 (Int.gcd_ediv_gcd_ediv_gcd_of_ne_zero_left (m := (t.rows k).den) (n := (a.den : ℤ)) (by exact_mod_cast a.den_nz))
      have hdv : (a.den : ℤ) / (Int.gcd (a.den : ℤ) (t.rows k).den : ℤ) ∣ (a.den : ℤ) := Int.ediv_dvd_of_dvd (Int.gcd_dvd_left ..)
      generalize (a.den : ℤ) / (Int.gcd (a.den : ℤ) (t.rows k).den : ℤ) = ag at *
      generalize hrg : (t.rows k).den / (Int.gcd (a.den : ℤ) (t.rows k).den : ℤ) = rg at *
      have hnum : IsCoprime a.num (a.den : ℤ) := by rw [Int.isCoprime_iff_gcd_eq_one]; exact_mod_cast a.reduced
      -- the common divisor is coprime to ag
      have hcg : IsCoprime g ag := by
        rw [Int.isCoprime_iff_gcd_eq_one]
        by_contra hne
        obtain ⟨p, hp, hpd⟩ := Nat.exists_prime_and_dvd hne
        have hp' : Prime (p : ℤ) := Nat.prime_iff_prime_int.1 hp
        have p1 : (p : ℤ) ∣ g := (Int.natCast_dvd_natCast.2 hpd).trans (Int.gcd_dvd_left ..)
        have p2 : (p : ℤ) ∣ ag := (Int.natCast_dvd_natCast.2 hpd).trans (Int.gcd_dvd_right ..)
        rcases hp'.dvd_or_dvd (p1.trans n1) with h3 | h3
        · exact hp'.not_isUnit (hnum.isUnit_of_dvd' h3 (p2.trans hdv))
        · exact hp'.not_isUnit (hcop.isUnit_of_dvd' p2 h3)
      exact hl k g (hcg.dvd_of_dvd_mul_right hg) fun c hc' => hcg.dvd_of_dvd_mul_right (n2 c hc')
    · rw [Function.update_of_ne hk]; exact hl k

/-- tableau.cc:84-183: after `pivot` all rows are in lowest terms. -/
theorem low_pivot {t : Tableau} (h : WF t) {i j : ℕ} (hij : t.coef i j ≠ 0) (hl : ∀ k, Low (t.rows k)) : ∀ k, Low ((t.pivot i j).rows k) := by
  intro k
  rw [(pivot_eq h hij).1 k]
  split
  · unfold swapRow
    exact low_simplifyRow (pa_ne h hij)
  · unfold newRow
    split
    · exact hl k
    · rename_i akj hf
      dsimp only
      apply low_simplifyRow
      have ha : akj ≠ 0 := (h.row k).nz _ ((findCell_some (h.row k).sorted).1 hf)
      dsimp only
      refine mul_ne_zero (h.row k).den ?_
      exact fun h0 => pa_ne h hij ((ediv_eq_zero_dvd (Int.gcd_dvd_left ..)).1 h0)

/-- If all coefficients of a row in lowest terms are fractions with denominator `d`, then the denominator of the row divides `d` and the numerators are
at most those of the fractions. -/
theorem Low.bound {r : Row} (hl : Low r) (hr : RowOK r) {d : ℤ} (hd : d ≠ 0) {k : ℕ → ℤ} (h : ∀ c ∈ r.cells, (d : ℚ) * rowCoef r c.col = k c.col) :
    |r.den| ≤ |d| ∧ ∀ c ∈ r.cells, |c.val| ≤ |k c.col| := by
  have hd0 := hr.den
  have hq : (r.den : ℚ) ≠ 0 := by exact_mod_cast hd0
  have hmul : ∀ c ∈ r.cells, d * c.val = k c.col * r.den := by
    intro c hc
    have := h c hc
    unfold rowCoef at this
    rw [coefL_mem hr.sorted hc] at this
    field_simp at this
    rw [mul_comm (k c.col)]
    exact_mod_cast this
  have hdvd : r.den ∣ d := by
    have hg0 : (Int.gcd r.den d : ℤ) ≠ 0 := by
      have := Int.gcd_pos_of_ne_zero_left d hd0
      omega
    obtain ⟨a, ha⟩ := Int.gcd_dvd_left (a := r.den) (b := d)
    obtain ⟨b, hb⟩ := Int.gcd_dvd_right (a := r.den) (b := d)
    have hcop : IsCoprime a b := by
      rw [Int.isCoprime_iff_gcd_eq_one]
      have := Int.gcd_ediv_gcd_ediv_gcd_of_ne_zero_left (m := d) (n := r.den) hd0
      have e1 : r.den / (Int.gcd r.den d : ℤ) = a := by
        conv_lhs => rw [ha]
        rw [show (Int.gcd ((Int.gcd r.den d : ℤ) * a) d : ℤ) = (Int.gcd r.den d : ℤ) by rw [← ha]]
        exact Int.mul_ediv_cancel_left _ hg0
      have e2 : d / (Int.gcd r.den d : ℤ) = b := by
        conv_lhs => rw [hb]
        rw [show (Int.gcd r.den ((Int.gcd r.den d : ℤ) * b) : ℤ) = (Int.gcd r.den d : ℤ) by rw [← hb]]
        exact Int.mul_ediv_cancel_left _ hg0
      rwa [e1, e2] at this
    have hu : IsUnit a := by
      refine hl a ⟨_, by rw [mul_comm]; exact ha⟩ fun c hc => ?_
      have h1 := hmul c hc
      refine hcop.dvd_of_dvd_mul_left ?_
      refine ⟨k c.col, ?_⟩
      apply mul_left_cancel₀ hg0
      calc (Int.gcd r.den d : ℤ) * (b * c.val) = d * c.val := by rw [← mul_assoc, ← hb]
        _ = k c.col * r.den := h1
        _ = k c.col * ((Int.gcd r.den d : ℤ) * a) := by rw [← ha]
        _ = _ := by ring
    have : r.den ∣ (Int.gcd r.den d : ℤ) := by
      rw [ha.trans rfl]
      conv_rhs => rw [show (Int.gcd ((Int.gcd r.den d : ℤ) * a) d : ℤ) = (Int.gcd r.den d : ℤ) by rw [← ha]]
      exact (hu.mul_right_dvd).2 dvd_rfl
    exact this.trans (Int.gcd_dvd_right ..)
  have hle : |r.den| ≤ |d| := Int.le_of_dvd (abs_pos.2 hd) ((abs_dvd_abs _ _).2 hdvd)
  refine ⟨hle, fun c hc => ?_⟩
  have h1 := congrArg (|·|) (hmul c hc)
  simp only [abs_mul] at h1
  have hp := abs_pos.2 hd
  have hk := abs_nonneg (k c.col)
  by_contra hlt
  push Not at hlt
  nlinarith [abs_nonneg c.val]

end Tableau
end Lpx
