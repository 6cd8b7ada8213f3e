import Mathlib.LinearAlgebra.Matrix.Adjugate
import Mathlib.LinearAlgebra.Matrix.AbsoluteValue
import Mathlib.LinearAlgebra.Matrix.ToLinearEquiv
import Mathlib.Algebra.Order.Field.Rat
import Mathlib.Tactic.Ring
import Mathlib.Tactic.Linarith

/-!
# Solving equations for other unknowns: how large the coefficients can get

The equations `d i * q (n + i) = ∑ k i j * q j` with integers of absolute value at most `M` are solved for the unknowns `index n, ..., index (n + m - 1)`.
By Cramer's rule the coefficients of the solution are fractions with a common denominator, and denominator and numerators are at most `m! * M ^ m`.
-/

namespace Lpx
open Finset Matrix

section
variable {n m : ℕ} {index rindex : ℕ → ℕ}

/-- An assignment given by the values of the non-basic and the basic unknowns. -/
def merge (n : ℕ) (rindex : ℕ → ℕ) (a b : ℕ → ℚ) (v : ℕ) : ℚ := if rindex v < n then a (rindex v) else b (rindex v - n)

/-- The equations as a matrix over all unknowns. -/
def eqMat (n : ℕ) (d : ℕ → ℤ) (k : ℕ → ℕ → ℤ) (i v : ℕ) : ℤ := if v < n then k i v else if v = n + i then -d i else 0

theorem eqMat_sum {d : ℕ → ℤ} {k : ℕ → ℕ → ℤ} {i : ℕ} (hi : i < m) (q : ℕ → ℚ) :
    ∑ v ∈ range (n + m), (eqMat n d k i v : ℚ) * q v = ∑ j ∈ range n, (k i j : ℚ) * q j - d i * q (n + i) := by
  rw [sum_range_add, sub_eq_add_neg]
  congr 1
  · exact sum_congr rfl fun j hj => by rw [eqMat, if_pos (mem_range.1 hj)]
  · rw [sum_eq_single i]
    · rw [eqMat, if_neg (by omega), if_pos rfl]; push_cast; ring
    · intro b _ hb
      rw [eqMat, if_neg (by omega), if_neg (by omega)]; simp
    · intro h; exact absurd (mem_range.2 hi) h

theorem sum_index (hlt : ∀ v, v < n + m → index v < n + m) (hri : ∀ v, v < n + m → rindex (index v) = v)
    (hlt' : ∀ v, v < n + m → rindex v < n + m) (hir : ∀ v, v < n + m → index (rindex v) = v) (f : ℕ → ℚ) :
    ∑ v ∈ range (n + m), f v = ∑ j ∈ range n, f (index j) + ∑ i ∈ range m, f (index (n + i)) := by
  rw [← sum_range_add (fun u => f (index u))]
  exact (sum_bij' (fun u _ => index u) (fun v _ => rindex v) (fun u hu => mem_range.2 (hlt u (mem_range.1 hu)))
    (fun v hv => mem_range.2 (hlt' v (mem_range.1 hv))) (fun u hu => hri u (mem_range.1 hu)) (fun v hv => hir v (mem_range.1 hv)) fun u _ => rfl).symm

theorem cramer_bound (hlt : ∀ v, v < n + m → index v < n + m) (hri : ∀ v, v < n + m → rindex (index v) = v)
    (hlt' : ∀ v, v < n + m → rindex v < n + m) (hir : ∀ v, v < n + m → index (rindex v) = v) {T : ℕ → ℕ → ℚ} {d : ℕ → ℤ} {k : ℕ → ℕ → ℤ} {M : ℕ}
    (hd : ∀ i, i < m → |d i| ≤ M) (hk : ∀ i, i < m → ∀ j, j < n → |k i j| ≤ M)
    (h : ∀ q : ℕ → ℚ, (∀ i, i < m → q (index (i + n)) = ∑ j ∈ range n, T i j * q (index j)) ↔
      ∀ i, i < m → d i * q (n + i) = ∑ j ∈ range n, (k i j : ℚ) * q j) :
    ∃ D : ℤ, D ≠ 0 ∧ |D| ≤ m.factorial * M ^ m ∧ ∀ j, j < n → ∃ P : ℕ → ℤ, ∀ i, i < m → |P i| ≤ m.factorial * M ^ m ∧ (D : ℚ) * T i j = P i := by
  -- the equations in terms of the positions
  have h' : ∀ a b : ℕ → ℚ, (∀ i, i < m → b i = ∑ j ∈ range n, T i j * a j) ↔
      ∀ i, i < m → ∑ j ∈ range n, (eqMat n d k i (index j) : ℚ) * a j + ∑ l ∈ range m, (eqMat n d k i (index (n + l)) : ℚ) * b l = 0 := by
    intro a b
    have ha : ∀ j, j < n → merge n rindex a b (index j) = a j := fun j hj => by
      unfold merge; rw [hri j (by omega), if_pos hj]
    have hb : ∀ i, i < m → merge n rindex a b (index (n + i)) = b i := fun i hi => by
      unfold merge; rw [hri _ (by omega), if_neg (by omega), Nat.add_sub_cancel_left]
    have h1 := h (merge n rindex a b)
    have e1 : (∀ i, i < m → merge n rindex a b (index (i + n)) = ∑ j ∈ range n, T i j * merge n rindex a b (index j)) ↔
        ∀ i, i < m → b i = ∑ j ∈ range n, T i j * a j := by
      refine forall_congr' fun i => forall_congr' fun hi => ?_
      rw [add_comm i n, hb i hi, sum_congr rfl fun j hj => by rw [ha j (mem_range.1 hj)]]
    have e2 : (∀ i, i < m → d i * merge n rindex a b (n + i) = ∑ j ∈ range n, (k i j : ℚ) * merge n rindex a b j) ↔
        ∀ i, i < m → ∑ j ∈ range n, (eqMat n d k i (index j) : ℚ) * a j + ∑ l ∈ range m, (eqMat n d k i (index (n + l)) : ℚ) * b l = 0 := by
      refine forall_congr' fun i => forall_congr' fun hi => ?_
      have hs := eqMat_sum (d := d) (k := k) (n := n) hi (merge n rindex a b)
      rw [sum_index hlt hri hlt' hir] at hs
      rw [sum_congr rfl fun j hj => by rw [ha j (mem_range.1 hj)]] at hs
      rw [sum_congr (s₁ := range m) rfl fun l hl => by rw [hb l (mem_range.1 hl)]] at hs
      rw [hs, sub_eq_zero]
      exact eq_comm
    rw [← e1, ← e2]; exact h1
  have hM : ∀ i, i < m → ∀ v, |eqMat n d k i v| ≤ M := by
    intro i hi v
    unfold eqMat
    split
    · exact hk i hi v ‹_›
    · split
      · rw [abs_neg]; exact hd i hi
      · simp
  set B : Matrix (Fin m) (Fin m) ℤ := fun i l => eqMat n d k i (index (n + l)) with hB
  have hdet : B.det ≠ 0 := by
    intro h0
    obtain ⟨v, hv, hm⟩ := Matrix.exists_mulVec_eq_zero_iff.2 h0
    have := (h' (fun _ => 0) (fun i => if h : i < m then (v ⟨i, h⟩ : ℚ) else 0)).2 (by
      intro i hi
      have h1 := congrFun hm ⟨i, hi⟩
      simp only [Matrix.mulVec, dotProduct, Pi.zero_apply, hB] at h1
      simp only [mul_zero, sum_const_zero, zero_add]
      rw [sum_range]
      have h2 : ((∑ x : Fin m, eqMat n d k i (index (n + x)) * v x : ℤ) : ℚ) = 0 := by rw [h1]; simp
      push_cast at h2
      rw [← h2]
      exact sum_congr rfl fun x _ => by rw [dif_pos x.2])
    apply hv
    funext i
    have h1 := this i i.2
    simp only [dif_pos i.2, mul_zero, sum_const_zero] at h1
    exact_mod_cast h1
  have hle : ∀ A : Matrix (Fin m) (Fin m) ℤ, (∀ i j, |A i j| ≤ (M : ℤ)) → |A.det| ≤ (m.factorial * M ^ m : ℕ) := by
    intro A hA
    have := Matrix.det_le (A := A) (abv := AbsoluteValue.abs) (x := (M : ℤ)) hA
    simp only [AbsoluteValue.abs_apply, Fintype.card_fin, nsmul_eq_mul] at this
    push_cast
    exact this
  refine ⟨B.det, hdet, by exact_mod_cast hle B fun i j => hM i i.2 _, fun j hj => ?_⟩
  set w : Fin m → ℤ := fun i => -eqMat n d k i (index j) with hw
  refine ⟨fun i => if h : i < m then Matrix.cramer B w ⟨i, h⟩ else 0, fun i hi => ?_⟩
  simp only [dif_pos hi]
  constructor
  · rw [Matrix.cramer_apply]
    have := hle (B.updateCol ⟨i, hi⟩ w) fun a b => ?_
    · exact_mod_cast this
    rw [Matrix.updateCol_apply]
    split
    · rw [hw]; dsimp only; rw [abs_neg]; exact hM a a.2 _
    · exact hM a a.2 _
  · -- the column of the solution
    have hcol := (h' (fun l => if l = j then 1 else 0) (fun i => T i j)).1 (by
      intro i _
      rw [sum_eq_single j]
      · simp
      · intro b _ hb; simp [hb]
      · intro h; exact absurd (mem_range.2 hj) h)
    set Bq : Matrix (Fin m) (Fin m) ℚ := (Int.castRingHom ℚ).mapMatrix B with hBq
    set x : Fin m → ℚ := fun i => T i j with hx
    have hBx : Bq *ᵥ x = fun i => (w i : ℚ) := by
      funext a
      have h1 := hcol a a.2
      rw [sum_eq_single j (by intro b _ hb; simp [hb]) (by intro h; exact absurd (mem_range.2 hj) h)] at h1
      simp only [if_true, mul_one] at h1
      have h2 : (Bq *ᵥ x) a = ∑ l : Fin m, (eqMat n d k a (index (n + l)) : ℚ) * T l j := rfl
      have h3 : (w a : ℚ) = -(eqMat n d k a (index j) : ℚ) := by rw [hw]; push_cast; rfl
      rw [sum_range] at h1
      rw [h2, h3]
      linarith
    have hadj : Bq.adjugate *ᵥ (Bq *ᵥ x) = Bq.det • x := by
      rw [Matrix.mulVec_mulVec, Matrix.adjugate_mul, Matrix.smul_mulVec, Matrix.one_mulVec]
    have h1 := congrFun hadj ⟨i, hi⟩
    rw [hBx, hBq, ← RingHom.map_adjugate, ← RingHom.map_det] at h1
    rw [Matrix.cramer_eq_adjugate_mulVec]
    simp only [Matrix.mulVec, dotProduct, RingHom.mapMatrix_apply, Matrix.map_apply, Int.coe_castRingHom, Pi.smul_apply, smul_eq_mul] at h1 ⊢
    rw [Int.cast_sum]
    simp only [Int.cast_mul]
    exact h1.symm

end
end Lpx
