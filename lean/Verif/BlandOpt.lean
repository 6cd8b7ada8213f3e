import Verif.Bland
import Mathlib.Data.Set.Finite.Lattice
import Mathlib.Data.Fintype.Pi
import Mathlib.Data.Fintype.BigOperators
import Mathlib.Data.Set.Finite.Basic
import Mathlib.Order.Monotone.Basic

/-!
# Termination of the optimization phase with Bland's rule, abstractly
-/

namespace Lpx
open Finset

/-- The variable sits at the bound it is pushed towards when moving in direction `d`. -/
def Blocked {V : Type} (lo up : ℕ → Option V) (x : ℕ → V) (d : ℚ) (i : ℕ) : Prop :=
  (0 < d ∧ up i = some (x i)) ∨ (d < 0 ∧ lo i = some (x i))

/-- No infinite run of degenerate pivots. -/
theorem bland_degenerate {V : Type} [LpValue V] (N : ℕ) (lo up : ℕ → Option V) (x : ℕ → V)
    (nb : ℕ → ℕ → Prop) (lv en : ℕ → ℕ) (cz w : ℕ → ℕ → ℚ)
    (hlvN : ∀ t, lv t < N) (henN : ∀ t, en t < N)
    (hlv : ∀ t, ¬ nb t (lv t)) (hen : ∀ t, nb t (en t))
    (hnb : ∀ t v, nb (t + 1) v ↔ (nb t v ∧ v ≠ en t) ∨ v = lv t)
    (hcz : ∀ t v, ¬ nb t v → cz t v = 0)
    (hw1 : ∀ t, w t (en t) = 1) (hw0 : ∀ t v, nb t v → v ≠ en t → w t v = 0)
    (hdir : ∀ p q, cz q (en q) = ∑ j ∈ range N, cz p j * w q j)
    (helig : ∀ t, (0 < cz t (en t) ∧ ∀ b, up (en t) = some b → x (en t) < b) ∨
      (cz t (en t) < 0 ∧ ∀ b, lo (en t) = some b → b < x (en t)))
    (hmin : ∀ t j, j < en t → nb t j →
      (0 < cz t j → up j = some (x j)) ∧ (cz t j < 0 → lo j = some (x j)))
    (hleave : ∀ t, Blocked lo up x (cz t (en t) * w t (lv t)) (lv t))
    (hfirst : ∀ t i, i < N → ¬ nb t i → Blocked lo up x (cz t (en t) * w t i) i → lv t ≤ i) : False := by
  obtain ⟨r, T, hrN, hinf, hT, -⟩ := exists_last_fickle N lv en nb hlvN hen hlv hnb
  obtain ⟨p0, hp0T, hp0⟩ := hinf T
  obtain ⟨p, hpp, hp, -, -⟩ := exists_reenter lv en nb hlv hnb r p0 hp0 hinf
  obtain ⟨q, hpq, hq⟩ := hinf p
  -- status of big variables does not change
  have hstat : ∀ v, r < v → v < N → (nb q v ↔ nb p v) := by
    intro v hrv hvN
    have : ∀ k, nb (p + k) v ↔ nb p v := by
      intro k
      induction k with
      | zero => exact Iff.rfl
      | succ k ih =>
        have h := hT (p + k) (by omega) v hrv hvN
        rw [← ih, show p + (k + 1) = p + k + 1 by omega, hnb]
        constructor
        · rintro (⟨h1, _⟩ | h1)
          · exact h1
          · exact absurd h1.symm h.1
        · intro h1; exact Or.inl ⟨h1, h.2.symm⟩
    have h := this (q - p)
    rwa [show p + (q - p) = q by omega] at h
  -- some non-basic variable at `p` improves the objective in the direction of `q`
  have hsum : 0 < ∑ j ∈ range N, cz p j * (cz q (en q) * w q j) := by
    have : ∑ j ∈ range N, cz p j * (cz q (en q) * w q j) = cz q (en q) * cz q (en q) := by
      conv_rhs => rw [hdir p q, sum_mul]
      rw [← hdir p q]
      exact sum_congr rfl fun j _ => by ring
    rw [this]
    have h0 : cz q (en q) ≠ 0 := by
      rcases helig q with ⟨h, -⟩ | ⟨h, -⟩
      · exact h.ne'
      · exact h.ne
    exact mul_self_pos.2 h0
  obtain ⟨j, hj, hjpos⟩ : ∃ j ∈ range N, 0 < cz p j * (cz q (en q) * w q j) := by
    by_contra hcon
    push Not at hcon
    exact absurd hsum (not_lt.2 (sum_nonpos hcon))
  have hjN := mem_range.1 hj
  have hczj : cz p j ≠ 0 := by rintro h; rw [h, zero_mul] at hjpos; exact lt_irrefl _ hjpos
  have hwj : w q j ≠ 0 := by rintro h; rw [h, mul_zero, mul_zero] at hjpos; exact lt_irrefl _ hjpos
  have hnbp : nb p j := by by_contra h; exact hczj (hcz p j h)
  have hjq : j = en q ∨ ¬ nb q j := by
    by_contra hcon; push Not at hcon; exact hwj (hw0 q j hcon.2 hcon.1)
  have hjr : j ≤ r := by
    by_contra hlt
    rcases hjq with h | h
    · exact (hT q (by omega) j (by omega) hjN).2 h.symm
    · exact h ((hstat j (by omega) hjN).2 hnbp)
  rcases lt_or_eq_of_le hjr with hlt | heq
  · -- j < r
    have hm := hmin p j (by rw [hp]; exact hlt) hnbp
    have hblk : Blocked lo up x (cz q (en q) * w q j) j := by
      rcases lt_or_gt_of_ne hczj with h | h
      · right; exact ⟨neg_of_mul_pos_right hjpos h.le, hm.2 h⟩
      · left; exact ⟨pos_of_mul_pos_right hjpos h.le, hm.1 h⟩
    rcases hjq with h | h
    · subst h
      rw [hw1, mul_one] at hblk
      rcases helig q with ⟨h1, h2⟩ | ⟨h1, h2⟩
      · rcases hblk with ⟨-, h3⟩ | ⟨h3, -⟩
        · exact lt_irrefl _ (h2 _ h3)
        · exact lt_irrefl _ (h1.trans h3)
      · rcases hblk with ⟨h3, -⟩ | ⟨-, h3⟩
        · exact lt_irrefl _ (h1.trans h3)
        · exact lt_irrefl _ (h2 _ h3)
    · have := hfirst q j hjN h hblk
      omega
  · subst heq
    have hl := hleave q
    rw [hq] at hl
    have he := helig p
    rw [hp] at he
    rcases he with ⟨h1, h2⟩ | ⟨h1, h2⟩
    · rcases hl with ⟨-, h3⟩ | ⟨h3, -⟩
      · exact lt_irrefl _ (h2 _ h3)
      · exact absurd hjpos (not_lt.2 (mul_nonpos_of_nonneg_of_nonpos h1.le h3.le))
    · rcases hl with ⟨h3, -⟩ | ⟨-, h3⟩
      · exact absurd hjpos (not_lt.2 (mul_nonpos_of_nonpos_of_nonneg h1.le h3.le))
      · exact lt_irrefl _ (h2 _ h3)

/-- A monotone sequence with finitely many values is eventually constant. -/
theorem eventually_const {V : Type} [LinearOrder V] (f : ℕ → V) (hm : ∀ t, f t ≤ f (t + 1))
    (hf : (Set.range f).Finite) : ∃ T, ∀ t, T ≤ t → f t = f T := by
  have hmono : Monotone f := monotone_nat_of_le_succ hm
  obtain ⟨m, ⟨⟨T, rfl⟩, hmax⟩⟩ := hf.exists_maximal (Set.range_nonempty f)
  refine ⟨T, fun t ht => le_antisymm ?_ (hmono ht)⟩
  exact hmax ⟨t, rfl⟩ (hmono ht)

/-- There is no infinite run of the optimization phase: steps are pivots or bound flips. -/
theorem bland_optimize {V : Type} [LpValue V] (N : ℕ) (lo up : ℕ → Option V) (val : ℕ → ℕ → V)
    (nb : ℕ → ℕ → Prop) (lv en : ℕ → ℕ) (cz w : ℕ → ℕ → ℚ) (piv : ℕ → Prop) (z : ℕ)
    (henN : ∀ t, en t < N) (hen : ∀ t, nb t (en t))
    -- pivots
    (hlvN : ∀ t, piv t → lv t < N) (hlv : ∀ t, piv t → ¬ nb t (lv t))
    (hnb : ∀ t, piv t → ∀ v, nb (t + 1) v ↔ (nb t v ∧ v ≠ en t) ∨ v = lv t)
    (hlvb : ∀ t, piv t → lo (lv t) = some (val (t + 1) (lv t)) ∨ up (lv t) = some (val (t + 1) (lv t)))
    -- flips
    (hflip : ∀ t, ¬ piv t → (∀ v, nb (t + 1) v ↔ nb t v) ∧ val (t + 1) (en t) ≠ val t (en t) ∧
      (lo (en t) = some (val (t + 1) (en t)) ∨ up (en t) = some (val (t + 1) (en t))))
    (hcz : ∀ t v, ¬ nb t v → cz t v = 0)
    (hw1 : ∀ t, w t (en t) = 1) (hw0 : ∀ t v, nb t v → v ≠ en t → w t v = 0)
    (hdir : ∀ p q, cz q (en q) = ∑ j ∈ range N, cz p j * w q j)
    (hval : ∀ t v, v < N → val (t + 1) v = val t v + w t v • (val (t + 1) (en t) - val t (en t)))
    (hrow : ∀ t t', val t' z = ∑ j ∈ range N, cz t j • val t' j)
    (hmono : ∀ t, 0 ≤ cz t (en t) • (val (t + 1) (en t) - val t (en t)))
    (helig : ∀ t, (0 < cz t (en t) ∧ ∀ b, up (en t) = some b → val t (en t) < b) ∨
      (cz t (en t) < 0 ∧ ∀ b, lo (en t) = some b → b < val t (en t)))
    (hmin : ∀ t j, j < en t → nb t j →
      (0 < cz t j → up j = some (val t j)) ∧ (cz t j < 0 → lo j = some (val t j)))
    -- selection of the leaving variable for degenerate pivots
    (hleave : ∀ t, piv t → val (t + 1) (en t) = val t (en t) →
      Blocked lo up (val t) (cz t (en t) * w t (lv t)) (lv t) ∧
      ∀ i, i < N → ¬ nb t i → Blocked lo up (val t) (cz t (en t) * w t i) i → lv t ≤ i) : False := by
  classical
  -- the objective never decreases
  have hz : ∀ t, val (t + 1) z = val t z + cz t (en t) • (val (t + 1) (en t) - val t (en t)) := by
    intro t
    rw [hrow t (t + 1), hrow t t, ← sub_eq_iff_eq_add', ← sum_sub_distrib]
    rw [sum_eq_single (en t)]
    · rw [← smul_sub]
    · intro j hj hne
      rw [← smul_sub]
      by_cases hn : nb t j
      · rw [hval t j (mem_range.1 hj), hw0 t j hn hne]; simp
      · rw [hcz t j hn, zero_smul]
    · intro h; exact absurd (mem_range.2 (henN t)) h
  have hm : ∀ t, val t z ≤ val (t + 1) z := by
    intro t; rw [hz t]; exact le_add_of_nonneg_right (hmono t)
  -- possible values of non-basic variables
  let P : ℕ → Set V := fun v => {y | y = val 0 v ∨ lo v = some y ∨ up v = some y}
  have hP : ∀ t v, v < N → nb t v → val t v ∈ P v := by
    intro t
    induction t with
    | zero => intro v _ _; exact Or.inl rfl
    | succ t ih =>
      intro v hvN hv
      by_cases hp : piv t
      · rcases (hnb t hp v).1 hv with ⟨h1, h2⟩ | h1
        · rw [hval t v hvN, hw0 t v h1 h2, zero_smul, add_zero]; exact ih v hvN h1
        · subst h1; exact Or.inr (hlvb t hp)
      · obtain ⟨h1, h2, h3⟩ := hflip t hp
        by_cases he : v = en t
        · subst he; exact Or.inr h3
        · rw [hval t v hvN, hw0 t v ((h1 v).1 hv) he, zero_smul, add_zero]; exact ih v hvN ((h1 v).1 hv)
  have hPfin : ∀ v, (P v).Finite := by
    intro v
    have : P v ⊆ {val 0 v} ∪ ({y | lo v = some y} ∪ {y | up v = some y}) := by
      rintro y (h | h | h)
      · exact Or.inl h
      · exact Or.inr (Or.inl h)
      · exact Or.inr (Or.inr h)
    refine Set.Finite.subset (Set.Finite.union (Set.finite_singleton _) (Set.Finite.union ?_ ?_)) this
    · refine Set.Subsingleton.finite ?_
      intro a ha b hb; exact Option.some.inj (ha.symm.trans hb)
    · refine Set.Subsingleton.finite ?_
      intro a ha b hb; exact Option.some.inj (ha.symm.trans hb)
  -- the objective value is determined by the non-basic variables and their values
  let K : ℕ → (Fin N → Option V) := fun t v => if nb t v then some (val t v) else none
  have hK : ∀ t t', K t = K t' → val t z = val t' z := by
    intro t t' h
    rw [hrow t t, hrow t t']
    apply sum_congr rfl
    intro j hj
    by_cases hn : nb t j
    · have := congrFun h ⟨j, mem_range.1 hj⟩
      simp only [K, hn, if_true] at this
      by_cases hn' : nb t' j
      · simp only [hn', if_true, Option.some.injEq] at this; rw [this]
      · simp [hn'] at this
    · rw [hcz t j hn, zero_smul, zero_smul]
  have hKfin : (Set.range K).Finite := by
    have : Set.range K ⊆ Set.pi Set.univ fun v : Fin N => (some '' P v ∪ {none}) := by
      rintro _ ⟨t, rfl⟩
      intro v _
      by_cases hn : nb t v
      · left; exact ⟨val t v, hP t v v.2 hn, by simp [K, hn]⟩
      · right; simp [K, hn]
    refine Set.Finite.subset (Set.Finite.pi' ?_) (fun f hf v => this hf v (Set.mem_univ v))
    intro v
    exact Set.Finite.union ((hPfin v).image _) (Set.finite_singleton _)
  have hfin : (Set.range fun t => val t z).Finite := by
    have : ∀ k : Set.range K, ∃ y, ∀ t, K t = k → val t z = y := by
      rintro ⟨_, t, rfl⟩
      exact ⟨val t z, fun t' h => hK t' t h⟩
    choose g hg using this
    have hsub : (Set.range fun t => val t z) ⊆ Set.range g := by
      rintro _ ⟨t, rfl⟩
      exact ⟨⟨K t, t, rfl⟩, (hg _ t rfl).symm⟩
    haveI := hKfin.to_subtype
    exact (Set.finite_range g).subset hsub
  obtain ⟨T, hT⟩ := eventually_const (fun t => val t z) hm hfin
  -- from `T` on all steps are degenerate
  have hdeg : ∀ t, T ≤ t → val (t + 1) (en t) = val t (en t) := by
    intro t ht
    have h1 := hz t
    have e1 : val (t + 1) z = val t z := (hT (t + 1) (by omega)).trans (hT t ht).symm
    rw [e1] at h1
    have h2 : cz t (en t) • (val (t + 1) (en t) - val t (en t)) = 0 := by
      have := h1.symm; rwa [add_eq_left] at this
    have h0 : cz t (en t) ≠ 0 := by
      rcases helig t with ⟨h, -⟩ | ⟨h, -⟩
      · exact h.ne'
      · exact h.ne
    rcases smul_eq_zero.1 h2 with h | h
    · exact absurd h h0
    · exact sub_eq_zero.1 h
  have hpiv : ∀ t, T ≤ t → piv t := by
    intro t ht
    by_contra h
    exact (hflip t h).2.1 (hdeg t ht)
  have hconst : ∀ k v, v < N → val (T + k) v = val T v := by
    intro k
    induction k with
    | zero => intro v _; rfl
    | succ k ih =>
      intro v hv
      rw [show T + (k + 1) = T + k + 1 by omega, hval _ v hv, hdeg _ (by omega), sub_self, smul_zero, add_zero]
      exact ih v hv
  have hblk : ∀ k d i, i < N → (Blocked lo up (val (T + k)) d i ↔ Blocked lo up (val T) d i) := by
    intro k d i hi
    unfold Blocked
    rw [hconst k i hi]
  refine bland_degenerate N lo up (val T) (fun t => nb (T + t)) (fun t => lv (T + t)) (fun t => en (T + t))
    (fun t => cz (T + t)) (fun t => w (T + t)) ?_ ?_ ?_ ?_ ?_ ?_ ?_ ?_ ?_ ?_ ?_ ?_ ?_
  · exact fun t => hlvN _ (hpiv _ (by omega))
  · exact fun t => henN _
  · exact fun t => hlv _ (hpiv _ (by omega))
  · exact fun t => hen _
  · exact fun t v => hnb (T + t) (hpiv _ (by omega)) v
  · exact fun t v => hcz _ v
  · exact fun t => hw1 _
  · exact fun t v => hw0 _ v
  · exact fun p q => hdir _ _
  · intro t
    rw [← hconst t (en (T + t)) (henN _)]
    exact helig (T + t)
  · intro t j hj hn
    rw [← hconst t j (lt_trans hj (henN _))]
    exact hmin (T + t) j hj hn
  · intro t
    have h := (hleave (T + t) (hpiv _ (by omega)) (hdeg _ (by omega))).1
    rwa [hblk t _ _ (hlvN _ (hpiv _ (by omega)))] at h
  · intro t i hi hn hb
    exact (hleave (T + t) (hpiv _ (by omega)) (hdeg _ (by omega))).2 i hi hn ((hblk t _ _ hi).2 hb)

end Lpx
