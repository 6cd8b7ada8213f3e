import Verif.Num
import Mathlib.Algebra.BigOperators.Group.Finset.Basic
import Mathlib.Algebra.BigOperators.GroupWithZero.Action
import Mathlib.Algebra.Order.BigOperators.Group.Finset
import Mathlib.Data.Finset.Max

/-!
# Termination of Bland's rule, abstractly

A run of the simplex algorithm is described by the set of non-basic variables, the values, the leaving and the
entering variable at each time. There is no infinite run that follows Bland's rule.
-/

namespace Lpx
open Finset

/-- `x` lies within the optional bounds. -/
def Within {V : Type} [LE V] (lo up : Option V) (x : V) : Prop :=
  (∀ b, lo = some b → b ≤ x) ∧ (∀ b, up = some b → x ≤ b)

/-- Eventually only variables that leave infinitely often leave or enter; `r` is the largest of them. -/
theorem exists_last_fickle (N : ℕ) (lv en : ℕ → ℕ) (nb : ℕ → ℕ → Prop)
    (hlvN : ∀ t, lv t < N) (hen : ∀ t, nb t (en t)) (hlv : ∀ t, ¬ nb t (lv t))
    (hnb : ∀ t v, nb (t + 1) v ↔ (nb t v ∧ v ≠ en t) ∨ v = lv t) :
    ∃ r T, r < N ∧ (∀ T', ∃ t, T' ≤ t ∧ lv t = r) ∧ (∀ t, T ≤ t → ∀ v, r < v → v < N → lv t ≠ v ∧ en t ≠ v) ∧
      ∀ t, T ≤ t → ∀ v, v < N → (¬ ∀ T', ∃ t, T' ≤ t ∧ lv t = v) → lv t ≠ v ∧ en t ≠ v := by
  classical
  -- variables leaving infinitely often
  let I : Finset ℕ := (range N).filter fun v => ∀ T', ∃ t, T' ≤ t ∧ lv t = v
  have hout : ∀ v, v ∉ I → v < N → ∃ T, ∀ t, T ≤ t → lv t ≠ v := by
    intro v hv hN
    by_contra hcon
    push Not at hcon
    exact hv (mem_filter.2 ⟨mem_range.2 hN, hcon⟩)
  have hstop : ∀ v, v ∉ I → v < N → ∃ T, ∀ t, T ≤ t → lv t ≠ v ∧ en t ≠ v := by
    intro v hv hN
    obtain ⟨T, hT⟩ := hout v hv hN
    by_cases h : ∃ t, T ≤ t ∧ en t = v
    · obtain ⟨t0, ht0, he⟩ := h
      have hbasic : ∀ k, ¬ nb (t0 + 1 + k) v := by
        intro k
        induction k with
        | zero =>
          rw [Nat.add_zero, hnb]
          rintro (⟨_, h⟩ | h)
          · exact h he.symm
          · exact hT t0 ht0 h.symm
        | succ k ih =>
          rw [show t0 + 1 + (k + 1) = (t0 + 1 + k) + 1 by omega, hnb]
          rintro (⟨h, _⟩ | h)
          · exact ih h
          · exact hT (t0 + 1 + k) (by omega) h.symm
      refine ⟨t0 + 1, fun t ht => ⟨hT t (by omega), ?_⟩⟩
      intro he'
      have := hen t
      rw [he'] at this
      exact hbasic (t - (t0 + 1)) (by rwa [show t0 + 1 + (t - (t0 + 1)) = t by omega])
    · push Not at h
      exact ⟨T, fun t ht => ⟨hT t ht, h t ht⟩⟩
  -- a common point in time
  have hall : ∃ T, ∀ v, v ∉ I → v < N → ∀ t, T ≤ t → lv t ≠ v ∧ en t ≠ v := by
    have : ∀ n, n ≤ N → ∃ T, ∀ v, v ∉ I → v < n → ∀ t, T ≤ t → lv t ≠ v ∧ en t ≠ v := by
      intro n
      induction n with
      | zero => intro _; exact ⟨0, fun v _ h => absurd h (by omega)⟩
      | succ n ih =>
        intro hn
        obtain ⟨T, hT⟩ := ih (by omega)
        by_cases hI : n ∈ I
        · refine ⟨T, fun v hv hvn t ht => hT v hv ?_ t ht⟩
          rcases Nat.lt_succ_iff_lt_or_eq.1 hvn with h | h
          · exact h
          · subst h; exact absurd hI hv
        · obtain ⟨T2, hT2⟩ := hstop n hI (by omega)
          refine ⟨max T T2, fun v hv hvn t ht => ?_⟩
          rcases Nat.lt_succ_iff_lt_or_eq.1 hvn with h | h
          · exact hT v hv h t (le_trans (le_max_left _ _) ht)
          · subst h; exact hT2 t (le_trans (le_max_right _ _) ht)
    exact this N le_rfl
  obtain ⟨T, hT⟩ := hall
  have hne : I.Nonempty := by
    by_contra hcon
    rw [not_nonempty_iff_eq_empty] at hcon
    exact (hT (lv T) (by rw [hcon]; simp) (hlvN T) T le_rfl).1 rfl
  refine ⟨I.max' hne, T, ?_, ?_, ?_, fun t ht v hv hni => hT v (fun h => hni (mem_filter.1 h).2) hv t ht⟩
  · exact mem_range.1 (mem_filter.1 (I.max'_mem hne)).1
  · exact (mem_filter.1 (I.max'_mem hne)).2
  · intro t ht v hv hN
    apply hT v _ hN t ht
    intro hI
    have := I.le_max' v hI
    omega

/-- After `r` leaves at time `p` it enters at some later time `q`, being non-basic in between. -/
theorem exists_reenter (lv en : ℕ → ℕ) (nb : ℕ → ℕ → Prop) (hlv : ∀ t, ¬ nb t (lv t))
    (hnb : ∀ t v, nb (t + 1) v ↔ (nb t v ∧ v ≠ en t) ∨ v = lv t)
    (r p : ℕ) (hp : lv p = r) (hinf : ∀ T', ∃ t, T' ≤ t ∧ lv t = r) :
    ∃ q, p < q ∧ en q = r ∧ (∀ t, p < t → t ≤ q → nb t r) ∧ ∀ t, p < t → t < q → en t ≠ r := by
  classical
  obtain ⟨p2, hp2, hl2⟩ := hinf (p + 1)
  have hex : ∃ q, p < q ∧ en q = r := by
    by_contra hcon
    push Not at hcon
    have : ∀ k, nb (p + 1 + k) r := by
      intro k
      induction k with
      | zero => rw [Nat.add_zero, hnb]; exact Or.inr hp.symm
      | succ k ih =>
        rw [show p + 1 + (k + 1) = (p + 1 + k) + 1 by omega, hnb]
        exact Or.inl ⟨ih, (hcon (p + 1 + k) (by omega)).symm⟩
    have h := this (p2 - (p + 1))
    rw [show p + 1 + (p2 - (p + 1)) = p2 by omega, ← hl2] at h
    exact hlv p2 h
  have hq := Nat.find_spec hex
  have hqm : ∀ t, p < t → t < Nat.find hex → en t ≠ r := fun t h1 h2 he => Nat.find_min hex h2 ⟨h1, he⟩
  refine ⟨Nat.find hex, hq.1, hq.2, ?_, hqm⟩
  intro t h1 h2
  obtain ⟨k, rfl⟩ : ∃ k, t = p + 1 + k := ⟨t - (p + 1), by omega⟩
  clear h1
  induction k with
  | zero => rw [Nat.add_zero, hnb]; exact Or.inr hp.symm
  | succ k ih =>
    rw [show p + 1 + (k + 1) = (p + 1 + k) + 1 by omega, hnb]
    exact Or.inl ⟨ih (by omega), (hqm (p + 1 + k) (by omega) (by omega)).symm⟩

/-- Finitely many eventual properties hold eventually. -/
theorem eventually_all (N : ℕ) (P : ℕ → ℕ → Prop) (h : ∀ v, v < N → ∃ T, ∀ t, T ≤ t → P v t) :
    ∃ T, ∀ t, T ≤ t → ∀ v, v < N → P v t := by
  induction N with
  | zero => exact ⟨0, fun t _ v hv => absurd hv (by omega)⟩
  | succ N ih =>
    obtain ⟨T, hT⟩ := ih fun v hv => h v (by omega)
    obtain ⟨T', hT'⟩ := h N (by omega)
    refine ⟨max T T', fun t ht v hv => ?_⟩
    rcases Nat.lt_succ_iff_lt_or_eq.1 hv with h1 | rfl
    · exact hT t (le_trans (le_max_left _ _) ht) v h1
    · exact hT' t (le_trans (le_max_right _ _) ht)

/-- There is no infinite run of the feasibility phase following Bland's rule. It suffices that variables leaving infinitely often
are within their bounds, eventually. -/
theorem bland_feasibility {V : Type} [LpValue V] (N : ℕ) (lo up : ℕ → Option V)
    (nb : ℕ → ℕ → Prop) (val : ℕ → ℕ → V) (lv en : ℕ → ℕ) (cf : ℕ → ℕ → ℚ) (sg : ℕ → ℚ)
    (hlvN : ∀ t, lv t < N) (henN : ∀ t, en t < N)
    (hlv : ∀ t, ¬ nb t (lv t)) (hen : ∀ t, nb t (en t))
    (hnb : ∀ t v, nb (t + 1) v ↔ (nb t v ∧ v ≠ en t) ∨ v = lv t)
    (hval : ∀ t v, nb t v → v ≠ en t → val (t + 1) v = val t v)
    -- the row of the leaving variable is valid for all assignments of the run
    (hcf : ∀ t v, ¬ nb t v → cf t v = 0)
    (hrow : ∀ t t', val t' (lv t) = ∑ j ∈ range N, cf t j • val t' j)
    -- non-basic variables and basic variables smaller than the leaving one are within their bounds
    (hin : ∀ v, v < N → (∀ T', ∃ t, T' ≤ t ∧ lv t = v) → ∃ T, ∀ t, T ≤ t → (nb t v ∨ v < lv t) → Within (lo v) (up v) (val t v))
    (hviol : ∀ t, (sg t = 1 ∧ ∃ b, lo (lv t) = some b ∧ val t (lv t) < b ∧ val (t + 1) (lv t) = b) ∨
      (sg t = -1 ∧ ∃ b, up (lv t) = some b ∧ b < val t (lv t) ∧ val (t + 1) (lv t) = b))
    (helig : ∀ t, (0 < sg t * cf t (en t) ∧ ∀ b, up (en t) = some b → val t (en t) < b) ∨
      (sg t * cf t (en t) < 0 ∧ ∀ b, lo (en t) = some b → b < val t (en t)))
    (hmin : ∀ t j, j < en t → nb t j →
      (0 < sg t * cf t j → ∃ b, up j = some b ∧ b ≤ val t j) ∧
      (sg t * cf t j < 0 → ∃ b, lo j = some b ∧ val t j ≤ b)) : False := by
  obtain ⟨r, T0, hrN, hinf, hT0, hI0⟩ := exists_last_fickle N lv en nb hlvN hen hlv hnb
  obtain ⟨T1, hT1⟩ := eventually_all N (fun v t => (∀ T', ∃ t, T' ≤ t ∧ lv t = v) → (nb t v ∨ v < lv t) → Within (lo v) (up v) (val t v))
    (fun v hv => by
      by_cases h : ∀ T', ∃ t, T' ≤ t ∧ lv t = v
      · obtain ⟨T, hT⟩ := hin v hv h
        exact ⟨T, fun t ht _ => hT t ht⟩
      · exact ⟨0, fun t _ h' => absurd h' h⟩)
  set T := max T0 T1 with hTdef
  have hT : ∀ t, T ≤ t → ∀ v, r < v → v < N → lv t ≠ v ∧ en t ≠ v := fun t ht => hT0 t (le_trans (le_max_left _ _) ht)
  have hI : ∀ t, T ≤ t → ∀ v, v < N → (¬ ∀ T', ∃ t, T' ≤ t ∧ lv t = v) → lv t ≠ v ∧ en t ≠ v :=
    fun t ht => hI0 t (le_trans (le_max_left _ _) ht)
  have hin2 : ∀ t, T ≤ t → ∀ v, v < N → (∀ T', ∃ t, T' ≤ t ∧ lv t = v) → (nb t v ∨ v < lv t) → Within (lo v) (up v) (val t v) :=
    fun t ht => hT1 t (le_trans (le_max_right _ _) ht)
  clear_value T
  obtain ⟨p, hpT, hp⟩ := hinf T
  obtain ⟨q, hpq, hq, hnbr, hqm⟩ := exists_reenter lv en nb hlv hnb r p hp hinf
  -- the value of `r` at `q`
  have hvalr : val q r = val (p + 1) r := by
    have : ∀ k, p + 1 + k ≤ q → val (p + 1 + k) r = val (p + 1) r := by
      intro k
      induction k with
      | zero => intro _; rfl
      | succ k ih =>
        intro hk
        rw [show p + 1 + (k + 1) = (p + 1 + k) + 1 by omega,
          hval _ _ (hnbr _ (by omega) (by omega)) (hqm _ (by omega) (by omega)).symm]
        exact ih (by omega)
    have h := this (q - (p + 1)) (by omega)
    rwa [show p + 1 + (q - (p + 1)) = q by omega] at h
  -- variables that do not leave anymore do not change between `p` and `q` if they are non-basic at `q`
  have hbig : ∀ v, v < N → (∀ t, T ≤ t → lv t ≠ v) → nb q v → val q v = val p v := by
    intro v hvN hTv hv
    have hdown : ∀ k, p + k ≤ q → nb (q - k) v ∧ val q v = val (q - k) v := by
      intro k
      induction k with
      | zero => intro _; exact ⟨hv, rfl⟩
      | succ k ih =>
        intro hk
        obtain ⟨h1, h2⟩ := ih (by omega)
        have e : q - k = (q - (k + 1)) + 1 := by omega
        have hTq := hTv (q - (k + 1)) (by omega)
        rw [e, hnb] at h1
        rcases h1 with ⟨h1, h3⟩ | h1
        · refine ⟨h1, ?_⟩
          rw [h2, e, hval _ _ h1 h3]
        · exact absurd h1.symm hTq
    have := (hdown (q - p) (by omega)).2
    rwa [show q - (q - p) = p by omega] at this
  -- the leaving variable at `q`
  have htr : lv q < r := by
    have h1 : lv q ≠ r := by
      intro h; exact hlv q (by rw [h]; exact hnbr q hpq le_rfl)
    by_contra h2
    exact (hT q (by omega) (lv q) (by omega) (hlvN q)).1 rfl
  have hwt := hin2 p hpT (lv q) (hlvN q) (by by_contra hni; exact (hI q (by omega) _ (hlvN q) hni).1 rfl) (Or.inr (by rw [hp]; exact htr))
  -- difference of the row equation
  have hdiff : val p (lv q) - val q (lv q) = ∑ j ∈ range N, cf q j • (val p j - val q j) := by
    rw [hrow q p, hrow q q, ← sum_sub_distrib]
    exact sum_congr rfl fun j _ => (smul_sub _ _ _).symm
  have hdiff2 : sg q • (val p (lv q) - val q (lv q)) =
      ∑ j ∈ range N, (sg q * cf q j) • (val p j - val q j) := by
    rw [hdiff, smul_sum]
    exact sum_congr rfl fun j _ => by rw [mul_smul]
  -- left-hand side is positive
  have hpos : 0 < sg q • (val p (lv q) - val q (lv q)) := by
    rcases hviol q with ⟨hs, b, hb, hlt, -⟩ | ⟨hs, b, hb, hlt, -⟩
    · rw [hs, one_smul, sub_pos]; exact lt_of_lt_of_le hlt (hwt.1 b hb)
    · rw [hs, neg_smul, one_smul, neg_sub, sub_pos]; exact lt_of_le_of_lt (hwt.2 b hb) hlt
  -- right-hand side is not
  have hneg : ∑ j ∈ range N, (sg q * cf q j) • (val p j - val q j) ≤ 0 := by
    apply sum_nonpos
    intro j hj
    have hjN := mem_range.1 hj
    by_cases hjnb : nb q j
    · rcases lt_trichotomy j r with hjr | hjr | hjr
      · -- smaller than r: not eligible at q and within bounds at p, or unchanged
        by_cases hni : ∀ T', ∃ t, T' ≤ t ∧ lv t = j
        swap
        · rw [hbig j hjN (fun t ht => (hI t ht j hjN hni).1) hjnb, sub_self, smul_zero]
        have hwj := hin2 p hpT j hjN hni (Or.inr (by rw [hp]; exact hjr))
        have hm := hmin q j (by rw [hq]; exact hjr) hjnb
        rcases lt_trichotomy (sg q * cf q j) 0 with h | h | h
        · obtain ⟨b, hb, hle⟩ := hm.2 h
          have : 0 ≤ val p j - val q j := sub_nonneg.2 (hle.trans (hwj.1 b hb))
          exact smul_nonpos_of_nonpos_of_nonneg h.le this
        · rw [h, zero_smul]
        · obtain ⟨b, hb, hle⟩ := hm.1 h
          have : val p j - val q j ≤ 0 := sub_nonpos.2 ((hwj.2 b hb).trans hle)
          exact smul_nonpos_of_nonneg_of_nonpos h.le this
      · subst hjr
        rcases hviol p with ⟨hs, b, hb, hlt, heq⟩ | ⟨hs, b, hb, hlt, heq⟩
        · rw [hp] at hb hlt heq
          rcases helig q with ⟨h, -⟩ | ⟨h, h'⟩
          · rw [hq] at h
            refine smul_nonpos_of_nonneg_of_nonpos h.le (sub_nonpos.2 ?_)
            rw [hvalr, heq]; exact hlt.le
          · rw [hq] at h'
            have := h' b hb
            rw [hvalr, heq] at this
            exact absurd this (lt_irrefl _)
        · rw [hp] at hb hlt heq
          rcases helig q with ⟨h, h'⟩ | ⟨h, -⟩
          · rw [hq] at h'
            have := h' b hb
            rw [hvalr, heq] at this
            exact absurd this (lt_irrefl _)
          · rw [hq] at h
            refine smul_nonpos_of_nonpos_of_nonneg h.le (sub_nonneg.2 ?_)
            rw [hvalr, heq]; exact hlt.le
      · rw [hbig j hjN (fun t ht => (hT t ht j hjr hjN).1) hjnb, sub_self, smul_zero]
    · rw [hcf q j hjnb, mul_zero, zero_smul]
  rw [hdiff2] at hpos
  exact absurd hpos (not_lt.2 hneg)

/-- As `bland_feasibility`, but nothing is required of variables whose bounds contradict each other: such a variable
    cannot enter the basis again after it has left it. -/
theorem bland_feasibility_weak {V : Type} [LpValue V] (N : ℕ) (lo up : ℕ → Option V)
    (nb : ℕ → ℕ → Prop) (val : ℕ → ℕ → V) (lv en : ℕ → ℕ) (cf : ℕ → ℕ → ℚ) (sg : ℕ → ℚ)
    (hlvN : ∀ t, lv t < N) (henN : ∀ t, en t < N)
    (hlv : ∀ t, ¬ nb t (lv t)) (hen : ∀ t, nb t (en t))
    (hnb : ∀ t v, nb (t + 1) v ↔ (nb t v ∧ v ≠ en t) ∨ v = lv t)
    (hval : ∀ t v, nb t v → v ≠ en t → val (t + 1) v = val t v)
    (hcf : ∀ t v, ¬ nb t v → cf t v = 0)
    (hrow : ∀ t t', val t' (lv t) = ∑ j ∈ range N, cf t j • val t' j)
    (hin : ∀ v, v < N → (∀ l u, lo v = some l → up v = some u → l ≤ u) → (∀ T', ∃ t, T' ≤ t ∧ lv t = v) →
      ∃ T, ∀ t, T ≤ t → (nb t v ∨ v < lv t) → Within (lo v) (up v) (val t v))
    (hviol : ∀ t, (sg t = 1 ∧ ∃ b, lo (lv t) = some b ∧ val t (lv t) < b ∧ val (t + 1) (lv t) = b) ∨
      (sg t = -1 ∧ ∃ b, up (lv t) = some b ∧ b < val t (lv t) ∧ val (t + 1) (lv t) = b))
    (helig : ∀ t, (0 < sg t * cf t (en t) ∧ ∀ b, up (en t) = some b → val t (en t) < b) ∨
      (sg t * cf t (en t) < 0 ∧ ∀ b, lo (en t) = some b → b < val t (en t)))
    (hmin : ∀ t j, j < en t → nb t j →
      (0 < sg t * cf t j → ∃ b, up j = some b ∧ b ≤ val t j) ∧
      (sg t * cf t j < 0 → ∃ b, lo j = some b ∧ val t j ≤ b)) : False := by
  refine bland_feasibility N lo up nb val lv en cf sg hlvN henN hlv hen hnb hval hcf hrow ?_ hviol helig hmin
  intro v hvN hinf
  by_cases hlu : ∀ l u, lo v = some l → up v = some u → l ≤ u
  · exact hin v hvN hlu hinf
  exfalso
  push Not at hlu
  obtain ⟨l, u, hl, hu, hul⟩ := hlu
  obtain ⟨p, -, hp⟩ := hinf 0
  obtain ⟨q, hpq, hq, hnbr, hqm⟩ := exists_reenter lv en nb hlv hnb v p hp hinf
  have hvalr : val q v = val (p + 1) v := by
    have : ∀ k, p + 1 + k ≤ q → val (p + 1 + k) v = val (p + 1) v := by
      intro k
      induction k with
      | zero => intro _; rfl
      | succ k ih =>
        intro hk
        rw [show p + 1 + (k + 1) = (p + 1 + k) + 1 by omega,
          hval _ _ (hnbr _ (by omega) (by omega)) (hqm _ (by omega) (by omega)).symm]
        exact ih (by omega)
    have h := this (q - (p + 1)) (by omega)
    rwa [show p + 1 + (q - (p + 1)) = q by omega] at h
  have hb : val q v = l ∨ val q v = u := by
    rw [hvalr]
    rcases hviol p with ⟨-, b, h1, -, h2⟩ | ⟨-, b, h1, -, h2⟩
    · rw [hp] at h1 h2; rw [hl] at h1; exact Or.inl (by rw [h2]; exact (Option.some.inj h1).symm)
    · rw [hp] at h1 h2; rw [hu] at h1; exact Or.inr (by rw [h2]; exact (Option.some.inj h1).symm)
  have he := helig q
  rw [hq] at he
  rcases he with ⟨-, h⟩ | ⟨-, h⟩
  · have := h u hu
    rcases hb with hb | hb <;> rw [hb] at this
    · exact absurd (this.trans hul) (lt_irrefl _)
    · exact absurd this (lt_irrefl _)
  · have := h l hl
    rcases hb with hb | hb <;> rw [hb] at this
    · exact absurd this (lt_irrefl _)
    · exact absurd (this.trans hul) (lt_irrefl _)

/-- The times `p, p + 1, ..., q - 1, p, p + 1, ...`. -/
def around (p q t : ℕ) : ℕ := p + t % (q - p)

theorem around_mem {p q : ℕ} (h : p < q) (t : ℕ) : p ≤ around p q t ∧ around p q t < q := by
  have := Nat.mod_lt t (show 0 < q - p by omega)
  unfold around; omega

theorem around_succ {p q : ℕ} (h : p < q) (t : ℕ) :
    around p q (t + 1) = around p q t + 1 ∨ (around p q t + 1 = q ∧ around p q (t + 1) = p) := by
  unfold around
  rw [Nat.add_mod t 1]
  have hl := Nat.mod_lt t (show 0 < q - p by omega)
  generalize t % (q - p) = r at *
  by_cases h1 : q - p = 1
  · right
    rw [h1, Nat.mod_one]; omega
  · rw [Nat.mod_eq_of_lt (show 1 < q - p by omega)]
    by_cases h2 : r + 1 < q - p
    · left; rw [Nat.mod_eq_of_lt h2]; omega
    · right
      rw [show r + 1 = q - p by omega, Nat.mod_self]; omega

/-- With Bland's rule no basis and values repeat: the finite version of `bland_feasibility_weak`, for the steps from `p` to `q`. -/
theorem bland_cycle {V : Type} [LpValue V] (N : ℕ) (lo up : ℕ → Option V)
    (nb : ℕ → ℕ → Prop) (val : ℕ → ℕ → V) (lv en : ℕ → ℕ) (cf : ℕ → ℕ → ℚ) (sg : ℕ → ℚ) {p q : ℕ} (hpq : p < q)
    (hsame : ∀ v, nb p v ↔ nb q v) (hvsame : ∀ v, v < N → val p v = val q v) (hnbN : ∀ t v, nb t v → v < N)
    (hlvN : ∀ t, p ≤ t → t < q → lv t < N) (henN : ∀ t, p ≤ t → t < q → en t < N)
    (hlv : ∀ t, p ≤ t → t < q → ¬ nb t (lv t)) (hen : ∀ t, p ≤ t → t < q → nb t (en t))
    (hnb : ∀ t, p ≤ t → t < q → ∀ v, nb (t + 1) v ↔ (nb t v ∧ v ≠ en t) ∨ v = lv t)
    (hval : ∀ t, p ≤ t → t < q → ∀ v, nb t v → v ≠ en t → val (t + 1) v = val t v)
    (hcf : ∀ t, p ≤ t → t < q → ∀ v, ¬ nb t v → cf t v = 0)
    (hrow : ∀ t t', p ≤ t → t < q → p ≤ t' → t' < q → val t' (lv t) = ∑ j ∈ range N, cf t j • val t' j)
    (hin : ∀ v, v < N → (∀ l u, lo v = some l → up v = some u → l ≤ u) → (∃ t, p ≤ t ∧ t < q ∧ lv t = v) →
      ∀ t, p ≤ t → t < q → (nb t v ∨ v < lv t) → Within (lo v) (up v) (val t v))
    (hviol : ∀ t, p ≤ t → t < q → (sg t = 1 ∧ ∃ b, lo (lv t) = some b ∧ val t (lv t) < b ∧ val (t + 1) (lv t) = b) ∨
      (sg t = -1 ∧ ∃ b, up (lv t) = some b ∧ b < val t (lv t) ∧ val (t + 1) (lv t) = b))
    (helig : ∀ t, p ≤ t → t < q → (0 < sg t * cf t (en t) ∧ ∀ b, up (en t) = some b → val t (en t) < b) ∨
      (sg t * cf t (en t) < 0 ∧ ∀ b, lo (en t) = some b → b < val t (en t)))
    (hmin : ∀ t, p ≤ t → t < q → ∀ j, j < en t → nb t j →
      (0 < sg t * cf t j → ∃ b, up j = some b ∧ b ≤ val t j) ∧
      (sg t * cf t j < 0 → ∃ b, lo j = some b ∧ val t j ≤ b)) : False := by
  have hm := around_mem hpq
  have hnb1 : ∀ t v, nb (around p q (t + 1)) v ↔ nb (around p q t + 1) v := by
    intro t v
    rcases around_succ hpq t with h | ⟨h1, h2⟩
    · rw [h]
    · rw [h1, h2]; exact hsame v
  have hval1 : ∀ t v, v < N → val (around p q (t + 1)) v = val (around p q t + 1) v := by
    intro t v hv
    rcases around_succ hpq t with h | ⟨h1, h2⟩
    · rw [h]
    · rw [h1, h2]; exact hvsame v hv
  refine bland_feasibility_weak N lo up (fun t => nb (around p q t)) (fun t => val (around p q t)) (fun t => lv (around p q t))
    (fun t => en (around p q t)) (fun t => cf (around p q t)) (fun t => sg (around p q t))
    (fun t => hlvN _ (hm t).1 (hm t).2) (fun t => henN _ (hm t).1 (hm t).2) (fun t => hlv _ (hm t).1 (hm t).2) (fun t => hen _ (hm t).1 (hm t).2)
    (fun t v => (hnb1 t v).trans (hnb _ (hm t).1 (hm t).2 v)) ?_ (fun t => hcf _ (hm t).1 (hm t).2)
    (fun t t' => hrow _ _ (hm t).1 (hm t).2 (hm t').1 (hm t').2) ?_ ?_ (fun t => helig _ (hm t).1 (hm t).2) (fun t => hmin _ (hm t).1 (hm t).2)
  · intro t v h1 h2
    show val _ v = val _ v
    rw [hval1 t v (hnbN _ _ h1)]
    exact hval _ (hm t).1 (hm t).2 v h1 h2
  · intro v hv hlu hinf
    obtain ⟨t, -, ht⟩ := hinf 0
    exact ⟨0, fun t' _ => hin v hv hlu ⟨_, (hm t).1, (hm t).2, ht⟩ _ (hm t').1 (hm t').2⟩
  · intro t
    have hlt := hlvN _ (hm t).1 (hm t).2
    show (_ ∧ ∃ b, _ ∧ _ ∧ val (around p q (t + 1)) (lv (around p q t)) = b) ∨ (_ ∧ ∃ b, _ ∧ _ ∧ val (around p q (t + 1)) (lv (around p q t)) = b)
    rw [hval1 t _ hlt]
    exact hviol _ (hm t).1 (hm t).2

end Lpx
