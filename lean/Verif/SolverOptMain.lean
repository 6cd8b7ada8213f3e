import Verif.SolverOptStep
import Mathlib.Algebra.Module.BigOperators

/-! # `optimize`: result and termination -/

set_option linter.unusedSectionVars false

namespace Lpx
open Finset

namespace S
variable {V : Type} [LpValue V]

/-- One iteration. -/
def optIter (s : S V) : S V := match s.optStep with | .inl _ => s | .inr t => t

/-- A direction along which the equations hold: column `j`. -/
def colDir (s : S V) (j : ℕ) (v : ℕ) : ℚ :=
  if s.rindex v < s.n then (if s.rindex v = j then 1 else 0) else s.tab.coef (s.rindex v - s.n) j

theorem colDir_tabEq {s : S V} (hs : Struct s) {j : ℕ} (hj : j < s.n) (x : V) : TabEq s (fun v => s.colDir j v • x) := by
  intro i hi
  have hnv := hs.nv
  simp only
  have h1 : s.colDir j (s.index (i + s.n)) = s.tab.coef i j := by
    unfold colDir; rw [hs.ri _ (by omega), if_neg (by omega), Nat.add_sub_cancel]
  have h2 : ∀ l ∈ range s.n, s.tab.coef i l • s.colDir j (s.index l) • x = if l = j then s.tab.coef i j • x else 0 := by
    intro l hl
    have hl := mem_range.1 hl
    unfold colDir; rw [hs.ri _ (by omega), if_pos hl]
    by_cases h : l = j
    · subst h; simp
    · simp [h]
  rw [h1, sum_congr rfl h2, sum_ite_eq' (range s.n) j, if_pos (mem_range.2 hj)]

theorem Shift.colDir {s : S V} (hs : Struct s) {val' : ℕ → V} {j : ℕ} {θ : V} (h : Shift s val' j θ) {v : ℕ}
    (hv : v < s.nvars) : val' v = s.value v + s.colDir j v • θ := by
  have hnv := hs.nv
  rcases cases_var hs hv with ⟨l, hl, rfl⟩ | ⟨k, hk, rfl⟩
  · rw [h.nb l hl]; unfold S.colDir; rw [hs.ri _ (by omega), if_pos hl]
    split <;> simp
  · rw [h.b k hk]; unfold S.colDir; rw [hs.ri _ (by omega), if_neg (by omega), Nat.add_sub_cancel]

theorem ofRat_one_ne : (LpValue.ofRat 1 : V) ≠ 0 := by
  intro h
  have h0 : (LpValue.ofRat 0 : V) = 0 := by rw [← mul_zero (0 : ℚ), LpValue.ofRat_smul, zero_smul]
  have := LpValue.ofRat_lt (V := V) 0 1 one_pos
  rw [h, h0] at this; exact lt_irrefl _ this

/-- There is no infinite sequence of states in which the variables and values of each are those after a step of its predecessor. -/
theorem opt_no_cycle {E0 : (ℕ → V) → Prop} {s : S V} (hc : Core E0 s) (ha : s.obj.active = true) (st nx : ℕ → S V)
    (hcore : ∀ t, Core E0 (st t)) (hwin : ∀ t v, v < (st t).nvars → (st t).Win v) (hkeep : ∀ t, Keep s (st t))
    (hdata : ∀ t, ∃ j pos θ pv, OptData E0 (st t) (nx t) j pos θ pv)
    (hv1 : ∀ t v, v < s.nvars → (st (t + 1)).value v = (nx t).value v)
    (hr1 : ∀ t v, v < s.nvars → ((st (t + 1)).rindex v < s.n ↔ (nx t).rindex v < s.n)) : False := by
  choose J P Θ PV hD using hdata
  have hn : ∀ t, (st t).n = s.n := fun t => (hkeep t).n
  have hm : ∀ t, (st t).m = s.m := fun t => (hkeep t).m
  have hN : ∀ t, (st t).nvars = s.nvars := fun t => (hkeep t).nvars
  have hnv := hc.struct.nv
  have hJ : ∀ t, J t < s.n := fun t => by have := (hD t).lt; rwa [hn] at this
  set z := s.obj.var with hz
  obtain ⟨hzN, hzb, -⟩ := hc.ob ha
  have hzr : ∀ t, s.n ≤ (st t).rindex z := fun t => by
    have := ((hcore t).ob (by rw [(hkeep t).obj]; exact ha)).2.1
    rwa [hn, (hkeep t).obj] at this
  have hzi : ∀ t, (st t).index ((st t).objRow + s.n) = z := fun t => by
    unfold objRow
    rw [(hkeep t).obj, hn, Nat.sub_add_cancel (hzr t)]
    exact (hcore t).struct.ir z (by rw [hN]; exact hzN)
  have hzrow : ∀ t, (st t).objRow < s.m := fun t => by
    have := (hcore t).struct.ridx_lt z (by rw [hN]; exact hzN)
    have h1 := hzr t
    rw [hN] at this
    unfold objRow; rw [(hkeep t).obj, hn]
    show (st t).rindex z - s.n < s.m
    omega
  set lv : ℕ → ℕ := fun t => (st t).index ((PV t).getD 0 + s.n) with hlv
  set en : ℕ → ℕ := fun t => (st t).index (J t) with hen
  set nb : ℕ → ℕ → Prop := fun t v => v < s.nvars ∧ (st t).rindex v < s.n with hnbd
  set cz : ℕ → ℕ → ℚ := fun t v => if v < s.nvars ∧ (st t).rindex v < s.n then (st t).tab.coef (st t).objRow ((st t).rindex v) else 0 with hczd
  set w : ℕ → ℕ → ℚ := fun t v => (st t).colDir (J t) v with hwd
  have henN : ∀ t, en t < s.nvars := fun t => by
    have := (hcore t).struct.idx_lt (J t) (by rw [hN]; have := hJ t; omega)
    rwa [hN] at this
  have hre : ∀ t, (st t).rindex (en t) = J t := fun t =>
    (hcore t).struct.ri _ (by rw [hN]; have := hJ t; omega)
  have hczen : ∀ t, cz t (en t) = (st t).tab.coef (st t).objRow (J t) := fun t => by
    simp only [hczd]
    rw [if_pos (show en t < s.nvars ∧ (st t).rindex (en t) < s.n from ⟨henN t, by rw [hre]; exact hJ t⟩), hre]
  have hval : ∀ t v, v < s.nvars → (st (t + 1)).value v = (st t).value v + w t v • Θ t := fun t v hv => by
    rw [hv1 t v hv]
    exact (hD t).shift.colDir (hcore t).struct (by rw [hN]; exact hv)
  have hwen : ∀ t, w t (en t) = 1 := fun t => by
    simp only [hwd]; unfold colDir; rw [hre, hn, if_pos (hJ t), if_pos rfl]
  have hΘ : ∀ t, (st (t + 1)).value (en t) - (st t).value (en t) = Θ t := fun t => by
    rw [hval t _ (henN t), hwen, one_smul]; abel
  have hszp : ∀ t, 0 < sg (P t) * cz t (en t) := fun t => by rw [hczen]; exact (hD t).zpos
  have hwb : ∀ t k, k < s.m → w t ((st t).index (k + s.n)) = (st t).tab.coef k (J t) := fun t k hk => by
    simp only [hwd]; unfold colDir
    have := (hcore t).struct.ri (k + s.n) (by rw [hN]; omega)
    rw [this, hn, if_neg (by omega), Nat.add_sub_cancel]
  have hpv : ∀ t, PV t ≠ none → PV t = some ((PV t).getD 0) := fun t h => by
    cases hp : PV t with
    | none => exact absurd hp h
    | some i => rfl
  have hlvr : ∀ t, PV t ≠ none → (PV t).getD 0 < s.m ∧ (st t).rindex (lv t) = (PV t).getD 0 + s.n ∧ lv t < s.nvars := fun t h => by
    have h1 := ((hD t).piv _ (hpv t h)).1
    rw [hm] at h1
    refine ⟨h1, (hcore t).struct.ri _ (by rw [hN]; omega), ?_⟩
    have := (hcore t).struct.idx_lt ((PV t).getD 0 + s.n) (by rw [hN]; omega)
    rwa [hN] at this
  have hdB : ∀ t σ v, (st t).dirBound σ v = if 0 < σ then s.up v else s.lo v := fun t σ v => by
    unfold dirBound; rw [(hkeep t).up, (hkeep t).lo]
  -- sign of a product with cz
  have hsign : ∀ t a, (0 < sg (P t) * a ↔ 0 < cz t (en t) * a) ∧ (sg (P t) * a < 0 ↔ cz t (en t) * a < 0) := by
    intro t a
    have h1 := hszp t
    have hsq := sg_sq (P t)
    have : cz t (en t) * a = (sg (P t) * cz t (en t)) * (sg (P t) * a) := by
      rw [mul_mul_mul_comm, hsq, one_mul]
    rw [this]
    constructor
    · rw [mul_pos_iff_of_pos_left h1]
    · constructor
      · intro h; exact mul_neg_of_pos_of_neg h1 h
      · intro h; by_contra hh; exact absurd h (not_lt.2 (mul_nonneg h1.le (not_lt.1 hh)))
  refine bland_optimize s.nvars s.lo s.up (fun t => (st t).value) nb lv en cz w (fun t => PV t ≠ none) z
    henN ?_ ?_ ?_ ?_ ?_ ?_ ?_ hwen ?_ ?_ ?_ ?_ ?_ ?_ ?_ ?_
  · intro t; exact ⟨henN t, by rw [hre]; exact hJ t⟩
  · intro t h; exact (hlvr t h).2.2
  · rintro t h ⟨-, h1⟩; rw [(hlvr t h).2.1] at h1; omega
  · intro t h v
    obtain ⟨-, -, hr, -, -⟩ := (hD t).piv _ (hpv t h)
    obtain ⟨g1, g2, g3⟩ := hlvr t h
    rw [hn] at hr
    simp only [hnbd]
    rw [and_congr_right (hr1 t v), hr]
    show _ ∧ Function.update (Function.update (st t).rindex (lv t) (J t)) (en t) ((PV t).getD 0 + s.n) v < s.n ↔ _
    by_cases h1 : v = en t
    · subst h1
      rw [Function.update_self]
      have hne : en t ≠ lv t := by
        intro h
        have := hre t
        rw [h, g2] at this
        have := hJ t; omega
      simp only [ne_eq, not_true_eq_false, and_false, hne, or_self, iff_false, not_and]
      omega
    · rw [Function.update_of_ne h1]
      by_cases h2 : v = lv t
      · subst h2; rw [Function.update_self]; simp [g3, hJ t]
      · rw [Function.update_of_ne h2]; simp [h1, h2]
  · intro t h
    obtain ⟨-, -, -, hb, -⟩ := (hD t).piv _ (hpv t h)
    rw [hdB, hn] at hb
    rw [hv1 t _ (hlvr t h).2.2]
    split at hb
    · exact Or.inr hb
    · exact Or.inl hb
  · intro t h
    have h : PV t = none := not_not.1 h
    obtain ⟨h1, h2, h3⟩ := (hD t).flip h
    refine ⟨fun v => by simp only [hnbd]; rw [and_congr_right (hr1 t v), h1], ?_, ?_⟩
    · intro h; apply h2; rw [← hΘ t, h, sub_self]
    · rw [hdB] at h3
      rw [hv1 t _ (henN t)]
      split at h3
      · exact Or.inr h3
      · exact Or.inl h3
  · intro t v hv; exact if_neg hv
  · rintro t v ⟨hv1, hv2⟩ hne
    simp only [hwd]; unfold colDir
    rw [hn, if_pos hv2, if_neg]
    intro h; apply hne
    rw [hen]; simp only; rw [← h]; exact ((hcore t).struct.ir v (by rw [hN]; exact hv1)).symm
  · intro p q
    have h1 : TabEq (st p) (fun v => (st q).colDir (J q) v • (LpValue.ofRat 1 : V)) := by
      rw [(hcore p).eqv, ← (hcore q).eqv]
      exact colDir_tabEq (hcore q).struct (by rw [hn]; exact hJ q) _
    have h2 := h1 (st p).objRow (by rw [hm]; exact hzrow p)
    rw [sum_nb (hcore p).struct (fun l => (st p).tab.coef (st p).objRow l) (fun v => (st q).colDir (J q) v • (LpValue.ofRat 1 : V)), hN, hn, hzi] at h2
    have h3 : (st q).colDir (J q) z = cz q (en q) := by
      rw [hczen]
      have := hwb q (st q).objRow (hzrow q)
      rw [hzi] at this
      exact this
    simp only at h2
    rw [h3] at h2
    have h4 : cz q (en q) • (LpValue.ofRat 1 : V) = (∑ j ∈ range s.nvars, cz p j * w q j) • (LpValue.ofRat 1 : V) := by
      rw [h2, Finset.sum_smul]
      apply sum_congr rfl
      intro v hv
      simp only [hczd, hwd, mul_smul]
      simp [mem_range.1 hv]
    exact smul_left_injective ℚ ofRat_one_ne h4
  · intro t v hv; rw [hΘ t]; exact hval t v hv
  · intro t t'
    have h1 : TabEq (st t) (st t').value := by rw [(hcore t).eqv, ← (hcore t').eqv]; exact (hcore t').val
    have h2 := h1 (st t).objRow (by rw [hm]; exact hzrow t)
    rw [sum_nb (hcore t).struct, hN, hn, hzi] at h2
    rw [h2]
    apply sum_congr rfl
    intro v hv
    simp [hczd, mem_range.1 hv]
  · intro t
    rw [hΘ]
    have : cz t (en t) • Θ t = (sg (P t) * cz t (en t)) • (sg (P t) • Θ t) := by
      rw [smul_smul, mul_right_comm, sg_sq, one_mul]
    rw [this]
    exact smul_nonneg (hszp t).le (hD t).dir
  · intro t
    have hel := (hD t).elig
    have hs1 := hszp t
    rw [hdB] at hel
    cases hp : P t
    · right
      rw [hp] at hs1 hel
      simp only [sg, Bool.false_eq_true, if_false] at hs1 hel
      refine ⟨by linarith, fun b hb => ?_⟩
      have := hel b (by norm_num; exact hb)
      simpa using this
    · left
      rw [hp] at hs1 hel
      simp only [sg, if_true] at hs1 hel
      refine ⟨by linarith, fun b hb => ?_⟩
      have := hel b (by norm_num; exact hb)
      simpa using this
  · rintro t j hj ⟨hj1, hj2⟩
    have hidx : (st t).index ((st t).rindex j) = j := (hcore t).struct.ir j (by rw [hN]; exact hj1)
    have := (hD t).min ((st t).rindex j) (by rw [hn]; exact hj2) (by rw [hidx]; exact hj)
    rw [hidx, (hkeep t).up, (hkeep t).lo] at this
    have hwin := hwin t j (by rw [hN]; exact hj1)
    unfold Win at hwin
    rw [(hkeep t).up, (hkeep t).lo] at hwin
    simp only [hczd]
    rw [if_pos (show j < s.nvars ∧ (st t).rindex j < s.n from ⟨hj1, hj2⟩)]
    refine ⟨fun h => ?_, fun h => ?_⟩
    · obtain ⟨b, h1, h2⟩ := this.1 h
      rw [h1, le_antisymm h2 (hwin.2 b h1)]
    · obtain ⟨b, h1, h2⟩ := this.2 h
      rw [h1, le_antisymm h2 (hwin.1 b h1)]
  · intro t h heq
    have hθ0 : Θ t = 0 := by rw [← hΘ t, heq, sub_self]
    obtain ⟨g1, g2, -, g4, g5⟩ := (hD t).piv _ (hpv t h)
    rw [hm] at g1
    rw [hn] at g4 g5
    have hst0 : (st (t + 1)).value (lv t) = (st t).value (lv t) := by
      rw [hval t _ (hlvr t h).2.2, hθ0, smul_zero, add_zero]
    refine ⟨?_, ?_⟩
    · have g4' : (if 0 < sg (P t) * (st t).tab.coef ((PV t).getD 0) (J t) then s.up (lv t) else s.lo (lv t)) = some ((st t).value (lv t)) := by
        rw [← hst0, ← hdB, hv1 t _ (hlvr t h).2.2]; exact g4
      have hwl : w t (lv t) = (st t).tab.coef ((PV t).getD 0) (J t) := hwb t _ g1
      unfold Blocked
      rw [hwl]
      have hs1 := hsign t ((st t).tab.coef ((PV t).getD 0) (J t))
      have hne : sg (P t) * (st t).tab.coef ((PV t).getD 0) (J t) ≠ 0 := mul_ne_zero (sg_ne _) g2
      rcases lt_or_gt_of_ne hne with h0 | h0
      · right; rw [if_neg (not_lt.2 h0.le)] at g4'; exact ⟨hs1.2.1 h0, g4'⟩
      · left; rw [if_pos h0] at g4'; exact ⟨hs1.1.1 h0, g4'⟩
    · intro i hi hnbi hbl
      have hib : s.n ≤ (st t).rindex i := by
        by_contra hh; exact hnbi ⟨hi, not_le.1 hh⟩
      have hilt : (st t).rindex i < s.nvars := by
        have := (hcore t).struct.ridx_lt i (by rw [hN]; exact hi); rwa [hN] at this
      obtain ⟨k, hk, rfl⟩ : ∃ k, k < s.m ∧ (st t).index (k + s.n) = i :=
        ⟨(st t).rindex i - s.n, by omega, by rw [Nat.sub_add_cancel hib]; exact (hcore t).struct.ir i (by rw [hN]; exact hi)⟩
      have hs1 := hsign t ((st t).tab.coef k (J t))
      unfold Blocked at hbl
      rw [hwb t k hk] at hbl
      apply g5 hθ0 k (by rw [hm]; exact hk)
      · intro h0; rw [h0] at hbl; simp at hbl
      · rw [hdB]
        rcases hbl with ⟨h1, h2⟩ | ⟨h1, h2⟩
        · rw [if_pos (hs1.1.2 h1)]; exact h2
        · rw [if_neg (not_lt.2 (hs1.2.2 h1).le)]; exact h2

/-- `optimize` terminates after a number of steps that is exponential in the number of variables. -/
theorem opt_terminates {E0 : (ℕ → V) → Prop} {s : S V} (hc : Core E0 s) (hw : ∀ v, v < s.nvars → s.Win v)
    (ha : s.obj.active = true) : ∃ t, t ≤ 6 ^ s.nvars ∧ ∃ r, (optIter^[t] s).optStep = .inl r := by
  by_contra hcon
  push Not at hcon
  set K := 6 ^ s.nvars with hK
  set st : ℕ → S V := fun t => optIter^[t] s with hst
  have hst1 : ∀ t, st (t + 1) = optIter (st t) := fun t => Function.iterate_succ_apply' _ _ _
  have hinv : ∀ t, t ≤ K → Core E0 (st t) ∧ (∀ v, v < (st t).nvars → (st t).Win v) ∧ Keep s (st t) := by
    intro t
    induction t with
    | zero => intro _; exact ⟨hc, hw, Keep.refl s⟩
    | succ t ih =>
      intro ht
      obtain ⟨h1, h2, h3⟩ := ih (by omega)
      have h := optStep_spec h1 h2 (by rw [h3.obj]; exact ha)
      rw [hst1]; unfold optIter
      cases hr : (st t).optStep with
      | inl r => exact absurd hr (hcon t (by omega) r)
      | inr t' =>
        rw [hr] at h
        cases h with
        | move _ j pos θ pv hd =>
          simp only
          exact ⟨hd.core, fun v hv => hd.win v (by rw [← hd.keep.nvars]; exact hv), h3.trans hd.keep⟩
  have hdata : ∀ t, t ≤ K → ∃ j pos θ pv, OptData E0 (st t) (st (t + 1)) j pos θ pv := by
    intro t ht
    obtain ⟨h1, h2, h3⟩ := hinv t ht
    have h := optStep_spec h1 h2 (by rw [h3.obj]; exact ha)
    rw [hst1]; unfold optIter
    cases hr : (st t).optStep with
    | inl r => exact absurd hr (hcon t ht r)
    | inr t' =>
      rw [hr] at h
      cases h with
      | move _ j pos θ pv hd => exact ⟨j, pos, θ, pv, hd⟩
  have hnv := hc.struct.nv
  have hn : ∀ t, t ≤ K → (st t).n = s.n := fun t ht => (hinv t ht).2.2.n
  have hm : ∀ t, t ≤ K → (st t).m = s.m := fun t ht => (hinv t ht).2.2.m
  have hN : ∀ t, t ≤ K → (st t).nvars = s.nvars := fun t ht => (hinv t ht).2.2.nvars
  -- the values of non-basic variables
  have horig : ∀ t, t ≤ K → ∀ v, v < s.nvars → (st t).rindex v < s.n →
      (st t).value v = s.value v ∨ s.lo v = some ((st t).value v) ∨ s.up v = some ((st t).value v) := by
    intro t
    induction t with
    | zero => intro _ v _ _; exact Or.inl rfl
    | succ t ih =>
      intro ht v hv hr
      have htK : t ≤ K := by omega
      obtain ⟨hcore, -, hkeep⟩ := hinv t htK
      obtain ⟨j, pos, θ, pv, hd⟩ := hdata t htK
      have hdB : ∀ σ v, (st t).dirBound σ v = if 0 < σ then s.up v else s.lo v := fun σ v => by
        unfold dirBound; rw [hkeep.up, hkeep.lo]
      have hj : j < s.n := by have := hd.lt; rwa [hkeep.n] at this
      have stay : (st t).rindex v < s.n → v ≠ (st t).index j → (st (t + 1)).value v = (st t).value v := by
        intro h1 h2
        rw [hd.shift.colDir hcore.struct (by rw [hkeep.nvars]; exact hv)]
        unfold colDir
        rw [hkeep.n, if_pos h1, if_neg, zero_smul, add_zero]
        intro h3; apply h2; rw [← h3]; exact (hcore.struct.ir v (by rw [hkeep.nvars]; exact hv)).symm
      have hre : (st t).rindex ((st t).index j) = j := hcore.struct.ri _ (by rw [hkeep.nvars]; omega)
      cases hp : pv with
      | none =>
        obtain ⟨h1, -, h3⟩ := hd.flip hp
        rw [h1] at hr
        by_cases he : v = (st t).index j
        · rw [hdB] at h3
          subst he
          right
          split at h3
          · exact Or.inr h3
          · exact Or.inl h3
        · rw [stay hr he]; exact ih htK v hv hr
      | some i =>
        obtain ⟨h0, -, h1, h3, -⟩ := hd.piv i hp
        rw [h1] at hr
        by_cases he : v = (st t).index j
        · subst he; rw [Function.update_self, hkeep.n] at hr; omega
        · rw [Function.update_of_ne he] at hr
          by_cases hl : v = (st t).index (i + (st t).n)
          · subst hl
            rw [hdB] at h3
            right
            split at h3
            · exact Or.inr h3
            · exact Or.inl h3
          · rw [Function.update_of_ne hl] at hr
            rw [stay hr he]; exact ih htK v hv hr
  -- two times with the same basis and values
  have hpig : ∃ p q, p < q ∧ q ≤ K ∧ (∀ v, v < s.nvars → ((st p).rindex v < s.n ↔ (st q).rindex v < s.n)) ∧
      ∀ v, v < s.nvars → (st p).value v = (st q).value v := by
    classical
    let key : Fin (K + 1) → Fin s.nvars → Bool × Fin 3 := fun t v =>
      (decide ((st t).rindex v < s.n), origin (s.value v) (s.lo v) (s.up v) ((st t).value v))
    obtain ⟨a, b, hab, hk⟩ := Fintype.exists_ne_map_eq_of_card_lt key (by simp [hK])
    have main : ∀ a b : Fin (K + 1), key a = key b → (a : ℕ) < b → ∃ p q, p < q ∧ q ≤ K ∧
        (∀ v, v < s.nvars → ((st p).rindex v < s.n ↔ (st q).rindex v < s.n)) ∧ ∀ v, v < s.nvars → (st p).value v = (st q).value v := by
      intro a b hk hlt
      have ha : (a : ℕ) ≤ K := by omega
      have hb : (b : ℕ) ≤ K := by omega
      have h1 : ∀ v, v < s.nvars → ((st a).rindex v < s.n ↔ (st b).rindex v < s.n) := fun v hv => by
        have := congrArg Prod.fst (congrFun hk ⟨v, hv⟩)
        exact decide_eq_decide.1 this
      have h3 : ∀ v, v < s.nvars → (st a).rindex v < s.n → (st a).value v = (st b).value v := fun v hv hr => by
        have := congrArg Prod.snd (congrFun hk ⟨v, hv⟩)
        exact origin_inj (horig a ha v hv hr) (horig b hb v hv ((h1 v hv).1 hr)) this
      refine ⟨a, b, hlt, hb, h1, fun v hv => ?_⟩
      by_cases hr : (st a).rindex v < s.n
      · exact h3 v hv hr
      · have hidx : (st a).index ((st a).rindex v) = v := (hinv a ha).1.struct.ir v (by rw [hN a ha]; exact hv)
        have hlt' : (st a).rindex v < s.nvars := by
          have := (hinv a ha).1.struct.ridx_lt v (by rw [hN a ha]; exact hv)
          rwa [hN a ha] at this
        have e : (st a).rindex v = ((st a).rindex v - s.n) + (st a).n := by rw [hn a ha]; omega
        have hE : TabEq (st a) (st b).value := by rw [(hinv a ha).1.eqv, ← (hinv b hb).1.eqv]; exact (hinv b hb).1.val
        have hi : (st a).rindex v - s.n < (st a).m := by rw [hm a ha]; omega
        have e1 := (hinv a ha).1.val _ hi
        have e2 := hE _ hi
        rw [← e, hidx] at e1 e2
        rw [e1, e2]
        refine sum_congr rfl fun l hl => ?_
        have hl := mem_range.1 hl
        have hlN : l < (st a).nvars := by rw [hN a ha]; rw [hn a ha] at hl; omega
        have hiN := (hinv a ha).1.struct.idx_lt l hlN
        rw [hN a ha] at hiN
        rw [h3 _ hiN (by rw [(hinv a ha).1.struct.ri _ hlN, ← hn a ha]; exact hl)]
    rcases Nat.lt_or_ge a b with h | h
    · exact main a b hk h
    · exact main b a hk.symm (lt_of_le_of_ne h fun he => hab (Fin.ext he.symm))
  obtain ⟨p, q, hpq, hqK, hrs, hvs⟩ := hpig
  have hmem := around_mem hpq
  have hle : ∀ t, around p q t ≤ K := fun t => by have := (hmem t).2; omega
  refine opt_no_cycle hc ha (fun t => st (around p q t)) (fun t => st (around p q t + 1)) (fun t => (hinv _ (hle t)).1)
    (fun t => (hinv _ (hle t)).2.1) (fun t => (hinv _ (hle t)).2.2) (fun t => hdata _ (hle t)) ?_ ?_
  · intro t v hv
    rcases around_succ hpq t with h | ⟨h1, h2⟩
    · simp only [h]
    · simp only [h1, h2]; exact hvs v hv
  · intro t v hv
    rcases around_succ hpq t with h | ⟨h1, h2⟩
    · simp only [h]
    · simp only [h1, h2]; exact hrs v hv

/-- What `optimize` achieves: the point `t.value` satisfies all bounds; the outcome is described by `objective.bounded`. -/
structure OptEnd (E0 : (ℕ → V) → Prop) (s t : S V) : Prop where
  core : Core E0 t
  win : ∀ v, v < s.nvars → t.Win v
  lower : t.lower = s.lower
  upper : t.upper = s.upper
  btrail : t.btrail = s.btrail
  offs : t.offs = s.offs
  out : t.out = s.out
  ub : t.ub = s.ub
  opts : t.opts = s.opts
  bounds : t.bounds = s.bounds
  nvars : t.nvars = s.nvars
  vbounds : t.vbounds = s.vbounds
  n : t.n = s.n
  m : t.m = s.m
  obj : t.obj = { s.obj with bounded := t.obj.bounded }
  vstep : VStep s.topLevel s t
  mono : s.value s.obj.var ≤ t.value s.obj.var
  bounded : t.obj.bounded = true → ∀ asg, E0 asg → (∀ v, v < s.nvars → Within (s.lo v) (s.up v) (asg v)) →
    asg s.obj.var ≤ t.value s.obj.var
  unbounded : t.obj.bounded = false → ∀ q : ℚ, ∃ asg, E0 asg ∧ (∀ v, v < s.nvars → Within (s.lo v) (s.up v) (asg v)) ∧
    LpValue.ofRat q < asg s.obj.var

theorem objRow_spec {E0 : (ℕ → V) → Prop} {s : S V} (hc : Core E0 s) (ha : s.obj.active = true) :
    s.objRow < s.m ∧ s.index (s.objRow + s.n) = s.obj.var := by
  obtain ⟨h1, h2, -⟩ := hc.ob ha
  have h3 := hc.struct.ridx_lt _ h1
  have := hc.struct.nv
  unfold objRow
  exact ⟨by omega, by rw [Nat.sub_add_cancel h2]; exact hc.struct.ir _ h1⟩

/-- Optimality: no point within the bounds has a larger objective. -/
theorem optimal_le {E0 : (ℕ → V) → Prop} {s : S V} (hc : Core E0 s) (hw : ∀ v, v < s.nvars → s.Win v) (ha : s.obj.active = true)
    (h : ∀ l, l < s.n →
      (0 < s.tab.coef s.objRow l → ∃ b, s.up (s.index l) = some b ∧ b ≤ s.value (s.index l)) ∧
      (s.tab.coef s.objRow l < 0 → ∃ b, s.lo (s.index l) = some b ∧ s.value (s.index l) ≤ b))
    (asg : ℕ → V) (hE : E0 asg) (hasg : ∀ v, v < s.nvars → Within (s.lo v) (s.up v) (asg v)) :
    asg s.obj.var ≤ s.value s.obj.var := by
  obtain ⟨h1, h2⟩ := objRow_spec hc ha
  have hnv := hc.struct.nv
  have ha1 := ((hc.eqv asg).2 hE) _ h1
  have ha2 := hc.val _ h1
  rw [h2] at ha1 ha2
  rw [ha1, ha2]
  apply sum_le_sum
  intro l hl
  have hl := mem_range.1 hl
  have hb := hasg (s.index l) (hc.struct.idx_lt _ (by omega))
  rcases lt_trichotomy (s.tab.coef s.objRow l) 0 with h0 | h0 | h0
  · obtain ⟨b, g1, g2⟩ := (h l hl).2 h0
    have := g2.trans (hb.1 b g1)
    have h3 := smul_nonpos_of_nonpos_of_nonneg h0.le (sub_nonneg.2 this)
    rw [smul_sub] at h3
    exact sub_nonpos.1 h3
  · rw [h0, zero_smul, zero_smul]
  · obtain ⟨b, g1, g2⟩ := (h l hl).1 h0
    have := (hb.2 b g1).trans g2
    exact smul_le_smul_of_nonneg_left this h0.le

/-- Unboundedness: moving along the column. -/
theorem unbounded_ray {E0 : (ℕ → V) → Prop} {s : S V} (hc : Core E0 s) (hw : ∀ v, v < s.nvars → s.Win v) (ha : s.obj.active = true)
    {j : ℕ} {pos : Bool} (hj : j < s.n) (hz : 0 < sg pos * s.tab.coef s.objRow j)
    (h1 : s.dirBound (sg pos) (s.index j) = none)
    (h2 : ∀ k, k < s.m → s.tab.coef k j ≠ 0 → s.dirBound (sg pos * s.tab.coef k j) (s.index (k + s.n)) = none) (q : ℚ) :
    ∃ asg, E0 asg ∧ (∀ v, v < s.nvars → Within (s.lo v) (s.up v) (asg v)) ∧ LpValue.ofRat q < asg s.obj.var := by
  obtain ⟨hr1, hr2⟩ := objRow_spec hc ha
  have hnv := hc.struct.nv
  have hs := hc.struct
  obtain ⟨r, hr⟩ := LpValue.archimedean (LpValue.ofRat q - s.value s.obj.var)
  set c := s.tab.coef s.objRow j with hcd
  have hcne : c ≠ 0 := by rintro h; rw [h, mul_zero] at hz; exact lt_irrefl _ hz
  set θ : V := (1 / c) • LpValue.ofRat (max r 0) with hθ
  have hr' : LpValue.ofRat q - s.value s.obj.var < (LpValue.ofRat (max r 0) : V) := by
    rcases le_or_gt r 0 with h | h
    · rcases h.lt_or_eq with h | h
      · exact hr.trans (by rw [max_eq_right h.le]; exact LpValue.ofRat_lt _ _ h)
      · rw [max_eq_right h.le, ← h]; exact hr
    · rw [max_eq_left h.le]; exact hr
  have h00 : (LpValue.ofRat 0 : V) = 0 := by rw [← mul_zero (0 : ℚ), LpValue.ofRat_smul, zero_smul]
  have hr0 : (0 : V) ≤ LpValue.ofRat (max r 0) := by
    rw [← h00]
    rcases (le_max_right r 0).lt_or_eq with h | h
    · exact (LpValue.ofRat_lt _ _ h).le
    · rw [← h]
  have hdir : 0 ≤ sg pos • θ := by
    rw [hθ, smul_smul]
    apply smul_nonneg _ hr0
    have : sg pos * (1 / c) = (sg pos * c) * ((1 / c) * (1 / c)) := by field_simp
    rw [this]
    exact mul_nonneg hz.le (mul_self_nonneg _)
  have hsh : Shift s (fun v => s.value v + s.colDir j v • θ) j θ := by
    constructor
    · intro l hl; unfold colDir; rw [hs.ri _ (by omega), if_pos hl]; split <;> simp
    · intro k hk; unfold colDir; rw [hs.ri _ (by omega), if_neg (by omega), Nat.add_sub_cancel]
  refine ⟨fun v => s.value v + s.colDir j v • θ, ?_, ?_, ?_⟩
  · rw [← hc.eqv]; exact hsh.tabEq hj hc.val
  · refine shift_win hs hw hj hsh hdir ?_ ?_
    · intro b hb; rw [← dirBound_sg, h1] at hb; simp at hb
    · intro k hk hck b hb
      have := h2 k hk hck
      unfold dirBound at this
      rw [this] at hb; simp at hb
  · have hb := hsh.b _ hr1
    simp only at hb ⊢
    rw [hr2] at hb
    rw [hb, ← hcd, hθ, smul_smul, mul_one_div_cancel hcne, one_smul]
    exact sub_lt_iff_lt_add'.1 hr'

theorem OptData.mono {E0 : (ℕ → V) → Prop} {s s' : S V} {j : ℕ} {pos : Bool} {θ : V} {pv : Option ℕ}
    (hc : Core E0 s) (ha : s.obj.active = true) (h : OptData E0 s s' j pos θ pv) : s.value s.obj.var ≤ s'.value s.obj.var := by
  obtain ⟨h1, h2⟩ := objRow_spec hc ha
  have := h.shift.b _ h1
  rw [h2] at this
  rw [this]
  apply le_add_of_nonneg_right
  have h3 : s.tab.coef s.objRow j • θ = (sg pos * s.tab.coef s.objRow j) • (sg pos • θ) := by
    rw [smul_smul, mul_right_comm, sg_sq, one_mul]
  rw [h3]; exact smul_nonneg h.zpos.le h.dir

theorem optLoop_spec {E0 : (ℕ → V) → Prop} (fuel : ℕ) : ∀ {s : S V}, Core E0 s → (∀ v, v < s.nvars → s.Win v) →
    s.obj.active = true → ∀ {t}, optLoop fuel s = some t → OptEnd E0 s t := by
  induction fuel with
  | zero => intro s _ _ _ t h; simp [optLoop] at h
  | succ fuel ih =>
    intro s hc hw ha t h
    rw [optLoop] at h
    have hsp := optStep_spec hc hw ha
    cases hr : s.optStep with
    | inl r =>
      rw [hr] at h hsp
      simp only [Option.some.injEq] at h
      subst h
      cases hsp with
      | optimal hopt =>
        refine ⟨⟨⟨hc.struct.nv, hc.struct.idx_lt, hc.struct.ridx_lt, hc.struct.ir, hc.struct.ri, hc.struct.wf, hc.struct.shape, hc.struct.low⟩,
          ⟨hc.ptr.up, hc.ptr.lo⟩, hc.eqv, hc.val, hc.nb, hc.lu, ⟨hc.qi.qa, hc.qi.sorted, hc.qi.lt⟩, hc.qb, hc.pq, hc.ob⟩,
          hw, rfl, rfl, rfl, rfl, rfl, rfl, rfl, rfl, rfl, rfl, rfl, rfl, rfl, VStep.of_eq rfl rfl rfl rfl, le_refl _, ?_, ?_⟩
        · intro _; exact optimal_le hc hw ha hopt
        · intro hb; simp at hb
      | unbounded j pos hj hz h1 h2 =>
        have hst := compact_struct hc.struct j
        refine ⟨⟨⟨hst.nv, hst.idx_lt, hst.ridx_lt, hst.ir, hst.ri, hst.wf, hst.shape, hst.low⟩,
          ⟨hc.ptr.up, hc.ptr.lo⟩, hc.eqv, hc.val, hc.nb, hc.lu, ⟨hc.qi.qa, hc.qi.sorted, hc.qi.lt⟩, hc.qb, hc.pq, hc.ob⟩,
          hw, rfl, rfl, rfl, rfl, rfl, rfl, rfl, rfl, rfl, rfl, rfl, rfl, rfl, VStep.of_eq rfl rfl rfl rfl, le_refl _, ?_, ?_⟩
        · intro hb; simp at hb
        · intro _; exact unbounded_ray hc hw ha hj hz h1 h2
    | inr s' =>
      rw [hr] at h hsp
      simp only at h
      cases hsp with
      | move _ j pos θ pv hd =>
        have hk := hd.keep
        have ha' : s'.obj.active = true := by rw [hk.obj]; exact ha
        have hi := ih hd.core (fun v hv => hd.win v (by rw [← hk.nvars]; exact hv)) ha' h
        have htl : s'.topLevel = s.topLevel := by unfold topLevel; rw [hk.offs]
        refine ⟨hi.core, fun v hv => hi.win v (by rw [hk.nvars]; exact hv), hi.lower.trans hk.lower, hi.upper.trans hk.upper,
          hi.btrail.trans hk.btrail, hi.offs.trans hk.offs, hi.out.trans hk.out, hi.ub.trans hk.ub, hi.opts.trans hk.opts,
          hi.bounds.trans hk.bounds, hi.nvars.trans hk.nvars, hi.vbounds.trans hk.vbounds, hi.n.trans hk.n, hi.m.trans hk.m,
          ?_, ?_, ?_, ?_, ?_⟩
        · rw [← hk.obj]; exact hi.obj
        · exact hd.vstep.trans (by rw [← htl]; exact hi.vstep)
        · have := hi.mono; rw [hk.obj] at this
          exact (hd.mono hc ha).trans this
        · have := hi.bounded; rw [hk.obj, hk.nvars, hk.lo, hk.up] at this; exact this
        · have := hi.unbounded; rw [hk.obj, hk.nvars, hk.lo, hk.up] at this; exact this

theorem optLoop_mono {fuel : ℕ} : ∀ {fuel' : ℕ} {s t : S V}, optLoop fuel s = some t → fuel ≤ fuel' → optLoop fuel' s = some t := by
  induction fuel with
  | zero => intro fuel' s t h; simp [optLoop] at h
  | succ n ih =>
    intro fuel' s t h hle
    obtain ⟨m, rfl⟩ : ∃ m, fuel' = m + 1 := ⟨fuel' - 1, by omega⟩
    rw [optLoop] at h ⊢
    cases hs : s.optStep with
    | inl s1 => rw [hs] at h; exact h
    | inr s1 => rw [hs] at h; exact ih h (by omega)

/-- The loop of `optimize` returns after at most `6 ^ n` steps where `n` is the number of variables. -/
theorem optLoop_terminates {E0 : (ℕ → V) → Prop} {s : S V} (hc : Core E0 s) (hw : ∀ v, v < s.nvars → s.Win v)
    (ha : s.obj.active = true) : ∃ t, optLoop (6 ^ s.nvars + 1) s = some t := by
  obtain ⟨t, hle, r, ht⟩ := opt_terminates hc hw ha
  suffices h : ∃ r, optLoop (t + 1) s = some r by
    obtain ⟨r, hr⟩ := h
    exact ⟨r, optLoop_mono hr (by omega)⟩
  clear hc hw ha hle
  induction t generalizing s with
  | zero => refine ⟨r, ?_⟩; rw [optLoop]; rw [show s.optStep = .inl r from ht]
  | succ t ih =>
    rw [Function.iterate_succ_apply] at ht
    cases hr : s.optStep with
    | inl r => exact ⟨r, by rw [optLoop, hr]⟩
    | inr s' =>
      unfold optIter at ht ih
      rw [hr] at ht
      obtain ⟨t', h⟩ := ih ht
      exact ⟨t', by rw [optLoop, hr]; exact h⟩

variable [Hon]

theorem Chain.vstep_nil {E0 : (ℕ → V) → Prop} {bounds : List (Bound V)} {s t : S V} (h : Chain E0 bounds [] s.view)
    (ho : t.offs = s.offs) (hb : t.btrail = s.btrail) (hv : VStep 0 s t) : Chain E0 bounds [] t.view := by
  obtain ⟨h1, h2, h3, h4⟩ := h
  obtain ⟨f1, f2⟩ := hv.flat h4
  exact ⟨ho.trans h1, hb.trans h2, f1.trans h3, fun v => by show t.level v = 0; rw [f2]; exact h4 v⟩

theorem optimize_spec {E0 : (ℕ → V) → Prop} {F : List Frame} {s : S V} (h : SInv E0 F s) (ha : s.obj.active = true)
    {fuel : ℕ} {t : S V} (ht : optimize fuel s = some t) : SInv E0 F t ∧ OptEnd E0 s t := by
  have hw : ∀ v, v < s.nvars → s.Win v := fun v _ => h.good.win v
  unfold optimize at ht
  rw [if_pos ha] at ht
  have he := optLoop_spec fuel h.core hw ha ht
  refine ⟨⟨he.core, ?_, ?_, by rw [he.ub]; exact h.ub, by rw [he.bounds, he.nvars]; exact h.bvar, ?_⟩, he⟩
  · refine ⟨?_, ?_, (he.core.eqv _).1 he.core.val, ?_⟩
    · show PtrAct t.bounds F t.lower t.upper
      rw [he.bounds, he.lower, he.upper]; exact h.good.ptr
    · show ∀ bd ∈ t.bounds, Act F bd.lit → Enf t.bounds t.lower t.upper bd
      rw [he.bounds, he.lower, he.upper]; exact h.good.enf
    · intro v
      by_cases hv : v < s.nvars
      · exact he.win v hv
      · have hnone : ∀ p : Option ℕ, (∀ b, p = some b → ∃ bd, t.bounds[b]? = some bd ∧ bd.var = v) → bvalOf t.bounds p = none := by
          intro p hp
          cases p with
          | none => rfl
          | some b =>
            obtain ⟨bd, h1, h2⟩ := hp b rfl
            rw [he.bounds] at h1
            have := h.bvar bd (List.mem_of_getElem? h1)
            omega
        have h1 : bvalOf t.bounds (t.view.lower v) = none := hnone _ fun b hb => by
          obtain ⟨bd, h1, h2⟩ := he.core.ptr.lo v b hb; exact ⟨bd, h1, h2⟩
        have h2 : bvalOf t.bounds (t.view.upper v) = none := hnone _ fun b hb => by
          obtain ⟨bd, h1, h2⟩ := he.core.ptr.up v b hb; exact ⟨bd, h1, h2⟩
        rw [h1, h2]; exact ⟨by simp, by simp⟩
  · rw [he.bounds]
    cases F with
    | nil =>
      have ho : s.offs = [] := h.chain.1
      exact Chain.vstep_nil h.chain he.offs he.btrail (by have := he.vstep; unfold topLevel at this; rwa [ho] at this)
    | cons fr frs =>
      have hch := h.chain
      obtain ⟨o, os, ho, hl, -, -⟩ := id hch
      have ho : s.offs = o :: os := ho
      have hv : VStep fr.level s t := by
        have := he.vstep; unfold topLevel at this; rw [ho] at this; simp only at this; rwa [hl] at this
      refine hch.top rfl (by show t.offs = s.offs; exact he.offs) ?_ ?_ ?_ ?_
      · show (s.btrail = [] → ∀ v, s.upper v = none) → t.btrail = [] → ∀ v, t.upper v = none
        rw [he.btrail, he.upper]; exact id
      · intro hz h1 h2
        obtain ⟨f1, f2⟩ := hv.flat (fun v => by rw [hz]; exact h2 v)
        exact ⟨by show t.atrail = []; rw [f1]; exact h1, fun v => by show t.level v = 0; rw [f2]; exact h2 v⟩
      · intro hz o os ho hb hJ
        obtain ⟨v1, v2, v3, v4⟩ := hv.seg o.asg hJ
        refine ⟨by show o.bound ≤ t.btrail.length; rw [he.btrail]; exact hb, v1, ?_⟩
        have ho' : s.offs = o :: os := ho
        have : t.view.pop = s.view.pop := by
          unfold View.pop view
          simp only
          rw [he.offs, ho']
          simp only
          rw [he.btrail, he.lower, he.upper, v2, v3, v4]
        rw [this]; exact View.Like.refl _
      · intro hz o os ho _ hb hJ
        obtain ⟨v1, v2, v3, v4⟩ := hv.seg o.asg hJ
        refine ⟨?_, ?_⟩
        · show BSeg s.bounds o.bound fr.lits t.btrail t.lower t.upper
          rw [he.btrail, he.lower, he.upper]; exact hb
        · have ho' : s.offs = o :: os := ho
          unfold View.pop view
          simp only
          rw [he.offs, ho']
          simp only
          rw [he.btrail, he.lower, he.upper, v2, v3, v4]
  · have := h.vb
    unfold VB at this ⊢
    rw [he.vbounds, he.bounds]; exact this

theorem optimize_terminates {E0 : (ℕ → V) → Prop} {F : List Frame} {s : S V} (h : SInv E0 F s) :
    ∃ t, optimize (6 ^ s.nvars + 1) s = some t := by
  unfold optimize
  by_cases ha : s.obj.active = true
  · simp only [if_pos ha]; exact optLoop_terminates h.core (fun v _ => h.good.win v) ha
  · simp only [if_neg ha]; exact ⟨s, rfl⟩

end S
end Lpx
