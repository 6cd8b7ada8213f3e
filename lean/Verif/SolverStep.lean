import Verif.SolverInv
import Mathlib.Tactic.LinearCombination

/-! # `update_` and `pivot_` -/

set_option linter.unusedSectionVars false

namespace Lpx
open Finset

/-- Exchanging `y i` and `x j` in a system of equations. -/
theorem exchange {V : Type} [LpValue V] {n m : ℕ} {c c' : ℕ → ℕ → ℚ} {x y : ℕ → V} {i j : ℕ} (hi : i < m) (hj : j < n)
    (hc : c i j ≠ 0)
    (hc' : ∀ k l, c' k l = if k = i then (if l = j then 1 / c i j else - c i l / c i j)
      else (if l = j then c k j / c i j else c k l - c k j * c i l / c i j)) :
    (∀ k, k < m → y k = ∑ l ∈ range n, c k l • x l) ↔
    (∀ k, k < m → Function.update y i (x j) k = ∑ l ∈ range n, c' k l • Function.update x j (y i) l) := by
  have hjm : j ∈ range n := mem_range.2 hj
  have hold : ∀ k, ∑ l ∈ range n, c k l • x l = c k j • x j + ∑ l ∈ (range n).erase j, c k l • x l := fun k =>
    (add_sum_erase _ _ hjm).symm
  have hnew : ∀ k, ∑ l ∈ range n, c' k l • Function.update x j (y i) l =
      c' k j • y i + ∑ l ∈ (range n).erase j, c' k l • x l := by
    intro k
    rw [← add_sum_erase _ _ hjm, Function.update_self]
    congr 1
    apply sum_congr rfl
    intro l hl
    rw [Function.update_of_ne (mem_erase.1 hl).1]
  have hri : ∑ l ∈ (range n).erase j, c' i l • x l = -((1 / c i j) • ∑ l ∈ (range n).erase j, c i l • x l) := by
    rw [smul_sum, ← sum_neg_distrib]
    apply sum_congr rfl
    intro l hl
    rw [hc', if_pos rfl, if_neg (mem_erase.1 hl).1, smul_smul, ← neg_smul]
    congr 1; ring
  have hrk : ∀ k, k ≠ i → ∑ l ∈ (range n).erase j, c' k l • x l = ∑ l ∈ (range n).erase j, c k l • x l -
      (c k j / c i j) • ∑ l ∈ (range n).erase j, c i l • x l := by
    intro k hk
    rw [smul_sum, ← sum_sub_distrib]
    apply sum_congr rfl
    intro l hl
    rw [hc', if_neg hk, if_neg (mem_erase.1 hl).1, smul_smul, ← sub_smul]
    congr 1; ring
  have hij : c' i j = 1 / c i j := by rw [hc', if_pos rfl, if_pos rfl]
  have hkj : ∀ k, k ≠ i → c' k j = c k j / c i j := by intro k hk; rw [hc', if_neg hk, if_pos rfl]
  simp only [hold, hnew]
  generalize hA : (fun k => ∑ l ∈ (range n).erase j, c k l • x l) = A
  have hA' : ∀ k, ∑ l ∈ (range n).erase j, c k l • x l = A k := fun k => congrFun hA k
  simp only [hA'] at hri hrk ⊢
  have hone : (1 / c i j) * c i j = 1 := by field_simp
  constructor
  · intro h k hk
    have hI := h i hi
    by_cases hki : k = i
    · subst hki
      rw [Function.update_self, hri, hij, hI, smul_add, smul_smul, hone, one_smul]; abel
    · rw [Function.update_of_ne hki, hrk k hki, hkj k hki, h k hk, hI, smul_add, smul_smul, div_mul_cancel₀ _ hc]; abel
  · intro h
    have hI := h i hi
    rw [Function.update_self, hri, hij] at hI
    have hI' : y i = c i j • x j + A i := by
      have := congrArg (fun z => c i j • z) hI
      simp only [smul_add, smul_neg, smul_smul, mul_one_div_cancel hc, one_smul] at this
      rw [this]; abel
    intro k hk
    by_cases hki : k = i
    · subst hki; exact hI'
    · have := h k hk
      rw [Function.update_of_ne hki, hrk k hki, hkj k hki, hI', smul_add, smul_smul, div_mul_cancel₀ _ hc] at this
      rw [this]; abel

namespace S
variable {V : Type} [LpValue V]

/-- The assignment moves by `θ` along column `j`. -/
structure Shift (s : S V) (val' : ℕ → V) (j : ℕ) (θ : V) : Prop where
  nb : ∀ l, l < s.n → val' (s.index l) = s.value (s.index l) + (if l = j then θ else 0)
  b : ∀ k, k < s.m → val' (s.index (k + s.n)) = s.value (s.index (k + s.n)) + s.tab.coef k j • θ

theorem Shift.tabEq {s : S V} {val' : ℕ → V} {j : ℕ} {θ : V} (h : Shift s val' j θ) (hj : j < s.n)
    (he : TabEq s s.value) : TabEq s val' := by
  intro i hi
  rw [h.b i hi, he i hi]
  have : ∀ l ∈ range s.n, s.tab.coef i l • val' (s.index l) =
      s.tab.coef i l • s.value (s.index l) + (if l = j then s.tab.coef i j • θ else 0) := by
    intro l hl
    rw [h.nb l (mem_range.1 hl), smul_add]
    split
    · rename_i h; rw [h]
    · simp
  rw [sum_congr rfl this, sum_add_distrib, sum_ite_eq' (range s.n) j, if_pos (mem_range.2 hj)]

theorem index_inj {s : S V} (hs : Struct s) {a b : ℕ} (ha : a < s.nvars) (hb : b < s.nvars)
    (h : s.index a = s.index b) : a = b := by rw [← hs.ri a ha, ← hs.ri b hb, h]

theorem foldl_congr_inv {α β : Type} (P : β → Prop) (f g : β → α → β) (L : List α) (s : β) (hs : P s)
    (h : ∀ s e, e ∈ L → P s → f s e = g s e ∧ P (g s e)) : L.foldl f s = L.foldl g s := by
  induction L generalizing s with
  | nil => rfl
  | cons e es ih =>
    simp only [List.foldl_cons]
    obtain ⟨h1, h2⟩ := h s e (by simp) hs
    rw [h1]
    exact ih _ h2 (fun s e he => h s e (by simp [he]))

/-- Every variable is non-basic or basic. -/
theorem cases_var {s : S V} (hs : Struct s) {v : ℕ} (hv : v < s.nvars) :
    (∃ l, l < s.n ∧ s.index l = v) ∨ (∃ k, k < s.m ∧ s.index (k + s.n) = v) := by
  have h1 := hs.ridx_lt v hv
  by_cases h : s.rindex v < s.n
  · exact Or.inl ⟨_, h, hs.ir v hv⟩
  · refine Or.inr ⟨s.rindex v - s.n, ?_, ?_⟩
    · rw [hs.nv] at h1; omega
    · rw [Nat.sub_add_cancel (by omega)]; exact hs.ir v hv

/-- Result of `update_`. -/
structure UpdSpec (lvl j : ℕ) (v : V) (s s' : S V) : Prop where
  keep : Keep s s'
  struct : Struct s'
  index : s'.index = s.index
  rindex : s'.rindex = s.rindex
  coef : ∀ i j, s'.tab.coef i j = s.tab.coef i j
  pivots : s'.pivots = s.pivots
  vstep : VStep lvl s s'
  shift : Shift s s'.value j (v - s.value (s.index j))
  qi : QI s → QI s'
  qb : ∀ ex, QI s → QB s (fun u => ex u ∨ u = s.index j) → s'.Win (s.index j) → QB s' ex
  pq : PQ s → PQ s'

theorem colEntries_nodup {s : S V} (hs : Struct s) (j : ℕ) : ((s.tab.colEntries j).map (·.1)).Nodup :=
  (Tableau.colEntries_sorted hs.wf j).imp (fun h => Nat.ne_of_lt h)

theorem colEntries_lt {s : S V} (hs : Struct s) (j : ℕ) : ∀ e ∈ s.tab.colEntries j, e.1 < s.m := by
  intro e he
  exact (hs.shape e.1 j ((Tableau.mem_colEntries_fst hs.wf).1 (List.mem_map.2 ⟨e, he, rfl⟩))).1

theorem update_spec (s : S V) (hs : Struct s) (lvl j : ℕ) (hj : j < s.n) (v : V) :
    UpdSpec lvl j v s (s.update lvl j v) := by
  have hnv := hs.nv
  have hjne : ∀ k, k < s.m → s.index (k + s.n) ≠ s.index j := by
    intro k hk h
    have := index_inj hs (by omega) (by omega) h
    omega
  have hfold : (s.tab.colEntries j).foldl (fun t (e : ℕ × ℤ × ℤ) =>
      (t.setValue lvl (t.index (e.1 + t.n)) (mulDiv (v - t.value (s.index j)) e.2.1 e.2.2) true).enqueue e.1) s =
      (s.tab.colEntries j).foldl (colStep lvl (v - s.value (s.index j))) s := by
    apply foldl_congr_inv (fun t => t.index = s.index ∧ t.n = s.n ∧ t.value (s.index j) = s.value (s.index j))
    · exact ⟨rfl, rfl, rfl⟩
    · rintro t e he ⟨h1, h2, h3⟩
      refine ⟨by unfold colStep; rw [h3], ?_⟩
      obtain ⟨c1, c2, c3, c4, c5, c6⟩ := colStep_same lvl (v - s.value (s.index j)) t e
      refine ⟨c1.trans h1, (colStep_keep _ _ _ _).n.trans h2, ?_⟩
      rw [c6, Function.update_of_ne, h3]
      rw [h1, h2]
      exact (hjne e.1 (colEntries_lt hs j e he)).symm
  have hcf := colFold lvl (v - s.value (s.index j)) s hs _ (colEntries_nodup hs j) (colEntries_lt hs j)
  rw [← hfold] at hcf
  unfold update
  simp only
  generalize (s.tab.colEntries j).foldl (fun t (e : ℕ × ℤ × ℤ) =>
      (t.setValue lvl (t.index (e.1 + t.n)) (mulDiv (v - t.value (s.index j)) e.2.1 e.2.2) true).enqueue e.1) s = t at *
  set t' : S V := { t with tab := t.tab.compactCol j } with ht'
  have hk' : Keep t t' := by constructor <;> rfl
  have hkeep : Keep s (t'.setValue lvl (s.index j) v false) := (hcf.keep.trans hk').trans (setValue_keep _ _ _ _ _)
  obtain ⟨b1, b2, b3, b4, b5, b6, -⟩ := setValue_same t' lvl (s.index j) v false
  have hval := setValue_value t' lvl (s.index j) v false
  have hcoef : ∀ a b, (t'.setValue lvl (s.index j) v false).tab.coef a b = s.tab.coef a b := by
    intro a b; rw [b3]; show (t.tab.compactCol j).coef a b = _; rw [Tableau.coef_compactCol, hcf.tab]
  have hvs : VStep lvl s (t'.setValue lvl (s.index j) v false) :=
    (hcf.vstep.trans (VStep.of_eq (s' := t') rfl rfl rfl rfl)).trans (setValue_vstep _ _ _ _ _ (by
      rw [hk'.nvars, hcf.keep.nvars]; exact hs.idx_lt _ (by omega)))
  refine ⟨hkeep, ?_, ?_, ?_, hcoef, ?_, hvs, ?_, ?_, ?_, ?_⟩
  · have hn := hkeep.n; have hm := hkeep.m; have hv := hkeep.nvars
    have hi : (t'.setValue lvl (s.index j) v false).index = s.index := b1.trans hcf.index
    have hr : (t'.setValue lvl (s.index j) v false).rindex = s.rindex := b2.trans hcf.rindex
    constructor
    · rw [hn, hm, hv]; exact hnv
    · rw [hi, hv]; exact hs.idx_lt
    · rw [hr, hv]; exact hs.ridx_lt
    · rw [hi, hr, hv]; exact hs.ir
    · rw [hi, hr, hv]; exact hs.ri
    · rw [b3]; exact Tableau.wf_compactCol (by rw [hcf.tab]; exact hs.wf) j
    · intro a b; rw [hcoef, hn, hm]; exact hs.shape a b
    · rw [b3]; intro k; show Tableau.Low (t.tab.rows k); rw [hcf.tab]; exact hs.low k
  · exact b1.trans hcf.index
  · exact b2.trans hcf.rindex
  · exact b6.trans hcf.pivots
  · constructor
    · intro l hl
      rw [hval]
      by_cases hlj : l = j
      · subst hlj; simp
      · rw [Function.update_of_ne, if_neg hlj, add_zero]
        · apply hcf.val
          intro e he h
          have := index_inj hs (by have := colEntries_lt hs j e he; omega) (by omega) h
          omega
        · intro h; exact hlj (index_inj hs (by omega) (by omega) h)
    · intro k hk
      rw [hval, Function.update_of_ne (hjne k hk)]
      show t.value _ = _
      by_cases hc : s.tab.coef k j = 0
      · rw [hc, zero_smul, add_zero]
        apply hcf.val
        intro e he h
        have := index_inj hs (by have := colEntries_lt hs j e he; omega) (by omega) h
        have hek : e.1 = k := by omega
        have := (Tableau.mem_colEntries_fst hs.wf (j := j)).1 (List.mem_map.2 ⟨e, he, hek⟩)
        exact this hc
      · obtain ⟨e, he, hek⟩ := List.mem_map.1 ((Tableau.mem_colEntries_fst hs.wf).2 hc)
        have h1 := hcf.valE e he
        have h2 := (Tableau.colEntries_coef hs.wf (i := e.1) (a := e.2.1) (d := e.2.2) he).1
        subst hek
        rw [h1]; unfold mulDiv; rw [h2]
  · intro hq
    have := hcf.qi hq
    exact ⟨by rw [b4, b5]; exact this.qa, by rw [b4]; exact this.sorted,
      by rw [b4, (setValue_keep _ _ _ _ _).nvars]; exact this.lt⟩
  · intro ex hq hqb hw u hu hex hnw
    rw [b4]
    by_cases huj : u = s.index j
    · subst huj; exact absurd hw hnw
    · have := hcf.qb _ hq hqb u (by rw [hcf.keep.nvars]; rw [hkeep.nvars] at hu; exact hu) (by simp [hex, huj])
      apply this
      intro hwin; apply hnw
      rw [win_congr (hk'.trans (setValue_keep _ _ _ _ _))]
      · exact hwin
      · rw [hval, Function.update_of_ne huj]
  · intro hq k hk
    rw [setValue_pqueue] at hk
    rw [(setValue_keep _ _ _ _ _).m]; exact hcf.pq hq k hk

/-- Result of `pivot_` on a non-zero entry. -/
structure PivSpec (lvl i j : ℕ) (v : V) (s s' : S V) : Prop where
  keep : Keep s s'
  struct : Struct s'
  index : s'.index = Function.update (Function.update s.index (i + s.n) (s.index j)) j (s.index (i + s.n))
  rindex : s'.rindex = Function.update (Function.update s.rindex (s.index (i + s.n)) j) (s.index j) (i + s.n)
  tabEq : ∀ asg, TabEq s' asg ↔ TabEq s asg
  coef : ∀ k l, s'.tab.coef k l = if k = i then (if l = j then 1 / s.tab.coef i j else - s.tab.coef i l / s.tab.coef i j)
      else (if l = j then s.tab.coef k j / s.tab.coef i j
        else s.tab.coef k l - s.tab.coef k j * s.tab.coef i l / s.tab.coef i j)
  pivots : s'.pivots = s.pivots + 1
  vstep : VStep lvl s s'
  shift : Shift s s'.value j ((1 / s.tab.coef i j) • (v - s.value (s.index (i + s.n))))
  qi : QI s → QI s'
  qb : ∀ ex, QI s → QB s (fun u => ex u ∨ u = s.index (i + s.n)) → (¬ ex (s.index (i + s.n)) → s'.Win (s.index (i + s.n))) → QB s' ex
  pq : PQ s → PQ s'

theorem pivot_spec (s : S V) (hs : Struct s) (lvl i j : ℕ) (hc : s.tab.coef i j ≠ 0) (v : V) :
    PivSpec lvl i j v s (s.pivot lvl i j v) := by
  have hnv := hs.nv
  obtain ⟨hi, hj⟩ := hs.shape i j hc
  obtain ⟨a, ha⟩ := (Tableau.coef_ne_zero hs.wf).1 hc
  have hfind : Tableau.findCell (s.tab.rows i).cells j = some a := (Tableau.findCell_some (hs.wf.row i).sorted).2 ha
  obtain ⟨hcv, ha0, hd0, -⟩ := Tableau.rowEntries_coef hs.wf ((Tableau.mem_rowEntries hs.wf).2 ⟨rfl, ha⟩)
  have hne : s.index (i + s.n) ≠ s.index j := by
    intro h; have := index_inj hs (by omega) (by omega) h; omega
  unfold pivot
  rw [hfind]
  simp only
  rw [if_neg (by simp [ha0]; omega)]
  have hdm : divMul (v - s.value (s.index (i + s.n))) a (s.tab.rows i).den =
      (1 / s.tab.coef i j) • (v - s.value (s.index (i + s.n))) := by
    unfold divMul; rw [← hcv, one_div_div]
  rw [hdm]
  generalize hθ : (1 / s.tab.coef i j) • (v - s.value (s.index (i + s.n))) = θ
  -- the two assignments
  set s1 := s.setValue lvl (s.index (i + s.n)) v false with hs1
  set s2 := s1.setValue lvl (s.index j) θ true with hs2
  have hk2 : Keep s s2 := (setValue_keep _ _ _ _ _).trans (setValue_keep _ _ _ _ _)
  have hi2 : s2.index = s.index := (setValue_same _ _ _ _ _).1.trans (setValue_same _ _ _ _ _).1
  have hr2 : s2.rindex = s.rindex := (setValue_same _ _ _ _ _).2.1.trans (setValue_same _ _ _ _ _).2.1
  have ht2 : s2.tab = s.tab := (setValue_same _ _ _ _ _).2.2.1.trans (setValue_same _ _ _ _ _).2.2.1
  have hc2 : s2.conflicts = s.conflicts := (setValue_same _ _ _ _ _).2.2.2.1.trans (setValue_same _ _ _ _ _).2.2.2.1
  have hq2 : s2.queued = s.queued := (setValue_same _ _ _ _ _).2.2.2.2.1.trans (setValue_same _ _ _ _ _).2.2.2.2.1
  have hp2 : s2.pivots = s.pivots := (setValue_same _ _ _ _ _).2.2.2.2.2.1.trans (setValue_same _ _ _ _ _).2.2.2.2.2.1
  have hv2 : s2.value = Function.update (Function.update s.value (s.index (i + s.n)) v) (s.index j)
      (s.value (s.index j) + θ) := by
    rw [hs2, setValue_value, hs1, setValue_value]; simp [Function.update_of_ne hne.symm]
  have hvs2 : VStep lvl s s2 := (setValue_vstep _ _ _ _ _ (hs.idx_lt _ (by omega))).trans
    (setValue_vstep _ _ _ _ _ (by rw [(setValue_keep _ _ _ _ _).nvars]; exact hs.idx_lt _ (by omega)))
  have hst2 : Struct s2 := by
    constructor
    · rw [hk2.n, hk2.m, hk2.nvars]; exact hnv
    · rw [hi2, hk2.nvars]; exact hs.idx_lt
    · rw [hr2, hk2.nvars]; exact hs.ridx_lt
    · rw [hi2, hr2, hk2.nvars]; exact hs.ir
    · rw [hi2, hr2, hk2.nvars]; exact hs.ri
    · rw [ht2]; exact hs.wf
    · rw [ht2, hk2.n, hk2.m]; exact hs.shape
    · rw [ht2]; exact hs.low
  -- the column
  have hfold : (s2.tab.colEntries j).foldl (fun t (e : ℕ × ℤ × ℤ) =>
      if e.1 ≠ i then (t.setValue lvl (t.index (e.1 + t.n)) (mulDiv θ e.2.1 e.2.2) true).enqueue e.1 else t) s2 =
      ((s.tab.colEntries j).filter (fun e => decide (e.1 ≠ i))).foldl (colStep lvl θ) s2 := by
    rw [List.foldl_filter, ht2]
    congr 1
    funext t e
    by_cases h : e.1 = i <;> simp [h, colStep]
  set L := (s.tab.colEntries j).filter (fun e => decide (e.1 ≠ i)) with hL
  have hLm : ∀ e, e ∈ L ↔ e ∈ s.tab.colEntries j ∧ e.1 ≠ i := by intro e; rw [hL, List.mem_filter]; simp
  have hcf := colFold lvl θ s2 hst2 L ((colEntries_nodup hs j).sublist ((List.filter_sublist).map _)) (by
    intro e he; rw [hk2.m]; exact colEntries_lt hs j e ((hLm e).1 he).1)
  rw [← hfold] at hcf
  generalize (s2.tab.colEntries j).foldl (fun t (e : ℕ × ℤ × ℤ) =>
      if e.1 ≠ i then (t.setValue lvl (t.index (e.1 + t.n)) (mulDiv θ e.2.1 e.2.2) true).enqueue e.1 else t) s2 = t at *
  have hti : t.index = s.index := hcf.index.trans hi2
  have htr : t.rindex = s.rindex := hcf.rindex.trans hr2
  have htt : t.tab = s.tab := hcf.tab.trans ht2
  have hkt : Keep s t := hk2.trans hcf.keep
  simp only [hti, htr, htt, hkt.n]
  rw [hs.ri _ (by omega), hs.ri _ (by omega)]
  set t1 : S V := { t with
    n := s.n
    tab := s.tab.compactCol j
    rindex := Function.update (Function.update s.rindex (s.index (i + s.n)) j) (s.index j) (i + s.n)
    index := Function.update (Function.update s.index (i + s.n) (s.index j)) j (s.index (i + s.n)) } with ht1
  have hkt1 : Keep t t1 := by constructor <;> first | rfl | exact hkt.n.symm
  set t2 := t1.enqueue i with ht2'
  have hk12 : Keep t1 t2 := enqueue_keep _ _
  obtain ⟨e1, e2, e3, e4, e5, e6, e7, -⟩ := enqueue_same t1 i
  have hjin : j ≠ i + s.n := by omega
  have hidx1 : t1.index (i + t1.n) = s.index j := by
    rw [hkt1.n, hkt.n]; show Function.update _ _ _ _ = _
    rw [Function.update_of_ne hjin.symm, Function.update_self]
  have htab2 : t2.tab = s.tab.compactCol j := e3
  have hwfc : (s.tab.compactCol j).WF := Tableau.wf_compactCol hs.wf j
  have hcc : (s.tab.compactCol j).coef i j ≠ 0 := by rw [Tableau.coef_compactCol]; exact hc
  set f : S V := { t2 with tab := t2.tab.pivot i j, pivots := t2.pivots + 1 } with hf
  have hkf : Keep t2 f := by constructor <;> rfl
  have hkeep : Keep s f := (((hkt.trans hkt1).trans hk12).trans hkf)
  have hfi : f.index = Function.update (Function.update s.index (i + s.n) (s.index j)) j (s.index (i + s.n)) := e1
  have hfr : f.rindex = Function.update (Function.update s.rindex (s.index (i + s.n)) j) (s.index j) (i + s.n) := e2
  have hcoef : ∀ k l, f.tab.coef k l = if k = i then (if l = j then 1 / s.tab.coef i j else - s.tab.coef i l / s.tab.coef i j)
      else (if l = j then s.tab.coef k j / s.tab.coef i j
        else s.tab.coef k l - s.tab.coef k j * s.tab.coef i l / s.tab.coef i j) := by
    intro k l
    show (t2.tab.pivot i j).coef k l = _
    rw [htab2, Tableau.coef_pivot hwfc hcc]
    simp only [Tableau.coef_compactCol]
  have hfv : f.value = t.value := e4
  have hshift : Shift s f.value j θ := by
    constructor
    · intro l hl
      rw [hfv, hcf.val]
      · rw [hv2]
        by_cases hlj : l = j
        · subst hlj; simp
        · rw [Function.update_of_ne, Function.update_of_ne, if_neg hlj, add_zero]
          · intro h; have := index_inj hs (by omega) (by omega) h; omega
          · intro h; exact hlj (index_inj hs (by omega) (by omega) h)
      · intro e he h
        rw [hi2, hk2.n] at h
        have := index_inj hs (by have := colEntries_lt hs j e ((hLm e).1 he).1; omega) (by omega) h
        omega
    · intro k hk
      have hkj : s.index (k + s.n) ≠ s.index j := by
        intro h; have := index_inj hs (by omega) (by omega) h; omega
      rw [hfv]
      by_cases hki : k = i
      · subst hki
        rw [hcf.val, hv2, Function.update_of_ne hkj, Function.update_self, ← hθ, smul_smul, mul_one_div_cancel hc, one_smul]
        · abel
        · intro e he h
          rw [hi2, hk2.n] at h
          have := index_inj hs (by have := colEntries_lt hs j e ((hLm e).1 he).1; omega) (by omega) h
          exact ((hLm e).1 he).2 (by omega)
      · have hki' : s.index (k + s.n) ≠ s.index (i + s.n) := by
          intro h; have := index_inj hs (by omega) (by omega) h; omega
        by_cases hck : s.tab.coef k j = 0
        · rw [hck, zero_smul, add_zero, hcf.val, hv2, Function.update_of_ne hkj, Function.update_of_ne hki']
          intro e he h
          rw [hi2, hk2.n] at h
          have := index_inj hs (by have := colEntries_lt hs j e ((hLm e).1 he).1; omega) (by omega) h
          have hek : e.1 = k := by omega
          exact (Tableau.mem_colEntries_fst hs.wf (j := j)).1 (List.mem_map.2 ⟨e, ((hLm e).1 he).1, hek⟩) hck
        · obtain ⟨e, he, hek⟩ := List.mem_map.1 ((Tableau.mem_colEntries_fst hs.wf).2 hck)
          have h2 := (Tableau.colEntries_coef hs.wf (i := e.1) (a := e.2.1) (d := e.2.2) he).1
          have h1 := hcf.valE e ((hLm e).2 ⟨he, by rw [show e.1 = k from hek]; exact hki⟩)
          subst hek
          rw [hi2, hk2.n, hv2, Function.update_of_ne hkj, Function.update_of_ne hki'] at h1
          rw [h1]; unfold mulDiv; rw [h2]
  have hstruct : Struct f := by
    have hn := hkeep.n; have hm := hkeep.m; have hv := hkeep.nvars
    constructor
    · rw [hn, hm, hv]; exact hnv
    · intro u hu
      rw [hfi, hv]
      by_cases h1 : u = j
      · subst h1; rw [Function.update_self]; exact hs.idx_lt _ (by omega)
      · rw [Function.update_of_ne h1]
        by_cases h2 : u = i + s.n
        · subst h2; rw [Function.update_self]; exact hs.idx_lt _ (by omega)
        · rw [Function.update_of_ne h2]; exact hs.idx_lt _ (by rw [hv] at hu; exact hu)
    · intro u hu
      rw [hfr, hv]
      by_cases h1 : u = s.index j
      · subst h1; rw [Function.update_self]; omega
      · rw [Function.update_of_ne h1]
        by_cases h2 : u = s.index (i + s.n)
        · subst h2; rw [Function.update_self]; omega
        · rw [Function.update_of_ne h2]; exact hs.ridx_lt _ (by rw [hv] at hu; exact hu)
    · intro u hu
      rw [hv] at hu
      rw [hfr, hfi]
      by_cases h1 : u = s.index j
      · subst h1; rw [Function.update_self, Function.update_of_ne hjin.symm, Function.update_self]
      · rw [Function.update_of_ne h1]
        by_cases h2 : u = s.index (i + s.n)
        · subst h2; rw [Function.update_self, Function.update_self]
        · rw [Function.update_of_ne h2, Function.update_of_ne, Function.update_of_ne, hs.ir u hu]
          · intro h; apply h2; rw [← h, hs.ir u hu]
          · intro h; apply h1; rw [← h, hs.ir u hu]
    · intro u hu
      rw [hv] at hu
      rw [hfr, hfi]
      by_cases h1 : u = j
      · subst h1; rw [Function.update_self, Function.update_of_ne hne, Function.update_self]
      · rw [Function.update_of_ne h1]
        by_cases h2 : u = i + s.n
        · subst h2; rw [Function.update_self, Function.update_self]
        · rw [Function.update_of_ne h2, Function.update_of_ne, Function.update_of_ne, hs.ri u hu]
          · intro h; exact h2 (index_inj hs hu (by omega) h)
          · intro h; exact h1 (index_inj hs hu (by omega) h)
    · show (t2.tab.pivot i j).WF
      rw [htab2]; exact Tableau.wf_pivot hwfc hcc
    · intro k l hkl
      rw [hcoef] at hkl
      rw [hm, hn]
      by_cases hk : k = i
      · subst hk
        refine ⟨hi, ?_⟩
        by_cases hl : l = j
        · omega
        · rw [if_pos rfl, if_neg hl] at hkl
          exact (hs.shape k l (by intro h; rw [h] at hkl; simp at hkl)).2
      · rw [if_neg hk] at hkl
        by_cases hl : l = j
        · subst hl
          rw [if_pos rfl] at hkl
          exact hs.shape k l (by intro h; rw [h] at hkl; simp at hkl)
        · rw [if_neg hl] at hkl
          by_cases h1 : s.tab.coef k l = 0
          · have h2 : s.tab.coef k j ≠ 0 := by intro h; rw [h, h1] at hkl; simp at hkl
            have h3 : s.tab.coef i l ≠ 0 := by intro h; rw [h, h1] at hkl; simp at hkl
            exact ⟨(hs.shape _ _ h2).1, (hs.shape _ _ h3).2⟩
          · exact hs.shape _ _ h1
    · show ∀ k, Tableau.Low ((t2.tab.pivot i j).rows k)
      rw [htab2]; exact Tableau.low_pivot hwfc hcc hs.low
  have hvstep : VStep lvl s f := by
    refine (hvs2.trans hcf.vstep).trans (VStep.of_eq ?_ ?_ ?_ ?_)
    · exact e4
    · exact e5
    · exact e6
    · exact hkf.nvars.trans (hk12.nvars.trans hkt1.nvars)
  have hqi : QI s → QI t := by
    intro hq
    apply hcf.qi
    exact ⟨by rw [hq2, hc2]; exact hq.qa, by rw [hc2]; exact hq.sorted, by rw [hc2, hk2.nvars]; exact hq.lt⟩
  have hqi1 : QI s → QI t1 := by
    intro hq
    have := hqi hq
    exact ⟨this.qa, this.sorted, this.lt⟩
  refine ⟨hkeep, hstruct, hfi, hfr, ?_, hcoef, ?_, hvstep, hθ ▸ hshift, ?_, ?_, ?_⟩
  · intro asg
    unfold TabEq
    rw [hkeep.n, hkeep.m, hfi]
    have hex := exchange (V := V) (n := s.n) (m := s.m) (x := fun l => asg (s.index l)) (y := fun k => asg (s.index (k + s.n)))
      hi hj hc hcoef
    rw [hex]
    apply forall_congr'; intro k
    apply forall_congr'; intro hk
    have hL : asg (Function.update (Function.update s.index (i + s.n) (s.index j)) j (s.index (i + s.n)) (k + s.n)) =
        Function.update (fun k => asg (s.index (k + s.n))) i (asg (s.index j)) k := by
      rw [Function.update_of_ne (by omega)]
      by_cases hki : k = i
      · subst hki; simp
      · rw [Function.update_of_ne (by omega), Function.update_of_ne hki]
    have hR : ∀ l ∈ range s.n, f.tab.coef k l • asg (Function.update (Function.update s.index (i + s.n) (s.index j)) j (s.index (i + s.n)) l) =
        f.tab.coef k l • Function.update (fun l => asg (s.index l)) j (asg (s.index (i + s.n))) l := by
      intro l hl
      have := mem_range.1 hl
      by_cases hlj : l = j
      · subst hlj; simp
      · rw [Function.update_of_ne hlj, Function.update_of_ne (by omega), Function.update_of_ne hlj]
    rw [hL, sum_congr rfl hR]
  · show t2.pivots + 1 = _
    rw [ht2', e7]; show t.pivots + 1 = _
    rw [hcf.pivots, hp2]
  · intro hq
    have := enqueue_qi (hqi1 hq) i (by rw [hidx1, hkt1.nvars, hkt.nvars]; exact hs.idx_lt _ (by omega))
    exact ⟨this.qa, this.sorted, this.lt⟩
  · intro ex hq hqb hw u hu hex hnw
    show u ∈ t2.conflicts
    rw [hkeep.nvars] at hu
    by_cases hui : u = s.index (i + s.n)
    · subst hui; exact absurd (hw hex) hnw
    · by_cases huj : u = s.index j
      · have := enqueue_mem (hqi1 hq) i (by
          rw [hidx1]
          intro hwin; apply hnw
          subst huj
          rw [win_congr (hk12.trans hkf)]
          · exact hwin
          · rw [hfv])
        rw [hidx1] at this
        subst huj; exact this
      · apply enqueue_mono
        show u ∈ t.conflicts
        have hq2' : QI s2 := ⟨by rw [hq2, hc2]; exact hq.qa, by rw [hc2]; exact hq.sorted, by rw [hc2, hk2.nvars]; exact hq.lt⟩
        refine hcf.qb (fun w => ex w ∨ w = s.index (i + s.n) ∨ w = s.index j) hq2' ?_ u (by rw [hkt.nvars]; exact hu)
          (by simp [hex, hui, huj]) ?_
        · intro w hw1 hw2 hw3
          rw [hc2]
          simp only [not_or] at hw2
          apply hqb w (by rw [hk2.nvars] at hw1; exact hw1) (by simp [hw2.1, hw2.2.1])
          intro hwin; apply hw3
          rw [win_congr hk2]
          · exact hwin
          · rw [hv2, Function.update_of_ne hw2.2.2, Function.update_of_ne hw2.2.1]
        · intro hwin; apply hnw
          rw [win_congr ((hkt1.trans hk12).trans hkf)]
          · exact hwin
          · rw [hfv]
  · intro hq
    have h1 : PQ t := by
      apply hcf.pq
      intro k hk
      rw [hs2, setValue_pqueue, hs1, setValue_pqueue] at hk
      rw [hk2.m]; exact hq k hk
    have h2 : PQ t2 := enqueue_pq (s := t1) h1 (by rw [hkt1.m, hkt.m]; exact hi)
    exact h2

end S
end Lpx
