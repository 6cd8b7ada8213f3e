import Verif.SolverOpt

/-! # One iteration of `optimize` -/

set_option linter.unusedSectionVars false

namespace Lpx
open Finset

namespace S
variable {V : Type} [LpValue V]

/-- The row of the objective. -/
def objRow (s : S V) : ℕ := s.rindex s.obj.var - s.n

/-- The bound in direction `σ`. -/
def dirBound (s : S V) (σ : ℚ) (v : ℕ) : Option V := if 0 < σ then s.up v else s.lo v

theorem sg_pos (pos : Bool) : (0 < sg pos ↔ pos = true) := by unfold sg; cases pos <;> norm_num

theorem sg_ne (pos : Bool) : sg pos ≠ 0 := by unfold sg; cases pos <;> norm_num
theorem sg_sq (pos : Bool) : sg pos * sg pos = 1 := by unfold sg; cases pos <;> norm_num

theorem dirBound_sg (s : S V) (pos : Bool) (v : ℕ) : s.dirBound (sg pos) v = if pos then s.up v else s.lo v := by
  unfold dirBound sg; cases pos <;> norm_num

/-- One iteration that moves to another point. -/
structure OptData (E0 : (ℕ → V) → Prop) (s s' : S V) (j : ℕ) (pos : Bool) (θ : V) (pv : Option ℕ) : Prop where
  lt : j < s.n
  zpos : 0 < sg pos * s.tab.coef s.objRow j
  elig : ∀ b, s.dirBound (sg pos) (s.index j) = some b → 0 < sg pos • (b - s.value (s.index j))
  min : ∀ l, l < s.n → s.index l < s.index j →
    (0 < s.tab.coef s.objRow l → ∃ b, s.up (s.index l) = some b ∧ b ≤ s.value (s.index l)) ∧
    (s.tab.coef s.objRow l < 0 → ∃ b, s.lo (s.index l) = some b ∧ s.value (s.index l) ≤ b)
  keep : Keep s s'
  vstep : VStep s.topLevel s s'
  shift : Shift s s'.value j θ
  dir : 0 ≤ sg pos • θ
  win : ∀ v, v < s.nvars → s'.Win v
  core : Core E0 s'
  piv : ∀ i, pv = some i → i < s.m ∧ s.tab.coef i j ≠ 0 ∧
    s'.rindex = Function.update (Function.update s.rindex (s.index (i + s.n)) j) (s.index j) (i + s.n) ∧
    s.dirBound (sg pos * s.tab.coef i j) (s.index (i + s.n)) = some (s'.value (s.index (i + s.n))) ∧
    (θ = 0 → ∀ k, k < s.m → s.tab.coef k j ≠ 0 →
      s.dirBound (sg pos * s.tab.coef k j) (s.index (k + s.n)) = some (s.value (s.index (k + s.n))) →
      s.index (i + s.n) ≤ s.index (k + s.n))
  flip : pv = none → s'.rindex = s.rindex ∧ θ ≠ 0 ∧ s.dirBound (sg pos) (s.index j) = some (s'.value (s.index j))

/-- The result of one iteration. -/
inductive OptRes (E0 : (ℕ → V) → Prop) (s : S V) : S V ⊕ S V → Prop
  | optimal (h : ∀ l, l < s.n →
      (0 < s.tab.coef s.objRow l → ∃ b, s.up (s.index l) = some b ∧ b ≤ s.value (s.index l)) ∧
      (s.tab.coef s.objRow l < 0 → ∃ b, s.lo (s.index l) = some b ∧ s.value (s.index l) ≤ b)) :
      OptRes E0 s (.inl { s with obj := { s.obj with bounded := true } })
  | unbounded (j : ℕ) (pos : Bool) (hj : j < s.n) (hz : 0 < sg pos * s.tab.coef s.objRow j)
      (h1 : s.dirBound (sg pos) (s.index j) = none)
      (h2 : ∀ k, k < s.m → s.tab.coef k j ≠ 0 → s.dirBound (sg pos * s.tab.coef k j) (s.index (k + s.n)) = none) :
      OptRes E0 s (.inl { s with tab := s.tab.compactCol j, obj := { s.obj with bounded := false } })
  | move (s' : S V) (j : ℕ) (pos : Bool) (θ : V) (pv : Option ℕ) : OptData E0 s s' j pos θ pv → OptRes E0 s (.inr s')

theorem entB_spec {s : S V} (hs : Struct s) {i : ℕ} {e : ℕ × ℤ × ℤ} (he : e ∈ s.tab.rowEntries i) :
    s.entB e = true ↔
    ((0 < s.tab.coef i e.1 → ∃ b, s.up (s.index e.1) = some b ∧ b ≤ s.value (s.index e.1)) ∧
     (s.tab.coef i e.1 < 0 → ∃ b, s.lo (s.index e.1) = some b ∧ s.value (s.index e.1) ≤ b)) := by
  have := blocked_spec hs (lower := true) he
  simp only [if_true, one_mul] at this
  rw [← this]
  unfold entB epos entBlocked entUp
  cases (decide (e.2.1 > 0) == decide (e.2.2 > 0)) <;> rfl

theorem entB_all {s : S V} (hs : Struct s) {i : ℕ} {P : ℕ → Prop} (h : ∀ e ∈ s.tab.rowEntries i, P (s.index e.1) → s.entB e = true)
    (l : ℕ) (hP : P (s.index l)) :
    (0 < s.tab.coef i l → ∃ b, s.up (s.index l) = some b ∧ b ≤ s.value (s.index l)) ∧
    (s.tab.coef i l < 0 → ∃ b, s.lo (s.index l) = some b ∧ s.value (s.index l) ≤ b) := by
  by_cases hz : s.tab.coef i l = 0
  · rw [hz]; simp
  · obtain ⟨e, he, hel⟩ := List.mem_map.1 ((Tableau.mem_rowEntries_fst hs.wf).2 hz)
    have hel : e.1 = l := hel
    subst hel
    exact (entB_spec hs he).1 (h e he hP)

theorem compact_struct {s : S V} (hs : Struct s) (j : ℕ) : Struct { s with tab := s.tab.compactCol j } :=
  ⟨hs.nv, hs.idx_lt, hs.ridx_lt, hs.ir, hs.ri, Tableau.wf_compactCol hs.wf j, hs.shape, hs.low⟩

theorem optStep_spec {E0 : (ℕ → V) → Prop} {s : S V} (hc : Core E0 s) (hw : ∀ v, v < s.nvars → s.Win v)
    (ha : s.obj.active = true) : OptRes E0 s s.optStep := by
  obtain ⟨ho1, ho2, ho3⟩ := hc.ob ha
  have hs := hc.struct
  have hnv := hs.nv
  unfold optStep
  rw [if_neg (not_lt.2 ho2)]
  simp only
  have hef := enter_fold s (s.tab.rowEntries s.objRow) (fun e he => by
    have := (hs.shape s.objRow e.1 ((Tableau.mem_rowEntries_fst hs.wf).1 (List.mem_map.2 ⟨e, he, rfl⟩))).2
    exact hs.idx_lt _ (by omega))
  rw [show s.selectEnter (s.rindex s.obj.var - s.n) = (s.tab.rowEntries s.objRow).foldl (enterEntry s) (s.nvars, false) from rfl]
  generalize (s.tab.rowEntries s.objRow).foldl (enterEntry s) (s.nvars, false) = en at *
  obtain ⟨ee, pos⟩ := en
  simp only at hef ⊢
  rcases hef with ⟨h1, h2⟩ | ⟨e, he, hee, hpe, hbl, hmin⟩
  · rw [if_pos h1]
    refine OptRes.optimal fun l hl => ?_
    exact entB_all hs (P := fun _ => True) (fun e he _ => h2 e he) l trivial
  -- the entering variable
  have hcz : s.tab.coef s.objRow e.1 ≠ 0 := (Tableau.mem_rowEntries_fst hs.wf).1 (List.mem_map.2 ⟨e, he, rfl⟩)
  have hj : e.1 < s.n := (hs.shape _ _ hcz).2
  have hri : s.rindex ee = e.1 := by rw [← hee]; exact hs.ri _ (by omega)
  have heelt : ee < s.nvars := by rw [← hee]; exact hs.idx_lt _ (by omega)
  rw [if_neg (by omega), hri]
  obtain ⟨r1, r2, r3, r4⟩ := Tableau.rowEntries_coef hs.wf (j := e.1) (a := e.2.1) (d := e.2.2) he
  have hpp : pos = true ↔ 0 < s.tab.coef s.objRow e.1 := by
    rw [hpe]; unfold epos; rw [← r1]; exact pos_iff r2 r3
  have hzpos : 0 < sg pos * s.tab.coef s.objRow e.1 := by
    unfold sg
    cases hb : pos
    · simp only [Bool.false_eq_true, if_false, neg_mul, one_mul, Left.neg_pos_iff]
      rcases lt_or_gt_of_ne hcz with h | h
      · exact h
      · rw [hpp.2 h] at hb; simp at hb
    · simp only [if_true, one_mul]; exact hpp.1 hb
  have helig : ∀ b, s.dirBound (sg pos) (s.index e.1) = some b → 0 < sg pos • (b - s.value (s.index e.1)) := by
    intro b hb
    rw [dirBound_sg] at hb
    unfold entB at hbl
    rw [← hpe] at hbl
    unfold sg
    cases pos
    · simp only [Bool.false_eq_true, if_false] at hb hbl ⊢
      have : ¬ ∃ b, s.lo (s.index e.1) = some b ∧ s.value (s.index e.1) ≤ b := fun h => by
        rw [(atLo_iff s _).2 h] at hbl; simp at hbl
      push Not at this
      have := this b hb
      simpa using this
    · simp only [if_true] at hb hbl ⊢
      have : ¬ ∃ b, s.up (s.index e.1) = some b ∧ b ≤ s.value (s.index e.1) := fun h => by
        rw [(atUp_iff s _).2 h] at hbl; simp at hbl
      push Not at this
      have := this b hb
      simpa using this
  have hminl : ∀ l, l < s.n → s.index l < s.index e.1 →
      (0 < s.tab.coef s.objRow l → ∃ b, s.up (s.index l) = some b ∧ b ≤ s.value (s.index l)) ∧
      (s.tab.coef s.objRow l < 0 → ∃ b, s.lo (s.index l) = some b ∧ s.value (s.index l) ≤ b) := fun l _ hlt =>
    entB_all hs (P := fun v => v < s.index e.1) (fun e' he' h => hmin e' he' h) l hlt
  -- the leaving variable
  have hlf := leave_fold s ee pos (s.tab.colEntries e.1)
  rw [show s.selectLeave ee pos = (s.tab.colEntries (s.rindex ee)).foldl (leaveEntry s ee pos) none from rfl, hri]
  generalize (s.tab.colEntries e.1).foldl (leaveEntry s ee pos) none = lv at *
  set s1 : S V := { s with tab := s.tab.compactCol e.1 } with hs1
  have hst1 : Struct s1 := compact_struct hs _
  have hk1 : Keep s s1 := by constructor <;> rfl
  have hcol : ∀ k, s.tab.coef k e.1 ≠ 0 → ∃ e' ∈ s.tab.colEntries e.1, e'.1 = k := by
    intro k hk
    obtain ⟨e', h1, h2⟩ := List.mem_map.1 ((Tableau.mem_colEntries_fst hs.wf).2 hk)
    exact ⟨e', h1, h2⟩
  rw [show s1.topLevel = s.topLevel from rfl]
  rcases hlf with ⟨rfl, hnone⟩ | ⟨e', he', c, rfl, hcc, hcmin⟩
  · -- no candidate
    simp only
    cases hb : (if pos = true then s1.up ee else s1.lo ee) with
    | none =>
      simp only
      have hb' : s.dirBound (sg pos) (s.index e.1) = none := by rw [dirBound_sg, hee]; exact hb
      refine OptRes.unbounded e.1 pos hj hzpos hb' ?_
      intro k hk hck
      obtain ⟨e', he', rfl⟩ := hcol k hck
      cases hdb : s.dirBound (sg pos * s.tab.coef e'.1 e.1) (s.index (e'.1 + s.n)) with
      | none => rfl
      | some b =>
        exfalso
        rcases leaveCand_spec hs hee he' hdb with ⟨h1, -⟩ | ⟨-, u, h2, -⟩
        · rw [hnone e' he'] at h1; simp at h1
        · rw [dirBound_sg, hee] at hb'; rw [hb'] at h2; simp at h2
    | some b =>
      simp only
      have hb' : s.dirBound (sg pos) (s.index e.1) = some b := by rw [dirBound_sg, hee]; exact hb
      have hel := helig b hb'
      have hu := update_spec s1 hst1 s.topLevel e.1 hj b
      generalize hs2 : s1.update s.topLevel e.1 b = s2 at *
      have hkeep := hk1.trans hu.keep
      have hsh : Shift s s2.value e.1 (b - s.value (s.index e.1)) := ⟨hu.shift.nb, hu.shift.b⟩
      have hwin : ∀ v, v < s.nvars → Within (s.lo v) (s.up v) (s2.value v) := by
        refine shift_win hs hw hj hsh hel.le ?_ ?_
        · intro b' hb2
          rw [← dirBound_sg, hb'] at hb2
          simp only [Option.some.injEq] at hb2; subst hb2
          simp
        · intro k hk hck b' hb2
          obtain ⟨e', he', rfl⟩ := hcol k hck
          rcases leaveCand_spec hs hee he' hb2 with ⟨h1, -⟩ | ⟨-, u, h2, h3⟩
          · rw [hnone e' he'] at h1; simp at h1
          · rw [← dirBound_sg, ← hee, hb'] at h2
            simp only [Option.some.injEq] at h2; subst h2
            rw [← hee] at h3
            convert h3 using 2
            abel
      have hval : s2.value (s.index e.1) = b := by rw [hsh.nb e.1 hj, if_pos rfl]; abel
      have hwin' : ∀ v, v < s.nvars → s2.Win v := by
        intro v hv; unfold Win; rw [hkeep.lo, hkeep.up]; exact hwin v hv
      refine OptRes.move s2 e.1 pos (b - s.value (s.index e.1)) none ⟨hj, hzpos, helig, hminl, hkeep, ?_, hsh, hel.le, hwin', ?_, ?_, ?_⟩
      · exact (VStep.of_eq rfl rfl rfl rfl : VStep s.topLevel s s1).trans hu.vstep
      · refine ⟨hu.struct, hkeep.ptrVar hc.ptr, ?_, ?_, ?_, ?_, hu.qi ⟨hc.qi.qa, hc.qi.sorted, hc.qi.lt⟩, ?_, hu.pq hc.pq, hc.ob.keep hkeep hu.rindex⟩
        · intro asg; rw [← hc.eqv]; unfold TabEq; rw [hkeep.n, hkeep.m, hu.index]
          simp only [hu.coef]; exact Iff.rfl
        · have := hsh.tabEq hj hc.val
          unfold TabEq at this ⊢; rw [hkeep.n, hkeep.m, hu.index]
          simp only [hu.coef]; exact this
        · intro l hl; rw [hkeep.n] at hl; rw [hu.index]; exact hwin' _ (hs.idx_lt _ (by omega))
        · intro v hv; rw [hkeep.loLeUp]; exact hc.lu v (by rw [← hkeep.nvars]; exact hv)
        · intro u hu' _ hnw; exact absurd (hwin' u (by rw [← hkeep.nvars]; exact hu')) hnw
      · intro i hi; simp at hi
      · intro _
        refine ⟨hu.rindex, ?_, by rw [hval]; exact hb'⟩
        intro h0; rw [h0, smul_zero] at hel; exact lt_irrefl _ hel
  · -- pivot
    simp only
    obtain ⟨q1, q2, q3⟩ := leaveCand_some hs he' hcc
    have hccoef : s.tab.coef e'.1 e.1 ≠ 0 := (Tableau.mem_colEntries_fst hs.wf).1 (List.mem_map.2 ⟨e', he', rfl⟩)
    have him : e'.1 < s.m := (hs.shape _ _ hccoef).1
    have hrl : s1.rindex c.ll - s1.n = e'.1 := by
      show s.rindex c.ll - s.n = _
      rw [q1, hs.ri _ (by omega)]; omega
    rw [hrl]
    have hp := pivot_spec s1 hst1 s.topLevel e'.1 e.1 (by exact hccoef) c.bnd
    generalize hs2 : s1.pivot s.topLevel e'.1 e.1 c.bnd = s2 at *
    have hkeep := hk1.trans hp.keep
    set θ := (1 / s.tab.coef e'.1 e.1) • (c.bnd - s.value (s.index (e'.1 + s.n))) with hθ
    have hsh : Shift s s2.value e.1 θ := ⟨hp.shift.nb, hp.shift.b⟩
    have hve : c.ve = s.value (s.index e.1) + θ := by rw [q2, hee]
    have hsq := sg_sq pos
    -- the direction
    have hdir : 0 ≤ sg pos • θ := by
      have hwi := hw (s.index (e'.1 + s.n)) (hs.idx_lt _ (by omega))
      have : sg pos • θ = (sg pos * s.tab.coef e'.1 e.1) • (((1 / s.tab.coef e'.1 e.1) * (1 / s.tab.coef e'.1 e.1)) • (c.bnd - s.value (s.index (e'.1 + s.n)))) := by
        rw [hθ, smul_smul, smul_smul]; congr 1; field_simp
      rw [this]
      have hsqp : 0 < (1 / s.tab.coef e'.1 e.1) * (1 / s.tab.coef e'.1 e.1) := mul_self_pos.2 (one_div_ne_zero hccoef)
      by_cases h0 : 0 < sg pos * s.tab.coef e'.1 e.1
      · rw [if_pos h0] at q3
        exact smul_nonneg h0.le (smul_nonneg hsqp.le (sub_nonneg.2 (hwi.2 _ q3)))
      · rw [if_neg h0] at q3
        exact smul_nonneg_of_nonpos_of_nonpos (not_lt.1 h0) (smul_nonpos_of_nonneg_of_nonpos hsqp.le (sub_nonpos.2 (hwi.1 _ q3)))
    have hsle : ∀ v, sle pos c.ve (s.value (s.index e.1) + v) ↔ 0 ≤ sg pos • (v - θ) := by
      intro v; rw [sle_iff, hve]
      rw [show s.value (s.index e.1) + v - (s.value (s.index e.1) + θ) = v - θ by abel]
    have hcU : ∀ u, s.dirBound (sg pos) (s.index e.1) = some u → 0 < sg pos • (u - s.value (s.index e.1) - θ) := by
      intro u hu
      rcases leaveCand_spec hs hee he' q3 with ⟨h1, h2⟩ | ⟨h1, -⟩
      · have := h2 u (by rw [← dirBound_sg, ← hee]; exact hu)
        rw [← hee] at this
        rwa [show u - s.value (s.index e.1) - θ = u - (s.value (s.index e.1) + θ) by abel]
      · rw [hcc] at h1; simp at h1
    have hwin : ∀ v, v < s.nvars → Within (s.lo v) (s.up v) (s2.value v) := by
      refine shift_win hs hw hj hsh hdir ?_ ?_
      · intro b' hb2
        rw [← dirBound_sg] at hb2
        exact (hcU b' hb2).le
      · intro k hk hck b' hb2
        obtain ⟨e2, he2, rfl⟩ := hcol k hck
        rcases leaveCand_spec hs hee he2 hb2 with ⟨h1, -⟩ | ⟨-, u, h2, h3⟩
        · have := (hcmin e2 he2 _ h1).1
          rw [← hee] at this
          exact (hsle _).1 this
        · rw [← dirBound_sg, ← hee] at h2
          have g1 := hcU u h2
          rw [← hee] at h3
          have := add_nonneg h3 g1.le
          rw [← smul_add] at this
          convert this using 2
          abel
    have hvl : s2.value (s.index (e'.1 + s.n)) = c.bnd := by
      rw [hsh.b _ him, hθ, smul_smul, mul_one_div_cancel hccoef, one_smul]; abel
    have hwin' : ∀ v, v < s.nvars → s2.Win v := by
      intro v hv; unfold Win; rw [hkeep.lo, hkeep.up]; exact hwin v hv
    refine OptRes.move s2 e.1 pos θ (some e'.1) ⟨hj, hzpos, helig, hminl, hkeep, ?_, hsh, hdir, hwin', ?_, ?_, ?_⟩
    · exact (VStep.of_eq rfl rfl rfl rfl : VStep s.topLevel s s1).trans hp.vstep
    · refine ⟨hp.struct, hkeep.ptrVar hc.ptr, ?_, ?_, ?_, ?_, hp.qi ⟨hc.qi.qa, hc.qi.sorted, hc.qi.lt⟩, ?_, hp.pq hc.pq, ?_⟩
      · intro asg; rw [hp.tabEq, ← hc.eqv]; exact Iff.rfl
      · rw [hp.tabEq]
        exact hsh.tabEq hj hc.val
      · intro l hl; rw [hkeep.n] at hl
        exact hwin' _ (by have := hp.struct.idx_lt l (by rw [hkeep.nvars]; omega); rwa [hkeep.nvars] at this)
      · intro v hv; rw [hkeep.loLeUp]; exact hc.lu v (by rw [← hkeep.nvars]; exact hv)
      · intro u hu' _ hnw; exact absurd (hwin' u (by rw [← hkeep.nvars]; exact hu')) hnw
      · refine hc.ob.pivot hkeep hc.ptr (i := e'.1) (j := e.1) (b := c.bnd) ?_ hp.rindex
        by_cases h0 : 0 < sg pos * s.tab.coef e'.1 e.1
        · rw [if_pos h0] at q3; exact Or.inr q3
        · rw [if_neg h0] at q3; exact Or.inl q3
    · intro i hi
      simp only [Option.some.injEq] at hi
      subst hi
      refine ⟨him, hccoef, hp.rindex, by rw [hvl]; exact q3, ?_⟩
      intro hθ0 k hk hck hkb
      obtain ⟨e2, he2, rfl⟩ := hcol k hck
      rcases leaveCand_spec hs hee he2 hkb with ⟨h1, -⟩ | ⟨-, u, h2, h3⟩
      · have := (hcmin e2 he2 _ h1).2 (by
          simp only [sub_self, smul_zero, add_zero]; rw [hve, hθ0, add_zero, hee])
        rw [q1] at this; exact this
      · exfalso
        rw [← dirBound_sg, ← hee] at h2
        have g1 := helig u h2
        rw [sub_self, smul_zero, add_zero, ← hee] at h3
        have := add_pos_of_nonneg_of_pos h3 g1
        rw [← smul_add] at this
        simp at this
    · intro hi; simp at hi

end S
end Lpx
