import Verif.PropsMemory

/-!
# C75: indices, levels and offsets fit into 32 bits

`index_t` is `uint32_t` (tableau.hh:11). The sizes of vectors are cast to it without a check (solving.cc:341, 674-675, tableau.hh:61). The model uses
unbounded numbers; here it is shown that every number kept in a member of type `index_t` is its own remainder modulo 2^32, as long as the program and
the depth of the search are of a reasonable size, however long the session is.
-/

set_option linter.unusedSectionVars false

namespace Lpx
variable {V : Type} [LpFull V]

namespace WChain

/-- The offsets stay inside the trail. -/
theorem asg_le {E0 : (ℕ → V) → Prop} : ∀ {L : List ℕ} {w : AView V}, WChain E0 L w → ∀ o ∈ w.offs, o.asg ≤ w.atrail.length ∧ o.level ∈ L := by
  intro L
  induction L with
  | nil => rintro w ⟨h, -⟩ o ho; rw [h] at ho; cases ho
  | cons l ls ih =>
    rintro w ⟨o', os, ho, hl, h⟩ o hm
    rw [ho] at hm
    split at h
    · obtain ⟨-, h2, h3, -⟩ := h
      rw [h2] at hm
      obtain rfl := List.mem_singleton.1 hm
      exact ⟨by omega, by rw [hl]; simp⟩
    · obtain ⟨⟨⟨h1, -⟩, -⟩, -, -, hc⟩ := h
      rcases List.mem_cons.1 hm with rfl | hm
      · exact ⟨h1, by rw [hl]; simp⟩
      · have hp : w.pop.offs = os := by unfold AView.pop; rw [ho]
        have hpa : w.pop.atrail = w.atrail.take o'.asg := by unfold AView.pop; rw [ho]
        have := ih hc o (by rw [hp]; exact hm)
        rw [hpa, List.length_take] at this
        exact ⟨by omega, List.mem_cons_of_mem _ this.2⟩

/-- Restoring the level of a variable on the trail. -/
theorem restL_mem {seg : List (ℕ × ℕ × V)} {f : ℕ → ℕ} (hn : (seg.map (·.2.1)).Nodup) {e : ℕ × ℕ × V} (he : e ∈ seg) : S.restL seg f e.2.1 = e.1 := by
  induction seg generalizing f with
  | nil => cases he
  | cons a es ih =>
    rw [List.map_cons, List.nodup_cons] at hn
    show S.restL es _ e.2.1 = e.1
    rcases List.mem_cons.1 he with rfl | he
    · rw [S.restL_not_mem hn.1]
      exact Function.update_self ..
    · exact ih hn.2 he

/-- The levels saved on the trail. -/
theorem old_level {E0 : (ℕ → V) → Prop} : ∀ {L : List ℕ} {w : AView V}, WChain E0 L w → ∀ e ∈ w.atrail, e.1 = 0 ∨ e.1 ∈ L := by
  intro L
  induction L with
  | nil => rintro w ⟨-, h, -⟩ e he; rw [h] at he; cases he
  | cons l ls ih =>
    rintro w ⟨o, os, ho, hl, h⟩ e he
    split at h
    · rw [h.2.2.2.1] at he; cases he
    · obtain ⟨⟨⟨h1, h2⟩, -⟩, -, -, hc⟩ := h
      have hpa : w.pop.atrail = w.atrail.take o.asg := by unfold AView.pop; rw [ho]
      rw [← List.take_append_drop o.asg w.atrail] at he
      rcases List.mem_append.1 he with he | he
      · exact (ih hc e (by rw [hpa]; exact he)).imp_right (List.mem_cons_of_mem _)
      · have hpl : w.pop.level e.2.1 = e.1 := by unfold AView.pop; rw [ho]; exact restL_mem h2 he
        rcases hc.level_le e.2.1 with h0 | h0
        · left; rw [← hpl]; exact h0
        · right; rw [← hpl]; exact List.mem_cons_of_mem _ h0.1

end WChain

namespace Props
open Lpx.Witness Finset

/-- Specification: conversion to `index_t`, which is `uint32_t` (tableau.hh:11). -/
def toIndex (n : ℕ) : ℕ := n % 2 ^ 32

/-- Specification: converting the members of type `index_t` of a solver to `index_t` does not change them. -/
structure Fits (s : S V) : Prop where
  /-- solving.hh:267-269 `n_non_basic_`, `n_basic_`, and positions of variables -/
  dims : toIndex s.n = s.n ∧ toIndex s.m = s.m ∧ toIndex s.nvars = s.nvars
  /-- solving.hh:130-134 `index`, `reverse_index`, `level` -/
  index : ∀ v, v < s.nvars → toIndex (s.index v) = s.index v ∧ toIndex (s.rindex v) = s.rindex v
  level : ∀ v, v < s.nvars → toIndex (s.level v) = s.level v
  /-- solving.hh:93 `Bound::variable` -/
  bounds : ∀ bd ∈ s.bounds, toIndex bd.var = bd.var
  /-- solving.hh:143-145 `TrailOffset` -/
  offs : ∀ o ∈ s.offs, toIndex o.level = o.level ∧ toIndex o.bound = o.bound ∧ toIndex o.asg = o.asg
  /-- solving.hh:249-251 `bound_trail_`, `assignment_trail_` -/
  btrail : ∀ e ∈ s.btrail, toIndex e.1 = e.1
  atrail : ∀ e ∈ s.atrail, toIndex e.1 = e.1 ∧ toIndex e.2.1 = e.2.1
  /-- the sizes that are converted when the next decision level is entered (solving.cc:674-675) -/
  next : toIndex s.btrail.length = s.btrail.length ∧ toIndex s.atrail.length = s.atrail.length
  /-- solving.hh:259-263 `conflicts_`, `propagate_queue_` -/
  conflicts : ∀ v ∈ s.conflicts, toIndex v = v
  queue : ∀ i ∈ s.pqueue, toIndex i = i
  /-- tableau.hh:131, 144 the columns of cells and the rows in columns -/
  cells : ∀ i, ∀ c ∈ (s.tab.rows i).cells, toIndex c.col = c.col
  cols : ∀ j, ∀ i ∈ s.tab.cols j, toIndex i = i
  /-- solving.hh:154 `Objective::var` -/
  obj : s.obj.active = true → toIndex s.obj.var = s.obj.var

theorem toIndex_lt {n : ℕ} (h : n < 2 ^ 32) : toIndex n = n := Nat.mod_eq_of_lt h

variable {be : Backend} {opts : Options} {Q : Restr V} {p : Propagator V} {g : Ghost V}

/-- **C75.** After every sequence of callbacks, whatever its length, no index, level or offset kept by a solver is changed by the conversion to 32 bits,
provided that

* the number of variables, of constraints over several variables and two more for the objective are together less than 2^32,
* this number times the number of decision levels is less than 2^32,
* twice the number of bounds asserted on the trail is less than 2^32, and
* the numbers of the decision levels, which clingo represents by 32 bits, are. -/
theorem C75_indices (hr : Reach be opts Q p g) {th : ℕ} {gt : GThr} (hg : g.thrs[th]? = some gt) {t : Thr V} (ht : p.thrs[th]? = some t)
    {size : ℕ} (hsz : p.varMap.length + (p.prog.iqs.filter fun x => decide (2 ≤ x.lhs.length)).length + 2 ≤ size) (h32 : size < 2 ^ 32)
    (hlev : size * (gt.frames.filter fun fr => fr.level ≠ 0).length < 2 ^ 32) (hasg : 2 * assertedBounds t.slv.bounds gt.frames < 2 ^ 32)
    (hdl : ∀ fr ∈ gt.frames, fr.level < 2 ^ 32) : Fits t.slv ∧
      (p.prog.objective ≠ [] → opts.globalObjective.isSome = true → toIndex t.slv.obj.boundVar = t.slv.obj.boundVar) := by
  have hB := C73_memory hr hg ht
  obtain ⟨t', ht', E0, base, hd⟩ := hr.weak.thr th gt hg
  obtain rfl := Option.some.inj (ht'.symm.trans ht)
  have hw := hd.winv
  have hs := hw.struct
  have hnv : t'.slv.nvars < 2 ^ 32 := lt_of_le_of_lt (hB.nvars.trans hsz) h32
  have hnm := hs.nv
  have hba : t'.slv.btrail.length < 2 ^ 32 := lt_of_le_of_lt hB.btrail hasg
  have haa : t'.slv.atrail.length < 2 ^ 32 :=
    lt_of_le_of_lt (hB.atrail.trans (Nat.mul_le_mul_right _ (hB.nvars.trans hsz))) hlev
  have hL : ∀ l ∈ gt.frames.map (·.level), l < 2 ^ 32 := by
    intro l hl
    obtain ⟨fr, hf, rfl⟩ := List.mem_map.1 hl
    exact hdl fr hf
  refine ⟨⟨⟨?_, ?_, ?_⟩, fun v hv => ⟨?_, ?_⟩, fun v hv => ?_, fun bd hbd => ?_, fun o ho => ⟨?_, ?_, ?_⟩, fun e he => ?_, fun e he => ⟨?_, ?_⟩, ⟨toIndex_lt hba, toIndex_lt haa⟩,
    fun v hv => ?_, fun i hi => ?_, fun i c hc => ?_, fun j i hi => ?_, fun ha => ?_⟩, fun h1 h2 => ?_⟩ <;> apply toIndex_lt
  · omega
  · omega
  · exact hnv
  · exact lt_trans (hs.idx_lt v hv) hnv
  · exact lt_trans (hs.ridx_lt v hv) hnv
  · rcases hw.chain.level_le v with h | h
    · have h : t'.slv.level v = 0 := h
      rw [h]; norm_num
    · exact hL _ h.1
  · exact lt_trans (hw.bvar bd hbd) hnv
  · exact hL _ (hw.chain.asg_le o ho).2
  · exact lt_of_le_of_lt (hw.offb.2 o ho) hba
  · exact lt_of_le_of_lt (hw.chain.asg_le o ho).1 haa
  · obtain ⟨bd, h1, h2⟩ := (hw.trail e he).1
    rw [← h2]
    exact lt_trans (hw.bvar bd h1) hnv
  · rcases hw.chain.old_level e he with h | h
    · rw [h]; norm_num
    · exact hL _ h
  · exact lt_trans (hw.inr e he) hnv
  · exact lt_trans (hw.qi.lt v hv) hnv
  · have := hw.pq i hi
    omega
  · have : c.col < t'.slv.n := (hs.shape i c.col ((Tableau.mem_rowEntries_fst hs.wf).1 (List.mem_map.2 ⟨_, List.mem_map.2 ⟨c, hc, rfl⟩, rfl⟩))).2
    omega
  · have h1 := hs.wf.colRange j i hi
    have h2 := hd.nr
    omega
  · exact lt_trans (hw.ob ha).1 hnv
  · exact lt_trans (hd.bvlt h1 h2) hnv

/-- Not part of the code: the sizes after `memEvents`. -/
def indexCheck (p : Propagator ℚ) (g : Ghost ℚ) : Bool :=
  decide (p.varMap.length + (p.prog.iqs.filter fun x => decide (2 ≤ x.lhs.length)).length + 2 ≤ 6) &&
      (g.thrs[0]?).any fun gt => (decide (6 * (gt.frames.filter fun fr => fr.level ≠ 0).length = 12) && gt.frames.all fun fr => decide (fr.level < 2 ^ 32)) &&
      (p.thrs[0]?).any fun t => decide (2 * assertedBounds t.slv.bounds gt.frames = 4 ∧ 3 ≤ t.slv.atrail.length)

/-- The hypotheses are met in a state with two decision levels, after backtracking. -/
example : ∃ (p : Propagator ℚ) (g : Ghost ℚ) (gt : GThr) (t : Thr ℚ), Reach .imath {} Intact p g ∧ g.thrs[0]? = some gt ∧ p.thrs[0]? = some t ∧
    p.varMap.length + (p.prog.iqs.filter fun x => decide (2 ≤ x.lhs.length)).length + 2 ≤ 6 ∧ 6 * (gt.frames.filter fun fr => fr.level ≠ 0).length = 12 ∧
    2 * assertedBounds t.slv.bounds gt.frames = 4 ∧ (∀ fr ∈ gt.frames, fr.level < 2 ^ 32) ∧ 3 ≤ t.slv.atrail.length := by
  obtain ⟨p, g, h1, -, h2⟩ := exists_reach (V := ℚ) (be := .imath) (mode := .intact) (opts := {}) memEvents (P := indexCheck) (by decide +kernel)
  unfold indexCheck at h2
  simp only [Bool.and_eq_true, Option.any_eq_true, List.all_eq_true] at h2
  obtain ⟨a, gt, hg, ⟨b1, b2⟩, t, ht, c⟩ := h2
  obtain ⟨c1, c2⟩ := of_decide_eq_true c
  exact ⟨p, g, gt, t, h1, hg, ht, of_decide_eq_true a, of_decide_eq_true b1, c1, fun fr hf => of_decide_eq_true (b2 fr hf), c2⟩

end Props
end Lpx
