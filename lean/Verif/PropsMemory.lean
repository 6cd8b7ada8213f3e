import Verif.PropsNumbers
import Verif.Memory

/-!
# C73: the memory of the solver is bounded by the program and the search depth

The solver is used for millions of callbacks. What it remembers between callbacks must not grow with their number.
-/

set_option linter.unusedSectionVars false

namespace Lpx.Props
open Lpx Lpx.Witness Finset

variable {V : Type} [LpFull V]

/-- The number of pairs of a literal on the current trail of the search and a bound with this literal. -/
def assertedBounds (bounds : List (Bound V)) (frames : List Frame) : ℕ :=
  ((frames.flatMap fun fr => fr.lits).map fun l => (bounds.filter fun bd => bd.lit = l).length).sum

/-- The sizes of the data structures of one solver. -/
structure Bounded (p : Propagator V) (frames : List Frame) (s : S V) : Prop where
  /-- one variable for each variable of the program and at most one for each constraint over several variables, plus two for the objective -/
  nvars : s.nvars ≤ p.varMap.length + (p.prog.iqs.filter fun x => decide (2 ≤ x.lhs.length)).length + 2
  /-- each row of the tableau has at most one cell per column -/
  rows : ∀ i, (s.tab.rows i).cells.length ≤ p.varMap.length
  /-- there are no rows or columns beyond the dimensions -/
  norows : ∀ i, s.m ≤ i → (s.tab.rows i).cells = []
  nocols : ∀ j, s.tab.ncols ≤ j → s.tab.cols j = []
  /-- each column refers to each row at most once, also with lazily deleted entries -/
  cols : ∀ j, (s.tab.cols j).length ≤ s.m
  dims : s.n = p.varMap.length ∧ s.nvars = s.n + s.m
  /-- one offset for each decision level -/
  offs : s.offs.length = frames.length
  /-- on each decision level but the first, at most one old value for each variable -/
  atrail : s.atrail.length ≤ s.nvars * (frames.filter fun fr => fr.level ≠ 0).length
  /-- at most two old limits for each bound asserted on the current trail -/
  btrail : s.btrail.length ≤ 2 * assertedBounds s.bounds frames
  /-- at most one entry for each row -/
  pqueue : s.pqueue.length ≤ s.m

theorem asserted_eq (bounds : List (Bound V)) (frames : List Frame) : (frames.map (frameBounds bounds)).sum = assertedBounds bounds frames := by
  unfold assertedBounds
  induction frames with
  | nil => rfl
  | cons fr frs ih =>
    rw [List.map_cons, List.sum_cons, ih, List.flatMap_cons, List.map_append, List.sum_append]
    congr 1
    unfold frameBounds litBounds
    congr 1
    refine List.map_congr_left fun l _ => ?_
    rw [List.countP_eq_length_filter]
    congr 1

variable {be : Backend} {opts : Options} {Q : Restr V} {p p' : Propagator V} {g g' : Ghost V}

/-- **C73.** After every sequence of callbacks, whatever its length: the sizes of the data structures of each solver are bounded by the size of the
program and the current trail of the search. -/
theorem C73_memory (hr : Reach be opts Q p g) {th : ℕ} {gt : GThr} (hg : g.thrs[th]? = some gt) {t : Thr V} (ht : p.thrs[th]? = some t) :
    Bounded p gt.frames t.slv := by
  obtain ⟨t', ht', E0, base, hd⟩ := hr.weak.thr th gt hg
  obtain rfl := Option.some.inj (ht'.symm.trans ht)
  have hw := hd.winv
  have hs := hw.struct
  have hcells : ∀ i, ∀ c ∈ (t'.slv.tab.rows i).cells, i < t'.slv.m ∧ c.col < t'.slv.n := by
    intro i c hc
    refine hs.shape i c.col ((Tableau.mem_rowEntries_fst hs.wf).1 ?_)
    exact List.mem_map.2 ⟨_, List.mem_map.2 ⟨c, hc, rfl⟩, rfl⟩
  obtain ⟨b1, b2⟩ := hd.bl.length
  refine ⟨?_, fun i => ?_, fun i hi => ?_, hs.wf.colBeyond, fun j => ?_, ⟨hd.n, hs.nv⟩, by simpa using b1, ?_, by rw [← asserted_eq]; exact b2, ?_⟩
  · have := hd.nv
    unfold S.numRows at this
    split at this <;> omega
  · have hnd : ((t'.slv.tab.rows i).cells.map (·.col)).Nodup := by
      have := (hs.wf.row i).sorted
      exact (List.pairwise_map.2 this).imp fun h => Nat.ne_of_lt h
    have hsub : (t'.slv.tab.rows i).cells.map (·.col) ⊆ List.range p.varMap.length := by
      intro j hj
      obtain ⟨c, hc, rfl⟩ := List.mem_map.1 hj
      rw [List.mem_range, ← hd.n]
      exact (hcells i c hc).2
    have := (List.subperm_of_subset hnd hsub).length_le
    simpa using this
  · rw [List.eq_nil_iff_forall_not_mem]
    intro c hc
    have := (hcells i c hc).1
    omega
  · have hnd : (t'.slv.tab.cols j).Nodup := (hs.wf.colSorted j).imp fun h => Nat.ne_of_lt h
    have hsub : t'.slv.tab.cols j ⊆ List.range t'.slv.m := by
      intro i hi
      have h1 := hs.wf.colRange j i hi
      have h2 := hd.nr
      exact List.mem_range.2 (by omega)
    have := (List.subperm_of_subset hnd hsub).length_le
    simpa using this
  · have h1 := hw.chain.length (n := t'.slv.nvars) hw.inr
    rw [List.countP_eq_length_filter, List.filter_map, List.length_map] at h1
    exact h1
  · have hsub : t'.slv.pqueue ⊆ List.range t'.slv.m := fun i hi => List.mem_range.2 (hw.pq i hi)
    have := (List.subperm_of_subset hd.pf.2.1 hsub).length_le
    simpa using this

/-- **C73**, the bounds: each constraint leads to at most one bound. Only with a global objective bounds are added while solving, and these are
bounds on the objective. -/
theorem C73_bounds (hr : Reach be opts Q p g) {th : ℕ} {gt : GThr} (hg : g.thrs[th]? = some gt) {t : Thr V} (ht : p.thrs[th]? = some t) :
    ((t.slv.bounds.filter fun bd => bd.var ≠ t.slv.obj.boundVar).length ≤ p.prog.iqs.length) ∧
    ((opts.globalObjective = none ∨ p.prog.objective = []) → t.slv.bounds.length ≤ p.prog.iqs.length) := by
  obtain ⟨t', ht', E0, base, hd⟩ := hr.weak.thr th gt hg
  obtain rfl := Option.some.inj (ht'.symm.trans ht)
  obtain ⟨cs, h1, h2⟩ := hd.cuts
  have hb : base.length ≤ p.prog.iqs.length := by
    have := hd.sub.length_le
    simpa using this
  refine ⟨?_, fun hno => ?_⟩
  · rw [h1, List.filter_append]
    have : cs.filter (fun bd => bd.var ≠ t'.slv.obj.boundVar) = [] := by
      rw [List.filter_eq_nil_iff]
      intro bd hbd
      simp [(h2 bd hbd).var]
    rw [this, List.append_nil]
    exact (List.length_filter_le _ _).trans hb
  · have : cs = [] := by
      rw [List.eq_nil_iff_forall_not_mem]
      intro bd hbd
      rcases hno with h | h
      · have := (h2 bd hbd).glob; rw [h] at this; cases this
      · exact (h2 bd hbd).obj h
    rw [h1, this, List.append_nil]
    exact hb

/-- **C73**, when clingo reports each literal once, as it does on its trail: at most two entries for each bound. -/
theorem C73_trail (hr : Reach be opts Q p g) {th : ℕ} {gt : GThr} (hg : g.thrs[th]? = some gt) {t : Thr V} (ht : p.thrs[th]? = some t)
    (hn : (gt.frames.flatMap fun fr => fr.lits).Nodup) : t.slv.btrail.length ≤ 2 * t.slv.bounds.length := by
  have h := (C73_memory hr hg ht).btrail
  have key : ∀ (L : List ℤ), L.Nodup → ∀ bs : List (Bound V), (L.map fun l => (bs.filter fun bd => bd.lit = l).length).sum ≤ bs.length := by
    intro L hL bs
    induction bs with
    | nil => simp
    | cons b bs ih =>
      have h1 : (L.map fun l => ((b :: bs).filter fun bd => bd.lit = l).length).sum =
          (L.map fun l => (bs.filter fun bd => bd.lit = l).length).sum + L.countP (fun l => b.lit = l) := by
        clear ih hL
        induction L with
        | nil => rfl
        | cons l L ih =>
          rw [List.map_cons, List.sum_cons, ih, List.map_cons, List.sum_cons, List.countP_cons, List.filter_cons]
          by_cases hb : b.lit = l
          · simp [hb]; omega
          · simp [hb]; omega
      have h2 : L.countP (fun l => b.lit = l) ≤ 1 := by
        have := List.nodup_iff_count_le_one.1 hL b.lit
        rw [List.count] at this
        refine le_trans (le_of_eq ?_) this
        refine List.countP_congr fun l _ => ?_
        rw [decide_eq_true_eq, beq_iff_eq]
        exact eq_comm
      rw [h1, List.length_cons]
      omega
  have := key _ hn t.slv.bounds
  unfold assertedBounds at h
  omega

section
open S

theorem propBounds_heap (ctl : Ctl) (cl : List ℤ) (test : Bound V → Bool) (bs : List ℕ) : ∀ s : S V, (propBounds ctl cl test bs s).1.conflicts = s.conflicts := by
  induction bs with
  | nil => exact fun s => rfl
  | cons b bs ih =>
    intro s
    rw [propBounds]
    cases hb : s.bounds[b]? with
    | none => rfl
    | some bd =>
      dsimp only
      split
      · split
        · rw [ih]; rfl
        · rfl
      · exact ih s

theorem propRow_heap (ctl : Ctl) (s : S V) (i : ℕ) : (propRow ctl s i).1.conflicts = s.conflicts := by
  unfold propRow
  dsimp only
  split
  · rfl
  · repeat' split
    all_goals first | rfl | (repeat rw [propBounds_heap])

theorem propQueue_heap (ctl : Ctl) (is : List ℕ) : ∀ s : S V, (propQueue ctl is s).1.conflicts = s.conflicts := by
  induction is with
  | nil => exact fun s => rfl
  | cons i is ih =>
    intro s
    rw [propQueue]
    split
    · rw [ih, propRow_heap]
    · rw [propRow_heap]

theorem propRows_heap (ctl : Ctl) (is : List ℕ) : ∀ s : S V, (propRows ctl is s).1.conflicts = s.conflicts := by
  induction is with
  | nil => exact fun s => rfl
  | cons i is ih =>
    intro s
    rw [propRows]
    split
    · rw [ih, propRow_heap]
    · rw [propRow_heap]

theorem propagate_heap (ctl : Ctl) (s : S V) : (S.propagate ctl s).1.conflicts = s.conflicts := by
  unfold S.propagate
  cases s.opts.propagateMode
  · rfl
  · exact propQueue_heap ctl _ s
  · exact propRows_heap ctl _ s

theorem select_heap (l : List ℕ) : ∀ s : S V, (selectLoop l s).2 = .sat → (selectLoop l s).1.conflicts = [] := by
  induction l with
  | nil => exact fun s _ => rfl
  | cons ii rest ih =>
    intro s
    rw [selectLoop]
    dsimp only
    split
    · exact ih _
    · split
      · exact ih _
      · split <;> exact fun h => by cases h

theorem solveLoop_heap (ctl : Ctl) (fuel : ℕ) : ∀ s s' : S V, solveLoop ctl fuel s = some (s', true) → s'.conflicts = [] := by
  induction fuel with
  | zero => exact fun s s' h => by cases h
  | succ fuel ih =>
    intro s s'
    have hs := select_heap s.conflicts s
    rw [solveLoop]
    unfold select
    dsimp only
    split
    · rename_i hsat
      intro h
      have h' := congrArg (fun r : Option (S V × Bool) => r.map fun q => q.1.conflicts) h
      simp only [Option.map_some, Option.some.injEq] at h'
      rw [← h', propagate_heap]
      split <;> exact hs hsat
    · exact fun h => by cases h
    · exact fun h => ih _ _ h

end

/-- **C73**, the heap of violated variables: it is empty after each call to `propagate` that succeeds. -/
theorem C73_heap {fuel : ℕ} {ctl : Ctl} {th : ℕ} {lits : List ℤ} (hc : p.propagate fuel ctl th lits = some (p', true)) {t : Thr V}
    (ht : p'.thrs[th]? = some t) : t.slv.conflicts = [] := by
  unfold Propagator.propagate at hc
  dsimp only at hc
  split at hc
  · cases hc
  · rename_i t0 h0
    split at hc
    · cases hc
    · rename_i r hr
      obtain ⟨s', ok⟩ := r
      injection hc with hc
      injection hc with hc hok
      dsimp only at hc hok
      subst hok
      rw [← hc, setThr_same h0] at ht
      obtain rfl := Option.some.inj ht
      dsimp only
      unfold S.solve at hr
      dsimp only at hr
      split at hr
      · exact solveLoop_heap _ _ _ _ hr
      · rename_i hf
        rw [Option.some.inj hr] at hf
        exact absurd rfl hf

/-! ### example: two decision levels -/

/-- `2 x + 3 y >= 1` on level 1, `4 x - 5 y >= 10` on level 2, backtracking from level 2 and the second constraint once more. -/
def memEvents : List Ev := [.init [coAtom 2 3 1 2, coAtom 4 (-5) 10 3] 1, .prop 1 0 [2] true, .prop 2 0 [3] true, .undo 0, .prop 2 0 [3] true]

/-- The sizes after these events. -/
def memCheck (p : Propagator ℚ) (g : Ghost ℚ) : Bool :=
  decide (p.varMap.length = 2 ∧ p.prog.iqs.length = 2) && ((g.thrs[0]?).any fun gt =>
    decide (gt.frames.length = 2 ∧ (gt.frames.flatMap fun fr => fr.lits) = [3, 2])) &&
    (p.thrs[0]?).any fun t => decide (t.slv.nvars = 4 ∧ t.slv.offs.length = 2 ∧ t.slv.bounds.length = 2 ∧ t.slv.btrail.length = 2 ∧ 3 ≤ t.slv.atrail.length)

/-- The hypotheses of the theorems are met in a state after backtracking, with values and limits on both levels. -/
example : ∃ (p : Propagator ℚ) (g : Ghost ℚ) (gt : GThr) (t : Thr ℚ), Reach .imath {} Intact p g ∧ g.thrs[0]? = some gt ∧ p.thrs[0]? = some t ∧
    (gt.frames.flatMap fun fr => fr.lits).Nodup ∧ p.varMap.length = 2 ∧ p.prog.iqs.length = 2 ∧ gt.frames.length = 2 ∧ t.slv.nvars = 4 ∧
    t.slv.offs.length = 2 ∧ t.slv.bounds.length = 2 ∧ t.slv.btrail.length = 2 ∧ 3 ≤ t.slv.atrail.length := by
  obtain ⟨p, g, h1, -, h2⟩ := exists_reach (V := ℚ) (be := .imath) (mode := .intact) (opts := {}) memEvents (P := memCheck) (by decide +kernel)
  unfold memCheck at h2
  simp only [Bool.and_eq_true] at h2
  obtain ⟨⟨hp, hg⟩, ht⟩ := h2
  rw [Option.any_eq_true] at ht hg
  obtain ⟨gt, hg, hc⟩ := hg
  obtain ⟨t, ht, hd⟩ := ht
  obtain ⟨a1, a2⟩ := of_decide_eq_true hp
  obtain ⟨b1, b2⟩ := of_decide_eq_true hc
  obtain ⟨c1, c2, c3, c4, c5⟩ := of_decide_eq_true hd
  exact ⟨p, g, gt, t, h1, hg, ht, by rw [b2]; decide, a1, a2, b1, c1, c2, c3, c4, c5⟩

end Lpx.Props
