import Verif.QueueDef
import Verif.Counters
import Verif.Complete
import Verif.WeakSolve

/-!
# The queue of rows for bound propagation

Rows whose flag is set are in the queue, and with `--propagate-bounds=changed` all rows that have changed are.
-/

set_option linter.unusedSectionVars false

namespace Lpx
namespace S
variable {V : Type} [LpValue V]

/-- A row is in the queue after it has been added to it. -/
theorem enqueue_in {s : S V} (hm : s.opts.propagateMode = .changed) (h : PF s) (i : ℕ) : i ∈ (s.enqueue i).pqueue := by
  unfold enqueue
  dsimp only
  split <;> split
  · exact List.mem_append_right _ (by simp)
  · rename_i _ h2
    simp only [hm, decide_true, Bool.true_and, Bool.not_eq_true', Bool.not_eq_false] at h2
    exact (h.1 i).1 h2
  · exact List.mem_append_right _ (by simp)
  · rename_i _ h2
    simp only [hm, decide_true, Bool.true_and, Bool.not_eq_true', Bool.not_eq_false] at h2
    exact (h.1 i).1 h2

theorem grow_update (s : S V) (lvl j : ℕ) (v : V) : Grow s (s.update lvl j v) := by
  unfold S.update
  refine Grow.trans ?_ (grow_setValue _ _ _ _ _)
  refine Grow.trans (Grow.foldl (fun (s' : S V) (e : ℕ × ℤ × ℤ) =>
    (s'.setValue lvl (s'.index (e.1 + s'.n)) (mulDiv (v - s'.value (s.index j)) e.2.1 e.2.2) true).enqueue e.1) ?_ (s.tab.colEntries j) s) ⟨rfl, id, fun _ h => h⟩
  exact fun s' e => (grow_setValue _ _ _ _ _).trans (grow_enqueue _ _)

theorem grow_pivot (s : S V) (lvl i j : ℕ) (v : V) : Grow s (s.pivot lvl i j v) := by
  unfold S.pivot
  split
  · exact ⟨rfl, id, fun _ h => h⟩
  · rename_i a _
    dsimp only
    split
    · exact ⟨rfl, id, fun _ h => h⟩
    · refine Grow.trans ?_ (b := S.enqueue _ i) ⟨rfl, id, fun _ h => h⟩
      refine Grow.trans ?_ (grow_enqueue _ _)
      refine Grow.trans (((grow_setValue s lvl _ v false).trans (grow_setValue _ lvl _ _ true)).trans (Grow.foldl _ ?_ _ _)) ⟨rfl, id, fun _ h => h⟩
      intro s' e
      split
      · exact (grow_setValue _ _ _ _ _).trans (grow_enqueue _ _)
      · exact Grow.refl _

theorem grow_select (l : List ℕ) : ∀ s : S V, Grow s (selectLoop l s).1 := by
  induction l with
  | nil => exact fun s => ⟨rfl, id, fun _ h => h⟩
  | cons ii rest ih =>
    intro s
    rw [selectLoop]
    dsimp only
    have h0 : Grow s ({ s with queued := Function.update s.queued ii false } : S V) := ⟨rfl, id, fun _ h => h⟩
    split
    · exact h0.trans (ih _)
    · split
      · exact h0.trans (ih _)
      · split
        · exact ⟨rfl, id, fun _ h => h⟩
        · exact ⟨rfl, id, fun _ h => h⟩

theorem grow_storeSat (s : S V) : Grow s s.storeSat := ⟨rfl, id, fun _ h => h⟩

theorem grow_optStep (s : S V) : (∀ t, s.optStep = .inl t → Grow s t) ∧ (∀ t, s.optStep = .inr t → Grow s t) := by
  unfold optStep
  split
  · refine ⟨?_, ?_⟩ <;> intro t h <;> cases h
    exact ⟨rfl, id, fun _ h => h⟩
  · dsimp only
    split
    · refine ⟨?_, ?_⟩ <;> intro t h <;> cases h
      exact ⟨rfl, id, fun _ h => h⟩
    · generalize hs0 : ({ s with tab := s.tab.compactCol (s.rindex (s.selectEnter (s.rindex s.obj.var - s.n)).1) } : S V) = s0
      have h0 : Grow s s0 := by subst hs0; exact ⟨rfl, id, fun _ h => h⟩
      split
      · refine ⟨?_, ?_⟩ <;> intro t h <;> cases h
        exact (Grow.trans h0 (grow_pivot _ _ _ _ _))
      · split
        · refine ⟨?_, ?_⟩ <;> intro t h <;> cases h
          exact ⟨rfl, id, fun _ h => h⟩
        · refine ⟨?_, ?_⟩ <;> intro t h <;> cases h
          exact h0.trans (grow_update _ _ _ _)

theorem grow_optLoop (fuel : ℕ) : ∀ s t : S V, optLoop fuel s = some t → Grow s t := by
  induction fuel with
  | zero => intro s t h; cases h
  | succ k ih =>
    intro s t h
    rw [optLoop] at h
    cases ho : s.optStep with
    | inl u => rw [ho] at h; obtain rfl := Option.some.inj h; exact ((grow_optStep s).1 _ ho)
    | inr u =>
      rw [ho] at h
      exact ((grow_optStep s).2 u ho).trans (ih _ _ h)

theorem grow_optimize {fuel : ℕ} {s t : S V} (h : s.optimize fuel = some t) : Grow s t := by
  unfold optimize at h
  split at h
  · exact grow_optLoop _ _ _ h
  · cases h; exact (Grow.refl _)

theorem grow_updateUpper (ctl : Ctl) (s : S V) (b : ℕ) (bd : Bound V) : Grow s (updateUpper ctl s b bd).1 := by
  unfold updateUpper
  dsimp only
  split
  · split <;> exact ⟨rfl, id, fun _ h => h⟩
  · exact ⟨rfl, id, fun _ h => h⟩

theorem grow_updateLower (ctl : Ctl) (s : S V) (b : ℕ) (bd : Bound V) : Grow s (updateLower ctl s b bd).1 := by
  unfold updateLower
  dsimp only
  split
  · split
    · split
      · exact ⟨rfl, id, fun _ h => h⟩
      · split <;> exact ⟨rfl, id, fun _ h => h⟩
    · exact ⟨rfl, id, fun _ h => h⟩
  · exact ⟨rfl, id, fun _ h => h⟩

theorem grow_updateVar (ctl : Ctl) (s : S V) (b : ℕ) (bd : Bound V) : Grow s (updateVar ctl s b bd).1 := by
  unfold updateVar
  split
  · exact grow_updateUpper _ _ _ _
  · exact grow_updateLower _ _ _ _
  · dsimp only
    split
    · exact (grow_updateUpper _ _ _ _).trans (grow_updateLower _ _ _ _)
    · exact grow_updateUpper _ _ _ _

theorem grow_pushOff (ctl : Ctl) (s : S V) : Grow s (s.pushOff ctl) := by
  unfold pushOff
  split
  · exact ⟨rfl, id, fun _ h => h⟩
  · split <;> exact ⟨rfl, id, fun _ h => h⟩

theorem grow_undo (s : S V) : Grow s s.undo := by
  unfold undo
  split
  · exact ⟨rfl, id, fun _ h => h⟩
  · split <;> exact ⟨rfl, id, fun _ h => h⟩

theorem grow_updateBound (ctl : Ctl) (s : S V) (b : ℕ) (bd : Bound V) : Grow s (updateBound ctl s b bd).1 := by
  unfold updateBound
  dsimp only
  have h0 := grow_updateVar ctl s b bd
  generalize updateVar ctl s b bd = r at h0
  split
  · split <;> exact h0.trans ⟨rfl, id, fun _ h => h⟩
  · split
    · split
      · split
        · exact h0.trans (grow_update _ _ _ _)
        · exact h0
      · split
        · split
          · exact h0.trans (grow_update _ _ _ _)
          · exact h0
        · exact h0
    · exact h0.trans (grow_enqueue _ _)

theorem grow_updateBounds (ctl : Ctl) (bs : List (ℕ × Bound V)) : ∀ s : S V, Grow s (updateBounds ctl bs s).1 := by
  induction bs with
  | nil => exact fun s => Grow.refl s
  | cons b bs ih =>
    intro s
    rw [updateBounds]
    have h1 := grow_updateBound ctl s b.1 b.2
    split
    · exact h1.trans (ih _)
    · exact h1

theorem grow_updateLits (ctl : Ctl) (ls : List ℤ) : ∀ s : S V, Grow s (updateLits ctl ls s).1 := by
  induction ls with
  | nil => exact fun s => Grow.refl s
  | cons l ls ih =>
    intro s
    rw [updateLits]
    have h1 := grow_updateBounds ctl (s.boundsOf l) s
    split
    · exact h1.trans (ih _)
    · exact h1

/-! ### propagation keeps the flags and the queue in agreement -/

theorem propBounds_queue (ctl : Ctl) (cl : List ℤ) (test : Bound V → Bool) (bs : List ℕ) : ∀ s : S V,
    (propBounds ctl cl test bs s).1.prop = s.prop ∧ (propBounds ctl cl test bs s).1.pqueue = s.pqueue ∧
      (propBounds ctl cl test bs s).1.opts = s.opts := by
  induction bs with
  | nil => exact fun s => ⟨rfl, rfl, rfl⟩
  | cons b bs ih =>
    intro s
    rw [propBounds]
    cases hb : s.bounds[b]? with
    | none => exact ⟨rfl, rfl, rfl⟩
    | some bd =>
      dsimp only
      split
      · split
        · exact ih _
        · exact ⟨rfl, rfl, rfl⟩
      · exact ih s

theorem propRow_queue (ctl : Ctl) (s : S V) (i : ℕ) :
    (propRow ctl s i).1.prop = Function.update s.prop i false ∧ (propRow ctl s i).1.pqueue = s.pqueue ∧ (propRow ctl s i).1.opts = s.opts := by
  unfold propRow
  generalize hs0 : ({ s with prop := Function.update s.prop i false } : S V) = s0
  have h0 : s0.prop = Function.update s.prop i false ∧ s0.pqueue = s.pqueue ∧ s0.opts = s.opts := by subst hs0; exact ⟨rfl, rfl, rfl⟩
  have hpb : ∀ (r : S V) cl test bs, (r.prop = Function.update s.prop i false ∧ r.pqueue = s.pqueue ∧ r.opts = s.opts) →
      (propBounds ctl cl test bs r).1.prop = Function.update s.prop i false ∧ (propBounds ctl cl test bs r).1.pqueue = s.pqueue ∧
        (propBounds ctl cl test bs r).1.opts = s.opts := by
    intro r cl test bs h
    obtain ⟨h1, h2, h3⟩ := propBounds_queue ctl cl test bs r
    exact ⟨h1.trans h.1, h2.trans h.2.1, h3.trans h.2.2⟩
  dsimp only
  split
  · exact h0
  · generalize hr : (if s0.rowHasUpper i = true then propBounds ctl _ _ _ s0 else (s0, true)) = r
    have h1 : r.1.prop = Function.update s.prop i false ∧ r.1.pqueue = s.pqueue ∧ r.1.opts = s.opts := by
      subst hr
      split
      · exact hpb _ _ _ _ h0
      · exact h0
    split
    · exact h1
    · split
      · exact hpb _ _ _ _ h1
      · exact h1

theorem propQueue_pf (ctl : Ctl) (is : List ℕ) : ∀ s : S V, s.pqueue = is → PF s → PF (propQueue ctl is s).1 := by
  induction is with
  | nil => exact fun s _ h => h
  | cons i is ih =>
    intro s hq h
    rw [propQueue]
    obtain ⟨h1, h2, h4⟩ := propRow_queue ctl ({ s with pqueue := is } : S V) i
    have hn := h.2.1
    rw [hq, List.nodup_cons] at hn
    have h3 : PF (propRow ctl ({ s with pqueue := is } : S V) i).1 := by
      refine ⟨fun k => ?_, by rw [h2]; exact hn.2, fun hm => ?_⟩
      · rw [h1, h2]
        show Function.update s.prop i false k = true ↔ k ∈ is
        by_cases hki : k = i
        · subst hki; rw [Function.update_self]; simp [hn.1]
        · rw [Function.update_of_ne hki, h.1 k, hq]; simp [hki]
      · have := h.2.2 (by rw [h4] at hm; exact hm)
        rw [hq] at this; cases this
    split
    · exact ih _ h2 h3
    · exact h3

theorem propRows_pf (ctl : Ctl) (is : List ℕ) : ∀ s : S V, s.opts.propagateMode ≠ .changed → PF s → PF (propRows ctl is s).1 := by
  induction is with
  | nil => exact fun s _ h => h
  | cons i is ih =>
    intro s hm h
    rw [propRows]
    obtain ⟨h1, h2, h4⟩ := propRow_queue ctl s i
    have he := h.2.2 hm
    have h3 : PF (propRow ctl s i).1 := by
      refine ⟨fun k => ?_, by rw [h2]; exact h.2.1, fun _ => h2.trans he⟩
      rw [h1, h2]
      by_cases hki : k = i
      · subst hki; rw [Function.update_self, he]; simp
      · rw [Function.update_of_ne hki, h.1 k]
    split
    · exact ih _ (by rw [h4]; exact hm) h3
    · exact h3

theorem propagate_pf (ctl : Ctl) (s : S V) (h : PF s) : PF (s.propagate ctl).1 := by
  unfold S.propagate
  split
  · exact h
  · exact propQueue_pf _ _ _ rfl h
  · rename_i hm; exact propRows_pf _ _ _ (by rw [hm]; decide) h

theorem solveLoop_pf (ctl : Ctl) (fuel : ℕ) : ∀ (s : S V) (r : S V × Bool), PF s → solveLoop ctl fuel s = some r → PF r.1 := by
  induction fuel with
  | zero => intro s r _ h; cases h
  | succ k ih =>
    intro s r hp h
    rw [solveLoop] at h
    have hq := grow_select s.conflicts s
    change Grow s s.select.1 at hq
    generalize s.select = sel at h hq
    obtain ⟨t, x⟩ := sel
    dsimp only at h hq
    cases x with
    | sat =>
      dsimp only at h
      obtain rfl := Option.some.inj h
      have h1 : Grow s (if t.opts.store = .part then t.storeSat else t) := by
        split
        · exact hq.trans (grow_storeSat t)
        · exact hq
      exact propagate_pf ctl _ (h1.pf hp)
    | unsat => obtain rfl := Option.some.inj h; exact hq.pf hp
    | unknown i j v => exact ih _ _ ((hq.trans (grow_pivot t ctl.dl i j v)).pf hp) h

theorem solve_pf {ctl : Ctl} {fuel : ℕ} {s : S V} {lits : List ℤ} {r : S V × Bool} (h : s.solve ctl fuel lits = some r) (hp : PF s) : PF r.1 := by
  unfold S.solve at h
  have hg := (grow_pushOff ctl s).trans (grow_updateLits ctl lits (s.pushOff ctl))
  dsimp only at h
  split at h
  · exact solveLoop_pf ctl fuel _ _ (hg.pf hp) h
  · obtain rfl := Option.some.inj h; exact hg.pf hp

/-! ### what changes is in the queue -/

/-- Row `i` is the same: its basic variable, the value of this variable and the equation. -/
structure Unch (s t : S V) (i : ℕ) : Prop where
  var : t.index (i + t.n) = s.index (i + s.n)
  value : t.value (s.index (i + s.n)) = s.value (s.index (i + s.n))
  eqn : ∀ asg, t.RowEq i asg ↔ s.RowEq i asg

theorem Unch.trans {a b c : S V} {i : ℕ} (h : Unch a b i) (k : Unch b c i) : Unch a c i :=
  ⟨k.var.trans h.var, by rw [← h.value, ← h.var]; exact k.value, fun asg => (k.eqn asg).trans (h.eqn asg)⟩

/-- With `--propagate-bounds=changed`, the rows that have changed are in the queue. -/
structure Chg (s t : S V) : Prop where
  grow : Grow s t
  m : t.m = s.m
  chg : s.opts.propagateMode = .changed → PF s → ∀ i, i < s.m → i ∈ t.pqueue ∨ Unch s t i

theorem Chg.trans {a b c : S V} (h : Chg a b) (k : Chg b c) : Chg a c := by
  refine ⟨h.grow.trans k.grow, k.m.trans h.m, fun hm hp i hi => ?_⟩
  rcases h.chg hm hp i hi with h1 | h1
  · exact .inl (k.grow.sub i h1)
  · rcases k.chg (by rw [h.grow.opts]; exact hm) (h.grow.pf hp) i (by rw [h.m]; exact hi) with h2 | h2
    · exact .inl h2
    · exact .inr (h1.trans h2)

theorem Chg.of_same {s t : S V} (hg : Grow s t) (hn : t.n = s.n) (hm : t.m = s.m) (hi : t.index = s.index) (hv : t.value = s.value)
    (ht : ∀ i j, t.tab.coef i j = s.tab.coef i j) : Chg s t :=
  ⟨hg, hm, fun _ _ i _ => .inr ⟨by rw [hi, hn], by rw [hv], fun asg => by unfold RowEq; rw [hi, hn]; simp only [ht]⟩⟩

theorem Chg.refl (s : S V) : Chg s s := Chg.of_same (Grow.refl s) rfl rfl rfl rfl fun _ _ => rfl

theorem queue_fold {A : Type} (f : S V → A → S V) (g : A → ℕ) (P : A → Prop) (hf : ∀ s a, Grow s (f s a))
    (hq : ∀ s a, s.opts.propagateMode = .changed → PF s → P a → g a ∈ (f s a).pqueue) (l : List A) :
    ∀ s, s.opts.propagateMode = .changed → PF s → ∀ a ∈ l, P a → g a ∈ (l.foldl f s).pqueue := by
  induction l with
  | nil => intro s _ _ a ha; simp at ha
  | cons b l ih =>
    intro s hm hp a ha hP
    have hg := hf s b
    rcases List.mem_cons.1 ha with rfl | ha
    · exact (Grow.foldl f hf l (f s a)).sub _ (hq s a hm hp hP)
    · exact ih _ (by rw [hg.opts]; exact hm) (hg.pf hp) a ha hP

theorem chg_update (s : S V) (hs : Struct s) (lvl j : ℕ) (hj : j < s.n) (v : V) : Chg s (s.update lvl j v) := by
  have hu := update_spec s hs lvl j hj v
  refine ⟨grow_update s lvl j v, hu.keep.m, fun hm hp i hi => ?_⟩
  by_cases hc : s.tab.coef i j = 0
  · refine .inr ⟨by rw [hu.index, hu.keep.n], ?_, fun asg => by unfold RowEq; rw [hu.index, hu.keep.n]; simp only [hu.coef]⟩
    rw [hu.shift.b i hi, hc, zero_smul, add_zero]
  · refine .inl ?_
    obtain ⟨e, he, rfl⟩ := List.mem_map.1 ((Tableau.mem_colEntries_fst hs.wf).2 hc)
    unfold S.update
    dsimp only
    refine (grow_setValue _ _ _ _ _).sub _ ?_
    exact queue_fold (fun (s' : S V) (e : ℕ × ℤ × ℤ) =>
      (s'.setValue lvl (s'.index (e.1 + s'.n)) (mulDiv (v - s'.value (s.index j)) e.2.1 e.2.2) true).enqueue e.1) (·.1) (fun _ => True)
      (fun s' e => (grow_setValue _ _ _ _ _).trans (grow_enqueue _ _))
      (fun s' e hm hp _ => enqueue_in (by rw [(grow_setValue _ _ _ _ _).opts]; exact hm) ((grow_setValue _ _ _ _ _).pf hp) _)
      _ s hm hp e he trivial

theorem chg_pivot (s : S V) (hs : Struct s) (lvl i j : ℕ) (hc : s.tab.coef i j ≠ 0) (v : V) : Chg s (s.pivot lvl i j v) := by
  have hu := pivot_spec s hs lvl i j hc v
  obtain ⟨hi, hj⟩ := hs.shape i j hc
  refine ⟨grow_pivot s lvl i j v, hu.keep.m, fun hm hp k hk => ?_⟩
  by_cases h : k ≠ i ∧ s.tab.coef k j = 0
  · obtain ⟨hki, hck⟩ := h
    have hidx : ∀ l, l ≠ i + s.n → l ≠ j → (s.pivot lvl i j v).index l = s.index l := by
      intro l h1 h2; rw [hu.index, Function.update_of_ne h2, Function.update_of_ne h1]
    have hkx : (s.pivot lvl i j v).index (k + s.n) = s.index (k + s.n) := hidx _ (by omega) (by omega)
    refine .inr ⟨by rw [hu.keep.n]; exact hkx, ?_, fun asg => ?_⟩
    · rw [hu.shift.b k hk, hck, zero_smul, add_zero]
    · unfold RowEq
      rw [hu.keep.n, hkx]
      have : ∀ l ∈ Finset.range s.n, (s.pivot lvl i j v).tab.coef k l • asg ((s.pivot lvl i j v).index l) = s.tab.coef k l • asg (s.index l) := by
        intro l hl
        rw [hu.coef, if_neg hki]
        by_cases hlj : l = j
        · subst hlj; rw [if_pos rfl, hck]; simp
        · rw [if_neg hlj, hck, hidx l (by have := Finset.mem_range.1 hl; omega) hlj]; simp
      rw [Finset.sum_congr rfl this]
  · refine .inl ?_
    obtain ⟨a, ha⟩ := (Tableau.coef_ne_zero hs.wf).1 hc
    have hfind : Tableau.findCell (s.tab.rows i).cells j = some a := (Tableau.findCell_some (hs.wf.row i).sorted).2 ha
    obtain ⟨hcv, ha0, hd0, -⟩ := Tableau.rowEntries_coef hs.wf ((Tableau.mem_rowEntries hs.wf).2 ⟨rfl, ha⟩)
    unfold S.pivot
    rw [hfind]
    dsimp only
    rw [if_neg (by simp [ha0]; omega)]
    show k ∈ (S.enqueue _ i).pqueue
    set s2 := (s.setValue lvl (s.index (i + s.n)) v false).setValue lvl (s.index j) (divMul (v - s.value (s.index (i + s.n))) a (s.tab.rows i).den) true with hs2
    have g2 : Grow s s2 := (grow_setValue _ _ _ _ _).trans (grow_setValue _ _ _ _ _)
    have ht2 : s2.tab = s.tab := (setValue_same _ _ _ _ _).2.2.1.trans (setValue_same _ _ _ _ _).2.2.1
    have gf : ∀ (s' : S V) (e : ℕ × ℤ × ℤ), Grow s' (if e.1 ≠ i then
        (s'.setValue lvl (s'.index (e.1 + s'.n)) (mulDiv (divMul (v - s.value (s.index (i + s.n))) a (s.tab.rows i).den) e.2.1 e.2.2) true).enqueue e.1 else s') := by
      intro s' e
      split
      · exact (grow_setValue _ _ _ _ _).trans (grow_enqueue _ _)
      · exact Grow.refl _
    have g3 := Grow.foldl _ gf (s2.tab.colEntries j) s2
    have hmem := queue_fold _ (·.1) (fun e : ℕ × ℤ × ℤ => e.1 ≠ i) gf (fun s' e hm hp hP => by
      rw [if_pos hP]
      exact enqueue_in (by rw [(grow_setValue _ _ _ _ _).opts]; exact hm) ((grow_setValue _ _ _ _ _).pf hp) _) (s2.tab.colEntries j) s2
      (by rw [g2.opts]; exact hm) (g2.pf hp)
    generalize (s2.tab.colEntries j).foldl _ s2 = t at g3 hmem ⊢
    have g4 := g2.trans g3
    by_cases hki : k = i
    · subst hki
      have key : ∀ w : S V, w.opts = t.opts → w.prop = t.prop → w.pqueue = t.pqueue → k ∈ (w.enqueue k).pqueue := by
        intro w w1 w2 w3
        refine enqueue_in (by rw [w1, g4.opts]; exact hm) ?_ k
        unfold PF
        rw [w1, w2, w3]; exact g4.pf hp
      exact key _ rfl rfl rfl
    · have hck : s.tab.coef k j ≠ 0 := fun h0 => h ⟨hki, h0⟩
      refine (grow_enqueue _ _).sub _ ?_
      obtain ⟨e, he, rfl⟩ := List.mem_map.1 ((Tableau.mem_colEntries_fst hs.wf).2 hck)
      exact hmem e (by rw [ht2]; exact he) hki

/-- Options, dimensions and everything a row consists of is the same. -/
theorem Chg.setOut {s t : S V} (h : Chg s t) {o : List (List ℤ)} {u : Bool} {c : List ℤ} : Chg s ({ t with out := o, ub := u, clause := c } : S V) :=
  h.trans (Chg.of_same ⟨rfl, id, fun _ h => h⟩ rfl rfl rfl rfl fun _ _ => rfl)

section
variable {E0 : (ℕ → V) → Prop} {L : List ℕ} {s : S V} {ctl : Ctl}

theorem updateBound_chg (h : WInv E0 L s) {b : ℕ} {bd : Bound V} (hb : s.bounds[b]? = some bd)
    (hok : (updateBound ctl s b bd).2 = true) : Chg s (updateBound ctl s b bd).1 ∧ (updateBound ctl s b bd).1.out = s.out := by
  obtain ⟨hf, -⟩ := updateVar_weak h.ptr h.trail ctl hb
  have ht := h.form hf
  have hst := hf.stay
  have hg := grow_updateVar ctl s b bd
  unfold updateBound at hok ⊢
  simp only at hok ⊢
  generalize updateVar ctl s b bd = r at *
  obtain ⟨t, ok⟩ := r
  simp only at hf ht hst hg hok ⊢
  have hout : t.out = s.out := by obtain ⟨_, _, _, _, rfl⟩ := hf.form; rfl
  have hc : Chg s t := by
    refine Chg.of_same hg ?_ ?_ ?_ ?_ ?_ <;> obtain ⟨_, _, _, _, rfl⟩ := hf.form <;> first | rfl | exact fun _ _ => rfl
  have hs := ht.struct
  split at hok
  · rename_i h1; split at hok <;> cases hok
  · rename_i h1
    rw [if_neg h1]
    split
    · rename_i hn
      split
      · split
        · exact ⟨hc.trans (chg_update t hs _ _ hn _), (update_spec t hs _ _ hn _).keep.out.trans hout⟩
        · exact ⟨hc, hout⟩
      · split
        · split
          · exact ⟨hc.trans (chg_update t hs _ _ hn _), (update_spec t hs _ _ hn _).keep.out.trans hout⟩
          · exact ⟨hc, hout⟩
        · exact ⟨hc, hout⟩
    · have hk := enqueue_keep t (t.rindex bd.var - t.n)
      obtain ⟨e1, e2, e3, e4, -⟩ := enqueue_same t (t.rindex bd.var - t.n)
      exact ⟨hc.trans (Chg.of_same (grow_enqueue _ _) hk.n hk.m e1 e4 fun _ _ => by rw [e3]), hk.out.trans hout⟩

theorem updateBounds_chg (hdl : L.headD 0 = ctl.dl) (bs : List (ℕ × Bound V)) : ∀ {s : S V}, WInv E0 L s → (∀ p ∈ bs, s.bounds[p.1]? = some p.2) →
    (updateBounds ctl bs s).2 = true → Chg s (updateBounds ctl bs s).1 ∧ (updateBounds ctl bs s).1.out = s.out := by
  induction bs with
  | nil => intro s _ _ _; exact ⟨Chg.refl s, rfl⟩
  | cons p bs ih =>
    intro s h hb hok
    obtain ⟨b, bd⟩ := p
    obtain ⟨h1, h2⟩ := updateBound_weak h hdl (hb (b, bd) (by simp))
    unfold updateBounds at hok ⊢
    simp only at hok ⊢
    split at hok
    · rename_i hk
      rw [if_pos hk]
      obtain ⟨c1, c2⟩ := updateBound_chg h (hb (b, bd) (by simp)) hk
      obtain ⟨k1, k2⟩ := ih h1 (fun p hp => by rw [h2.bounds]; exact hb p (by simp [hp])) hok
      exact ⟨c1.trans k1, k2.trans c2⟩
    · rename_i hk; exact absurd hok hk

theorem updateLits_chg (hdl : L.headD 0 = ctl.dl) (lits : List ℤ) : ∀ {s : S V}, WInv E0 L s → (updateLits ctl lits s).2 = true →
    Chg s (updateLits ctl lits s).1 ∧ (updateLits ctl lits s).1.out = s.out := by
  induction lits with
  | nil => intro s _ _; exact ⟨Chg.refl s, rfl⟩
  | cons l ls ih =>
    intro s h hok
    have hb : ∀ p ∈ s.boundsOf l, s.bounds[p.1]? = some p.2 := fun p hp => (mem_boundsOf.1 hp).1
    obtain ⟨h1, h2⟩ := updateBounds_weak hdl (s.boundsOf l) h hb
    unfold updateLits at hok ⊢
    simp only at hok ⊢
    split at hok
    · rename_i hk
      rw [if_pos hk]
      obtain ⟨c1, c2⟩ := updateBounds_chg hdl (s.boundsOf l) h hb hk
      obtain ⟨k1, k2⟩ := ih h1 hok
      exact ⟨c1.trans k1, k2.trans c2⟩
    · rename_i hk; exact absurd hok hk

/-- The state in which a successful call of `solve` starts to propagate bounds. -/
structure BeforeProp (E0 : (ℕ → V) → Prop) (L : List ℕ) (ctl : Ctl) (s u : S V) (r : S V × Bool) : Prop where
  winv : WInv E0 L u
  fix : Fix s u
  chg : Chg s u
  out : u.out = s.out
  run : u.propagate ctl = r

theorem solveLoop_before (hdl : L.headD 0 = ctl.dl) (fuel : ℕ) : ∀ {s : S V}, WInv E0 L s → ∀ {t}, solveLoop ctl fuel s = some (t, true) →
    ∃ u, BeforeProp E0 L ctl s u (t, true) := by
  induction fuel with
  | zero => intro s _ r h; simp [solveLoop] at h
  | succ fuel ih =>
    intro s hw r h
    rw [solveLoop] at h
    simp only at h
    obtain ⟨h1, h2, h3⟩ := select_weak hw
    have hc := hw.wcore
    obtain ⟨hk, -⟩ := select_spec s (fun _ => True) hc.struct hc.nb hc.qi hc.qb
    have hch : Chg s s.select.1 := Chg.of_same (grow_select s.conflicts s) h2.n h2.m hk.index hk.value fun _ _ => by rw [hk.tab]
    cases hr : s.select.2 with
    | sat =>
      rw [hr] at h
      simp only [Option.some.injEq] at h
      split at h
      · exact ⟨s.select.1.storeSat, h1.storeSat, h2.stay.fix.trans (by constructor <;> rfl),
          hch.trans (Chg.of_same (grow_storeSat _) rfl rfl rfl rfl fun _ _ => rfl), h2.out, h⟩
      · exact ⟨s.select.1, h1, h2.stay.fix, hch, h2.out, h⟩
    | unsat =>
      rw [hr] at h
      simp at h
    | unknown i j v =>
      rw [hr] at h
      simp only at h
      obtain ⟨k1, k2⟩ := h3 i j v hr
      obtain ⟨p1, p2⟩ := h1.pivot k1 v k2
      rw [hdl] at p1 p2
      obtain ⟨u, q⟩ := ih p1 h
      exact ⟨u, q.winv, (h2.trans p2).stay.fix.trans q.fix, (hch.trans (chg_pivot _ h1.struct _ _ _ k1 _)).trans q.chg,
        q.out.trans (p2.out.trans h2.out), q.run⟩

theorem chg_pushOff (ctl : Ctl) (s : S V) : Chg s (s.pushOff ctl) ∧ (s.pushOff ctl).out = s.out := by
  have key : ∃ o, s.pushOff ctl = { s with offs := o } := by
    unfold pushOff
    split
    · exact ⟨_, rfl⟩
    · split
      · exact ⟨_, rfl⟩
      · exact ⟨s.offs, rfl⟩
  obtain ⟨o, ho⟩ := key
  rw [ho]
  exact ⟨Chg.of_same ⟨rfl, id, fun _ h => h⟩ rfl rfl rfl rfl fun _ _ => rfl, rfl⟩

theorem solve_before (h : WInv E0 L s) (hdl : ∀ l ∈ L, l ≤ ctl.dl) {fuel : ℕ} {lits : List ℤ} {t : S V}
    (hr : solve ctl fuel s lits = some (t, true)) : ∃ u, BeforeProp E0 (nextLevels ctl.dl L) ctl s u (t, true) := by
  obtain ⟨h1, h2⟩ := h.pushOff hdl
  have hd := nextLevels_head hdl
  obtain ⟨k1, k2⟩ := updateLits_weak hd lits h1
  obtain ⟨o1, o2⟩ := chg_pushOff ctl s
  unfold solve at hr
  simp only at hr
  split at hr
  · rename_i hk
    obtain ⟨c1, c2⟩ := updateLits_chg hd lits h1 hk
    obtain ⟨u, q⟩ := solveLoop_before hd fuel k1 hr
    exact ⟨u, q.winv, (h2.trans k2.fix).trans q.fix, (o1.trans c1).trans q.chg, (q.out.trans c2).trans o2, q.run⟩
  · rename_i hk
    simp only [Option.some.injEq] at hr
    rw [hr] at hk
    exact absurd rfl hk

theorem PForm.symm {s t : S V} (h : PForm s t) : PForm t s := by
  obtain ⟨_, _, _, _, rfl⟩ := h
  exact ⟨s.out, s.prop, s.pqueue, s.props, rfl⟩

theorem PForm.unch {s t : S V} (h : PForm s t) (i : ℕ) : Unch s t i := by
  obtain ⟨_, _, _, _, rfl⟩ := h
  exact ⟨rfl, rfl, fun _ => Iff.rfl⟩

/-- Bound propagation is complete for rows. -/
structure Propagated (ctl : Ctl) (s t : S V) : Prop where
  full : s.opts.propagateMode = .full → ∀ i, i < t.m → RowDone ctl t s.out t.out i
  changed : s.opts.propagateMode = .changed → PF s → ∀ i, i < t.m → Unch s t i ∨ RowDone ctl t s.out t.out i
  none : s.opts.propagateMode = .none → t.out = s.out

theorem solve_complete (h : WInv E0 L s) (hvb : VB s) (hdl : ∀ l ∈ L, l ≤ ctl.dl) {fuel : ℕ} {lits : List ℤ} {t : S V}
    (hr : solve ctl fuel s lits = some (t, true)) : Propagated ctl s t := by
  obtain ⟨u, q⟩ := solve_before h hdl hr
  have hvu : VB u := by unfold VB; rw [q.fix.vbounds, q.fix.bounds]; exact hvb
  have hs := q.winv.struct
  have hrun := q.run
  unfold S.propagate at hrun
  rw [q.fix.opts] at hrun
  refine ⟨fun hm => ?_, fun hm hp => ?_, fun hm => ?_⟩ <;> rw [hm] at hrun <;> simp only at hrun
  · obtain ⟨f1, -, f3⟩ := propRows_complete ctl (List.range u.m) u hs hvu (fun i hi => List.mem_range.1 hi)
    rw [hrun] at f1 f3
    intro i hi
    have hm' : t.m = u.m := by obtain ⟨_, _, _, _, rfl⟩ := f1; rfl
    have := f3 rfl i (List.mem_range.2 (by rw [← hm']; exact hi))
    rw [q.out] at this
    exact f1.symm.rowDone this
  · obtain ⟨f1, -, f3⟩ := propQueue_complete ctl u.pqueue u hs hvu q.winv.pq
    rw [hrun] at f1 f3
    intro i hi
    have hm' : t.m = u.m := by obtain ⟨_, _, _, _, rfl⟩ := f1; rfl
    rcases q.chg.chg hm hp i (by rw [← q.fix.m, ← hm']; exact hi) with h1 | h1
    · have := f3 rfl i h1
      rw [q.out] at this
      exact .inr (f1.symm.rowDone this)
    · exact .inl (h1.trans (f1.unch i))
  · cases hrun; exact q.out

end

end S
end Lpx
