import Verif.Counters
import Verif.PropsStop
import Verif.PropsSolving
import Verif.PropsSession

/-!
# What the statistics count (C38)

`PropsSession` shows how the counters of the threads are summed up. Here: the counters start at zero in each solving step, never decrease
during the step, and the number of propagated bounds of a thread is the number of clauses it added, not counting conflicts and
objective cuts. The theorems hold for all states and histories.
-/

set_option linter.unusedSectionVars false

namespace Lpx.Props
open Lpx Lpx.Witness

variable {V : Type} [LpFull V] {be : Backend} {Q : Restr V}

/-- The number of pivots counted for a thread. -/
def pivotsOf (p : Propagator V) (th : ℕ) : ℕ := ((p.thrs[th]?).map fun t => t.slv.pivots).getD 0
/-- The number of propagated bounds counted for a thread. -/
def propagatedOf (p : Propagator V) (th : ℕ) : ℕ := ((p.thrs[th]?).map fun t => t.slv.props).getD 0

theorem pivotsOf_get {p : Propagator V} {th : ℕ} {t : Thr V} (h : p.thrs[th]? = some t) : pivotsOf p th = t.slv.pivots := by simp [pivotsOf, h]
theorem propagatedOf_get {p : Propagator V} {th : ℕ} {t : Thr V} (h : p.thrs[th]? = some t) : propagatedOf p th = t.slv.props := by
  simp [propagatedOf, h]

theorem setThr_same {p : Propagator V} {th : ℕ} {t t' : Thr V} (ht : p.thrs[th]? = some t) : (p.setThr th t').thrs[th]? = some t' := by
  have hlt := (List.getElem?_eq_some_iff.1 ht).1
  simp [Propagator.setThr, hlt]

theorem setThr_other {p : Propagator V} {th th' : ℕ} {t' : Thr V} (h : th' ≠ th) : (p.setThr th t').thrs[th']? = p.thrs[th']? := by
  simp [Propagator.setThr, List.getElem?_set_ne h.symm]

theorem initThrs_counters (envs : ℕ → InitEnv) (opts : Options) (idx : Symbol → Option ℕ) (size : ℕ) (prog : Prog) (k : ℕ) : ∀ i,
    ∀ t ∈ (initThrs (V := V) envs opts idx size prog k i).1, t.slv.pivots = 0 ∧ t.slv.props = 0 := by
  induction k with
  | zero => intro i t ht; simp [initThrs] at ht
  | succ k ih =>
    intro i t ht
    rw [initThrs] at ht
    dsimp only at ht
    split at ht
    · rcases List.mem_cons.1 ht with rfl | ht
      · exact S.prepare_counters _ _ _ _ _ _ _
      · exact ih _ t ht
    · rw [List.mem_singleton] at ht
      subst ht
      exact S.prepare_counters _ _ _ _ _ _ _

/-- C38: every solving step starts with counters that are zero, for all threads. -/
theorem C38_starts_at_zero {mapper : ℤ → ℤ} {atoms : List TAtom} {envs : ℕ → InitEnv} {n : ℕ} {p p' : Propagator V} {ok : Bool}
    (h : p.init be mapper atoms envs n = .ok (p', ok)) : totals p' = (0, 0) ∧ ∀ th, pivotsOf p' th = 0 ∧ propagatedOf p' th = 0 := by
  have key : ∀ t ∈ p'.thrs, t.slv.pivots = 0 ∧ t.slv.props = 0 := by
    unfold Propagator.init at h
    simp only at h
    split at h
    · cases h
    · simp only [Except.ok.injEq, Prod.mk.injEq] at h
      rw [← h.1]
      exact initThrs_counters _ _ _ _ _ _ _
  constructor
  · unfold totals
    refine Prod.ext ?_ ?_ <;> simp only [List.sum_eq_zero_iff, List.mem_map]
    · rintro x ⟨t, ht, rfl⟩; exact (key t ht).1
    · rintro x ⟨t, ht, rfl⟩; exact (key t ht).2
  · intro th
    cases ht : p'.thrs[th]? with
    | none => simp [pivotsOf, propagatedOf, ht]
    | some t => rw [pivotsOf_get ht, propagatedOf_get ht]; exact key t (List.mem_of_getElem? ht)

/-- The number of propagated bounds increases by the number of clauses added, unless the clause is a conflict. Pivots are only added,
and not more than iterations of the loop. -/
theorem propagate_counts {fuel : ℕ} {ctl : Ctl} {th : ℕ} {lits : List ℤ} {p p' : Propagator V} {ok : Bool}
    (h : p.propagate fuel ctl th lits = some (p', ok)) :
    ∃ cs, p'.clausesOf th = p.clausesOf th ++ cs ∧ (pivotsOf p th ≤ pivotsOf p' th ∧ pivotsOf p' th ≤ pivotsOf p th + (fuel - 1)) ∧
      (propagatedOf p' th = propagatedOf p th + cs.length ∨ propagatedOf p' th = propagatedOf p th ∧ cs.length = 1 ∧ ok = false) := by
  unfold Propagator.propagate at h
  generalize hp0 : (if ctl.dl = 0 ∧ th = 0 then { p with facts := p.facts ++ lits } else p) = p0 at h
  have e0 : p0.thrs = p.thrs := by subst hp0; split <;> rfl
  dsimp only at h
  cases ht : p0.thrs[th]? with
  | none => rw [ht] at h; cases h
  | some t =>
    rw [ht] at h
    dsimp only at h
    have ht' : p.thrs[th]? = some t := by rw [← e0]; exact ht
    cases hs : t.slv.solve ctl fuel lits with
    | none => rw [hs] at h; cases h
    | some r =>
      rw [hs] at h
      obtain ⟨rfl, rfl⟩ := Prod.mk.inj (Option.some.inj h)
      obtain ⟨-, h2, cs, h3, h4⟩ := S.cnt_solve hs
      rw [clausesOf_set ht, clausesOf_get ht', pivotsOf_get ht', pivotsOf_get (setThr_same ht), propagatedOf_get ht', propagatedOf_get (setThr_same ht)]
      exact ⟨cs, h3, ⟨h2.low, h2.high⟩, h4⟩

/-- C38: the number of propagated bounds increases by the number of clauses added, unless the clause is a conflict. Pivots are only added. -/
theorem C38_propagate_counts {fuel : ℕ} {ctl : Ctl} {th : ℕ} {lits : List ℤ} {p p' : Propagator V} {ok : Bool}
    (h : p.propagate fuel ctl th lits = some (p', ok)) :
    ∃ cs, p'.clausesOf th = p.clausesOf th ++ cs ∧ pivotsOf p th ≤ pivotsOf p' th ∧
      (propagatedOf p' th = propagatedOf p th + cs.length ∨ propagatedOf p' th = propagatedOf p th ∧ cs.length = 1 ∧ ok = false) :=
  let ⟨cs, h1, h2, h3⟩ := propagate_counts h
  ⟨cs, h1, h2.1, h3⟩

theorem cutsOf_length {p : Propagator V} {th : ℕ} {t : Thr V} (h : p.thrs[th]? = some t) :
    (p.cutsOf th).length = (t.slv.bounds.filter fun bd => !(p.prog.iqs.any fun x => decide (x.lit = bd.lit))).length := by
  simp [Propagator.cutsOf, h]

/-- The same for `check`, where clauses for objective cuts (with literals that are not used in the program) are not counted. -/
theorem check_counts {fuel : ℕ} {ctl : Ctl} {total : Bool} {th : ℕ} {p p' : Propagator V} {ok : Bool}
    (hfresh : ∀ O, ∀ x ∈ p.prog.iqs, x.lit ≠ ctl.newLit O) (h : p.check fuel ctl total th = some (p', ok)) :
    ∃ cs cuts, p'.clausesOf th = p.clausesOf th ++ cs ++ cuts ∧
      (pivotsOf p th ≤ pivotsOf p' th ∧ pivotsOf p' th ≤ pivotsOf p th + 2 * (fuel - 1)) ∧
      (p'.cutsOf th).length = (p.cutsOf th).length + cuts.length ∧
      (propagatedOf p' th = propagatedOf p th + cs.length ∨
        propagatedOf p' th = propagatedOf p th ∧ cs.length = 1 ∧ cuts = [] ∧ ok = false) := by
  unfold Propagator.check at h
  cases hf : p.checkFacts fuel ctl th with
  | none => rw [hf] at h; cases h
  | some r =>
    obtain ⟨p1, ok1⟩ := r
    rw [hf] at h
    dsimp only at h
    have hA : p1.prog = p.prog ∧ ∃ t t1, p.thrs[th]? = some t ∧ p1.thrs[th]? = some t1 ∧ S.SolveCnt (fuel - 1) t.slv (t1.slv, ok1) := by
      unfold Propagator.checkFacts at hf
      cases ht : p.thrs[th]? with
      | none => rw [ht] at hf; cases hf
      | some t =>
        rw [ht] at hf
        dsimp only at hf
        split at hf
        · cases hs : t.slv.solve ctl fuel (p.factSpan t) with
          | none => rw [hs] at hf; cases hf
          | some r =>
            rw [hs] at hf
            obtain ⟨rfl, rfl⟩ := Prod.mk.inj (Option.some.inj hf)
            exact ⟨rfl, t, _, rfl, setThr_same ht, S.cnt_solve hs⟩
        · obtain ⟨rfl, rfl⟩ := Prod.mk.inj (Option.some.inj hf)
          exact ⟨rfl, t, t, rfl, ht, ((S.Cnt.refl _).solve _).mono (Nat.zero_le _)⟩
    obtain ⟨hp1, t, t1, ht, ht1, ha⟩ := hA
    obtain ⟨a1, a2, cs, a3, a4⟩ := ha
    dsimp only at a1 a2 a3 a4
    split at h
    · rename_i hk
      subst hk
      have a4 := a4.resolve_right fun x => by simp at x
      unfold Propagator.checkObj at h
      rw [ht1] at h
      dsimp only at h
      cases hs : t1.slv.checkObj ctl fuel total p1.obj with
      | none => rw [hs] at h; cases h
      | some r =>
        rw [hs] at h
        obtain ⟨rfl, rfl⟩ := Prod.mk.inj (Option.some.inj h)
        obtain ⟨b1, b2, cuts, b3, bs, b4, b5, b6⟩ := S.cut_checkObj hs
        refine ⟨cs, cuts, ?_, ?_, ?_, .inl ?_⟩
        · rw [clausesOf_set ht1, clausesOf_get ht, b3, a3]
        · rw [pivotsOf_get ht, pivotsOf_get (setThr_same ht1)]
          have := a2.trans b1
          exact ⟨this.low, this.high.trans (by omega)⟩
        · rw [cutsOf_length ht, cutsOf_length (setThr_same ht1), show (p1.setThr th { t1 with slv := r.1 }).prog = p.prog from hp1]
          dsimp only
          rw [b4, a1, List.filter_append, List.length_append, show cuts.length = bs.length by rw [b5, List.length_map]]
          congr 2
          refine List.filter_eq_self.2 fun b hb => ?_
          obtain ⟨O, hO⟩ := b6 b hb
          simp only [Bool.not_eq_true', List.any_eq_false, decide_eq_true_eq]
          rw [hO]
          exact hfresh O
        · rw [propagatedOf_get ht, propagatedOf_get (setThr_same ht1), b2, a4]
    · obtain ⟨rfl, rfl⟩ := Prod.mk.inj (Option.some.inj h)
      refine ⟨cs, [], ?_, ?_, ?_, ?_⟩
      · rw [clausesOf_get ht1, clausesOf_get ht, a3, List.append_nil]
      · rw [pivotsOf_get ht, pivotsOf_get ht1]; exact ⟨a2.low, a2.high.trans (by omega)⟩
      · rw [cutsOf_length ht, cutsOf_length ht1, hp1, a1]; rfl
      · rw [propagatedOf_get ht, propagatedOf_get ht1]
        rcases a4 with a4 | ⟨a4, a5, a6⟩
        · exact .inl a4
        · exact .inr ⟨a4, a5, rfl, a6⟩

/-- C38: the same for `check`, where clauses for objective cuts (with literals that are not used in the program) are not counted. -/
theorem C38_check_counts {fuel : ℕ} {ctl : Ctl} {total : Bool} {th : ℕ} {p p' : Propagator V} {ok : Bool}
    (hfresh : ∀ O, ∀ x ∈ p.prog.iqs, x.lit ≠ ctl.newLit O) (h : p.check fuel ctl total th = some (p', ok)) :
    ∃ cs cuts, p'.clausesOf th = p.clausesOf th ++ cs ++ cuts ∧ pivotsOf p th ≤ pivotsOf p' th ∧
      (p'.cutsOf th).length = (p.cutsOf th).length + cuts.length ∧
      (propagatedOf p' th = propagatedOf p th + cs.length ∨
        propagatedOf p' th = propagatedOf p th ∧ cs.length = 1 ∧ cuts = [] ∧ ok = false) :=
  let ⟨cs, cuts, h1, h2, h3, h4⟩ := check_counts hfresh h
  ⟨cs, cuts, h1, h2.1, h3, h4⟩

/-- C04: `propagate` performs at most `12 ^ n` pivots, where `n` is the number of unknowns, as counted by the statistics. -/
theorem C04_pivots {Q : Restr V} {opts : Options} {p p' : Propagator V} {g : Ghost V} (hr : Reach be opts Q p g) {ctl : Ctl} {th : ℕ} {lits : List ℤ} {gt : GThr}
    (hm : MayPropagate Q p g ctl th lits gt) {fuel : ℕ} {ok : Bool} (h : p.propagate fuel ctl th lits = some (p', ok)) :
    pivotsOf p' th ≤ pivotsOf p th + 12 ^ p.unknowns := by
  obtain ⟨r, h1⟩ := C04_propagate_terminates hr hm
  have h2 := h1 _ (Nat.lt_succ_self _)
  have h3 : r = (p', ok) := by
    rcases Nat.lt_or_ge (12 ^ p.unknowns) fuel with hf | hf
    · exact Option.some.inj ((h1 fuel hf).symm.trans h)
    · exact Option.some.inj (h2.symm.trans (propagate_mono h (by omega)))
  rw [h3] at h2
  obtain ⟨-, -, ⟨-, h4⟩, -⟩ := propagate_counts h2
  exact h4

/-- The hypotheses are met: this propagation performs one pivot. -/
example : ∃ p g p' gt ok, Reach .imath {} (V := ℚ) Intact p g ∧
      MayPropagate Intact p g (ctlOf 1 (nextFrames 1 [2] gt.frames) true) 0 [2] gt ∧
      p.propagate fuel (ctlOf 1 (nextFrames 1 [2] gt.frames) true) 0 [2] = some (p', ok) ∧ pivotsOf p 0 = 1 ∧ pivotsOf p' 0 = 2 ∧ p.unknowns = 3 := by
  obtain ⟨p, g, p', gt, ok, h1, -, h2, h3, h4⟩ := exists_prop (V := ℚ) (be := .imath) (mode := .intact) (opts := {})
    [.init [sum2Atom "x" "y" ">=" 5 1, sumAtom "x" "<=" 2 2] 1, .prop 0 0 [1] true] 1 0 [2] true
    (P := fun p _ p' _ => decide (pivotsOf p 0 = 1 ∧ pivotsOf p' 0 = 2 ∧ p.unknowns = 3)) (by decide +kernel)
  exact ⟨p, g, p', gt, ok, h1, h2, h3, of_decide_eq_true h4⟩

/-- C11 (partial: `Intact`): `check`, including the optimization, performs at most `2 * 12 ^ n` pivots. -/
theorem C11_pivots_partial {opts : Options} {p p' : Propagator V} {g : Ghost V} (hq : StepOK V opts) (hr : Reach be opts Intact p g) {ctl : Ctl} {total : Bool}
    {th : ℕ} {gt : GThr} {t : Thr V} (hm : MayCheck p g ctl th gt t) {fuel : ℕ} {ok : Bool} (h : p.check fuel ctl total th = some (p', ok)) :
    pivotsOf p' th ≤ pivotsOf p th + 2 * 12 ^ p.unknowns := by
  obtain ⟨r, h1⟩ := C11_check_terminates_partial (total := total) hq hr hm
  have h2 := h1 _ (Nat.lt_succ_self _)
  have h3 : r = (p', ok) := by
    rcases Nat.lt_or_ge (12 ^ p.unknowns) fuel with hf | hf
    · exact Option.some.inj ((h1 fuel hf).symm.trans h)
    · exact Option.some.inj (h2.symm.trans (check_mono h (by omega)))
  rw [h3] at h2
  obtain ⟨-, -, -, ⟨-, h4⟩, -⟩ := check_counts (fun O x hx => (hm.fresh.iqs O x hx).1) h2
  exact h4

/-- The hypotheses are met: this check performs one pivot. -/
example : ∃ p g gt t p' ok, Reach .imath {} (V := ℚ) Intact p g ∧
      MayCheck p g (ctlOf 1 (p.checkFrames (ctlOf 1 [] true) t gt.frames) true) 0 gt t ∧
      p.check fuel (ctlOf 1 (p.checkFrames (ctlOf 1 [] true) t gt.frames) true) true 0 = some (p', ok) ∧ pivotsOf p 0 = 0 ∧ pivotsOf p' 0 = 1 ∧ p.unknowns = 5 := by
  obtain ⟨p, g, gt, t, p', ok, h1, -, h2, h3, h4⟩ := exists_check (V := ℚ) (be := .imath) (mode := .intact) (opts := {})
    [.init (prog4 ++ [maxAtom "x"]) 1, .prop 0 0 [1] true, .prop 1 0 [2, 3] true] 1 0 true
    (P := fun p _ _ _ p' _ => decide (pivotsOf p 0 = 0 ∧ pivotsOf p' 0 = 1 ∧ p.unknowns = 5)) (by decide +kernel)
  exact ⟨p, g, gt, t, p', ok, h1, h2, h3, of_decide_eq_true h4⟩

/-- The counters of a step. -/
structure Counted (p p' : Propagator V) (th : ℕ) : Prop where
  /-- pivots are only added -/
  pivots : pivotsOf p th ≤ pivotsOf p' th
  /-- propagated bounds are only added -/
  propagated : propagatedOf p th ≤ propagatedOf p' th
  /-- clauses added that are neither propagated bounds nor cuts are conflicts -/
  clauses : ∃ conflicts, (p'.clausesOf th).length + propagatedOf p th + (p.cutsOf th).length =
    (p.clausesOf th).length + propagatedOf p' th + (p'.cutsOf th).length + conflicts

theorem Counted.refl (p : Propagator V) (th : ℕ) : Counted p p th := ⟨le_rfl, le_rfl, 0, rfl⟩
theorem Counted.trans {p p' p'' : Propagator V} {th : ℕ} (h : Counted p p' th) (k : Counted p' p'' th) : Counted p p'' th := by
  obtain ⟨h1, h2, x, h3⟩ := h
  obtain ⟨k1, k2, y, k3⟩ := k
  exact ⟨h1.trans k1, h2.trans k2, x + y, by omega⟩

theorem counted_of_thr {p p' : Propagator V} {th : ℕ} (h : p'.thrs[th]? = p.thrs[th]?) (hp : p'.prog = p.prog) : Counted p p' th := by
  have h1 : pivotsOf p' th = pivotsOf p th := by unfold pivotsOf; rw [h]
  have h2 : propagatedOf p' th = propagatedOf p th := by unfold propagatedOf; rw [h]
  have h3 : p'.clausesOf th = p.clausesOf th := by unfold Propagator.clausesOf; rw [h]
  have h4 : p'.cutsOf th = p.cutsOf th := by unfold Propagator.cutsOf; rw [h, hp]
  exact ⟨h1.ge, h2.ge, 0, by rw [h2, h3, h4]; rfl⟩

theorem counted_step {p p' : Propagator V} {g g' : Ghost V} (hs : Step be Q p g p' g') (he : g'.step = g.step) (th : ℕ) : Counted p p' th := by
  cases hs with
  | init mapper atoms envs n hi => simp at he
  | fail mapper atoms envs n hi hab => simp at he
  | propagate fuel ctl th' lits hm hc =>
    by_cases h : th = th'
    · subst h
      obtain ⟨cs, h1, h2, h3⟩ := C38_propagate_counts hc
      have hcut : p'.cutsOf th = p.cutsOf th := by
        unfold Propagator.propagate at hc
        generalize hp0 : (if ctl.dl = 0 ∧ th = 0 then { p with facts := p.facts ++ lits } else p) = p0 at hc
        have e0 : p0.thrs = p.thrs := by subst hp0; split <;> rfl
        have e1 : p0.prog = p.prog := by subst hp0; split <;> rfl
        dsimp only at hc
        cases ht : p0.thrs[th]? with
        | none => rw [ht] at hc; cases hc
        | some t =>
          rw [ht] at hc
          dsimp only at hc
          cases hs : t.slv.solve ctl fuel lits with
          | none => rw [hs] at hc; cases hc
          | some r =>
            rw [hs] at hc
            obtain ⟨rfl, rfl⟩ := Prod.mk.inj (Option.some.inj hc)
            have hb := (S.cnt_solve hs).bounds
            unfold Propagator.cutsOf
            rw [setThr_same ht, show p.thrs[th]? = some t by rw [← e0]; exact ht]
            dsimp only
            rw [hb, show (p0.setThr th { t with slv := r.1 }).prog = p.prog from e1]
      refine ⟨h2, ?_, ?_⟩
      · rcases h3 with h3 | h3 <;> omega
      · rw [h1, hcut, List.length_append]
        rcases h3 with h3 | ⟨h3, h4, -⟩
        · exact ⟨0, by omega⟩
        · exact ⟨1, by omega⟩
    · unfold Propagator.propagate at hc
      generalize hp0 : (if ctl.dl = 0 ∧ th' = 0 then { p with facts := p.facts ++ lits } else p) = p0 at hc
      have e0 : p0.thrs = p.thrs := by subst hp0; split <;> rfl
      have e1 : p0.prog = p.prog := by subst hp0; split <;> rfl
      dsimp only at hc
      split at hc
      · cases hc
      · split at hc
        · cases hc
        · obtain ⟨rfl, -⟩ := Prod.mk.inj (Option.some.inj hc)
          exact counted_of_thr ((setThr_other h).trans (by rw [e0])) e1
  | check fuel ctl total th' hm hc =>
    by_cases h : th = th'
    · subst h
      obtain ⟨cs, cuts, h1, h2, h3, h4⟩ := C38_check_counts (fun O x hx => (hm.fresh.iqs O x hx).1) hc
      refine ⟨h2, ?_, ?_⟩
      · rcases h4 with h4 | h4 <;> omega
      · rw [h1, List.length_append, List.length_append]
        rcases h4 with h4 | ⟨h4, h5, h6, -⟩
        · exact ⟨0, by omega⟩
        · exact ⟨1, by omega⟩
    · unfold Propagator.check at hc
      cases hf : p.checkFacts fuel ctl th' with
      | none => rw [hf] at hc; cases hc
      | some r =>
        obtain ⟨p1, ok1⟩ := r
        rw [hf] at hc
        dsimp only at hc
        have h1 : p1.thrs[th]? = p.thrs[th]? ∧ p1.prog = p.prog := by
          unfold Propagator.checkFacts at hf
          split at hf
          · cases hf
          · split at hf
            · split at hf
              · cases hf
              · obtain ⟨rfl, -⟩ := Prod.mk.inj (Option.some.inj hf)
                exact ⟨setThr_other h, rfl⟩
            · obtain ⟨rfl, -⟩ := Prod.mk.inj (Option.some.inj hf)
              exact ⟨rfl, rfl⟩
        split at hc
        · unfold Propagator.checkObj at hc
          split at hc
          · cases hc
          · split at hc
            · cases hc
            · obtain ⟨rfl, -⟩ := Prod.mk.inj (Option.some.inj hc)
              exact counted_of_thr ((setThr_other h).trans h1.1) h1.2
        · obtain ⟨rfl, -⟩ := Prod.mk.inj (Option.some.inj hc)
          exact counted_of_thr h1.1 h1.2
  | undo th' h1 h2 h3 hc =>
    unfold Propagator.undo at hc
    cases ht : p.thrs[th']? with
    | none => rw [ht] at hc; cases hc
    | some t =>
      rw [ht] at hc
      obtain rfl := Option.some.inj hc
      by_cases h : th = th'
      · subst h
        obtain ⟨c1, c2, c3, c4⟩ := S.calm_undo t.slv
        refine ⟨?_, ?_, 0, ?_⟩
        · rw [pivotsOf_get ht, pivotsOf_get (setThr_same ht)]; exact c4.low
        · rw [propagatedOf_get ht, propagatedOf_get (setThr_same ht)]; exact c3.ge
        · rw [clausesOf_set ht, clausesOf_get ht, propagatedOf_get ht, propagatedOf_get (setThr_same ht), cutsOf_length ht, cutsOf_length (setThr_same ht)]
          dsimp only
          rw [c1, c2, c3]; rfl
      · exact counted_of_thr (setThr_other h) rfl
  | model th' h1 h2 hc =>
    unfold Propagator.onModel at hc
    split at hc
    · cases hc
    · split at hc
      · obtain rfl := Option.some.inj hc; exact Counted.refl _ _
      · split at hc
        · obtain rfl := Option.some.inj hc; exact Counted.refl _ _
        · obtain rfl := Option.some.inj hc; exact counted_of_thr rfl rfl

/-- C38: within a solving step counters are never decreased, and the clauses a thread has added are its propagated bounds, its objective cuts, and its
conflicts. -/
theorem C38_counted {p p' : Propagator V} {g g' : Ghost V} (hl : LaterInStep be Q p g p' g') (th : ℕ) : Counted p p' th := by
  induction hl with
  | refl => exact Counted.refl _ _
  | step _ hs he ih => exact ih.trans (counted_step hs he th)

theorem init_no_cuts {opts : Options} {mapper : ℤ → ℤ} {atoms : List TAtom} {envs : ℕ → InitEnv} {n : ℕ} {p0 p1 : Propagator V} {g0 : Ghost V}
    (hr : Reach be opts Q p0 g0) {ok : Bool} (hi : p0.init be mapper atoms envs n = .ok (p1, ok)) (th : ℕ) : p1.cutsOf th = [] := by
  obtain ⟨-, hres⟩ := hr.stat.init hi
  cases ht : p1.thrs[th]? with
  | none => simp [Propagator.cutsOf, ht]
  | some t =>
    obtain ⟨-, ok', hp, -⟩ := hres.prep th t ht
    have : (p1.cutsOf th).length = 0 := by
      rw [cutsOf_length ht, List.length_eq_zero_iff, List.filter_eq_nil_iff]
      intro bd hbd
      obtain ⟨x, hx, hrep⟩ := hp.src bd hbd
      simp only [Bool.not_eq_true', List.any_eq_false, decide_eq_true_eq, not_forall, not_not]
      exact ⟨x, hx, hrep.lit.symm⟩
    exact List.length_eq_zero_iff.1 this

/-- C38: at any time of a solving step, the clauses that a thread has added since `init` are its propagated bounds, its objective cuts and its
conflicts. -/
theorem C38_bounds_propagated {opts : Options} {mapper : ℤ → ℤ} {atoms : List TAtom} {envs : ℕ → InitEnv} {n : ℕ} {p0 p1 p : Propagator V}
    {g0 g1 g : Ghost V} (hr : Reach be opts Q p0 g0) {ok : Bool} (hi : p0.init be mapper atoms envs n = .ok (p1, ok)) (hl : LaterInStep be Q p1 g1 p g) (th : ℕ) :
    ∃ conflicts, (p.clausesOf th).length = (p1.clausesOf th).length + propagatedOf p th + (p.cutsOf th).length + conflicts := by
  obtain ⟨-, -, x, h⟩ := C38_counted hl th
  have h0 := ((C38_starts_at_zero hi).2 th).2
  rw [init_no_cuts hr hi, List.length_nil] at h
  exact ⟨x, by omega⟩

/-- The hypotheses are met with bound propagation: one clause is added and counted. -/
example : ∃ (p p' : Propagator ℚ) (ctl : Ctl) (fuel : ℕ), p.propagate fuel ctl 0 [3] = some (p', true) ∧
    p.clausesOf 0 = [] ∧ p'.clausesOf 0 = [[-1, -3, -2]] ∧ propagatedOf p 0 = 0 ∧ propagatedOf p' 0 = 1 := by
  obtain ⟨p, g, p', gt, ok, h1, -, h2, h3, h4⟩ := exists_prop (V := ℚ) (be := .imath) (mode := .intact) (opts := { propagateMode := .full })
    [.init [sumAtom "x" ">=" 1 1, sum2Atom "x" "y" "<=" 2 2, sumAtom "y" ">=" 2 3] 1, .prop 0 0 [1] true] 1 0 [3] true
    (P := fun p _ p' ok => ok && decide (p.clausesOf 0 = [] ∧ p'.clausesOf 0 = [[-1, -3, -2]] ∧ propagatedOf p 0 = 0 ∧ propagatedOf p' 0 = 1))
    (by decide +kernel)
  rw [Bool.and_eq_true] at h4
  obtain ⟨rfl, h5⟩ := h4
  exact ⟨p, p', _, _, h3, of_decide_eq_true h5⟩

end Lpx.Props
