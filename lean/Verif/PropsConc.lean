import Verif.ConcMain
import Verif.PropsSolving
import Verif.Examples
import Verif.Witness

/-!
# Callbacks of several threads at the same time (C54, C55)
-/

set_option linter.unusedSectionVars false

open Lpx.Witness

namespace Lpx.Props

variable {V : Type} [LpFull V] {be : Backend} {opts : Options} {grow : ℕ → ℕ → ℕ} {I : Propagator V → ℕ → Prop}
  {Q : Restr V}

theorem progOnly_any : ProgOnly (AnyLits : Restr V) := ⟨fun _ _ _ _ _ _ _ => trivial, fun _ _ _ _ _ _ => trivial⟩

theorem progOnly_safe : ProgOnly (SafeEqs : Restr V) := by
  refine ⟨fun p p' h frames ctl lits hq => ?_, fun _ _ _ _ _ _ => trivial⟩
  unfold SafeEqs at hq ⊢
  simp only at hq ⊢
  rw [← h]; exact hq

theorem progOnly_intact : ProgOnly (Intact : Restr V) :=
  ⟨fun _ _ _ _ _ _ _ => trivial, fun p p' th h frames hq t ht => hq t (h.trans ht)⟩

/-- C54. However the callbacks of the threads overlap, there is a run in which they happen one after the other with the same shared state and,
for every thread that is not in a callback, the same state of the thread (unless `check` never ends for some thread, which then also happens in a
run without overlapping callbacks). -/
theorem C54_overlapping_callbacks {c : Conf V} (h : CReach be opts grow I AnyLits c) (hst : c.stale = false) :
    (∃ th, Diverges c th ∧ Hangs (V := V) be opts AnyLits) ∨
    ∃ p g, Reach be opts AnyLits p g ∧ p = { c.p with thrs := p.thrs } ∧ g = { c.g with thrs := g.thrs } ∧
      ∀ th, c.pc th = .idle → p.thrs[th]? = c.p.thrs[th]? ∧ g.thrs[th]? = c.g.thrs[th]? := by
  rcases h.sim progOnly_any hst with h | ⟨p, g, hr, hs⟩
  · exact Or.inl h
  · exact Or.inr ⟨p, g, hr, hs.base, hs.gbase, fun th hi => SameThr.of (hs.thr th) hi⟩

/-- C54. When no callback is running, the state is one that is reached by running callbacks one after the other. -/
theorem C54_quiescent {c : Conf V} (h : CReach be opts grow I AnyLits c) (hst : c.stale = false) (hi : ∀ th, c.pc th = .idle) :
    Reach be opts AnyLits c.p c.g := by
  rcases h.sim progOnly_any hst with ⟨th, hd, -⟩ | ⟨p, g, hr, hs⟩
  · unfold Diverges at hd; rw [hi th] at hd; exact hd.elim
  · obtain ⟨rfl, rfl⟩ := hs.all hi
    exact hr

/-- C54 for the histories of the partial theorems: no callback hangs. -/
theorem C54_intact_histories (hq : StepOK V opts) {c : Conf V} (h : CReach be opts grow I Intact c) (hst : c.stale = false) :
    ∃ p g, Reach be opts Intact p g ∧ p = { c.p with thrs := p.thrs } ∧ g = { c.g with thrs := g.thrs } ∧
      ∀ th, c.pc th = .idle → p.thrs[th]? = c.p.thrs[th]? ∧ g.thrs[th]? = c.g.thrs[th]? := by
  rcases h.sim progOnly_intact hst with ⟨th, -, p, g, ctl, total, th', gt, t, hr, hm, hn⟩ | ⟨p, g, hr, hs⟩
  · obtain ⟨r, hc⟩ := C11_check_terminates_partial (total := total) hq hr hm
    have hc := hc _ (Nat.lt_succ_self _)
    rw [hn] at hc; cases hc
  · exact ⟨p, g, hr, hs.base, hs.gbase, fun th hi => SameThr.of (hs.thr th) hi⟩

/-- C54 for the histories with harmless equations: no callback hangs. -/
theorem C54_safe_histories (hq : StepOK V opts) {c : Conf V} (h : CReach be opts grow I SafeEqs c) (hst : c.stale = false) :
    ∃ p g, Reach be opts SafeEqs p g ∧ p = { c.p with thrs := p.thrs } ∧ g = { c.g with thrs := g.thrs } ∧
      ∀ th, c.pc th = .idle → p.thrs[th]? = c.p.thrs[th]? ∧ g.thrs[th]? = c.g.thrs[th]? := by
  rcases h.sim progOnly_safe hst with ⟨th, -, p, g, ctl, total, th', gt, t, hr, hm, hn⟩ | ⟨p, g, hr, hs⟩
  · obtain ⟨r, hc⟩ := C11_check_terminates_partial (total := total) hq (hr.intact hq) hm
    have hc := hc _ (Nat.lt_succ_self _)
    rw [hn] at hc; cases hc
  · exact ⟨p, g, hr, hs.base, hs.gbase, fun th hi => SameThr.of (hs.thr th) hi⟩

/-! ### runs without overlapping callbacks -/

/-- Nothing is running; the buffer of `facts_` is large enough and not too large. -/
structure Quiet (c : Conf V) (p : Propagator V) (g : Ghost V) : Prop where
  p : c.p = p
  g : c.g = g
  idle : ∀ th, c.pc th = .idle
  stale : c.stale = false
  lo : c.p.facts.length ≤ c.cap
  hi : c.cap ≤ 2 * c.p.facts.length

theorem idle_of {c : Conf V} {th : ℕ} (h : ∀ th', th' ≠ th → c.pc th' = .idle) : ∀ th', (c.goto th .idle).pc th' = .idle := by
  intro th'
  by_cases he : th' = th
  · subst he; exact Conf.goto_pc ..
  · rw [Conf.goto_ne _ he]; exact h th' he

/-- The growth of buffers: large enough and at most doubled (libstdc++ doubles, other libraries use a smaller factor). -/
def Doubles (grow : ℕ → ℕ → ℕ) : Prop := ∀ n m, n + m ≤ grow n m ∧ grow n m ≤ 2 * (n + m)

theorem reach_quiet (hgr : Doubles grow) {p : Propagator V} {g : Ghost V} (h : Reach be opts Q p g) :
    ∃ c, CReach be opts grow AnyInit Q c ∧ Quiet c p g := by
  induction h with
  | start => exact ⟨_, .start, rfl, rfl, fun _ => rfl, rfl, Nat.le_refl _, Nat.zero_le _⟩
  | @step p p2 g g2 hr hs ih =>
    obtain ⟨c, hc, hqc⟩ := ih
    obtain ⟨hp, hg, hi, hst, hlo, hhi⟩ := hqc
    subst hp hg
    have hstat := (hr.step hs).stat.facts
    cases hs with
    | init mapper atoms envs n hinit =>
      have hf : p2.facts = c.p.facts := hstat.trans hr.stat.facts.symm
      refine ⟨_, hc.step (.init mapper atoms envs n hi trivial hinit), rfl, rfl, hi, hst, ?_, ?_⟩
      · show p2.facts.length ≤ c.cap
        rw [hf]; exact hlo
      · show c.cap ≤ 2 * p2.facts.length
        rw [hf]; exact hhi
    | fail mapper atoms envs n hinit ha =>
      exact ⟨_, hc.step (.fail mapper atoms envs n hi hinit ha), rfl, rfl, hi, hst, hlo, hhi⟩
    | @propagate fuel ctl th lits gt _ ok hm hp =>
      obtain ⟨t, hpt, -⟩ := hr.stat.thr th gt hm.thr
      obtain ⟨s', hsv, hp2⟩ := (propagate_eq hpt).1 hp
      have s1 := hc.step (.propagate ctl th lits (hi th) hm)
      have s2 := s1.step (.append th (Conf.goto_pc ..))
      by_cases hd : ctl.dl = 0 ∧ th = 0
      · rw [if_pos hd] at s2
        rw [if_pos hd] at hp2
        have s3 := s2.step (.solve fuel th (t := t) (gt := gt) (r := (s', ok)) (Conf.goto_pc ..) hpt hm.thr hsv)
        refine ⟨_, s3, ?_, ?_, ?_, hst, ?_, ?_⟩
        · rw [hp2]; rfl
        · rw [if_pos hd]; rfl
        · refine idle_of fun th' hne => ?_
          exact (Conf.goto_ne _ hne _).trans ((Conf.goto_ne c hne _).trans (hi th'))
        · show (c.p.facts ++ lits).length ≤ if c.cap < c.p.facts.length + lits.length then grow c.p.facts.length lits.length else c.cap
          rw [List.length_append]
          have := (hgr c.p.facts.length lits.length).1
          split <;> omega
        · show (if c.cap < c.p.facts.length + lits.length then grow c.p.facts.length lits.length else c.cap) ≤ 2 * (c.p.facts ++ lits).length
          rw [List.length_append]
          have := (hgr c.p.facts.length lits.length).2
          split <;> omega
      · rw [if_neg hd] at s2
        rw [if_neg hd] at hp2
        have s3 := s2.step (.solve fuel th (t := t) (gt := gt) (r := (s', ok)) (Conf.goto_pc ..) hpt hm.thr hsv)
        refine ⟨_, s3, ?_, ?_, ?_, hst, hlo, hhi⟩
        · rw [hp2]; rfl
        · rw [if_neg hd]; rfl
        · refine idle_of fun th' hne => ?_
          exact (Conf.goto_ne _ hne _).trans ((Conf.goto_ne c hne _).trans (hi th'))
    | @check fuel ctl total th gt t _ ok hm hc2 =>
      have s1 := hc.step (.check ctl total th (hi th) hm)
      have hidle : ∀ x y th', th' ≠ th → ((c.goto th x).goto th y).pc th' = .idle := fun x y th' hne =>
        (Conf.goto_ne _ hne _).trans ((Conf.goto_ne c hne _).trans (hi th'))
      by_cases hn : c.p.needFacts ctl t
      · have s2 := s1.step (.span th (t := t) (Conf.goto_pc ..) hm.slv hn)
        unfold Propagator.check at hc2
        cases hsv : t.slv.solve ctl fuel (c.p.factSpan t) with
        | none =>
          have : c.p.checkFacts fuel ctl th = none := by
            unfold Propagator.checkFacts; simp only [hm.slv, if_pos hn, hsv]
          rw [this] at hc2; cases hc2
        | some r =>
          have hcf : c.p.checkFacts fuel ctl th = some (c.p.setThr th ⟨c.p.factsOffset, r.1⟩, r.2) := by
            unfold Propagator.checkFacts; simp only [hm.slv, if_pos hn, hsv]
          have hok : c.p.factsOk fuel ctl th = r.2 := by unfold Propagator.factsOk; rw [hcf]
          rw [hcf] at hc2
          cases hr2 : r.2 with
          | false =>
            have s3 := s2.step (.factsConflict fuel th (t := t) (gt := gt) (r := r) (Conf.goto_pc ..) hm.slv hm.thr hsv hr2)
            simp only [hr2, Bool.false_eq_true, if_false] at hc2
            obtain ⟨rfl, rfl⟩ := Prod.mk.inj (Option.some.inj hc2)
            refine ⟨_, s3, rfl, ?_, idle_of (hidle _ _), hst, hlo, hhi⟩
            rw [hok, hr2, Bool.and_false]; rfl
          | true =>
            have s3 := s2.step (.facts fuel th (t := t) (r := r) (Conf.goto_pc ..) hm.slv hsv hr2)
            have s4 := s3.step (.readObj th (Conf.goto_pc ..))
            simp only [hr2, if_true] at hc2
            unfold Propagator.checkObj at hc2
            have hset : (c.p.setThr th ⟨c.p.factsOffset, r.1⟩).thrs[th]? = some ⟨c.p.factsOffset, r.1⟩ := getElem?_set_some hm.slv
            simp only [hset] at hc2
            cases hco : r.1.checkObj ctl fuel total (c.p.setThr th ⟨c.p.factsOffset, r.1⟩).obj with
            | none => simp only [hco] at hc2; cases hc2
            | some q =>
              simp only [hco] at hc2
              obtain ⟨rfl, rfl⟩ := Prod.mk.inj (Option.some.inj hc2)
              have s5 := s4.step (.finish fuel th (t := ⟨c.p.factsOffset, r.1⟩) (gt := gt) (r := q) (Conf.goto_pc ..) hset hm.thr hco)
              refine ⟨_, s5, rfl, ?_, idle_of ?_, hst, hlo, hhi⟩
              · rw [hok, hr2]; rfl
              · intro th' hne
                exact (Conf.goto_ne _ hne _).trans ((Conf.goto_ne _ hne _).trans (hidle _ _ th' hne))
      · have s2 := s1.step (.noFacts th (t := t) (Conf.goto_pc ..) hm.slv hn)
        have s4 := s2.step (.readObj th (Conf.goto_pc ..))
        have hcf : c.p.checkFacts fuel ctl th = some (c.p, true) := by
          unfold Propagator.checkFacts; simp only [hm.slv, if_neg hn]
        have hok : c.p.factsOk fuel ctl th = true := by unfold Propagator.factsOk; rw [hcf]
        unfold Propagator.check at hc2
        simp only [hcf, if_true] at hc2
        unfold Propagator.checkObj at hc2
        simp only [hm.slv] at hc2
        cases hco : t.slv.checkObj ctl fuel total c.p.obj with
        | none => simp only [hco] at hc2; cases hc2
        | some q =>
          simp only [hco] at hc2
          obtain ⟨rfl, rfl⟩ := Prod.mk.inj (Option.some.inj hc2)
          have s5 := s4.step (.finish fuel th (t := t) (gt := gt) (r := q) (Conf.goto_pc ..) hm.slv hm.thr hco)
          refine ⟨_, s5, rfl, ?_, idle_of ?_, hst, hlo, hhi⟩
          · rw [hok]; rfl
          · intro th' hne
            exact (Conf.goto_ne _ hne _).trans (hidle _ _ th' hne)
    | @undo th gt fr frs _ hgt hf hl hu =>
      unfold Propagator.undo at hu
      cases ht : c.p.thrs[th]? with
      | none => rw [ht] at hu; cases hu
      | some t =>
        rw [ht] at hu
        obtain rfl := Option.some.inj hu
        exact ⟨_, hc.step (.undo th (hi th) hgt hf hl ht (by assumption)), rfl, rfl, hi, hst, hlo, hhi⟩
    | @model th gt _ hgt hs2 ho =>
      unfold Propagator.onModel at ho
      cases ht : c.p.thrs[th]? with
      | none => rw [ht] at ho; cases ho
      | some t =>
        rw [ht] at ho
        have s1 := hc.step (.model th (hi th) hgt hs2 ht)
        have s2 := s1.step (.report th (Conf.goto_pc ..))
        refine ⟨_, s2, ?_, ?_, idle_of fun th' hne => (Conf.goto_ne c hne _).trans (hi th'), hst, hlo, hhi⟩
        · simp only at ho
          by_cases hgo : c.p.opts.globalObjective.isNone = true
          · rw [if_pos hgo] at ho ⊢
            obtain rfl := Option.some.inj ho
            rfl
          · rw [if_neg hgo] at ho ⊢
            cases hob : t.slv.getObjective with
            | none => rw [hob] at ho; obtain rfl := Option.some.inj ho; rfl
            | some x => rw [hob] at ho; obtain rfl := Option.some.inj ho; rfl
        · unfold Propagator.objectiveOf
          simp only [ht]
          cases hgo : c.p.opts.globalObjective <;> simp [Conf.goto, hgo]

/-- C54. Conversely, running callbacks one after the other is one of the possible ways for them to overlap. -/
theorem C54_atomic_runs (hgr : Doubles grow) {p : Propagator V} {g : Ghost V} (h : Reach be opts Q p g) :
    ∃ c, CReach be opts grow AnyInit Q c ∧ c.p = p ∧ c.g = g ∧ (∀ th, c.pc th = .idle) ∧ c.stale = false := by
  obtain ⟨c, h1, h2⟩ := reach_quiet hgr h
  exact ⟨c, h1, h2.p, h2.g, h2.idle, h2.stale⟩

/-- C54 applied to C01 (partial: `Intact`, constraints with variables). Whatever the callbacks running in other threads, the values reported for
a thread that is not in a callback and not in conflict satisfy all constraints whose literals are true. -/
theorem C42_overlapping_partial (hq : StepOK V opts) {c : Conf V} (h : CReach be opts grow I Intact c) (hst : c.stale = false)
    (hs : ∀ x ∈ c.p.prog.iqs, Supports V x.rel) {th : ℕ} {gt : GThr} (hi : c.pc th = .idle) (hgt : c.g.thrs[th]? = some gt) (hstk : gt.stuck = false) :
    Small fun e => Solves (withVars c.p.prog.iqs) (Act gt.frames) fun y => LpSem.conc e (c.p.valueOf th y) := by
  obtain ⟨p, g, hr, hp, -, hth⟩ := C54_intact_histories hq h hst
  obtain ⟨h1, h2⟩ := hth th hi
  have hprog : p.prog = c.p.prog := by rw [hp]
  have hval : p.valueOf th = c.p.valueOf th := by
    funext y
    unfold Propagator.valueOf Propagator.apiValue
    rw [h1]
    have : p.apiLookup y = c.p.apiLookup y := by rw [hp]; rfl
    rw [this]
  have := C01_active_constraints_hold_partial hq hr (by rw [hprog]; exact hs) (h2.trans hgt) hstk
  rw [hprog, hval] at this
  exact this

/-! ### the vector `facts_` -/

/-- A state in the second step with two threads where thread 1 still has to assert the fact of the first step and thread 0 may propagate. -/
theorem two_threads : ∃ (p : Propagator ℚ) (g : Ghost ℚ) (ctl ctl' : Ctl) (gt gt' : GThr) (t : Thr ℚ), Reach .imath {} SafeEqs p g ∧
    p.facts.length = 1 ∧ MayCheck p g ctl 1 gt t ∧ p.needFacts ctl t ∧ ctl'.dl = 0 ∧ MayPropagate SafeEqs p g ctl' 0 [2, 3] gt' := by
  obtain ⟨p, g, gt, t, h1, h0, h2, h3⟩ := exists_mayCheck (V := ℚ) (be := .imath) (mode := .safe) (opts := {})
    [.init prog4 2, .prop 0 0 [1] true, .init [] 2] 0 1
    (P := fun p g t gt => decide (p.facts.length = 1) && decide (0 < p.factsOffset) && decide (t.offset = 0) && atThr g 0 fun gt => !gt.stuck && decide (gt.frames = []))
    (by decide +kernel)
  simp only [Bool.and_eq_true, decide_eq_true_eq] at h3
  obtain ⟨⟨⟨h3, h4⟩, h5⟩, h6⟩ := h3
  obtain ⟨gt', h7, h8⟩ := atThr_spec h6
  rw [Bool.and_eq_true, Bool.not_eq_true', decide_eq_true_eq] at h8
  refine ⟨p, g, _, ctlOf 0 (nextFrames 0 [2, 3] []) true, gt, gt', t, h1, h3, h2, ⟨rfl, by rw [h5]; exact h4⟩, rfl, h7, h8.1, ?_, ?_, ?_, Or.inl rfl⟩
  · rw [h8.2]; intro fr hfr; cases hfr
  · rw [h8.2]; exact lvlOK_spec (by decide +kernel)
  · exact fun l _ => h0 gt' (List.mem_of_getElem? h7) l

/-- The hypotheses of C54 are met by a state where both threads are in the middle of a callback: thread 1 has started `check`, then thread 0 has
added facts in `propagate` and is going to solve, then thread 1 has started asserting facts of the first step. -/
example (hgr : Doubles grow) : ∃ (c : Conf ℚ) (ctl ctl' : Ctl) (F : List Frame), StepOK ℚ {} ∧ CReach .imath {} grow AnyInit Intact c ∧
    c.stale = false ∧ c.pc 0 = .prop1 ctl [2, 3] ∧ c.pc 1 = .checkF ctl' true F c.buf := by
  obtain ⟨p, g, ctl, ctl', gt, gt', t, hr, hf, hm, hn, hdl, hm'⟩ := two_threads
  obtain ⟨c, hc, hqc⟩ := reach_quiet hgr (hr.intact (stepOK_none rfl))
  obtain ⟨rfl, rfl, hi, hst, hlo, hhi⟩ := hqc
  have h10 : (1 : ℕ) ≠ 0 := by decide
  have s1 := hc.step (.check ctl true 1 (hi 1) hm)
  have s2 := s1.step (.propagate ctl' 0 [2, 3] (gt := gt') ((Conf.goto_ne _ h10.symm _).trans (hi 0)) hm'.intact)
  have s3 := s2.step (.append 0 (Conf.goto_pc ..))
  rw [if_pos ⟨hdl, rfl⟩] at s3
  have s4 := s3.step (.span 1 (ctl := ctl) (total := true) (F := c.p.checkFrames ctl t gt.frames) (t := t)
    ((Conf.goto_ne _ h10 (.prop1 ctl' [2, 3])).trans ((Conf.goto_ne (c.goto 1 (.check0 ctl true (c.p.checkFrames ctl t gt.frames))) h10
      (.prop0 ctl' [2, 3])).trans (Conf.goto_pc ..))) hm.slv hn)
  refine ⟨_, ctl', ctl, _, stepOK_none rfl, s4, hst, ?_, Conf.goto_pc ..⟩
  exact (Conf.goto_ne _ h10.symm _).trans (Conf.goto_pc ..)

/-- C55 is violated. For every growth policy of vectors that at most doubles the capacity, a thread uses a pointer into a buffer that has been
freed: in the second step, thread 1 asserts the facts of the first step in `check` while thread 0 adds new facts in `propagate`. -/
theorem C55_violation {grow : ℕ → ℕ → ℕ} (hgr : Doubles grow) : ∃ c : Conf ℚ, CReach .imath {} grow AnyInit SafeEqs c ∧ c.stale = true := by
  obtain ⟨p, g, ctl, ctl', gt, gt', t, hr, hf, hm, hn, hdl, hm'⟩ := two_threads
  obtain ⟨c, hc, hqc⟩ := reach_quiet hgr hr
  obtain ⟨rfl, rfl, hi, hst, hlo, hhi⟩ := hqc
  have h10 : (1 : ℕ) ≠ 0 := by decide
  have s1 := hc.step (.check ctl false 1 (hi 1) hm)
  have s2 := s1.step (.span 1 (t := t) (Conf.goto_pc ..) hm.slv hn)
  have s3 := s2.step (.propagate ctl' 0 [2, 3] (gt := gt') ((Conf.goto_ne _ h10.symm _).trans ((Conf.goto_ne _ h10.symm _).trans (hi 0))) hm')
  have s4 := s3.step (.append 0 (Conf.goto_pc ..))
  rw [if_pos ⟨hdl, rfl⟩] at s4
  have hpc := (Conf.goto_ne (((c.goto 1 (.check0 ctl false (c.p.checkFrames ctl t gt.frames))).goto 1
    (.checkF ctl false (c.p.checkFrames ctl t gt.frames) c.buf)).goto 0 (.prop0 ctl' [2, 3]) |>.append grow [2, 3]) h10 (.prop1 ctl' [2, 3])).trans
    ((Conf.goto_ne ((c.goto 1 (.check0 ctl false (c.p.checkFrames ctl t gt.frames))).goto 1
      (.checkF ctl false (c.p.checkFrames ctl t gt.frames) c.buf)) h10 (.prop0 ctl' [2, 3])).trans (Conf.goto_pc ..))
  refine ⟨{ c with stale := true }, s4.step (.dangling 1 hpc ?_ rfl), rfl⟩
  show c.buf ≠ if c.cap < c.p.facts.length + 2 then c.buf + 1 else c.buf
  rw [if_pos (by omega)]
  omega

/-- Doubling the capacity, as libstdc++ does, is such a policy. -/
example : Doubles fun n m => n + max n m := by intro n m; dsimp only; omega

/-- One thread, or there are no facts of earlier steps. -/
def SoloOrFirst (p : Propagator V) (n : ℕ) : Prop := n ≤ 1 ∨ p.facts = []

theorem initThrs_length (envs : ℕ → InitEnv) (opts : Options) (idx : Symbol → Option ℕ) (size : ℕ) (prog : Prog) (k : ℕ) : ∀ i,
    (initThrs (V := V) envs opts idx size prog k i).1.length ≤ k := by
  induction k with
  | zero => intro i; simp [initThrs]
  | succ k ih =>
    intro i
    have := ih (i + 1)
    rw [initThrs]
    split <;> simp_all

theorem init_solo {p p' : Propagator V} {mapper : ℤ → ℤ} {atoms : List TAtom} {envs : ℕ → InitEnv} {n : ℕ} {ok : Bool}
    (h : p.init be mapper atoms envs n = .ok (p', ok)) : p'.factsOffset = p.facts.length ∧ p'.thrs.length ≤ n := by
  unfold Propagator.init at h
  simp only at h
  split at h
  · cases h
  · obtain ⟨rfl, -⟩ := Prod.mk.inj (Except.ok.inj h)
    exact ⟨rfl, initThrs_length ..⟩

/-- The invariant for C55. -/
structure NoRace (c : Conf V) : Prop where
  solo : c.p.factsOffset = 0 ∨ c.p.thrs.length ≤ 1 ∨ c.g.thrs.length = 0
  busy : c.g.thrs.length = 0 → ∀ th, c.pc th = .idle
  span : ∀ th ctl total F b, c.pc th = .checkF ctl total F b → th = 0 ∧ b = c.buf
  stale : c.stale = false

theorem NoRace.move {c : Conf V} (h : NoRace c) {th : ℕ} {x : Pc V} (hx : ∀ ctl total F b, x = .checkF ctl total F b → th = 0 ∧ b = c.buf)
    (hb : c.g.thrs.length ≠ 0) {c2 : Conf V} (h1 : c2.p.factsOffset = c.p.factsOffset) (h2 : c2.p.thrs.length = c.p.thrs.length) (h3 : c2.stale = c.stale)
    (h4 : c2.buf = c.buf) (h5 : c2.pc = (c.goto th x).pc) (h6 : c2.g.thrs.length = c.g.thrs.length) : NoRace c2 := by
  refine ⟨by rw [h1, h2, h6]; exact h.solo, fun h0 => absurd (h6.symm.trans h0) hb, fun th' ctl total F b hb => ?_, h3.trans h.stale⟩
  rw [h4]
  rw [h5] at hb
  by_cases he : th' = th
  · subst he; rw [Conf.goto_pc] at hb; exact hx _ _ _ _ hb
  · rw [Conf.goto_ne _ he] at hb; exact h.span _ _ _ _ _ hb

theorem NoRace.some {c : Conf V} (h : NoRace c) {th : ℕ} (hpc : c.pc th ≠ .idle) : c.g.thrs.length ≠ 0 := fun h0 => hpc (h.busy h0 th)

omit [LpFull V] in
theorem thrs_some {g : Ghost V} {th : ℕ} {gt : GThr} (h : g.thrs[th]? = some gt) : g.thrs.length ≠ 0 := by
  have := (List.getElem?_eq_some_iff.1 h).1; omega

theorem NoRace.step {c c2 : Conf V} (h : NoRace c) (hs : CStep be grow SoloOrFirst Q c c2) : NoRace c2 := by
  cases hs with
  | init mapper atoms envs n hidle hI hi =>
    obtain ⟨h1, h2⟩ := init_solo hi
    refine ⟨?_, fun _ => hidle, fun th ctl total F b hb => ?_, h.stale⟩
    · rcases hI with hI | hI
      · exact Or.inr (Or.inl (h2.trans hI))
      · exact Or.inl (h1.trans (by rw [hI]; rfl))
    · rw [show c.pc th = .idle from hidle th] at hb; cases hb
  | fail mapper atoms envs n hidle hi ha =>
    refine ⟨Or.inr (Or.inr rfl), fun _ => hidle, fun th ctl total F b hb => ?_, h.stale⟩
    rw [show c.pc th = .idle from hidle th] at hb; cases hb
  | propagate ctl th lits hpc hm => exact h.move (th := th) (x := .prop0 ctl lits) (fun _ _ _ _ k => by cases k) (thrs_some hm.thr) rfl rfl rfl rfl rfl rfl
  | @append th ctl lits hpc =>
    by_cases hd : ctl.dl = 0 ∧ th = 0
    · rw [if_pos hd]
      obtain rfl := hd.2
      have hno : ∀ th' ctl total F b, c.pc th' ≠ .checkF ctl total F b := by
        intro th' ctl' total F b hb
        obtain ⟨rfl, -⟩ := h.span _ _ _ _ _ hb
        rw [hpc] at hb; cases hb
      refine ⟨h.solo, fun h0 => absurd h0 (h.some (th := 0) (by rw [hpc]; exact nofun)), fun th' ctl' total F b hb => ?_, h.stale⟩
      by_cases he : th' = 0
      · subst he; rw [Conf.goto_pc] at hb; cases hb
      · rw [Conf.goto_ne _ he] at hb; exact absurd hb (hno _ _ _ _ _)
    · rw [if_neg hd]
      exact h.move (th := th) (x := .prop1 ctl lits) (fun _ _ _ _ k => by cases k) (h.some (th := th) (by rw [hpc]; exact nofun)) rfl rfl rfl rfl rfl rfl
  | solve fuel th hpc hct hcg hsv =>
    exact h.move (th := th) (x := .idle) (fun _ _ _ _ k => by cases k) (thrs_some hcg) rfl (List.length_set ..) rfl rfl rfl (List.length_set ..)
  | check ctl total th hpc hm =>
    exact h.move (th := th) (fun _ _ _ _ k => by cases k) (thrs_some hm.thr) rfl rfl rfl rfl rfl rfl
  | noFacts th hpc hct hn => exact h.move (th := th) (fun _ _ _ _ k => by cases k) (h.some (th := th) (by rw [hpc]; exact nofun)) rfl rfl rfl rfl rfl rfl
  | @span th ctl total F t hpc hct hn =>
    have hsm := h.some (th := th) (by rw [hpc]; exact nofun)
    refine h.move (th := th) (x := .checkF ctl total F c.buf) (fun _ _ _ _ k => ?_) hsm rfl rfl rfl rfl rfl rfl
    cases k
    refine ⟨?_, rfl⟩
    have hlt := (List.getElem?_eq_some_iff.1 hct).1
    have := hn.2
    rcases h.solo with h0 | h0 | h0 <;> omega
  | facts fuel th hpc hct hsv hr => exact h.move (th := th) (fun _ _ _ _ k => by cases k) (h.some (th := th) (by rw [hpc]; exact nofun)) rfl (List.length_set ..) rfl rfl rfl rfl
  | factsConflict fuel th hpc hct hcg hsv hr => exact h.move (th := th) (fun _ _ _ _ k => by cases k) (thrs_some hcg) rfl (List.length_set ..) rfl rfl rfl (List.length_set ..)
  | dangling th hpc hb hs => exact absurd (h.span _ _ _ _ _ hpc).2 hb
  | readObj th hpc => exact h.move (th := th) (fun _ _ _ _ k => by cases k) (h.some (th := th) (by rw [hpc]; exact nofun)) rfl rfl rfl rfl rfl rfl
  | finish fuel th hpc hct hcg hsv => exact h.move (th := th) (fun _ _ _ _ k => by cases k) (thrs_some hcg) rfl (List.length_set ..) rfl rfl rfl (List.length_set ..)
  | @undo th gt fr frs t hpc hcg hfr hl hct _ =>
    have hne := thrs_some hcg
    have h1 : (c.p.thrs.set th { t with slv := t.slv.undo }).length = c.p.thrs.length := List.length_set ..
    have h2 : (c.g.thrs.set th { gt with frames := frs, stuck := false, checked := false }).length = c.g.thrs.length := List.length_set ..
    refine ⟨?_, fun h0 => absurd (h2.symm.trans h0) hne, h.span, h.stale⟩
    exact h.solo.imp_right fun k => Or.inl (h1.le.trans (k.resolve_right hne))
  | model th hpc hcg => exact h.move (th := th) (fun _ _ _ _ k => by cases k) (thrs_some hcg) rfl rfl rfl rfl rfl rfl
  | report th hpc => exact h.move (th := th) (fun _ _ _ _ k => by cases k) (h.some (th := th) (by rw [hpc]; exact nofun)) rfl rfl rfl rfl rfl rfl

/-- C55 (partial: one thread, or only steps before the first fact). No thread uses a pointer into a freed buffer of `facts_`. -/
theorem C55_no_dangling_pointer_partial {c : Conf V} (h : CReach be opts grow SoloOrFirst Q c) : c.stale = false := by
  have : NoRace c := by
    induction h with
    | start => exact ⟨Or.inl rfl, fun _ _ => rfl, fun th ctl total F b hb => (by cases hb), rfl⟩
    | step _ hs ih => exact ih.step hs
  exact this.stale

/-- The hypothesis is met by a state of the first step with two threads, both in a callback. -/
example : ∃ c : Conf ℚ, CReach .imath {} grow SoloOrFirst AnyLits c ∧ c.p.thrs.length = 2 ∧ (∃ ctl, c.pc 0 = .prop1 ctl [1]) ∧ ∃ ctl, c.pc 1 = .prop0 ctl [1, 2] := by
  have key : ((Propagator.fresh {} : Propagator ℚ).init .imath mapLit prog4 (fun _ => env) 2).toOption.any (fun r => r.2 && decide (r.1.thrs.length = 2)) = true := by
    decide +kernel
  cases hi : (Propagator.fresh {} : Propagator ℚ).init .imath mapLit prog4 (fun _ => env) 2 with
  | error e => rw [hi] at key; cases key
  | ok r =>
    obtain ⟨p', ok⟩ := r
    rw [hi] at key
    simp only [Except.toOption, Option.any_some, Bool.and_eq_true, decide_eq_true_eq] at key
    obtain ⟨rfl, hlen⟩ := key
    have h10 : (1 : ℕ) ≠ 0 := by decide
    have s1 := (CReach.start (V := ℚ) (be := .imath) (opts := {}) (grow := grow) (I := SoloOrFirst) (Q := AnyLits)).step
      (.init mapLit prog4 (fun _ => env) 2 (fun _ => rfl) (Or.inr rfl) hi)
    have hthr : ∀ i, i < 2 → ∃ t, p'.thrs[i]? = some t := fun i h => ⟨_, List.getElem?_eq_getElem (by omega)⟩
    have may : ∀ i, i < 2 → ∀ lits : List ℤ, lvlOK (ctlOf 0 (nextFrames 0 lits []) true) (nextFrames 0 lits []) = true → ∃ gt,
        MayPropagate AnyLits p' { thrs := p'.thrs.zipIdx.map (fun t => ⟨[], false, fun l => ∃ O, O <+: t.1.slv.out ∧ ((fun _ => env) t.2 : InitEnv).isFalse O l = true, false⟩), reported := [], tops := [], oldTops := [], step := 1 } (ctlOf 0 (nextFrames 0 lits []) true) i lits gt := by
      intro i h2 lits hl
      obtain ⟨t, ht⟩ := hthr i h2
      refine ⟨⟨[], false, fun l => ∃ O, O <+: t.slv.out ∧ env.isFalse O l = true, false⟩, ?_, rfl, fun fr h => (by cases h), lvlOK_spec hl, ?_, trivial⟩
      · simp [List.getElem?_zipIdx, ht]
      · rintro l - ⟨O, -, h⟩; cases h
    obtain ⟨gt0, m0⟩ := may 0 (by decide) [1] (by decide +kernel)
    obtain ⟨gt1, m1⟩ := may 1 (by decide) [1, 2] (by decide +kernel)
    have s2 := s1.step (.propagate _ 1 [1, 2] rfl m1)
    have s3 := s2.step (.propagate _ 0 [1] (Conf.goto_ne _ h10.symm _) m0)
    have s4 := s3.step (.append 0 (Conf.goto_pc ..))
    rw [if_pos ⟨rfl, rfl⟩] at s4
    refine ⟨_, s4, hlen, ⟨_, Conf.goto_pc ..⟩, ⟨ctlOf 0 (nextFrames 0 [1, 2] []) true, ?_⟩⟩
    simp [Conf.goto, Conf.append, Function.update]

end Lpx.Props
