import Verif.Conc
import Verif.PropsAny

/-!
# Concurrent callbacks have the effect of atomic ones

Invariant: every state reached with concurrent callbacks corresponds to a state reached with atomic callbacks. A callback of `propagate` takes
effect when it has extended `facts_`, a callback of `check` when it reads the shared objective (or when asserting facts fails), a report of a
model when it updates the shared objective.
-/

set_option linter.unusedSectionVars false

namespace Lpx

variable {V : Type} [LpFull V] {be : Backend} {opts : Options} {grow : ℕ → ℕ → ℕ} {I : Propagator V → ℕ → Prop}
  {Q : Restr V}

/-- The restriction depends on the program and the state of the thread only. -/
def ProgOnly (Q : Restr V) : Prop :=
  (∀ p p' : Propagator V, p.prog = p'.prog → ∀ frames ctl lits, Q.prop p frames ctl lits → Q.prop p' frames ctl lits) ∧
  ∀ p p' : Propagator V, ∀ th, p.thrs[th]? = p'.thrs[th]? → ∀ frames, Q.undo p th frames → Q.undo p' th frames

/-- The thread is in the same state. -/
def SameThr (c : Conf V) (p : Propagator V) (g : Ghost V) (th : ℕ) : Prop := p.thrs[th]? = c.p.thrs[th]? ∧ g.thrs[th]? = c.g.thrs[th]?

/-- A thread in the middle of a callback compared with the thread before or after the callback. -/
def TR (Q : Restr V) (c : Conf V) (p : Propagator V) (g : Ghost V) (th : ℕ) : Prop :=
  match c.pc th with
  | .idle => SameThr c p g th
  | .prop0 ctl lits => SameThr c p g th ∧ ∃ gt, MayPropagate Q p g ctl th lits gt
  | .prop1 ctl lits => ∃ t gt fuel r, c.p.thrs[th]? = some t ∧ c.g.thrs[th]? = some gt ∧ t.slv.solve ctl fuel lits = some r ∧
      p.thrs[th]? = some { t with slv := r.1 } ∧
      g.thrs[th]? = some { gt with frames := nextFrames ctl.dl lits gt.frames, stuck := !r.2, checked := false }
  | .check0 ctl _ F => SameThr c p g th ∧ ∃ gt t, MayCheck p g ctl th gt t ∧ F = p.checkFrames ctl t gt.frames
  | .checkF ctl _ F _ => SameThr c p g th ∧ ∃ gt t, MayCheck p g ctl th gt t ∧ F = p.checkFrames ctl t gt.frames ∧ p.needFacts ctl t
  | .check1 ctl _ F => g.thrs[th]? = c.g.thrs[th]? ∧ ∃ gt t0 t, MayCheck p g ctl th gt t0 ∧ F = p.checkFrames ctl t0 gt.frames ∧
      c.p.thrs[th]? = some t ∧ ((¬ p.needFacts ctl t0 ∧ t = t0) ∨
        (p.needFacts ctl t0 ∧ ∃ fuel r, t0.slv.solve ctl fuel (p.factSpan t0) = some r ∧ r.2 = true ∧ t = ⟨p.factsOffset, r.1⟩))
  | .check2 ctl total F o => ∃ t gt fuel r, c.p.thrs[th]? = some t ∧ c.g.thrs[th]? = some gt ∧ t.slv.checkObj ctl fuel total o = some r ∧
      p.thrs[th]? = some { t with slv := r.1 } ∧
      g.thrs[th]? = some { gt with frames := F, stuck := false, checked := total && r.2 }
  | .model1 x => SameThr c p g th ∧ ∃ gt t, g.thrs[th]? = some gt ∧ gt.stuck = false ∧ p.thrs[th]? = some t ∧
      x = if c.p.opts.globalObjective.isNone then none else t.slv.getObjective

/-- A state with callbacks in progress compared with one where they are atomic. -/
structure Sim (Q : Restr V) (c : Conf V) (p : Propagator V) (g : Ghost V) : Prop where
  base : p = { c.p with thrs := p.thrs }
  gbase : g = { c.g with thrs := g.thrs }
  thr : ∀ th, TR Q c p g th

/-- What other threads must not change. -/
structure Frame2 (p p2 : Propagator V) (g g2 : Ghost V) (th : ℕ) : Prop where
  pt : p2.thrs[th]? = p.thrs[th]?
  gt : g2.thrs[th]? = g.thrs[th]?
  prog : p2.prog = p.prog
  foff : p2.factsOffset = p.factsOffset
  facts : p.facts <+: p2.facts
  opts : p2.opts = p.opts

theorem take_of_prefix {α : Type} {l l' : List α} (h : l <+: l') {n : ℕ} (hn : n ≤ l.length) : l'.take n = l.take n := by
  obtain ⟨r, rfl⟩ := h
  exact List.take_append_of_le_length hn

theorem Frame2.span {p p2 : Propagator V} {g g2 : Ghost V} {th : ℕ} (h : Frame2 p p2 g g2 th) (hs : StatInv opts p g) {t : Thr V}
    {gt : GThr} (hg : g.thrs[th]? = some gt) (ht : p.thrs[th]? = some t) {ctl : Ctl} (hn : p.needFacts ctl t) : p2.factSpan t = p.factSpan t := by
  obtain ⟨t', ht', ho⟩ := hs.thr th gt hg
  obtain rfl := Option.some.inj (ht.symm.trans ht')
  have h0 : t.offset = 0 := by
    rcases ho.off with h | h
    · exact h
    · have := hn.2; omega
  unfold Propagator.factSpan
  rw [h0, h.foff, List.drop_zero, List.drop_zero]
  refine take_of_prefix h.facts ?_
  rw [hs.foff, hs.facts]
  exact hs.old.length_le

theorem Frame2.need {p p2 : Propagator V} {g g2 : Ghost V} {th : ℕ} (h : Frame2 p p2 g g2 th) {t : Thr V} {ctl : Ctl} :
    p2.needFacts ctl t ↔ p.needFacts ctl t := by
  unfold Propagator.needFacts; rw [h.foff]

theorem Frame2.frames {p p2 : Propagator V} {g g2 : Ghost V} {th : ℕ} (h : Frame2 p p2 g g2 th) (hs : StatInv opts p g) {t : Thr V}
    {gt : GThr} (hg : g.thrs[th]? = some gt) (ht : p.thrs[th]? = some t) (ctl : Ctl) (F : List Frame) :
    p2.checkFrames ctl t F = p.checkFrames ctl t F := by
  unfold Propagator.checkFrames
  by_cases hn : p.needFacts ctl t
  · rw [if_pos hn, if_pos (h.need.2 hn), h.span hs hg ht hn]
  · rw [if_neg hn, if_neg (fun k => hn (h.need.1 k))]

theorem Frame2.mayCheck {p p2 : Propagator V} {g g2 : Ghost V} {th : ℕ} (h : Frame2 p p2 g g2 th) (hs : StatInv opts p g) {t : Thr V}
    {gt : GThr} {ctl : Ctl} (hm : MayCheck p g ctl th gt t) : MayCheck p2 g2 ctl th gt t := by
  have hf := h.frames hs hm.thr hm.slv ctl gt.frames
  refine ⟨h.gt.trans hm.thr, hm.ready, hm.dl, h.pt.trans hm.slv, by rw [hf]; exact hm.lvl, ?_, ?_⟩
  · intro l hl
    refine hm.dead l ?_
    unfold Propagator.pendingFacts at hl ⊢
    by_cases hn : p.needFacts ctl t
    · rw [if_pos (h.need.2 hn), h.span hs hm.thr hm.slv hn] at hl; rw [if_pos hn]; exact hl
    · rw [if_neg (fun k => hn (h.need.1 k))] at hl; rw [if_neg hn]; exact hl
  · rw [hf]
    exact ⟨hm.fresh.act, by rw [h.prog]; exact hm.fresh.iqs⟩

theorem Frame2.mayPropagate {p p2 : Propagator V} {g g2 : Ghost V} {th : ℕ} (h : Frame2 p p2 g g2 th) (hQ : ProgOnly Q)
    {gt : GThr} {ctl : Ctl} {lits : List ℤ} (hm : MayPropagate Q p g ctl th lits gt) : MayPropagate Q p2 g2 ctl th lits gt :=
  ⟨h.gt.trans hm.thr, hm.ready, hm.dl, hm.lvl, hm.dead, hQ.1 p p2 h.prog.symm _ _ _ hm.restr⟩

/-- Steps of other threads. -/
theorem TR.frame {c c2 : Conf V} {p p2 : Propagator V} {g g2 : Ghost V} {th : ℕ} (hQ : ProgOnly Q) (hs : StatInv opts p g)
    (h : TR Q c p g th) (hf : Frame2 p p2 g g2 th) (hpc : c2.pc th = c.pc th) (hct : c2.p.thrs[th]? = c.p.thrs[th]?)
    (hcg : c2.g.thrs[th]? = c.g.thrs[th]?) (hco : c2.p.opts = c.p.opts) : TR Q c2 p2 g2 th := by
  have same : SameThr c p g th → SameThr c2 p2 g2 th := fun k => ⟨by rw [hf.pt, hct]; exact k.1, by rw [hf.gt, hcg]; exact k.2⟩
  unfold TR at h ⊢
  rw [hpc]
  cases hc : c.pc th with
  | idle => simp only [hc] at h ⊢; exact same h
  | prop0 ctl lits =>
    simp only [hc] at h ⊢
    obtain ⟨h1, gt, h2⟩ := h
    exact ⟨same h1, gt, hf.mayPropagate hQ h2⟩
  | prop1 ctl lits =>
    simp only [hc] at h ⊢
    rw [hct, hcg, hf.pt, hf.gt]; exact h
  | check0 ctl total F =>
    simp only [hc] at h ⊢
    obtain ⟨h1, gt, t, h2, h3⟩ := h
    exact ⟨same h1, gt, t, hf.mayCheck hs h2, h3.trans (hf.frames hs h2.thr h2.slv _ _).symm⟩
  | checkF ctl total F b =>
    simp only [hc] at h ⊢
    obtain ⟨h1, gt, t, h2, h3, h4⟩ := h
    exact ⟨same h1, gt, t, hf.mayCheck hs h2, h3.trans (hf.frames hs h2.thr h2.slv _ _).symm, hf.need.2 h4⟩
  | check1 ctl total F =>
    simp only [hc] at h ⊢
    obtain ⟨h1, gt, t0, t, h2, h3, h4, h5⟩ := h
    refine ⟨by rw [hf.gt, hcg]; exact h1, gt, t0, t, hf.mayCheck hs h2, h3.trans (hf.frames hs h2.thr h2.slv _ _).symm, hct.trans h4, ?_⟩
    rcases h5 with ⟨h5, h6⟩ | ⟨h5, fuel, r, h6, h7, h8⟩
    · exact Or.inl ⟨fun k => h5 (hf.need.1 k), h6⟩
    · exact Or.inr ⟨hf.need.2 h5, fuel, r, by rw [hf.span hs h2.thr h2.slv h5]; exact h6, h7, by rw [hf.foff]; exact h8⟩
  | check2 ctl total F o =>
    simp only [hc] at h ⊢
    rw [hct, hcg, hf.pt, hf.gt]; exact h
  | model1 x =>
    simp only [hc] at h ⊢
    obtain ⟨h1, h2⟩ := h
    refine ⟨same h1, ?_⟩
    rw [hf.pt, hf.gt, hco]; exact h2

@[simp] theorem Conf.goto_pc (c : Conf V) (th : ℕ) (x : Pc V) : (c.goto th x).pc th = x := Function.update_self ..

theorem Conf.goto_ne (c : Conf V) {th th' : ℕ} (h : th' ≠ th) (x : Pc V) : (c.goto th x).pc th' = c.pc th' := Function.update_of_ne h ..

theorem set_ne {α : Type} {l : List α} {i j : ℕ} (h : j ≠ i) (a : α) : (l.set i a)[j]? = l[j]? := List.getElem?_set_ne (Ne.symm h)

theorem solve_det {s : S V} {ctl : Ctl} {f f' : ℕ} {lits : List ℤ} {r r' : S V × Bool} (h : s.solve ctl f lits = some r)
    (h' : s.solve ctl f' lits = some r') : r = r' :=
  Option.some.inj ((solve_mono h (Nat.le_max_left f f')).symm.trans (solve_mono h' (Nat.le_max_right f f')))

theorem checkObj_mono {s : S V} {ctl : Ctl} {f f' : ℕ} {total : Bool} {o : ObjState V} {r : S V × Bool} (h : s.checkObj ctl f total o = some r)
    (hle : f ≤ f') : s.checkObj ctl f' total o = some r := by
  unfold S.checkObj at h ⊢
  simp only at h ⊢
  split at h
  · rename_i h1; rw [if_pos h1]; exact h
  · rename_i h1
    rw [if_neg h1]
    split at h
    · rename_i h2; rw [if_pos h2]; exact checkTotal_mono h hle
    · rename_i h2; rw [if_neg h2]; exact h

theorem checkObj_det {s : S V} {ctl : Ctl} {f f' : ℕ} {total : Bool} {o : ObjState V} {r r' : S V × Bool} (h : s.checkObj ctl f total o = some r)
    (h' : s.checkObj ctl f' total o = some r') : r = r' :=
  Option.some.inj ((checkObj_mono h (Nat.le_max_left f f')).symm.trans (checkObj_mono h' (Nat.le_max_right f f')))

/-- Steps of one thread. -/
theorem Sim.one {c c2 : Conf V} {p p2 : Propagator V} {g g2 : Ghost V} {th : ℕ} (hQ : ProgOnly Q) (hs : StatInv opts p g) (h : Sim Q c p g)
    (hb : p2 = { c2.p with thrs := p2.thrs }) (hgb : g2 = { c2.g with thrs := g2.thrs }) (ht : TR Q c2 p2 g2 th)
    (hf : ∀ th', th' ≠ th → p2.thrs[th']? = p.thrs[th']? ∧ g2.thrs[th']? = g.thrs[th']? ∧ c2.pc th' = c.pc th' ∧
      c2.p.thrs[th']? = c.p.thrs[th']? ∧ c2.g.thrs[th']? = c.g.thrs[th']?)
    (hprog : c2.p.prog = c.p.prog) (hfo : c2.p.factsOffset = c.p.factsOffset) (hfa : c.p.facts <+: c2.p.facts) (ho : c2.p.opts = c.p.opts) :
    Sim Q c2 p2 g2 := by
  refine ⟨hb, hgb, fun th' => ?_⟩
  by_cases he : th' = th
  · rw [he]; exact ht
  · obtain ⟨h1, h2, h3, h4, h5⟩ := hf th' he
    refine (h.thr th').frame hQ hs ⟨h1, h2, ?_, ?_, ?_, ?_⟩ h3 h4 h5 ho
    · rw [hb, h.base]; exact hprog
    · rw [hb, h.base]; exact hfo
    · rw [hb, h.base]; exact hfa
    · rw [hb, h.base]; exact ho

theorem SameThr.of {c : Conf V} {p : Propagator V} {g : Ghost V} {th : ℕ} (h : TR Q c p g th) (hpc : c.pc th = .idle) : SameThr c p g th := by
  unfold TR at h; rw [hpc] at h; exact h

theorem Sim.prog {c : Conf V} {p : Propagator V} {g : Ghost V} (h : Sim Q c p g) : p.prog = c.p.prog := by rw [h.base]
theorem Sim.foff {c : Conf V} {p : Propagator V} {g : Ghost V} (h : Sim Q c p g) : p.factsOffset = c.p.factsOffset := by rw [h.base]
theorem Sim.facts {c : Conf V} {p : Propagator V} {g : Ghost V} (h : Sim Q c p g) : p.facts = c.p.facts := by rw [h.base]
theorem Sim.options {c : Conf V} {p : Propagator V} {g : Ghost V} (h : Sim Q c p g) : p.opts = c.p.opts := by rw [h.base]
theorem Sim.obj {c : Conf V} {p : Propagator V} {g : Ghost V} (h : Sim Q c p g) : p.obj = c.p.obj := by rw [h.base]

theorem Sim.checkFrames {c : Conf V} {p : Propagator V} {g : Ghost V} (h : Sim Q c p g) (ctl : Ctl) (t : Thr V) (F : List Frame) :
    p.checkFrames ctl t F = c.p.checkFrames ctl t F := by
  rw [h.base]; rfl

theorem Sim.factSpan {c : Conf V} {p : Propagator V} {g : Ghost V} (h : Sim Q c p g) (t : Thr V) : p.factSpan t = c.p.factSpan t := by
  rw [h.base]; rfl

theorem Sim.need {c : Conf V} {p : Propagator V} {g : Ghost V} (h : Sim Q c p g) (ctl : Ctl) (t : Thr V) : p.needFacts ctl t ↔ c.p.needFacts ctl t := by
  rw [h.base]; rfl

theorem Sim.mayPropagate {c : Conf V} {p : Propagator V} {g : Ghost V} (hQ : ProgOnly Q) (h : Sim Q c p g) {th : ℕ} (hs : SameThr c p g th) {gt : GThr} {ctl : Ctl}
    {lits : List ℤ} (hm : MayPropagate Q c.p c.g ctl th lits gt) : MayPropagate Q p g ctl th lits gt :=
  ⟨hs.2.trans hm.thr, hm.ready, hm.dl, hm.lvl, hm.dead, hQ.1 _ _ h.prog.symm _ _ _ hm.restr⟩

theorem Sim.mayCheck {c : Conf V} {p : Propagator V} {g : Ghost V} (h : Sim Q c p g) {th : ℕ} (hs : SameThr c p g th) {gt : GThr} {t : Thr V} {ctl : Ctl}
    (hm : MayCheck c.p c.g ctl th gt t) : MayCheck p g ctl th gt t := by
  refine ⟨hs.2.trans hm.thr, hm.ready, hm.dl, hs.1.trans hm.slv, by rw [h.checkFrames]; exact hm.lvl, ?_, ?_⟩
  · intro l hl
    refine hm.dead l ?_
    rw [h.base] at hl; exact hl
  · rw [h.checkFrames]
    exact ⟨hm.fresh.act, by rw [h.prog]; exact hm.fresh.iqs⟩

/-- Steps that change nothing but the position of the thread. -/
theorem Sim.move {c : Conf V} {p : Propagator V} {g : Ghost V} {th : ℕ} (hQ : ProgOnly Q) (hs : StatInv opts p g) (h : Sim Q c p g) {x : Pc V}
    (ht : TR Q (c.goto th x) p g th) : Sim Q (c.goto th x) p g :=
  h.one hQ hs h.base h.gbase ht (fun th' hne => ⟨rfl, rfl, c.goto_ne hne x, rfl, rfl⟩) rfl rfl List.prefix_rfl rfl

theorem TR.at {c : Conf V} {p : Propagator V} {g : Ghost V} {th : ℕ} (h : TR Q c p g th) {x : Pc V} (hpc : c.pc th = x) :
    TR Q (c.goto th x) p g th := by
  have : (c.goto th x).pc th = c.pc th := by rw [c.goto_pc, hpc]
  unfold TR at h ⊢; rw [this]; exact h

/-- Some call of `check` never ends, even if callbacks are atomic. -/
def Hangs (be : Backend) (opts : Options) (Q : Restr V) : Prop :=
  ∃ (p : Propagator V) (g : Ghost V) (ctl : Ctl) (total : Bool) (th : ℕ) (gt : GThr) (t : Thr V), Reach be opts Q p g ∧ MayCheck p g ctl th gt t ∧
    ∀ fuel, p.check fuel ctl total th = none

/-- The result of the simulation of one step. -/
def SimRes (be : Backend) (opts : Options) (Q : Restr V) (c : Conf V) : Prop :=
  (∃ th, Diverges c th ∧ Hangs be opts Q) ∨ ∃ p g, Reach be opts Q p g ∧ Sim Q c p g

theorem sim_move {c : Conf V} {p : Propagator V} {g : Ghost V} {th : ℕ} (hQ : ProgOnly Q) (hr : Reach be opts Q p g) (h : Sim Q c p g) {x : Pc V}
    (ht : TR Q (c.goto th x) p g th) : SimRes be opts Q (c.goto th x) := Or.inr ⟨p, g, hr, h.move hQ hr.stat ht⟩

theorem sim_append {c : Conf V} {p : Propagator V} {g : Ghost V} (hQ : ProgOnly Q) (hr : Reach be opts Q p g) (h : Sim Q c p g) (th : ℕ)
    {ctl : Ctl} {lits : List ℤ} (hpc : c.pc th = .prop0 ctl lits) :
    SimRes be opts Q ((if ctl.dl = 0 ∧ th = 0 then c.append grow lits else c).goto th (.prop1 ctl lits)) := by
  have ht := h.thr th
  unfold TR at ht
  simp only [hpc] at ht
  obtain ⟨hs, gt, hm⟩ := ht
  obtain ⟨⟨p2, ok⟩, hp⟩ := Props.C04_propagate_terminates hr hm
  have hp := hp _ (Nat.lt_succ_self _)
  obtain ⟨t, hpt, -⟩ := hr.stat.thr th gt hm.thr
  obtain ⟨s', hsv, hp2⟩ := (propagate_eq hpt).1 hp
  refine Or.inr ⟨_, _, hr.step (Step.propagate _ ctl th lits hm hp), ?_⟩
  rw [hp2]
  refine h.one (th := th) hQ hr.stat ?_ ?_ ?_ ?_ ?_ ?_ ?_ ?_
  · rw [h.base]
    by_cases hc : ctl.dl = 0 ∧ th = 0
    · simp only [if_pos hc]; rfl
    · simp only [if_neg hc]; rfl
  · rw [h.gbase]
    by_cases hc : ctl.dl = 0 ∧ th = 0
    · simp only [if_pos hc]; rfl
    · simp only [if_neg hc]; rfl
  · unfold TR
    simp only [Conf.goto_pc]
    have e1 : ((if ctl.dl = 0 ∧ th = 0 then c.append grow lits else c).goto th (.prop1 ctl lits)).p.thrs = c.p.thrs := by
      by_cases hc : ctl.dl = 0 ∧ th = 0
      · rw [if_pos hc]; rfl
      · rw [if_neg hc]; rfl
    have e2 : ((if ctl.dl = 0 ∧ th = 0 then c.append grow lits else c).goto th (.prop1 ctl lits)).g.thrs = c.g.thrs := by
      by_cases hc : ctl.dl = 0 ∧ th = 0
      · rw [if_pos hc]; rfl
      · rw [if_neg hc]; rfl
    rw [e1, e2]
    exact ⟨t, gt, _, (s', ok), hs.1.symm.trans hpt, hs.2.symm.trans hm.thr, hsv, getElem?_set_some hpt, getElem?_set_some hm.thr⟩
  · intro th' hne
    refine ⟨set_ne hne _, set_ne hne _, ?_, ?_, ?_⟩
    · refine (Conf.goto_ne _ hne _).trans ?_
      split <;> rfl
    · by_cases hc : ctl.dl = 0 ∧ th = 0
      · rw [if_pos hc]; rfl
      · rw [if_neg hc]; rfl
    · by_cases hc : ctl.dl = 0 ∧ th = 0
      · rw [if_pos hc]; rfl
      · rw [if_neg hc]; rfl
  · split <;> rfl
  · split <;> rfl
  · split
    · exact List.prefix_append ..
    · exact List.prefix_rfl
  · split <;> rfl

/-- `check` in three parts. -/
theorem check_parts {p : Propagator V} {g : Ghost V} {ctl : Ctl} {th : ℕ} {gt : GThr} {t0 t : Thr V} (hm : MayCheck p g ctl th gt t0)
    (h : (¬ p.needFacts ctl t0 ∧ t = t0) ∨
      (p.needFacts ctl t0 ∧ ∃ fuel r, t0.slv.solve ctl fuel (p.factSpan t0) = some r ∧ r.2 = true ∧ t = ⟨p.factsOffset, r.1⟩)) :
    ∃ f, ∀ fuel, f ≤ fuel → p.checkFacts fuel ctl th = some (p.setThr th t, true) := by
  rcases h with ⟨h1, rfl⟩ | ⟨h1, f, r, h2, h3, rfl⟩
  · refine ⟨0, fun fuel _ => ?_⟩
    unfold Propagator.checkFacts
    simp only [hm.slv, if_neg h1]
    have : p.setThr th t = p := by
      unfold Propagator.setThr
      obtain ⟨hl, he⟩ := List.getElem?_eq_some_iff.1 hm.slv
      rw [← he, List.set_getElem_self]
    rw [this]
  · refine ⟨f, fun fuel hf => ?_⟩
    unfold Propagator.checkFacts
    simp only [hm.slv, if_pos h1, solve_mono h2 hf]
    rw [h3]

theorem sim_readObj {c : Conf V} {p : Propagator V} {g : Ghost V} (hQ : ProgOnly Q) (hr : Reach be opts Q p g) (h : Sim Q c p g) (th : ℕ)
    {ctl : Ctl} {total : Bool} {F : List Frame} (hpc : c.pc th = .check1 ctl total F) :
    SimRes be opts Q (c.goto th (.check2 ctl total F c.p.obj)) := by
  have ht := h.thr th
  unfold TR at ht
  simp only [hpc] at ht
  obtain ⟨hg, gt, t0, t, hm, hF, hct, hd⟩ := ht
  by_cases hdiv : ∀ fuel, t.slv.checkObj ctl fuel total c.p.obj = none
  · refine Or.inl ⟨th, ?_, p, g, ctl, total, th, gt, t0, hr, hm, fun fuel => ?_⟩
    · unfold Diverges
      simp only [Conf.goto_pc]
      exact ⟨t, hct, hdiv⟩
    · obtain ⟨f2, hf2⟩ := check_parts hm hd
      by_contra hne
      obtain ⟨r, hr1⟩ := Option.ne_none_iff_exists'.1 hne
      unfold Propagator.check at hr1
      cases hcf : p.checkFacts fuel ctl th with
      | none => rw [hcf] at hr1; cases hr1
      | some q =>
        have h1 := checkFacts_mono hcf (Nat.le_max_left fuel f2)
        have h2 := hf2 (max fuel f2) (Nat.le_max_right ..)
        obtain rfl := Option.some.inj (h1.symm.trans h2)
        rw [hcf] at hr1
        simp only [if_true] at hr1
        unfold Propagator.checkObj at hr1
        have hset : (p.setThr th t).thrs[th]? = some t := getElem?_set_some hm.slv
        have hobj : (p.setThr th t).obj = c.p.obj := h.obj
        simp only [hset, hobj, hdiv fuel] at hr1
        cases hr1
  push Not at hdiv
  obtain ⟨f1, hne⟩ := hdiv
  obtain ⟨r, hr1⟩ := Option.ne_none_iff_exists'.1 hne
  obtain ⟨f2, hf2⟩ := check_parts hm hd
  have h1 := hf2 (max f1 f2) (Nat.le_max_right ..)
  have h2 := checkObj_mono hr1 (Nat.le_max_left f1 f2)
  have hset : (p.setThr th t).thrs[th]? = some t := getElem?_set_some hm.slv
  have hchk : p.check (max f1 f2) ctl total th = some ((p.setThr th t).setThr th { t with slv := r.1 }, r.2) := by
    unfold Propagator.check
    simp only [h1, if_true]
    unfold Propagator.checkObj
    simp only [hset]
    have : (p.setThr th t).obj = c.p.obj := h.obj
    rw [this, h2]
  have hok : p.factsOk (max f1 f2) ctl th = true := by unfold Propagator.factsOk; rw [h1]
  refine Or.inr ⟨_, _, hr.step (Step.check (max f1 f2) ctl total th hm hchk), ?_⟩
  refine h.one (th := th) hQ hr.stat ?_ ?_ ?_ ?_ rfl rfl List.prefix_rfl rfl
  · rw [h.base]; rfl
  · rw [h.gbase]; rfl
  · unfold TR
    simp only [Conf.goto_pc]
    refine ⟨t, gt, max f1 f2, r, hct, hg.symm.trans hm.thr, h2, getElem?_set_some hset, ?_⟩
    rw [hF, hok]
    exact getElem?_set_some hm.thr
  · intro th' hne
    refine ⟨?_, set_ne hne _, Conf.goto_ne _ hne _, rfl, rfl⟩
    exact (set_ne hne _).trans (set_ne hne _)

theorem sim_factsConflict {c : Conf V} {p : Propagator V} {g : Ghost V} (hQ : ProgOnly Q) (hr : Reach be opts Q p g) (h : Sim Q c p g) (fuel th : ℕ)
    {ctl : Ctl} {total : Bool} {F : List Frame} {b : ℕ} {t : Thr V} {gt : GThr} {r : S V × Bool} (hpc : c.pc th = .checkF ctl total F b)
    (hct : c.p.thrs[th]? = some t) (hcg : c.g.thrs[th]? = some gt) (hsv : t.slv.solve ctl fuel (c.p.factSpan t) = some r) (hr2 : r.2 = false) :
    SimRes be opts Q ((c.upd th ⟨c.p.factsOffset, r.1⟩ { gt with frames := F, stuck := true, checked := false }).goto th .idle) := by
  have ht := h.thr th
  unfold TR at ht
  simp only [hpc] at ht
  obtain ⟨hs, gt', t', hm, hF, hn⟩ := ht
  obtain rfl := Option.some.inj (hct.symm.trans (hs.1.symm.trans hm.slv))
  obtain rfl := Option.some.inj (hcg.symm.trans (hs.2.symm.trans hm.thr))
  have h1 : p.checkFacts fuel ctl th = some (p.setThr th ⟨p.factsOffset, r.1⟩, r.2) := by
    unfold Propagator.checkFacts
    simp only [hm.slv, if_pos hn, h.factSpan, hsv]
  have hchk : p.check fuel ctl total th = some (p.setThr th ⟨p.factsOffset, r.1⟩, r.2) := by
    unfold Propagator.check
    simp [h1, hr2]
  have hok : p.factsOk fuel ctl th = false := by unfold Propagator.factsOk; rw [h1]; exact hr2
  refine Or.inr ⟨_, _, hr.step (Step.check fuel ctl total th hm hchk), ?_⟩
  refine h.one (th := th) hQ hr.stat ?_ ?_ ?_ ?_ rfl rfl List.prefix_rfl rfl
  · rw [h.base]; rfl
  · rw [h.gbase]; rfl
  · unfold TR
    simp only [Conf.goto_pc]
    refine ⟨(getElem?_set_some hm.slv).trans ?_, (getElem?_set_some hm.thr).trans ?_⟩
    · rw [h.foff]; exact (getElem?_set_some hct).symm
    · rw [hok, hr2, hF, Bool.and_false]
      exact (getElem?_set_some hcg).symm
  · intro th' hne
    exact ⟨set_ne hne _, set_ne hne _, Conf.goto_ne _ hne _, set_ne hne _, set_ne hne _⟩

theorem Diverges.keep {c c2 : Conf V} {th : ℕ} (h : Diverges c th) (hpc : c2.pc th = c.pc th) (ht : c2.p.thrs[th]? = c.p.thrs[th]?) : Diverges c2 th := by
  unfold Diverges at h ⊢; rw [hpc, ht]; exact h

/-- A thread that never finishes its callback. -/
theorem Diverges.step {c c2 : Conf V} {th : ℕ} (h : Diverges c th) (hs : CStep be grow I Q c c2) (hst : c2.stale = false) : Diverges c2 th := by
  cases hs with
  | init _ _ _ _ hidle => unfold Diverges at h; rw [hidle th] at h; exact h.elim
  | fail _ _ _ _ hidle => unfold Diverges at h; rw [hidle th] at h; exact h.elim
  | propagate ctl th' lits hpc hm =>
    by_cases he : th = th'
    · subst he; unfold Diverges at h; rw [hpc] at h; exact h.elim
    · exact h.keep (Conf.goto_ne _ he _) rfl
  | @append th' ctl lits hpc =>
    by_cases he : th = th'
    · subst he; unfold Diverges at h; rw [hpc] at h; exact h.elim
    · refine h.keep ((Conf.goto_ne _ he _).trans ?_) ?_
      · split <;> rfl
      · by_cases hc : ctl.dl = 0 ∧ th' = 0
        · rw [if_pos hc]; rfl
        · rw [if_neg hc]; rfl
  | solve fuel th' hpc hct hcg hsv =>
    by_cases he : th = th'
    · subst he; unfold Diverges at h; rw [hpc] at h
      obtain ⟨t, h1, h2⟩ := h
      obtain rfl := Option.some.inj (hct.symm.trans h1)
      rw [h2 fuel] at hsv; cases hsv
    · exact h.keep (Conf.goto_ne _ he _) (set_ne he _)
  | check ctl total th' hpc hm =>
    by_cases he : th = th'
    · subst he; unfold Diverges at h; rw [hpc] at h; exact h.elim
    · exact h.keep (Conf.goto_ne _ he _) rfl
  | noFacts th' hpc =>
    by_cases he : th = th'
    · subst he; unfold Diverges at h; rw [hpc] at h; exact h.elim
    · exact h.keep (Conf.goto_ne _ he _) rfl
  | span th' hpc =>
    by_cases he : th = th'
    · subst he; unfold Diverges at h; rw [hpc] at h; exact h.elim
    · exact h.keep (Conf.goto_ne _ he _) rfl
  | facts fuel th' hpc =>
    by_cases he : th = th'
    · subst he; unfold Diverges at h; rw [hpc] at h; exact h.elim
    · exact h.keep (Conf.goto_ne _ he _) (set_ne he _)
  | factsConflict fuel th' hpc =>
    by_cases he : th = th'
    · subst he; unfold Diverges at h; rw [hpc] at h; exact h.elim
    · exact h.keep (Conf.goto_ne _ he _) (set_ne he _)
  | dangling th' hpc hb hs' => rw [hst] at hs'; cases hs'
  | readObj th' hpc =>
    by_cases he : th = th'
    · subst he; unfold Diverges at h; rw [hpc] at h; exact h.elim
    · exact h.keep (Conf.goto_ne _ he _) rfl
  | finish fuel th' hpc hct hcg hsv =>
    by_cases he : th = th'
    · subst he; unfold Diverges at h; rw [hpc] at h
      obtain ⟨t, h1, h2⟩ := h
      obtain rfl := Option.some.inj (hct.symm.trans h1)
      rw [h2 fuel] at hsv; cases hsv
    · exact h.keep (Conf.goto_ne _ he _) (set_ne he _)
  | undo th' hpc =>
    by_cases he : th = th'
    · subst he; unfold Diverges at h; rw [hpc] at h; exact h.elim
    · exact h.keep rfl (set_ne he _)
  | model th' hpc =>
    by_cases he : th = th'
    · subst he; unfold Diverges at h; rw [hpc] at h; exact h.elim
    · exact h.keep (Conf.goto_ne _ he _) rfl
  | report th' hpc =>
    by_cases he : th = th'
    · subst he; unfold Diverges at h; rw [hpc] at h; exact h.elim
    · exact h.keep (Conf.goto_ne _ he _) rfl

theorem stale_step {c c2 : Conf V} (hs : CStep be grow I Q c c2) (h : c2.stale = false) : c.stale = false := by
  cases hs
  case dangling h3 => rw [h] at h3; cases h3
  case append hpc =>
    refine Eq.trans ?_ h
    unfold Conf.goto
    split <;> rfl
  all_goals exact h

theorem Sim.all {c : Conf V} {p : Propagator V} {g : Ghost V} (h : Sim Q c p g) (hi : ∀ th, c.pc th = .idle) : p = c.p ∧ g = c.g := by
  have h1 : p.thrs = c.p.thrs := List.ext_getElem? fun th => (SameThr.of (h.thr th) (hi th)).1
  have h2 : g.thrs = c.g.thrs := List.ext_getElem? fun th => (SameThr.of (h.thr th) (hi th)).2
  exact ⟨by rw [h.base, h1], by rw [h.gbase, h2]⟩

theorem Sim.idle {c : Conf V} {p : Propagator V} {g : Ghost V} (hi : ∀ th, c.pc th = .idle) (hp : p = c.p) (hg : g = c.g) : Sim Q c p g := by
  subst hp hg
  refine ⟨rfl, rfl, fun th => ?_⟩
  unfold TR; rw [hi th]; exact ⟨rfl, rfl⟩

theorem sim_step {c c2 : Conf V} {p : Propagator V} {g : Ghost V} (hQ : ProgOnly Q) (hr : Reach be opts Q p g) (h : Sim Q c p g)
    (hs : CStep be grow I Q c c2) (hst : c2.stale = false) : SimRes be opts Q c2 := by
  cases hs with
  | init mapper atoms envs n hidle hI hi =>
    obtain ⟨rfl, rfl⟩ := h.all hidle
    exact Or.inr ⟨_, _, hr.step (Step.init mapper atoms envs n hi), Sim.idle hidle rfl rfl⟩
  | fail mapper atoms envs n hidle hi ha =>
    obtain ⟨rfl, rfl⟩ := h.all hidle
    exact Or.inr ⟨_, _, hr.step (Step.fail mapper atoms envs n hi ha), Sim.idle hidle rfl rfl⟩
  | @propagate ctl th lits gt hpc hm =>
    have hsm := SameThr.of (h.thr th) hpc
    refine sim_move hQ hr h ?_
    unfold TR; simp only [Conf.goto_pc]
    exact ⟨hsm, gt, h.mayPropagate hQ hsm hm⟩
  | append th hpc => exact sim_append hQ hr h th hpc
  | @solve fuel th ctl lits t gt r hpc hct hcg hsv =>
    have ht := h.thr th
    unfold TR at ht
    simp only [hpc] at ht
    obtain ⟨t', gt', f', r', h1, h2, h3, h4, h5⟩ := ht
    obtain rfl := Option.some.inj (hct.symm.trans h1)
    obtain rfl := Option.some.inj (hcg.symm.trans h2)
    obtain rfl := solve_det hsv h3
    refine Or.inr ⟨p, g, hr, h.one (th := th) hQ hr.stat ?_ ?_ ?_ ?_ rfl rfl List.prefix_rfl rfl⟩
    · exact h.base
    · exact h.gbase
    · unfold TR
      simp only [Conf.goto_pc]
      exact ⟨h4.trans (getElem?_set_some hct).symm, h5.trans (getElem?_set_some hcg).symm⟩
    · intro th' hne
      exact ⟨rfl, rfl, Conf.goto_ne _ hne _, set_ne hne _, set_ne hne _⟩
  | @check ctl total th gt t hpc hm =>
    have hsm := SameThr.of (h.thr th) hpc
    refine sim_move hQ hr h ?_
    unfold TR; simp only [Conf.goto_pc]
    exact ⟨hsm, gt, t, h.mayCheck hsm hm, (h.checkFrames _ _ _).symm⟩
  | @noFacts th ctl total F t hpc hct hn =>
    have ht := h.thr th
    unfold TR at ht
    simp only [hpc] at ht
    obtain ⟨hsm, gt, t', hm, hF⟩ := ht
    obtain rfl := Option.some.inj (hct.symm.trans (hsm.1.symm.trans hm.slv))
    refine sim_move hQ hr h ?_
    unfold TR; simp only [Conf.goto_pc]
    exact ⟨hsm.2, gt, t, t, hm, hF, hct, Or.inl ⟨fun k => hn ((h.need _ _).1 k), rfl⟩⟩
  | @span th ctl total F t hpc hct hn =>
    have ht := h.thr th
    unfold TR at ht
    simp only [hpc] at ht
    obtain ⟨hsm, gt, t', hm, hF⟩ := ht
    obtain rfl := Option.some.inj (hct.symm.trans (hsm.1.symm.trans hm.slv))
    refine sim_move hQ hr h ?_
    unfold TR; simp only [Conf.goto_pc]
    exact ⟨hsm, gt, t, hm, hF, (h.need _ _).2 hn⟩
  | @facts fuel th ctl total F t r hpc hct hsv hr2 =>
    have ht := h.thr th
    unfold TR at ht
    simp only [hpc] at ht
    obtain ⟨hsm, gt, t', hm, hF, hn⟩ := ht
    obtain rfl := Option.some.inj (hct.symm.trans (hsm.1.symm.trans hm.slv))
    refine Or.inr ⟨p, g, hr, h.one (th := th) hQ hr.stat ?_ ?_ ?_ ?_ rfl rfl List.prefix_rfl rfl⟩
    · exact h.base
    · exact h.gbase
    · unfold TR
      simp only [Conf.goto_pc]
      refine ⟨hsm.2, gt, t, ⟨c.p.factsOffset, r.1⟩, hm, hF, getElem?_set_some hct, Or.inr ⟨hn, fuel, r, ?_, hr2, by rw [h.foff]⟩⟩
      rw [h.factSpan]; exact hsv
    · intro th' hne
      exact ⟨rfl, rfl, Conf.goto_ne _ hne _, set_ne hne _, rfl⟩
  | factsConflict fuel th hpc hct hcg hsv hr2 => exact sim_factsConflict hQ hr h fuel th hpc hct hcg hsv hr2
  | dangling th' hpc hb hs' => rw [hst] at hs'; cases hs'
  | readObj th hpc => exact sim_readObj hQ hr h th hpc
  | @finish fuel th ctl total F o t gt r hpc hct hcg hsv =>
    have ht := h.thr th
    unfold TR at ht
    simp only [hpc] at ht
    obtain ⟨t', gt', f', r', h1, h2, h3, h4, h5⟩ := ht
    obtain rfl := Option.some.inj (hct.symm.trans h1)
    obtain rfl := Option.some.inj (hcg.symm.trans h2)
    obtain rfl := checkObj_det hsv h3
    refine Or.inr ⟨p, g, hr, h.one (th := th) hQ hr.stat ?_ ?_ ?_ ?_ rfl rfl List.prefix_rfl rfl⟩
    · exact h.base
    · exact h.gbase
    · unfold TR
      simp only [Conf.goto_pc]
      exact ⟨h4.trans (getElem?_set_some hct).symm, h5.trans (getElem?_set_some hcg).symm⟩
    · intro th' hne
      exact ⟨rfl, rfl, Conf.goto_ne _ hne _, set_ne hne _, set_ne hne _⟩
  | @undo th gt fr frs t hpc hcg hfr hl hct hQu =>
    have hsm := SameThr.of (h.thr th) hpc
    have hg := hsm.2.trans hcg
    have hp := hsm.1.trans hct
    have hu : p.undo th = some (p.setThr th { t with slv := t.slv.undo }) := by unfold Propagator.undo; rw [hp]
    refine Or.inr ⟨_, _, hr.step (Step.undo th hg hfr hl hu (hQ.2 _ _ th ((getElem?_set_some hct).trans (getElem?_set_some hp).symm) _ hQu)), h.one (th := th) hQ hr.stat ?_ ?_ ?_ ?_ rfl rfl List.prefix_rfl rfl⟩
    · rw [h.base]; rfl
    · rw [h.gbase]; rfl
    · unfold TR
      have : (c.upd th { t with slv := t.slv.undo } { gt with frames := frs, stuck := false, checked := false }).pc th = .idle := hpc
      rw [this]
      exact ⟨(getElem?_set_some hp).trans (getElem?_set_some hct).symm, (getElem?_set_some hg).trans (getElem?_set_some hcg).symm⟩
    · intro th' hne
      exact ⟨set_ne hne _, set_ne hne _, rfl, set_ne hne _, set_ne hne _⟩
  | @model th gt t hpc hcg hst2 hct =>
    have hsm := SameThr.of (h.thr th) hpc
    refine sim_move hQ hr h ?_
    unfold TR; simp only [Conf.goto_pc]
    exact ⟨hsm, gt, t, hsm.2.trans hcg, hst2, hsm.1.trans hct, rfl⟩
  | @report th x hpc =>
    have ht := h.thr th
    unfold TR at ht
    simp only [hpc] at ht
    obtain ⟨hsm, gt, t, hg, hst2, hp, hx⟩ := ht
    have hon : p.onModel th = some { p with obj := p.obj.report x } := by
      unfold Propagator.onModel
      simp only [hp]
      rw [← h.options] at hx
      by_cases hgo : p.opts.globalObjective.isNone = true
      · rw [if_pos hgo] at hx ⊢; subst hx; rfl
      · rw [if_neg hgo] at hx ⊢
        subst hx
        cases t.slv.getObjective <;> rfl
    have hrep : (if p.opts.globalObjective.isSome then p.objectiveOf th else []) = x.toList := by
      unfold Propagator.objectiveOf
      simp only [hp]
      rw [h.options, hx]
      cases c.p.opts.globalObjective <;> rfl
    refine Or.inr ⟨_, _, hr.step (Step.model th hg hst2 hon), h.one (th := th) hQ hr.stat ?_ ?_ ?_ ?_ rfl rfl List.prefix_rfl rfl⟩
    · rw [h.base]; rfl
    · rw [hrep, h.gbase]; rfl
    · unfold TR
      simp only [Conf.goto_pc]
      exact hsm
    · intro th' hne
      exact ⟨rfl, rfl, Conf.goto_ne _ hne _, rfl, rfl⟩

theorem CReach.sim {c : Conf V} (hQ : ProgOnly Q) (h : CReach be opts grow I Q c) (hst : c.stale = false) : SimRes be opts Q c := by
  induction h with
  | start => exact Or.inr ⟨_, _, Reach.start, Sim.idle (fun _ => rfl) rfl rfl⟩
  | step _ hs ih =>
    rcases ih (stale_step hs hst) with ⟨th, hd, hh⟩ | ⟨p, g, hr, hsim⟩
    · exact Or.inl ⟨th, hd.step hs hst, hh⟩
    · exact sim_step hQ hr hsim hs hst

end Lpx
