import Verif.SysMain
import Verif.ParsingLeft

/-! # All reachable states satisfy the invariant -/

set_option linter.unusedSectionVars false

namespace Lpx
open Finset

variable {V : Type} [LpFull V] [Hon]

theorem SysInv.start (opts : Options) : SysInv opts (Propagator.fresh opts : Propagator V) {} := by
  refine ⟨rfl, VarOK.empty, PInv.empty, ?_, ?_, fun _ => rfl, ?_, ?_, ?_, ?_, rfl, rfl, List.prefix_rfl, ?_, ?_, ObjInv.init, ?_, ?_⟩
  · intro x hx; exact absurd hx (List.not_mem_nil)
  · intro x hx; exact absurd hx (List.not_mem_nil)
  · intro _ x hx; exact absurd hx (List.not_mem_nil)
  · exact fun _ => ⟨List.nodup_nil, fun t ht => absurd ht List.not_mem_nil, fun t ht => absurd ht List.not_mem_nil⟩
  · intro _ x hx; exact absurd hx (List.not_mem_nil)
  · intro _ x hx; exact absurd hx (List.not_mem_nil)
  · intro th gt h; simp at h
  · intro _ x hx; exact absurd hx (List.not_mem_nil)
  · intro _ h; exact absurd rfl h
  · intro _ h; exact absurd rfl h

theorem SysInv.init {opts : Options} {be : Backend} {p p' : Propagator V} {g : Ghost V} (h : SysInv opts p g) {mapper : ℤ → ℤ}
    {atoms : List TAtom} {envs : ℕ → InitEnv} {n : ℕ} {ok : Bool} (hi : p.init be mapper atoms envs n = .ok (p', ok)) :
    SysInv opts p' { thrs := if ok then p'.thrs.zipIdx.map (fun t => ⟨[], false, fun l => ∃ O, O <+: t.1.slv.out ∧ (envs t.2).isFalse O l = true, false⟩) else [],
                     reported := [], tops := g.tops, oldTops := g.tops, step := g.step + 1 } := by
  unfold Propagator.init at hi
  simp only at hi
  cases he : evaluateTheory be mapper atoms p.prog with
  | error e => rw [he] at hi; cases hi
  | ok prog =>
    rw [he] at hi
    simp only [Except.ok.injEq, Prod.mk.injEq] at hi
    obtain ⟨auxs, iqs, ha, hq, hpi, -, hnf, -, hond, honz, hov⟩ := theory_sat h.pinv he
    obtain ⟨v1, v2, v3, v4⟩ := gatherProg_spec prog h.vars
    generalize hm : gatherProg (p.varMap, p.varVec) prog = m at hi v1 v2 v3 v4
    have hiq : ∀ x ∈ prog.iqs, IqNF prog.aux x := by
      intro x hx
      rw [hq] at hx
      rcases List.mem_append.1 hx with hx | hx
      · exact (h.iqnf x hx).mono fun e he => by rw [ha]; exact List.mem_append_left _ he
      · exact hnf x hx
    have known : ∀ y, prog.Mentions y → ∃ j, m.1.lookup y = some j ∧ j < m.1.length := by
      intro y hy
      obtain ⟨j, hj⟩ := List.mem_iff_getElem?.1 (v3 y hy)
      have := (v1.lookup y j).2 hj
      exact ⟨j, this, v1.lt this⟩
    have hnfs : ∀ x ∈ prog.iqs, NF (fun x => m.1.lookup x) m.1.length x.lhs := fun x hx =>
      ⟨(hiq x hx).nodup, (hiq x hx).co, fun t ht => known t.var (Or.inr ⟨x, hx, t, ht, rfl⟩)⟩
    have hnfo : NF (fun x => m.1.lookup x) m.1.length prog.objective :=
      ⟨hond, fun t ht => (honz t ht).1, fun t ht => known t.var (Or.inl ⟨t, ht, rfl⟩)⟩
    obtain ⟨t1, t2⟩ := initThrs_spec (V := V) (envs := envs) (opts := p.opts) v1.inj hnfs hnfo n 0
    rw [h.hopts] at hi t1 t2
    generalize hr : initThrs (V := V) envs opts (fun x => m.1.lookup x) m.1.length prog n 0 = r at hi t1 t2
    obtain ⟨rfl, rfl⟩ := hi
    have hovs : ∀ t ∈ prog.objective, t.var ≠ cst ∧ (UserSym t.var ∨ ∃ e ∈ prog.aux, t.var = e.2) := by
      intro t ht
      refine ⟨(honz t ht).2, ?_⟩
      rcases hov h.ovars0 t ht with h1 | h1
      · exact absurd h1 (honz t ht).2
      · exact h1
    refine ⟨rfl, v1, hpi, hiq, fun t ht => Or.inr (hovs t ht).2, (fun h => by cases h), fun _ => hnfs, fun _ => hnfo, fun _ => hovs, fun _ x hx => List.mem_append_right _ (List.mem_map_of_mem hx), h.facts,
      by show p.facts.length = _; rw [h.facts], List.prefix_rfl, ?_, ?_, ObjInv.init, by simp, ?_⟩
    · intro th gt hgt
      cases hb : r.2
      · rw [hb] at hgt; simp at hgt
      · rw [hb] at hgt
        simp only [if_true, List.getElem?_map, List.getElem?_zipIdx, Option.map_map, Option.map_eq_some_iff] at hgt
        obtain ⟨t, ht, hgt⟩ := hgt
        obtain ⟨k1, ok, k2, k3⟩ := t1 th t ht
        obtain rfl := k3 hb
        simp only [Nat.zero_add] at k2
        refine ⟨t, ht, ⟨⟨S.TabEq t.slv, t.slv.bounds, ?_⟩, Or.inl k1, fun h0 => absurd k1 h0⟩⟩
        have := tdyn_of_prep k2
        simp only [Function.comp_apply, Nat.zero_add] at hgt
        rw [← hgt]
        exact this
    · intro _ t ht
      obtain ⟨j, hj⟩ := List.mem_iff_getElem?.1 ht
      obtain ⟨-, ok, k2, -⟩ := t1 j t hj
      exact tout_of_prep k2 []
    · intro h1 _
      simp only [Bool.or_eq_true, decide_eq_true_eq]
      rcases h1 with h1 | h1
      · exact Or.inl (Or.inr h1)
      · exact Or.inr h1

/-- `init` has thrown an exception. -/
theorem SysInv.fail {opts : Options} {be : Backend} {p : Propagator V} {g : Ghost V} (h : SysInv opts p g) {mapper : ℤ → ℤ}
    {atoms : List TAtom} {envs : ℕ → InitEnv} {n : ℕ} {er : Err} (hi : p.init be mapper atoms envs n = .error er) :
    SysInv opts (p.initFail be mapper atoms) { thrs := [], reported := g.reported, tops := g.tops, oldTops := g.tops, step := g.step + 1, failed := true } := by
  have he : evaluateTheory be mapper atoms p.prog = .error er := by
    unfold Propagator.init at hi
    simp only at hi
    cases he : evaluateTheory be mapper atoms p.prog with
    | error e => rw [he] at hi; injection hi with hi; rw [hi]
    | ok prog => rw [he] at hi; cases hi
  have k := (evaluateLeft_spec he).inv h.pinv
  refine ⟨h.hopts, h.vars, k.inv, k.nf h.iqnf, k.ovars h.ovars0, fun _ => rfl, (fun h => by cases h), (fun h => by cases h), (fun h => by cases h),
    (fun h => by cases h), h.facts, by show p.facts.length = _; rw [h.facts], List.prefix_rfl, fun th gt h => by simp at h, (fun h => by cases h), h.obj,
    (fun h => by cases h), ?_⟩
  intro h1 _
  simp only [Propagator.initFail, Bool.or_eq_true, decide_eq_true_eq] at h1 ⊢
  rcases h1 with h1 | h1
  · exact Or.inl (Or.inr h1)
  · exact Or.inr (by rw [h.hopts]; exact h1)

theorem SysInv.idxLt {opts : Options} {p : Propagator V} {g : Ghost V} (h : SysInv opts p g) : ∀ y j, p.lookup y = some j → j < p.varMap.length :=
  fun _ _ hy => h.vars.lt hy
theorem SysInv.inj {opts : Options} {p : Propagator V} {g : Ghost V} (h : SysInv opts p g) : IdxInj p.lookup := h.vars.inj

theorem SysInv.propagate {opts : Options} {p p' : Propagator V} {g : Ghost V} (h : SysInv opts p g) {fuel : ℕ} {ctl : Ctl} {th : ℕ}
    {lits : List ℤ} {gt : GThr} {ok : Bool} (hgt : g.thrs[th]? = some gt) (hst : gt.stuck = false)
    (hdl : ∀ fr ∈ gt.frames, fr.level ≤ ctl.dl) (hlv : LvlOK ctl (nextFrames ctl.dl lits gt.frames)) (hdead : ∀ l ∈ lits, ¬ gt.dead l)
    (hs : Hon.hon → SafeEqs.prop p gt.frames ctl lits) (hr : p.propagate fuel ctl th lits = some (p', ok)) :
    SysInv opts p' { g with thrs := g.thrs.set th { gt with frames := nextFrames ctl.dl lits gt.frames, stuck := !ok, checked := false },
                            tops := if ctl.dl = 0 ∧ th = 0 then g.tops ++ lits else g.tops } := by
  obtain ⟨t, ht, hti⟩ := h.thr th gt hgt
  obtain ⟨E0, base, hd⟩ := hti.dyn
  unfold Propagator.propagate at hr
  generalize hp1 : (if ctl.dl = 0 ∧ th = 0 then { p with facts := p.facts ++ lits } else p) = p1 at hr
  have hp1' : p1 = { p with facts := if ctl.dl = 0 ∧ th = 0 then p.facts ++ lits else p.facts } := by
    rw [← hp1]; split <;> rfl
  have ht1 : p1.thrs[th]? = some t := by rw [hp1']; exact ht
  simp only [ht1] at hr
  cases hsol : t.slv.solve ctl fuel lits with
  | none => rw [hsol] at hr; cases hr
  | some r =>
    rw [hsol] at hr
    obtain ⟨s', b⟩ := r
    simp only [Option.some.injEq, Prod.mk.injEq] at hr
    obtain ⟨rfl, rfl⟩ := hr
    have hsafe : Hon.hon → ctl.dl = 0 ∨ ∀ bd ∈ t.slv.bounds, bd.lit ∈ lits → SafeEq t.slv.bounds (Act gt.frames) (Act (nextFrames ctl.dl lits gt.frames)) bd := by
      intro hh
      rcases hs hh with hs | hs
      · exact Or.inl hs
      · exact Or.inr (hd.safe h.inj h.idxLt hs)
    obtain ⟨hd', -, -⟩ := hd.solve hst ctl lits hdl hlv hdead hsafe hsol
    refine h.setThr (t' := { t with slv := s' }) hgt ?_ rfl ?_ ?_ ?_
    · rw [hp1']; rfl
    · show p1.facts = _
      rw [hp1', h.facts]
    · split
      · exact h.old.trans (List.prefix_append _ _)
      · exact h.old
    · exact ⟨⟨E0, base, hd'⟩, hti.off, fun h0 l hl => onTop_next (hti.top h0 l hl)⟩

omit [Hon] in
theorem LimitsRight.of_undo {p p' : Propagator V} {th : ℕ} {t : Thr V} {frs : List Frame} (ht : p.thrs[th]? = some t) (hr : p.undo th = some p')
    (h : LimitsRight p' th frs) : RightLimits t.slv.bounds frs t.slv.undo.lower t.slv.undo.upper := by
  unfold Propagator.undo at hr
  rw [ht] at hr
  simp only [Option.some.injEq] at hr
  subst hr
  obtain ⟨h1, h2, h3⟩ := h { t with slv := t.slv.undo } (List.getElem?_set_self (List.getElem?_eq_some_iff.1 ht).1)
  have hb : t.slv.undo.bounds = t.slv.bounds := S.undo_bounds _
  simp only [hb] at h1 h2 h3
  refine ⟨⟨h1, h2⟩, fun bd hbd ha => ?_⟩
  have := h3 bd hbd ha
  simp only [S.up_eq, S.lo_eq, hb] at this
  exact this

theorem SysInv.undo {opts : Options} {p p' : Propagator V} {g : Ghost V} (h : SysInv opts p g) {th : ℕ} {gt : GThr} {fr : Frame}
    {frs : List Frame} (hgt : g.thrs[th]? = some gt) (hf : gt.frames = fr :: frs) (hl : fr.level ≠ 0) (hr : p.undo th = some p')
    (hright : ¬ Hon.hon → LimitsRight p' th frs) :
    SysInv opts p' { g with thrs := g.thrs.set th { gt with frames := frs, stuck := false, checked := false } } := by
  obtain ⟨t, ht, hti⟩ := h.thr th gt hgt
  obtain ⟨E0, base, hd⟩ := hti.dyn
  have hright' : ¬ Hon.hon → RightLimits t.slv.bounds frs t.slv.undo.lower t.slv.undo.upper := fun hh => (hright hh).of_undo ht hr
  unfold Propagator.undo at hr
  rw [ht] at hr
  simp only [Option.some.injEq] at hr
  subst hr
  obtain ⟨hd', -⟩ := hd.undo hf hl hright'
  refine h.setThr (t' := { t with slv := t.slv.undo }) hgt rfl rfl h.facts h.old ⟨⟨E0, base, hd'⟩, hti.off, fun h0 l hl' => ?_⟩
  obtain ⟨f, h1, h2, h3⟩ := hti.top h0 l hl'
  rw [hf] at h1
  rcases List.mem_cons.1 h1 with rfl | h1
  · exact absurd h2 hl
  · exact ⟨f, h1, h2, h3⟩

/-- The facts asserted are those of earlier steps. -/
theorem SysInv.factSpan {opts : Options} {p : Propagator V} {g : Ghost V} (h : SysInv opts p g) {gt : GThr} {t : Thr V}
    (ht : ThrInv opts p g gt t) {ctl : Ctl} (hn : p.needFacts ctl t) : p.factSpan t = g.oldTops := by
  have h0 : t.offset = 0 := by
    rcases ht.off with h0 | h0
    · exact h0
    · have := hn.2; omega
  unfold Propagator.factSpan
  rw [h0, List.drop_zero, h.facts, h.foff]
  exact (List.prefix_iff_eq_take.1 h.old).symm

/-- The first part of `check`. -/
theorem SysInv.checkFacts {opts : Options} {p p' : Propagator V} {g : Ghost V} (h : SysInv opts p g) {fuel : ℕ} {ctl : Ctl} {th : ℕ}
    {gt : GThr} {t : Thr V} {ok : Bool} (hgt : g.thrs[th]? = some gt) (hst : gt.stuck = false)
    (hdl : ∀ fr ∈ gt.frames, fr.level ≤ ctl.dl) (ht : p.thrs[th]? = some t) (hlv : LvlOK ctl (p.checkFrames ctl t gt.frames))
    (hdead : ∀ l ∈ p.pendingFacts ctl t, ¬ gt.dead l) (hr : p.checkFacts fuel ctl th = some (p', ok)) :
    SysInv opts p' { g with thrs := g.thrs.set th { gt with frames := p.checkFrames ctl t gt.frames, stuck := !ok, checked := false } } ∧
      p'.prog = p.prog ∧ p'.thrs.length = p.thrs.length := by
  obtain ⟨t1, ht1, hti⟩ := h.thr th gt hgt
  rw [ht] at ht1; cases ht1
  obtain ⟨E0, base, hd⟩ := hti.dyn
  unfold Propagator.checkFacts at hr
  simp only [ht] at hr
  by_cases hn : p.needFacts ctl t
  · have hsp := h.factSpan hti hn
    rw [if_pos hn] at hr
    have hdl0 : ctl.dl = 0 := hn.1
    unfold Propagator.checkFrames at hlv ⊢
    unfold Propagator.pendingFacts at hdead
    rw [if_pos hn] at hlv hdead
    rw [if_pos hn]
    cases hsol : t.slv.solve ctl fuel (p.factSpan t) with
    | none => rw [hsol] at hr; cases hr
    | some r =>
      rw [hsol] at hr
      obtain ⟨s', b⟩ := r
      simp only [Option.some.injEq, Prod.mk.injEq] at hr
      obtain ⟨rfl, rfl⟩ := hr
      obtain ⟨hd', -, -⟩ := hd.solve hst ctl _ hdl hlv hdead (fun _ => Or.inl hdl0) hsol
      refine ⟨h.setThr (t' := ⟨p.factsOffset, s'⟩) hgt rfl rfl h.facts h.old ⟨⟨E0, base, hd'⟩, Or.inr rfl, fun _ l hl => ?_⟩, rfl,
        by simp [Propagator.setThr]⟩
      have hdl' : ∀ fr ∈ gt.frames, fr.level ≤ 0 := by rw [hdl0] at hdl; exact hdl
      show OnTop (nextFrames ctl.dl (p.factSpan t) gt.frames) l
      rw [hdl0]
      exact onTop_new hdl' (by rw [hsp]; exact hl)
  · rw [if_neg hn] at hr
    simp only [Option.some.injEq, Prod.mk.injEq] at hr
    obtain ⟨rfl, rfl⟩ := hr
    unfold Propagator.checkFrames
    rw [if_neg hn]
    refine ⟨h.setThr (t' := t) hgt ?_ rfl h.facts h.old ⟨⟨E0, base, ?_⟩, hti.off, hti.top⟩, rfl, rfl⟩
    · have : p.thrs.set th t = p.thrs := by
        obtain ⟨h1, h2⟩ := List.getElem?_eq_some_iff.1 ht
        rw [← h2]; exact List.set_getElem_self h1
      rw [this]
    · have : ({ gt with frames := gt.frames, stuck := !true, checked := false } : GThr) = { gt with checked := false } := by
        rw [show (!true) = gt.stuck by rw [hst]; rfl]
      rw [this]; exact hd.uncheck

theorem SysInv.check {opts : Options} {p p' : Propagator V} {g : Ghost V} (h : SysInv opts p g) (hq : StepOK V opts) {fuel : ℕ} {ctl : Ctl}
    {total : Bool} {th : ℕ} {gt : GThr} {t : Thr V} {ok : Bool} (hgt : g.thrs[th]? = some gt) (hst : gt.stuck = false)
    (hdl : ∀ fr ∈ gt.frames, fr.level ≤ ctl.dl) (ht : p.thrs[th]? = some t) (hlv : LvlOK ctl (p.checkFrames ctl t gt.frames))
    (hdead : ∀ l ∈ p.pendingFacts ctl t, ¬ gt.dead l) (hfresh : Fresh p ctl (p.checkFrames ctl t gt.frames))
    (hr : p.check fuel ctl total th = some (p', ok)) :
    SysInv opts p' { g with thrs := g.thrs.set th { gt with frames := p.checkFrames ctl t gt.frames, stuck := !p.factsOk fuel ctl th, checked := total && ok } } := by
  unfold Propagator.check at hr
  unfold Propagator.factsOk
  cases hc : p.checkFacts fuel ctl th with
  | none => rw [hc] at hr; cases hr
  | some r =>
    rw [hc] at hr
    obtain ⟨p1, b⟩ := r
    obtain ⟨h1, hprog, -⟩ := h.checkFacts hgt hst hdl ht hlv hdead hc
    simp only at hr ⊢
    cases b
    · simp only [Bool.false_eq_true, if_false, Option.some.injEq, Prod.mk.injEq] at hr
      obtain ⟨rfl, rfl⟩ := hr
      rw [Bool.and_false]; exact h1
    · simp only [if_true] at hr
      simp only [Bool.not_true] at h1 ⊢
      generalize hgg : ({ gt with frames := p.checkFrames ctl t gt.frames, stuck := false, checked := false } : GThr) = gt1 at h1
      have hthl : th < g.thrs.length := (List.getElem?_eq_some_iff.1 hgt).1
      have hg1 : (g.thrs.set th gt1)[th]? = some gt1 := by rw [List.getElem?_set_self hthl]
      obtain ⟨t1, ht1, hti⟩ := h1.thr th gt1 hg1
      obtain ⟨E0, base, hd⟩ := hti.dyn
      unfold Propagator.checkObj at hr
      rw [ht1] at hr
      simp only at hr
      cases hs : t1.slv.checkObj ctl fuel total p1.obj with
      | none => rw [hs] at hr; cases hr
      | some r =>
        rw [hs] at hr
        obtain ⟨s', b⟩ := r
        simp only [Option.some.injEq, Prod.mk.injEq] at hr
        obtain ⟨rfl, rfl⟩ := hr
        have hst1 : gt1.stuck = false := by rw [← hgg]
        have hd' := hd.checkObj hst1 ctl total h1.obj (fun hne => (h1.rep (h1.alive (th := th) hg1) hne).1) hq
          ⟨by rw [← hgg]; exact hfresh.act, by rw [hprog]; exact hfresh.iqs⟩ hs
        have := h1.setThr (g' := { g with thrs := (g.thrs.set th gt1).set th { gt1 with checked := total && b } }) (t' := { t1 with slv := s' }) (gt' := { gt1 with checked := total && b }) hg1 (p' := p1.setThr th { t1 with slv := s' }) rfl rfl h1.facts h1.old
          ⟨⟨E0, base, hd'⟩, hti.off, hti.top⟩
        rw [List.set_set] at this
        subst hgg
        exact this

theorem SysInv.model {opts : Options} {p p' : Propagator V} {g : Ghost V} (h : SysInv opts p g) {th : ℕ} {gt : GThr}
    (hgt : g.thrs[th]? = some gt) (hr : p.onModel th = some p') :
    SysInv opts p' { g with reported := g.reported ++ (if p.opts.globalObjective.isSome then p.objectiveOf th else []) } := by
  obtain ⟨t, ht, hti⟩ := h.thr th gt hgt
  obtain ⟨E0, base, hd⟩ := hti.dyn
  unfold Propagator.onModel at hr
  unfold Propagator.objectiveOf
  simp only [ht] at hr ⊢
  have same : SysInv opts p { g with reported := g.reported ++ [] } := by rw [List.append_nil]; exact h
  by_cases hg : p.opts.globalObjective.isSome = true
  · rw [if_pos hg]
    have hg' : p.opts.globalObjective.isNone = false := by
      cases hh : p.opts.globalObjective <;> simp_all
    rw [hg'] at hr
    simp only [Bool.false_eq_true, if_false] at hr
    cases ho : t.slv.getObjective with
    | none =>
      rw [ho] at hr
      simp only [Option.some.injEq] at hr
      subst hr; exact same
    | some x =>
      rw [ho] at hr
      simp only [Option.some.injEq] at hr
      subst hr
      have hact : t.slv.obj.active = true := by
        unfold S.getObjective at ho; split at ho
        · assumption
        · cases ho
      have hne : p.prog.objective ≠ [] := by
        intro h0; rw [hd.active, h0] at hact; simp at hact
      obtain ⟨o1, o2⟩ := h.obj.update x
      have hsub : ∀ y ∈ g.reported, y ∈ g.reported ++ [x] := fun y hy => List.mem_append_left _ hy
      refine ⟨h.hopts, h.vars, h.pinv, h.iqnf, h.ovars0, h.live, h.nf, h.onf, h.ovars, h.watch, h.facts, h.foff, h.old, ?_, fun hl t ht => (h.outs hl t ht).mono hsub,
        o1, fun _ _ => ⟨hne, by rw [← h.hopts]; exact hg⟩, h.mode⟩
      intro th2 gt2 h2
      obtain ⟨t2, k1, k2⟩ := h.thr th2 gt2 h2
      obtain ⟨E2, b2, k3⟩ := k2.dyn
      exact ⟨t2, k1, ⟨E2, b2, k3.mono hsub o2⟩, k2.off, k2.top⟩
  · rw [if_neg hg]
    have hg' : p.opts.globalObjective.isNone = true := by
      cases hh : p.opts.globalObjective <;> simp_all
    rw [hg'] at hr
    simp only [if_true, Option.some.injEq] at hr
    subst hr; exact same

/-- The restriction justifies the assumptions of the invariant: the bound trail is trusted only if all equations are harmless, and otherwise
backtracking is assumed to have restored the limits. -/
class Trust [Hon] (Q : Restr V) : Prop where
  prop : Hon.hon → ∀ p F ctl lits, Q.prop p F ctl lits → SafeEqs.prop p F ctl lits
  undo : ¬ Hon.hon → ∀ p th F, Q.undo p th F → LimitsRight p th F

theorem Step.inv {be : Backend} {opts : Options} (hq : StepOK V opts) {p p' : Propagator V} {g g' : Ghost V} (ih : SysInv opts p g)
    {Q : Restr V} [Trust Q] (h : Step be Q p g p' g') : SysInv opts p' g' := by
  cases h with
  | init mapper atoms envs n hi => exact ih.init hi
  | fail mapper atoms envs n hi _ => exact ih.fail hi
  | propagate fuel ctl th lits hm hr => exact ih.propagate hm.thr hm.ready hm.dl hm.lvl hm.dead (fun hh => Trust.prop hh _ _ _ _ hm.restr) hr
  | check fuel ctl total th hm hr => exact ih.check hq hm.thr hm.ready hm.dl hm.slv hm.lvl hm.dead hm.fresh hr
  | undo th hgt hf hl hr hu => exact ih.undo hgt hf hl hr (fun hh => Trust.undo hh _ _ _ hu)
  | model th hgt hst hr => exact ih.model hgt hr

/-- All reachable states satisfy the invariant. -/
theorem Reach.inv {be : Backend} {opts : Options} (hq : StepOK V opts) {p : Propagator V} {g : Ghost V} {Q : Restr V} [Trust Q]
    (h : Reach be opts Q p g) :
    SysInv opts p g := by
  induction h with
  | start => exact SysInv.start opts
  | step _ hs ih => exact hs.inv hq ih

end Lpx
