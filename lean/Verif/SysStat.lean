import Verif.SysCalls
import Verif.ParsingLeft

/-! # Invariants that hold for all histories, without restricting the literals -/

set_option linter.unusedSectionVars false

namespace Lpx

variable {V : Type} [LpFull V]

/-- What is known about the numbers of facts asserted in a thread. -/
structure OffInv (p : Propagator V) (g : Ghost V) (gt : GThr) (t : Thr V) : Prop where
  off : t.offset = 0 ∨ t.offset = p.factsOffset
  top : t.offset ≠ 0 → ∀ l ∈ g.oldTops, OnTop gt.frames l

/-- Invariant of the parts of the propagator that do not depend on the solvers. -/
structure StatInv (opts : Options) (p : Propagator V) (g : Ghost V) : Prop where
  hopts : p.opts = opts
  vars : VarOK (p.varMap, p.varVec)
  pinv : PInv p.prog
  iqnf : ∀ x ∈ p.prog.iqs, IqNF p.prog.aux x
  ovars0 : ∀ t ∈ p.prog.objective, t.var = cst ∨ UserSym t.var ∨ ∃ e ∈ p.prog.aux, t.var = e.2
  live : g.failed = true → g.thrs = []
  nf : g.failed = false → ∀ x ∈ p.prog.iqs, NF p.lookup p.varMap.length x.lhs
  onf : g.failed = false → NF p.lookup p.varMap.length p.prog.objective
  ovars : g.failed = false → ∀ t ∈ p.prog.objective, t.var ≠ cst ∧ (UserSym t.var ∨ ∃ e ∈ p.prog.aux, t.var = e.2)
  watch : g.failed = false → ∀ x ∈ p.prog.iqs, x.lit ∈ p.watches
  facts : p.facts = g.tops
  foff : p.factsOffset = g.oldTops.length
  old : g.oldTops <+: g.tops
  thr : ∀ (th : ℕ) (gt : GThr), g.thrs[th]? = some gt → ∃ t, p.thrs[th]? = some t ∧ OffInv p g gt t
  obj : p.obj = g.reported.foldl ObjState.update ObjState.init
  vsym : ∀ y ∈ p.varVec, UserSym y ∨ (∃ e ∈ p.prog.aux, y = e.2) ∨ (y = cst ∧ ∃ e ∈ p.prog.aux, e.1.1 = cst)
  mode : (0 < p.factsOffset ∨ opts.globalObjective.isSome = true) → p.thrs ≠ [] → p.checkBoth = true

theorem StatInv.start (opts : Options) : StatInv opts (Propagator.fresh opts : Propagator V) {} := by
  refine ⟨rfl, VarOK.empty, PInv.empty, ?_, ?_, fun _ => rfl, ?_, ?_, ?_, ?_, rfl, rfl, List.prefix_rfl, ?_, rfl, ?_, ?_⟩
  · intro x hx; exact absurd hx (List.not_mem_nil)
  · intro x hx; exact absurd hx (List.not_mem_nil)
  · intro _ x hx; exact absurd hx (List.not_mem_nil)
  · exact fun _ => ⟨List.nodup_nil, fun t ht => absurd ht List.not_mem_nil, fun t ht => absurd ht List.not_mem_nil⟩
  · intro _ x hx; exact absurd hx (List.not_mem_nil)
  · intro _ x hx; exact absurd hx (List.not_mem_nil)
  · intro th gt h; simp at h
  · intro y hy; exact absurd hy (List.not_mem_nil)
  · intro _ h; exact absurd rfl h

/-- A thread that is solving: the last `init` has not failed. -/
theorem StatInv.alive {opts : Options} {p : Propagator V} {g : Ghost V} (h : StatInv opts p g) {th : ℕ} {gt : GThr} (hgt : g.thrs[th]? = some gt) :
    g.failed = false := by
  cases hf : g.failed with
  | false => rfl
  | true => rw [h.live hf] at hgt; simp at hgt

/-- All we know about `init`. -/
structure InitRes (be : Backend) (opts : Options) (mapper : ℤ → ℤ) (atoms : List TAtom) (envs : ℕ → InitEnv) (n : ℕ) (p p' : Propagator V)
    (ok : Bool) : Prop where
  eval : evaluateTheory be mapper atoms p.prog = .ok p'.prog
  grow : p.varVec <+: p'.varVec
  known : ∀ y ∈ p'.varVec, y ∈ p.varVec ∨ p'.prog.Mentions y
  knows : ∀ y, p'.prog.Mentions y → y ∈ p'.varVec
  prep : ∀ (j : ℕ) (t : Thr V), p'.thrs[j]? = some t → t.offset = 0 ∧ ∃ ok', S.PrepRes (envs j) opts p'.lookup p'.varMap.length p'.prog.iqs p'.prog.objective (j == 0) (t.slv, ok') ∧ (ok = true → ok' = true)
  num : ok = true → p'.thrs.length = n

theorem StatInv.init {opts : Options} {be : Backend} {p p' : Propagator V} {g : Ghost V} (h : StatInv opts p g) {mapper : ℤ → ℤ}
    {atoms : List TAtom} {envs : ℕ → InitEnv} {n : ℕ} {ok : Bool} (hi : p.init be mapper atoms envs n = .ok (p', ok)) :
    StatInv opts p' { thrs := if ok then p'.thrs.zipIdx.map (fun t => ⟨[], false, fun l => ∃ O, O <+: t.1.slv.out ∧ (envs t.2).isFalse O l = true, false⟩) else [],
                      reported := [], tops := g.tops, oldTops := g.tops, step := g.step + 1 } ∧
      InitRes be opts mapper atoms envs n p p' ok := by
  unfold Propagator.init at hi
  simp only at hi
  cases he : evaluateTheory be mapper atoms p.prog with
  | error e => rw [he] at hi; cases hi
  | ok prog =>
    rw [he] at hi
    simp only [Except.ok.injEq, Prod.mk.injEq] at hi
    obtain ⟨auxs, iqs, ha, hq, hpi, -, hnf, -, hond, honz, hov⟩ := theory_sat h.pinv he
    obtain ⟨v1, v2, v3, v4⟩ := gatherProg_spec prog h.vars
    generalize hm : gatherProg (p.varMap, p.varVec) prog = m at hi v1 v2 v3 v4
    have hiq : ∀ x ∈ prog.iqs, IqNF prog.aux x := by
      intro x hx
      rw [hq] at hx
      rcases List.mem_append.1 hx with hx | hx
      · exact (h.iqnf x hx).mono fun e he => by rw [ha]; exact List.mem_append_left _ he
      · exact hnf x hx
    have known : ∀ y, prog.Mentions y → ∃ j, m.1.lookup y = some j ∧ j < m.1.length := by
      intro y hy
      obtain ⟨j, hj⟩ := List.mem_iff_getElem?.1 (v3 y hy)
      have := (v1.lookup y j).2 hj
      exact ⟨j, this, v1.lt this⟩
    have hnfs : ∀ x ∈ prog.iqs, NF (fun x => m.1.lookup x) m.1.length x.lhs := fun x hx =>
      ⟨(hiq x hx).nodup, (hiq x hx).co, fun t ht => known t.var (Or.inr ⟨x, hx, t, ht, rfl⟩)⟩
    have hnfo : NF (fun x => m.1.lookup x) m.1.length prog.objective :=
      ⟨hond, fun t ht => (honz t ht).1, fun t ht => known t.var (Or.inl ⟨t, ht, rfl⟩)⟩
    obtain ⟨t1, t2⟩ := initThrs_spec (V := V) (envs := envs) (opts := p.opts) v1.inj hnfs hnfo n 0
    rw [h.hopts] at hi t1 t2
    generalize hr : initThrs (V := V) envs opts (fun x => m.1.lookup x) m.1.length prog n 0 = r at hi t1 t2
    obtain ⟨rfl, rfl⟩ := hi
    have hovs : ∀ t ∈ prog.objective, t.var ≠ cst ∧ (UserSym t.var ∨ ∃ e ∈ prog.aux, t.var = e.2) := by
      intro t ht
      refine ⟨(honz t ht).2, ?_⟩
      rcases hov h.ovars0 t ht with h1 | h1
      · exact absurd h1 (honz t ht).2
      · exact h1
    refine ⟨⟨rfl, v1, hpi, hiq, fun t ht => Or.inr (hovs t ht).2, (fun h => by cases h), fun _ => hnfs, fun _ => hnfo, fun _ => hovs, fun _ x hx => List.mem_append_right _ (List.mem_map_of_mem hx), h.facts,
      by show p.facts.length = _; rw [h.facts], List.prefix_rfl, ?_, rfl, ?_, ?_⟩, he, v2, v4, v3, ?_, t2⟩
    · intro th gt hgt
      cases hb : r.2
      · rw [hb] at hgt; simp at hgt
      · rw [hb] at hgt
        simp only [if_true, List.getElem?_map, List.getElem?_zipIdx, Option.map_map, Option.map_eq_some_iff] at hgt
        obtain ⟨t, ht, hgt⟩ := hgt
        obtain ⟨k1, -⟩ := t1 th t ht
        exact ⟨t, ht, Or.inl k1, fun h0 => absurd k1 h0⟩
    · intro y hy
      rcases v4 y hy with hy | ⟨t, ht, rfl⟩ | ⟨x, hx, t, ht, rfl⟩
      · have hsub : ∀ e ∈ p.prog.aux, e ∈ prog.aux := fun e he => by rw [ha]; exact List.mem_append_left _ he
        rcases h.vsym y hy with h1 | ⟨e, h1, h2⟩ | ⟨h0, e, h1, h2⟩
        · exact Or.inl h1
        · exact Or.inr (Or.inl ⟨e, hsub e h1, h2⟩)
        · exact Or.inr (Or.inr ⟨h0, e, hsub e h1, h2⟩)
      · rcases (hovs t ht).2 with h1 | h1
        · exact Or.inl h1
        · exact Or.inr (Or.inl h1)
      · exact (hiq x hx).vars t ht
    · intro h1 _
      simp only [Bool.or_eq_true, decide_eq_true_eq]
      rcases h1 with h1 | h1
      · exact Or.inl (Or.inr h1)
      · exact Or.inr h1
    · intro j t ht
      have := t1 j t ht
      simp only [Nat.zero_add] at this
      exact this

/-- `init` has thrown an exception. -/
theorem StatInv.fail {opts : Options} {be : Backend} {p : Propagator V} {g : Ghost V} (h : StatInv opts p g) {mapper : ℤ → ℤ}
    {atoms : List TAtom} {envs : ℕ → InitEnv} {n : ℕ} {er : Err} (hi : p.init be mapper atoms envs n = .error er) :
    StatInv opts (p.initFail be mapper atoms) { thrs := [], reported := g.reported, tops := g.tops, oldTops := g.tops, step := g.step + 1, failed := true } ∧
      LeftBy be mapper atoms p.prog (p.initFail be mapper atoms).prog := by
  have he : evaluateTheory be mapper atoms p.prog = .error er := by
    unfold Propagator.init at hi
    simp only at hi
    cases he : evaluateTheory be mapper atoms p.prog with
    | error e => rw [he] at hi; injection hi with hi; rw [hi]
    | ok prog => rw [he] at hi; cases hi
  have hl := evaluateLeft_spec he
  have k := hl.inv h.pinv
  refine ⟨⟨h.hopts, h.vars, k.inv, k.nf h.iqnf, k.ovars h.ovars0, fun _ => rfl, (fun h => by cases h), (fun h => by cases h), (fun h => by cases h),
    (fun h => by cases h), h.facts, by show p.facts.length = _; rw [h.facts], List.prefix_rfl, fun th gt h => by simp at h, h.obj, ?_, ?_⟩, hl⟩
  · intro y hy
    have hsub := k.aux.subset
    rcases h.vsym y hy with h1 | ⟨e, h1, h2⟩ | ⟨h0, e, h1, h2⟩
    · exact Or.inl h1
    · exact Or.inr (Or.inl ⟨e, hsub h1, h2⟩)
    · exact Or.inr (Or.inr ⟨h0, e, hsub h1, h2⟩)
  · intro h1 _
    simp only [Propagator.initFail, Bool.or_eq_true, decide_eq_true_eq] at h1 ⊢
    rcases h1 with h1 | h1
    · exact Or.inl (Or.inr h1)
    · exact Or.inr (by rw [h.hopts]; exact h1)

/-- Changing one thread. -/
theorem StatInv.setThr {opts : Options} {p p' : Propagator V} {g g' : Ghost V} (h : StatInv opts p g) {th : ℕ} {gt gt' : GThr} {t' : Thr V}
    (hgt : g.thrs[th]? = some gt) (hp : p' = { p with facts := p'.facts, thrs := p.thrs.set th t' })
    (hg : g' = { g with thrs := g.thrs.set th gt', tops := g'.tops })
    (hf : p'.facts = g'.tops) (hold : g.oldTops <+: g'.tops) (ht : OffInv p g gt' t') : StatInv opts p' g' := by
  have hlk : p'.lookup = p.lookup := by rw [hp]; rfl
  have hvm : p'.varMap = p.varMap := by rw [hp]
  have hvv : p'.varVec = p.varVec := by rw [hp]
  have hpr : p'.prog = p.prog := by rw [hp]
  have hfo : p'.factsOffset = p.factsOffset := by rw [hp]
  have hol : g'.oldTops = g.oldTops := by rw [hg]
  have htr : p'.thrs = p.thrs.set th t' := by rw [hp]
  have hgr : g'.thrs = g.thrs.set th gt' := by rw [hg]
  have hfl : g'.failed = g.failed := by rw [hg]
  have hoff : ∀ {a : GThr} {b : Thr V}, OffInv p g a b → OffInv p' g' a b := by
    intro a b hab
    exact ⟨by rw [hfo]; exact hab.off, by rw [hol]; exact hab.top⟩
  refine ⟨by rw [hp]; exact h.hopts, by rw [hvm, hvv]; exact h.vars, by rw [hpr]; exact h.pinv, by rw [hpr]; exact h.iqnf,
    by rw [hpr]; exact h.ovars0, by rw [hfl, h.alive hgt]; exact (fun h => by cases h),
    by rw [hfl, hpr, hlk, hvm]; exact h.nf, by rw [hfl, hpr, hlk, hvm]; exact h.onf, by rw [hfl, hpr]; exact h.ovars,
    by rw [hfl, hpr, hp]; exact h.watch, hf, by rw [hfo, hol]; exact h.foff, by rw [hol]; exact hold, ?_, by rw [hg, hp]; exact h.obj, by rw [hpr, hvv]; exact h.vsym, ?_⟩
  · intro th2 gt2 h2
    rw [hgr] at h2
    rw [htr]
    obtain ⟨t, k1, k2⟩ := h.thr th gt hgt
    by_cases he : th = th2
    · subst he
      rw [getElem?_set_some hgt] at h2
      obtain rfl := Option.some.inj h2
      exact ⟨t', getElem?_set_some k1, hoff ht⟩
    · rw [List.getElem?_set_ne he] at h2 ⊢
      obtain ⟨t2, j1, j2⟩ := h.thr th2 gt2 h2
      exact ⟨t2, j1, hoff j2⟩
  · rw [hfo, htr]
    intro h1 h2
    have : p'.checkBoth = p.checkBoth := by rw [hp]
    rw [this]
    refine h.mode h1 fun h0 => h2 ?_
    rw [h0]; rfl

/-- `check` asserts the facts of earlier steps and otherwise only changes the solver of the thread. -/
theorem check_shape {p p' : Propagator V} {fuel : ℕ} {ctl : Ctl} {total : Bool} {th : ℕ} {t : Thr V} {ok : Bool}
    (ht : p.thrs[th]? = some t) (hr : p.check fuel ctl total th = some (p', ok)) :
    ∃ s', p' = { p with thrs := p.thrs.set th ⟨if p.needFacts ctl t then p.factsOffset else t.offset, s'⟩ } := by
  unfold Propagator.check at hr
  have obj : ∀ {q : Propagator V} {t1 : Thr V}, q.thrs[th]? = some t1 → q.checkObj fuel ctl total th = some (p', ok) →
      ∃ s', p' = { q with thrs := q.thrs.set th ⟨t1.offset, s'⟩ } := by
    intro q t1 hq hc
    unfold Propagator.checkObj at hc
    simp only [hq] at hc
    cases hs : t1.slv.checkObj ctl fuel total q.obj with
    | none => rw [hs] at hc; cases hc
    | some r =>
      rw [hs] at hc
      simp only [Option.some.injEq, Prod.mk.injEq] at hc
      exact ⟨r.1, hc.1.symm⟩
  cases hc : p.checkFacts fuel ctl th with
  | none => rw [hc] at hr; cases hr
  | some r =>
    rw [hc] at hr
    simp only at hr
    unfold Propagator.checkFacts at hc
    simp only [ht] at hc
    by_cases hn : p.needFacts ctl t
    · rw [if_pos hn] at hc ⊢
      cases hs : t.slv.solve ctl fuel (p.factSpan t) with
      | none => rw [hs] at hc; cases hc
      | some r1 =>
        rw [hs] at hc
        simp only [Option.some.injEq] at hc
        subst hc
        simp only at hr
        split at hr
        · obtain ⟨s', h⟩ := obj (q := p.setThr th ⟨p.factsOffset, r1.1⟩) (getElem?_set_some ht) hr
          refine ⟨s', ?_⟩
          rw [h]; simp [Propagator.setThr]
        · simp only [Option.some.injEq, Prod.mk.injEq] at hr
          exact ⟨r1.1, hr.1.symm⟩
    · rw [if_neg hn] at hc ⊢
      simp only [Option.some.injEq] at hc
      subst hc
      simp only [if_true] at hr
      exact obj ht hr

theorem StatInv.step {opts : Options} {be : Backend} {Q : Restr V} {p p' : Propagator V}
    {g g' : Ghost V} (h : StatInv opts p g) (hs : Step be Q p g p' g') : StatInv opts p' g' := by
  cases hs with
  | init mapper atoms envs n hi => exact (h.init hi).1
  | fail mapper atoms envs n hi _ => exact (h.fail hi).1
  | propagate fuel ctl th lits hm hr =>
    obtain ⟨t, ht, hti⟩ := h.thr th _ hm.thr
    obtain ⟨s', -, hp⟩ := (propagate_eq ht).1 hr
    refine h.setThr (t' := { t with slv := s' }) hm.thr ?_ rfl ?_ ?_ ⟨hti.off, fun h0 l hl => onTop_next (hti.top h0 l hl)⟩
    · rw [hp]
    · rw [hp]; simp only; rw [h.facts]
    · split
      · exact h.old.trans (List.prefix_append _ _)
      · exact h.old
  | check fuel ctl total th hm hr =>
    obtain ⟨t, ht, hti⟩ := h.thr th _ hm.thr
    have hte := Option.some.inj (ht.symm.trans hm.slv)
    subst hte
    obtain ⟨s', hp⟩ := check_shape ht hr
    refine h.setThr hm.thr (by rw [hp]) rfl (by rw [hp]; exact h.facts) h.old ?_
    unfold Propagator.checkFrames
    by_cases hn : p.needFacts ctl t
    · rw [if_pos hn, if_pos hn]
      refine ⟨Or.inr rfl, fun _ l hl => ?_⟩
      have h0 : t.offset = 0 := by
        rcases hti.off with h0 | h0
        · exact h0
        · have := hn.2; omega
      have hdl := hm.dl
      rw [hn.1] at hdl ⊢
      refine onTop_new hdl ?_
      unfold Propagator.factSpan
      rw [h0, List.drop_zero, h.facts, h.foff, ← List.prefix_iff_eq_take.1 h.old]
      exact hl
    · rw [if_neg hn, if_neg hn]; exact ⟨hti.off, hti.top⟩
  | undo th hgt hf hl hr =>
    obtain ⟨t, ht, hti⟩ := h.thr th _ hgt
    unfold Propagator.undo at hr
    rw [ht] at hr
    simp only [Option.some.injEq] at hr
    subst hr
    refine h.setThr (t' := { t with slv := t.slv.undo }) hgt rfl rfl h.facts h.old ⟨hti.off, fun h0 l hl' => ?_⟩
    obtain ⟨f, h1, h2, h3⟩ := hti.top h0 l hl'
    rw [hf] at h1
    rcases List.mem_cons.1 h1 with rfl | h1
    · exact absurd h2 hl
    · exact ⟨f, h1, h2, h3⟩
  | model th hgt hst hr =>
    obtain ⟨t, ht, hti⟩ := h.thr th _ hgt
    unfold Propagator.onModel at hr
    unfold Propagator.objectiveOf
    simp only [ht] at hr ⊢
    have same : StatInv opts p { g with reported := g.reported ++ [] } := by rw [List.append_nil]; exact h
    cases hg : p.opts.globalObjective with
    | none =>
      rw [hg] at hr
      simp only [Option.isNone_none, if_true, Option.some.injEq] at hr
      subst hr; simpa using same
    | some q =>
      rw [hg] at hr
      simp only [Option.isNone_some, Bool.false_eq_true, if_false, Option.isSome_some, if_true] at hr ⊢
      cases ho : t.slv.getObjective with
      | none =>
        rw [ho] at hr
        simp only [Option.some.injEq] at hr
        subst hr; exact same
      | some x =>
        rw [ho] at hr
        simp only [Option.some.injEq] at hr
        subst hr
        exact ⟨h.hopts, h.vars, h.pinv, h.iqnf, h.ovars0, h.live, h.nf, h.onf, h.ovars, h.watch, h.facts, h.foff, h.old, fun th2 gt2 h2 => by
          obtain ⟨t2, k1, k2⟩ := h.thr th2 gt2 h2
          exact ⟨t2, k1, k2.off, k2.top⟩, by
            show p.obj.update x = (g.reported ++ [x]).foldl ObjState.update ObjState.init
            rw [List.foldl_append, ← h.obj]; rfl, h.vsym, h.mode⟩

/-- All reachable states satisfy the invariant. -/
theorem Reach.stat {be : Backend} {opts : Options} {Q : Restr V} {p : Propagator V} {g : Ghost V}
    (h : Reach be opts Q p g) : StatInv opts p g := by
  induction h with
  | start => exact StatInv.start opts
  | step _ hs ih => exact ih.step hs

theorem Later.reach {be : Backend} {opts : Options} {Q : Restr V} {p p' : Propagator V}
    {g g' : Ghost V} (h : Reach be opts Q p g) (hl : Later be Q p g p' g') : Reach be opts Q p' g' := by
  induction hl with
  | refl => exact h
  | step _ hs ih => exact ih.step hs

end Lpx
