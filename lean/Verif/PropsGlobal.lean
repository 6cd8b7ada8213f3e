import Verif.PropsUnmixed

/-!
# Global optimization (C46)

With `--objective=global,step` a thread that learns about a better objective value adds a cut: a new literal that is made true by a
unit clause and that requires the objective to reach the value plus the step. If an unbounded objective has been found then
assignments with a bounded objective are discarded.

The theorems below state that every assignment accepted by `check` improves on all values reported before, and that no solution that
is better than everything reported is lost.
-/

set_option linter.unusedSectionVars false

namespace Lpx.Props
open Lpx Lpx.Witness

variable {V : Type} [LpFull V]

/-! ### the threads know the best value -/

/-- What a thread has done for the shared objective state it has seen. -/
structure Informed (opts : Options) (prog : Prog) (o : ObjState V) (s : S V) : Prop where
  cut : o.bounded = true → ∀ q d, opts.globalObjective = some q → LpFull.asValue q = some d →
    ∃ bd ∈ s.bounds, bd.value = o.value + d ∧ ∀ x ∈ prog.iqs, x.lit ≠ bd.lit
  disc : o.bounded = false → s.obj.discardBounded = true

/-- A thread that has seen the current state is informed. -/
def InformedIf (opts : Options) (prog : Prog) (o : ObjState V) (s : S V) : Prop :=
  opts.globalObjective.isSome = true → s.obj.generation = o.generation → o.generation ≠ 0 → Informed opts prog o s

section
variable {opts : Options} {prog : Prog} {o : ObjState V} {s s' : S V}

/-- Bounds are only added. -/
structure Keeps (s s' : S V) : Prop where
  gen : s'.obj.generation = s.obj.generation
  disc : s'.obj.discardBounded = s.obj.discardBounded
  bounds : ∀ bd ∈ s.bounds, bd ∈ s'.bounds
  opts : s'.opts = s.opts

theorem Keeps.trans {a b c : S V} (h : Keeps a b) (k : Keeps b c) : Keeps a c :=
  ⟨k.gen.trans h.gen, k.disc.trans h.disc, fun bd hb => k.bounds bd (h.bounds bd hb), k.opts.trans h.opts⟩

theorem keeps_fix (h : S.Fix s s') : Keeps s s' := ⟨by rw [h.obj], by rw [h.obj], fun bd hb => by rw [h.bounds]; exact hb, h.opts⟩

theorem keeps_ofix (h : S.OFix s s') : Keeps s s' := by
  obtain ⟨b, hb⟩ := h.obj
  exact ⟨by rw [hb], by rw [hb], fun bd hb => by rw [h.bounds]; exact hb, h.opts⟩

theorem keeps_assert (ctl : Ctl) (s : S V) (x : V) : Keeps s (s.assertBound ctl x).1 :=
  ⟨rfl, rfl, fun _ hb => List.mem_append_left _ hb, rfl⟩

theorem Informed.keeps (h : Informed opts prog o s) (k : Keeps s s') : Informed opts prog o s' :=
  ⟨fun hb q d hq hd => by obtain ⟨bd, h1, h2⟩ := h.cut hb q d hq hd; exact ⟨bd, k.bounds bd h1, h2⟩, fun hb => k.disc.trans (h.disc hb)⟩

theorem InformedIf.keeps (h : InformedIf opts prog o s) (k : Keeps s s') : InformedIf opts prog o s' :=
  fun hi hg h0 => (h hi (k.gen.symm.trans hg) h0).keeps k

theorem keeps_discard (ctl : Ctl) (s : S V) : Keeps s (s.discardBounded ctl).1 := by
  unfold S.discardBounded
  split
  · exact ⟨rfl, rfl, fun _ h => h, rfl⟩
  · exact keeps_assert ctl s _

/-- Assignments with a bounded objective are discarded by a cut with a new literal. -/
theorem discard_new (ctl : Ctl) (s : S V) (ha : (s.discardBounded ctl).1.obj.active = true)
    (hg : (s.discardBounded ctl).1.opts.globalObjective.isSome = true) (hb : (s.discardBounded ctl).1.obj.bounded = true)
    (hd : (s.discardBounded ctl).1.obj.discardBounded = true) : ∃ bd ∈ (s.discardBounded ctl).1.bounds, ∃ O, bd.lit = ctl.newLit O := by
  unfold S.discardBounded at ha hg hb hd ⊢
  split at ha
  · rename_i hc
    rw [if_pos hc] at hg hb hd
    simp only at ha hg hb hd
    simp only [ha, hb, hd, Bool.not_true, Bool.false_or, Bool.or_false, Option.isNone_iff_eq_none] at hc
    rw [hc] at hg; cases hg
  · rename_i hc
    rw [if_neg hc]
    exact ⟨_, List.mem_append_right _ (List.mem_singleton.2 rfl), s.out, rfl⟩

/-- After the objective has been integrated the thread is informed, if a model has been reported. -/
theorem integrate_informed (h : InformedIf opts prog o s) (ho : s.opts = opts) (hg : opts.globalObjective.isSome = true)
    (ctl : Ctl) (hfi : ∀ O, ∀ x ∈ prog.iqs, x.lit ≠ ctl.newLit O ∧ x.lit ≠ -ctl.newLit O) (h0 : o.generation ≠ 0) :
    Informed opts prog o (s.integrate ctl o).1 ∧ (s.integrate ctl o).1.obj.generation = o.generation := by
  generalize hrr : s.integrate ctl o = res
  unfold S.integrate at hrr
  split at hrr
  · rename_i hn; rw [ho] at hn; rw [hn] at hg; cases hg
  rename_i q hq
  rw [ho] at hq
  unfold ObjState.read at hrr
  by_cases hgen : s.obj.generation = o.generation
  · simp only [ne_eq, hgen, not_true_eq_false, if_false] at hrr
    subst hrr
    obtain ⟨h1, h2⟩ := h hg hgen h0
    exact ⟨⟨h1, h2⟩, rfl⟩
  · simp only [ne_eq, hgen, not_false_eq_true, if_true] at hrr
    cases hb : o.bounded
    · simp only [hb, Bool.not_false, if_true] at hrr
      subst hrr
      exact ⟨⟨fun hb' => by (rw [hb] at hb'; cases hb'), fun _ => rfl⟩, rfl⟩
    · simp only [hb, Bool.not_true, Bool.false_eq_true, if_false] at hrr
      cases hd : LpFull.asValue (V := V) q with
      | none =>
        rw [hd] at hrr
        simp only at hrr
        subst hrr
        refine ⟨⟨fun _ q' d' hq' hd' => ?_, fun hb' => by rw [hb] at hb'; cases hb'⟩, rfl⟩
        obtain rfl := Option.some.inj (hq.symm.trans hq')
        rw [hd] at hd'; cases hd'
      | some d =>
        rw [hd] at hrr
        simp only at hrr
        subst hrr
        refine ⟨⟨fun _ q' d' hq' hd' => ?_, fun hb' => by rw [hb] at hb'; cases hb'⟩, rfl⟩
        obtain rfl := Option.some.inj (hq.symm.trans hq')
        obtain rfl := Option.some.inj (hd.symm.trans hd')
        refine ⟨{ value := o.value + d, var := s.obj.boundVar, lit := ctl.newLit s.out, rel := .ge }, ?_, rfl, fun x hx => (hfi _ x hx).1⟩
        exact List.mem_append_right _ (List.mem_singleton.2 rfl)

end

/-! ### all reachable states -/

section
variable {be : Backend} {opts : Options} {Q : Restr V} {p p' : Propagator V} {g g' : Ghost V}

/-- All threads are informed. -/
def AllInformed (opts : Options) (p : Propagator V) (g : Ghost V) : Prop :=
  ∀ (th : ℕ) (gt : GThr) (t : Thr V), g.thrs[th]? = some gt → p.thrs[th]? = some t → InformedIf opts p.prog p.obj t.slv

/-- The state of a thread after `check`. -/
theorem check_informed (hw : WSys opts p g) (h : AllInformed opts p g) {fuel : ℕ} {ctl : Ctl} {total : Bool} {th : ℕ} {gt : GThr} {t : Thr V}
    {ok : Bool} (hm : MayCheck p g ctl th gt t) (hr : p.check fuel ctl total th = some (p', ok)) :
    ∃ t', p' = { p with thrs := p.thrs.set th t' } ∧ InformedIf opts p.prog p.obj t'.slv ∧
      (p.factsOk fuel ctl th = true → opts.globalObjective.isSome = true → p.obj.generation ≠ 0 → Informed opts p.prog p.obj t'.slv) ∧
      (ok = true → p.factsOk fuel ctl th = true) ∧
      (total = true → ok = true → t'.slv.obj.active = true → t'.slv.opts.globalObjective.isSome = true → t'.slv.obj.bounded = true →
        t'.slv.obj.discardBounded = true → ∃ bd ∈ t'.slv.bounds, ∃ O, bd.lit = ctl.newLit O) := by
  unfold Propagator.check at hr
  unfold Propagator.factsOk
  cases hc : p.checkFacts fuel ctl th with
  | none => rw [hc] at hr; cases hr
  | some r =>
    rw [hc] at hr
    obtain ⟨p1, b⟩ := r
    have hI := h th gt t hm.thr hm.slv
    obtain ⟨t1, h1, h2, E0, base, h3⟩ := hw.checkFacts hm.thr hm.dl hm.slv hc
    have hk : Keeps t.slv t1.slv := by
      unfold Propagator.checkFacts at hc
      simp only [hm.slv] at hc
      by_cases hn : p.needFacts ctl t
      · rw [if_pos hn] at hc
        cases hsol : t.slv.solve ctl fuel (p.factSpan t) with
        | none => rw [hsol] at hc; cases hc
        | some r =>
          rw [hsol] at hc
          obtain ⟨s', b⟩ := r
          simp only [Option.some.injEq, Prod.mk.injEq] at hc
          obtain ⟨rfl, rfl⟩ := hc
          obtain ⟨t0, ht0, E0', base', hd⟩ := hw.thr th gt hm.thr
          obtain rfl := Option.some.inj (hm.slv.symm.trans ht0)
          have := (S.solve_weak hd.winv (ctl := ctl) (by
            intro l hl
            obtain ⟨fr, hfr, rfl⟩ := List.mem_map.1 hl
            exact hm.dl fr hfr) hsol).2
          have e := (getElem?_set_some (b := (⟨p.factsOffset, s'⟩ : Thr V)) hm.slv).symm.trans h1
          obtain rfl := Option.some.inj e
          exact keeps_fix this
      · rw [if_neg hn] at hc
        simp only [Option.some.injEq, Prod.mk.injEq] at hc
        obtain ⟨rfl, rfl⟩ := hc
        obtain rfl := Option.some.inj (hm.slv.symm.trans h1)
        exact ⟨rfl, rfl, fun _ h => h, rfl⟩
    simp only at hr
    cases b
    · simp only [Bool.false_eq_true, if_false, Option.some.injEq, Prod.mk.injEq] at hr
      obtain ⟨rfl, rfl⟩ := hr
      exact ⟨t1, h2, hI.keeps hk, by simp, by simp, by simp⟩
    · simp only [if_true] at hr
      unfold Propagator.checkObj at hr
      rw [h1] at hr
      simp only at hr
      have hobj : p1.obj = p.obj := by rw [h2]
      rw [hobj] at hr
      cases hs : t1.slv.checkObj ctl fuel total p.obj with
      | none => rw [hs] at hr; cases hr
      | some r =>
        rw [hs] at hr
        obtain ⟨s', b⟩ := r
        simp only [Option.some.injEq, Prod.mk.injEq] at hr
        obtain ⟨rfl, rfl⟩ := hr
        have key : Keeps (t1.slv.integrate ctl p.obj).1 s' ∧ (total = true → b = true → s'.obj.active = true → s'.opts.globalObjective.isSome = true →
            s'.obj.bounded = true → s'.obj.discardBounded = true → ∃ bd ∈ s'.bounds, ∃ O, bd.lit = ctl.newLit O) := by
          have hi := h3.integrate ctl hw.obj (fun hne => (hw.rep (hw.stat.alive hm.thr) hne).1) hm.fresh.iqs
          unfold S.checkObj at hs
          simp only at hs
          generalize t1.slv.integrate ctl p.obj = res at hs hi
          obtain ⟨s1, b1⟩ := res
          cases b1
          · simp only [Bool.not_false, if_true, Option.some.injEq, Prod.mk.injEq] at hs
            obtain ⟨rfl, rfl⟩ := hs; exact ⟨⟨rfl, rfl, fun _ h => h, rfl⟩, by simp⟩
          · cases total
            · simp only [Bool.not_true, Bool.false_eq_true, if_false, Option.some.injEq, Prod.mk.injEq] at hs
              obtain ⟨rfl, rfl⟩ := hs; exact ⟨⟨rfl, rfl, fun _ h => h, rfl⟩, by simp⟩
            · simp only [Bool.not_true, Bool.false_eq_true, if_false, if_true] at hs
              unfold S.checkTotal at hs
              cases hs1 : s1.optimize fuel with
              | none => rw [hs1] at hs; simp at hs
              | some s2 =>
                rw [hs1] at hs
                simp only [Option.some.injEq] at hs
                have k1 := keeps_ofix (S.optimize_weak hi.winv hs1).2
                have k2 : Keeps s2 (if s2.opts.store = .no then s2 else s2.storeSat) := by
                  split
                  · exact ⟨rfl, rfl, fun _ h => h, rfl⟩
                  · exact ⟨rfl, rfl, fun _ h => h, rfl⟩
                have k3 := keeps_discard ctl (if s2.opts.store = .no then s2 else s2.storeSat)
                have k4 := discard_new ctl (if s2.opts.store = .no then s2 else s2.storeSat)
                rw [hs] at k3 k4
                exact ⟨(k1.trans k2).trans k3, fun _ _ => k4⟩
        obtain ⟨key, hdis⟩ := key
        have hall : opts.globalObjective.isSome = true → p.obj.generation ≠ 0 → Informed opts p.prog p.obj s' := fun hg h0 =>
          (integrate_informed (hI.keeps hk) h3.hopts hg ctl hm.fresh.iqs h0).1.keeps key
        refine ⟨{ t1 with slv := s' }, ?_, fun hg _ h0 => hall hg h0, fun _ => hall, fun _ => rfl, ?_⟩
        swap
        · rintro rfl rfl
          exact hdis rfl rfl
        unfold Propagator.setThr
        rw [h2]; simp only [List.set_set]

theorem AllInformed.setThr (h : AllInformed opts p g) {th : ℕ} {gt gt' : GThr} {t' : Thr V} (hgt : g.thrs[th]? = some gt)
    (hlt : th < p.thrs.length) (hp : p' = { p with facts := p'.facts, thrs := p.thrs.set th t' })
    (hg : g'.thrs = g.thrs.set th gt') (ht : InformedIf opts p.prog p.obj t'.slv) : AllInformed opts p' g' := by
  intro th2 gt2 t2 h1 h2
  have hpr : p'.prog = p.prog := by rw [hp]
  have hob : p'.obj = p.obj := by rw [hp]
  have htr : p'.thrs = p.thrs.set th t' := by rw [hp]
  rw [hpr, hob]
  rw [hg, List.getElem?_set] at h1
  rw [htr, List.getElem?_set] at h2
  by_cases he : th = th2
  · rw [if_pos he, if_pos hlt] at h2
    obtain rfl := Option.some.inj h2
    exact ht
  · rw [if_neg he] at h1 h2
    exact h th2 gt2 t2 h1 h2

theorem AllInformed.step (hw : WSys opts p g) (h : AllInformed opts p g) (hs : Step be Q p g p' g') : AllInformed opts p' g' := by
  have hlt : ∀ {th : ℕ} {gt : GThr}, g.thrs[th]? = some gt → th < p.thrs.length := by
    intro th gt hgt
    obtain ⟨t, ht, -⟩ := hw.thr th gt hgt
    exact (List.getElem?_eq_some_iff.1 ht).1
  cases hs with
  | init mapper atoms envs n hi =>
    intro th gt t _ _ _ _ h0
    refine absurd ?_ h0
    unfold Propagator.init at hi
    simp only at hi
    split at hi
    · cases hi
    · simp only [Except.ok.injEq, Prod.mk.injEq] at hi
      rw [← hi.1]; rfl
  | fail mapper atoms envs n hi hab => intro th gt t h1; simp at h1
  | propagate fuel ctl th lits hm hr =>
    obtain ⟨t, ht, E0, base, hd⟩ := hw.thr th _ hm.thr
    obtain ⟨s', hs', hp⟩ := (propagate_eq ht).1 hr
    have hf := (S.solve_weak hd.winv (ctl := ctl) (by
      intro l hl
      obtain ⟨fr, hfr, rfl⟩ := List.mem_map.1 hl
      exact hm.dl fr hfr) hs').2
    exact h.setThr hm.thr (hlt hm.thr) (t' := { t with slv := s' }) (by rw [hp]) rfl ((h th _ t hm.thr ht).keeps (keeps_fix hf))
  | check fuel ctl total th hm hr =>
    obtain ⟨t', hp, ht, -⟩ := check_informed hw h hm hr
    exact h.setThr hm.thr (hlt hm.thr) (by rw [hp]) rfl ht
  | undo th hgt hf hl hr =>
    obtain ⟨t, ht, E0, base, hd⟩ := hw.thr th _ hgt
    unfold Propagator.undo at hr
    rw [ht] at hr
    simp only [Option.some.injEq] at hr
    subst hr
    have hwi := hd.winv
    rw [hf] at hwi
    have := (S.WInv.undo hwi hl).2.1
    exact h.setThr hgt (hlt hgt) (t' := { t with slv := t.slv.undo }) rfl rfl ((h th _ t hgt ht).keeps (keeps_fix this))
  | model th hgt hsk hr =>
    have key : p' = p ∨ ∃ x, p' = { p with obj := p.obj.update x } := by
      unfold Propagator.onModel at hr
      repeat' split at hr
      all_goals simp only [Option.some.injEq, reduceCtorEq] at hr
      all_goals first | exact .inl hr.symm | exact .inr ⟨_, hr.symm⟩
    rcases key with rfl | ⟨x, rfl⟩
    · exact h
    · intro th2 gt2 t2 h1 h2
      obtain ⟨t0, ht0, E0, base, hd⟩ := hw.thr th2 gt2 h1
      obtain rfl := Option.some.inj (ht0.symm.trans h2)
      show InformedIf opts p.prog (p.obj.update x) t0.slv
      unfold ObjState.update
      split
      · intro _ hg _
        have := hd.hgen
        simp only at hg
        omega
      · exact h th2 gt2 t0 h1 h2

theorem _root_.Lpx.Reach.informed (hr : Reach be opts Q p g) : AllInformed opts p g := by
  induction hr with
  | start => intro th gt t h; simp at h
  | step h hs ih => exact ih.step h.weak hs


/-! ### C46 -/

/-- C46 (partial: `Intact`): every assignment accepted improves. Let a `check` of a total assignment succeed and the literals of all cuts of the
thread be true (they are by unit clauses, see `C29_cuts_enforced_partial`). If an unbounded objective has been reported before, then the objective is
unbounded for this assignment. -/
theorem C46_unbounded_kept_partial (hq : StepOK V opts) (hr : Reach be opts Intact p g) {fuel : ℕ} {ctl : Ctl} {th : ℕ} {gt : GThr} {t : Thr V}
    (hm : MayCheck p g ctl th gt t) (hc : p.check fuel ctl true th = some (p', true))
    (hcut : ∀ u ∈ p'.cutsOf th, Act (p.checkFrames ctl t gt.frames) u.1) {v : V} (hv : (v, false) ∈ g.reported) :
    ∃ w, p'.objectiveOf th = [(w, false)] := by
  obtain ⟨t', hp, -, h1, h2, h3⟩ := check_informed hr.weak hr.informed hm hc
  have hne : g.reported ≠ [] := fun h0 => by rw [h0] at hv; simp at hv
  obtain ⟨hobj, hg⟩ := hr.weak.rep (hr.stat.alive hm.thr) hne
  have hinf := h1 (h2 rfl) hg (fun h0 => hne (hr.weak.obj.gen0.1 h0))
  have hb : p.obj.bounded = false := by
    cases hb : p.obj.bounded
    · rfl
    · have := (hr.weak.obj.best hb _ hv).1; cases this
  have hr' := hr.step (.check fuel ctl true th hm hc)
  have ht' : p'.thrs[th]? = some t' := by rw [hp]; exact getElem?_set_some hm.slv
  obtain ⟨t2, ht2, E0, base, hd⟩ := hr'.weak.thr th _ (getElem?_set_some hm.thr)
  obtain rfl := Option.some.inj (ht'.symm.trans ht2)
  have hpr : p'.prog = p.prog := by rw [hp]
  have hact : t'.slv.obj.active = true := by
    rw [hd.active, hpr]
    cases ho : p.prog.objective with
    | nil => exact absurd ho hobj
    | cons => rfl
  unfold Propagator.objectiveOf S.getObjective
  simp only [ht', hact, if_true, Option.toList_some, List.cons.injEq, Prod.mk.injEq, and_true, exists_eq_left']
  by_contra hbd
  obtain ⟨bd, hbd, O, hO⟩ := h3 rfl rfl hact (by rw [hd.hopts]; exact hg) (by simpa using hbd) (hinf.disc hb)
  have hmem : (bd.lit, bd.value) ∈ p'.cutsOf th := (mem_cutsOf ht').2 ⟨bd, hbd, fun x hx => by rw [hO]; exact (hm.fresh.iqs O x (by rw [← hpr]; exact hx)).1, rfl⟩
  have := hcut _ hmem
  rw [hO] at this
  exact hm.fresh.act O this

/-- C46 (partial: `Intact`): every assignment accepted improves. Let a `check` succeed and the literals of all cuts of the
thread be true. If no unbounded objective has been reported before, then the objective value of this assignment is at least every value that has been
reported before plus the step. -/
theorem C46_improves_partial (hq : StepOK V opts) (hr : Reach be opts Intact p g) {fuel : ℕ} {ctl : Ctl} {total : Bool} {th : ℕ} {gt : GThr} {t : Thr V}
    (hm : MayCheck p g ctl th gt t) (hc : p.check fuel ctl total th = some (p', true))
    (hcut : ∀ u ∈ p'.cutsOf th, Act (p.checkFrames ctl t gt.frames) u.1) (hb : ∀ v, (v, false) ∉ g.reported) {v : V} (hv : (v, true) ∈ g.reported)
    {q : RatQ} {d : V} (hgo : opts.globalObjective = some q) (hd : LpFull.asValue q = some d) :
    ∃ w b, p'.objectiveOf th = [(w, b)] ∧ v + d ≤ w := by
  obtain ⟨t', hp, -, h1, h2, h3⟩ := check_informed hr.weak hr.informed hm hc
  have hne : g.reported ≠ [] := fun h0 => by rw [h0] at hv; simp at hv
  obtain ⟨hobj, hg⟩ := hr.weak.rep (hr.stat.alive hm.thr) hne
  have hinf := h1 (h2 rfl) hg (fun h0 => hne (hr.weak.obj.gen0.1 h0))
  have hbd : p.obj.bounded = true := by
    cases hb' : p.obj.bounded
    · have := hr.weak.obj.mem hne
      rw [hb'] at this
      exact absurd this (hb _)
    · rfl
  have hr' := hr.step (.check fuel ctl total th hm hc)
  have ht' : p'.thrs[th]? = some t' := by rw [hp]; exact getElem?_set_some hm.slv
  obtain ⟨t2, ht2, E0, base, hwk⟩ := hr'.weak.thr th _ (getElem?_set_some hm.thr)
  obtain rfl := Option.some.inj (ht'.symm.trans ht2)
  have hpr : p'.prog = p.prog := by rw [hp]
  have hact : t'.slv.obj.active = true := by
    rw [hwk.active, hpr]
    cases ho : p.prog.objective with
    | nil => exact absurd ho hobj
    | cons => rfl
  have hob : p'.objectiveOf th = [(t'.slv.value t'.slv.obj.var, t'.slv.obj.bounded)] := by
    unfold Propagator.objectiveOf S.getObjective
    simp only [ht', hact, if_true, Option.toList_some]
  refine ⟨_, _, hob, ?_⟩
  obtain ⟨bd, hbd1, hbd2, hbd3⟩ := hinf.cut hbd q d hgo hd
  have hmem : (bd.lit, bd.value) ∈ p'.cutsOf th := (mem_cutsOf ht').2 ⟨bd, hbd1, fun x hx => hbd3 x (by rw [← hpr]; exact hx), rfl⟩
  have := C29_cuts_enforced_partial hq hr' (getElem?_set_some hm.thr) (by simp [h2 rfl]) hmem (hcut _ hmem)
  rw [C01_objective_value hr' (getElem?_set_some hm.thr) hob]
  refine le_trans ?_ this
  rw [hbd2]
  exact add_le_add_left (hr.weak.obj.best hbd _ hv).2 d

/-- Extend a truth assignment by making the literals of cuts true. -/
def withCuts (cuts : List (ℤ × V)) (tr : ℤ → Prop) (l : ℤ) : Prop :=
  (∃ u ∈ cuts, u.1 = l) ∨ (tr l ∧ ¬ ∃ u ∈ cuts, u.1 = -l)

/-- The literals of cuts are not those of constraints. -/
theorem cuts_lit (hr : Reach be opts Q p g) {th : ℕ} {gt : GThr} (hgt : g.thrs[th]? = some gt) :
    ∀ u ∈ p.cutsOf th, ∀ x ∈ p.prog.iqs, x.lit ≠ u.1 ∧ x.lit ≠ -u.1 := by
  intro u hu
  obtain ⟨t, ht, E0, base, hd⟩ := hr.weak.thr th gt hgt
  obtain ⟨bd, hb, hne, rfl⟩ := (mem_cutsOf ht).1 hu
  obtain ⟨cs, hc1, hc2⟩ := hd.cuts
  rw [hc1, List.mem_append] at hb
  rcases hb with hb | hb
  · obtain ⟨x, hx, hrep⟩ := hd.set.src bd hb
    exact absurd hrep.lit.symm (hne x hx)
  · exact (hc2 bd hb).lit

/-- Only the literals of cuts are changed; in particular no literal of a constraint. -/
theorem withCuts_iff (hr : Reach be opts Q p g) {th : ℕ} {gt : GThr} (hgt : g.thrs[th]? = some gt) (tr : ℤ → Prop) {x : Ineq Symbol}
    (hx : x ∈ p.prog.iqs) : (withCuts (p.cutsOf th) tr x.lit ↔ tr x.lit) ∧ (withCuts (p.cutsOf th) tr (-x.lit) ↔ tr (-x.lit)) := by
  have h := fun u hu => cuts_lit hr hgt u hu x hx
  unfold withCuts
  constructor
  · constructor
    · rintro (⟨u, hu, he⟩ | h1)
      · exact absurd he.symm (h u hu).1
      · exact h1.1
    · exact fun h1 => Or.inr ⟨h1, fun ⟨u, hu, he⟩ => (h u hu).2 (by rw [he]; simp)⟩
  · constructor
    · rintro (⟨u, hu, he⟩ | h1)
      · exact absurd (by rw [he]; simp) (h u hu).2
      · exact h1.1
    · exact fun h1 => Or.inr ⟨h1, fun ⟨u, hu, he⟩ => (h u hu).1 (by rw [he]; simp)⟩

/-- Exactly one of a literal and its negation is true, if this is so for `tr` and the literals of cuts are positive. -/
theorem withCuts_consistent {cuts : List (ℤ × V)} (hpos : ∀ u ∈ cuts, 0 < u.1) {tr : ℤ → Prop} {l : ℤ} (ht : tr (-l) ↔ ¬ tr l) :
    withCuts cuts tr (-l) ↔ ¬ withCuts cuts tr l := by
  unfold withCuts
  rw [neg_neg, ht]
  by_cases h1 : ∃ u ∈ cuts, u.1 = l <;> by_cases h2 : ∃ u ∈ cuts, u.1 = -l
  · obtain ⟨u, hu, he⟩ := h1
    obtain ⟨u', hu', he'⟩ := h2
    have := hpos u hu
    have := hpos u' hu'
    omega
  · simp [h1, h2]
  · simp [h1, h2]
  · simp [h1, h2]

/-- A solution that meets all cuts satisfies all clauses, if the literals of the cuts are made true. -/
theorem clause_withCuts (hq : StepOK V opts) (hr : Reach be opts Intact p g) (hs : ∀ x ∈ p.prog.iqs, Supports V x.rel)
    (hcst : ∀ x ∈ p.prog.iqs, x.lhs = [] → x.rel = .eq ∨ x.rhs = 0) {tr : ℤ → Prop} (ht : ∀ l, tr l ∨ tr (-l)) {gv : Symbol → ℚ}
    (hsol : Solves p.prog.iqs tr gv) {th : ℕ} {gt : GThr} (hgt : g.thrs[th]? = some gt)
    (hmeet : ∀ u ∈ p.cutsOf th, u.2 ≤ LpValue.ofRat (evalTerms gv p.prog.objective)) {c : List ℤ} (hc : c ∈ p.clausesOf th) :
    ∃ l ∈ c, withCuts (p.cutsOf th) tr l := by
  rcases C02_clauses_exclude_no_model_partial hq hr (hr.stat.alive hgt) hs hcst hc with ⟨u, hu, rfl⟩ | h
  · exact ⟨u.1, by simp, Or.inl ⟨u, hu, rfl⟩⟩
  · refine h _ gv (fun l => ?_) (fun x hx hl => hsol x hx ((withCuts_iff hr hgt tr hx).1.1 hl)) fun u hu _ => hmeet u hu
    by_cases h1 : ∃ u ∈ p.cutsOf th, u.1 = l
    · exact Or.inl (Or.inl h1)
    · by_cases h2 : ∃ u ∈ p.cutsOf th, u.1 = -l
      · exact Or.inr (Or.inl h2)
      · rcases ht l with h3 | h3
        · exact Or.inl (Or.inr ⟨h3, h2⟩)
        · exact Or.inr (Or.inr ⟨h3, by rw [neg_neg]; exact h1⟩)

/-- The solution is better than everything reported: the values reported are bounded and it reaches each of them plus the step. -/
def BetterThanReported (opts : Options) (prog : Prog) (reported : List (V × Bool)) (gv : Symbol → ℚ) : Prop :=
  ∀ x ∈ reported, x.2 = true ∧ ∀ q d, opts.globalObjective = some q → LpFull.asValue q = some d →
    x.1 + d ≤ LpValue.ofRat (evalTerms gv prog.objective)

/-- C46 (partial: `Intact`, constraints without variables as for C02): nothing better is lost. A solution whose objective value is at
least every reported value plus the step satisfies all clauses added by all threads, once the literals of the cuts are made true. -/
theorem C46_better_not_lost_partial (hq : StepOK V opts) (hr : Reach be opts Intact p g) (hs : ∀ x ∈ p.prog.iqs, Supports V x.rel)
    (hcst : ∀ x ∈ p.prog.iqs, x.lhs = [] → x.rel = .eq ∨ x.rhs = 0)
    {tr : ℤ → Prop} (ht : ∀ l, tr l ∨ tr (-l)) {gv : Symbol → ℚ} (hsol : Solves p.prog.iqs tr gv) (hbetter : BetterThanReported opts p.prog g.reported gv)
    {th : ℕ} {gt : GThr} (hgt : g.thrs[th]? = some gt) {c : List ℤ} (hc : c ∈ p.clausesOf th) : ∃ l ∈ c, withCuts (p.cutsOf th) tr l := by
  refine clause_withCuts hq hr hs hcst ht hsol hgt (fun u hu => ?_) hc
  rcases C29_cut_values hr hgt hu with ⟨q, d, v, h1, h2, h3, h4⟩ | ⟨v, h1⟩
  · rw [h4]; exact (hbetter _ h3).2 q d h1 h2
  · have := (hbetter _ h1).1; cases this

/-- C46 (partial as above): truth assignments with an unbounded objective are never lost, whatever has been reported. -/
theorem C46_unbounded_not_lost_partial (hq : StepOK V opts) (hr : Reach be opts Intact p g) (hs : ∀ x ∈ p.prog.iqs, Supports V x.rel)
    (hcst : ∀ x ∈ p.prog.iqs, x.lhs = [] → x.rel = .eq ∨ x.rhs = 0)
    {tr : ℤ → Prop} (ht : ∀ l, tr l ∨ tr (-l)) (hunb : ∀ q : ℚ, ∃ gv, Solves p.prog.iqs tr gv ∧ q < evalTerms gv p.prog.objective)
    {th : ℕ} {gt : GThr} (hgt : g.thrs[th]? = some gt) {c : List ℤ} (hc : c ∈ p.clausesOf th) : ∃ l ∈ c, withCuts (p.cutsOf th) tr l := by
  have key : ∀ cuts : List (ℤ × V), ∃ q : ℚ, ∀ u ∈ cuts, u.2 ≤ LpValue.ofRat q := by
    intro cuts
    induction cuts with
    | nil => exact ⟨0, by simp⟩
    | cons u us ih =>
      obtain ⟨q, hq⟩ := ih
      obtain ⟨q', hq'⟩ := LpValue.archimedean u.2
      refine ⟨max q q', fun w hw => ?_⟩
      have mono : ∀ {a b : ℚ}, a ≤ b → (LpValue.ofRat a : V) ≤ LpValue.ofRat b := fun h => (ofRat_le_iff _ _).2 h
      rcases List.mem_cons.1 hw with rfl | hw
      · exact hq'.le.trans (mono (le_max_right _ _))
      · exact (hq w hw).trans (mono (le_max_left _ _))
  obtain ⟨q, hq'⟩ := key (p.cutsOf th)
  obtain ⟨gv, h1, h2⟩ := hunb q
  exact clause_withCuts hq hr hs hcst ht h1 hgt (fun u hu => (hq' u hu).trans ((ofRat_le_iff _ _).2 h2.le)) hc

/-- C46 (partial as above): the end of the search. Let `M` be the truth assignments clingo searches through; the literals of cuts do not occur in the
program, so making them true does not matter. If none of them satisfies the clauses of some thread, then every solution of a truth assignment in
`M` is not better than everything reported: an unbounded objective has been reported or some value `v` with `objective < v + step`. In particular,
if nothing has been reported then there is no solution. -/
theorem C46_exhausted_partial (hq : StepOK V opts) (hr : Reach be opts Intact p g) (hs : ∀ x ∈ p.prog.iqs, Supports V x.rel)
    (hcst : ∀ x ∈ p.prog.iqs, x.lhs = [] → x.rel = .eq ∨ x.rhs = 0) {th : ℕ} {gt : GThr} (hgt : g.thrs[th]? = some gt)
    {M : (ℤ → Prop) → Prop} (hM : ∀ tr, M tr → M (withCuts (p.cutsOf th) tr))
    (hex : ¬ ∃ tr, M tr ∧ ∀ c ∈ p.clausesOf th, ∃ l ∈ c, tr l) {tr : ℤ → Prop} (hmt : M tr) (ht : ∀ l, tr l ∨ tr (-l)) {gv : Symbol → ℚ}
    (hsol : Solves p.prog.iqs tr gv) :
    (∃ v, (v, false) ∈ g.reported) ∨ ∃ v q d, (v, true) ∈ g.reported ∧ opts.globalObjective = some q ∧ LpFull.asValue q = some d ∧
      LpValue.ofRat (evalTerms gv p.prog.objective) < v + d := by
  by_contra hno
  push Not at hno
  refine hex ⟨_, hM tr hmt, fun c hc => C46_better_not_lost_partial hq hr hs hcst ht hsol ?_ hgt hc⟩
  rintro ⟨v, b⟩ hx
  cases b
  · exact absurd hx (hno.1 v)
  · exact ⟨rfl, fun q d h1 h2 => hno.2 v q d hx h1 h2⟩

/-! ### unmixed programs (see C45): all histories -/

/-- C46 for unmixed programs and arbitrary histories. -/
theorem C46_unmixed_improves (hq : StepOK V opts) (hr : Reach be opts Q p g) (hu : Unmixed p.prog.iqs) {fuel : ℕ} {ctl : Ctl} {th : ℕ} {gt : GThr} {t : Thr V}
    (hm : MayCheck p g ctl th gt t) (hc : p.check fuel ctl true th = some (p', true))
    (hcut : ∀ u ∈ p'.cutsOf th, Act (p.checkFrames ctl t gt.frames) u.1) :
    ((∃ v, (v, false) ∈ g.reported) → ∃ w, p'.objectiveOf th = [(w, false)]) ∧
    ((∀ v, (v, false) ∉ g.reported) → ∀ v q d, (v, true) ∈ g.reported → opts.globalObjective = some q → LpFull.asValue q = some d →
      ∃ w b, p'.objectiveOf th = [(w, b)] ∧ v + d ≤ w) :=
  ⟨fun ⟨_, hv⟩ => C46_unbounded_kept_partial hq (hu.reach hq hr) hm hc hcut hv,
    fun hb _ _ _ hv hgo hd => C46_improves_partial hq (hu.reach hq hr) hm hc hcut hb hv hgo hd⟩

/-- C46 for unmixed programs and arbitrary histories. -/
theorem C46_unmixed_not_lost (hq : StepOK V opts) (hr : Reach be opts Q p g) (hu : Unmixed p.prog.iqs) (hs : ∀ x ∈ p.prog.iqs, Supports V x.rel)
    (hcst : ∀ x ∈ p.prog.iqs, x.lhs = [] → x.rel = .eq ∨ x.rhs = 0) {tr : ℤ → Prop} (ht : ∀ l, tr l ∨ tr (-l))
    (hbetter : (∃ gv, Solves p.prog.iqs tr gv ∧ BetterThanReported opts p.prog g.reported gv) ∨
      ∀ q : ℚ, ∃ gv, Solves p.prog.iqs tr gv ∧ q < evalTerms gv p.prog.objective)
    {th : ℕ} {gt : GThr} (hgt : g.thrs[th]? = some gt) {c : List ℤ} (hc : c ∈ p.clausesOf th) : ∃ l ∈ c, withCuts (p.cutsOf th) tr l := by
  rcases hbetter with ⟨gv, h1, h2⟩ | h
  · exact C46_better_not_lost_partial hq (hu.reach hq hr) hs hcst ht h1 h2 hgt hc
  · exact C46_unbounded_not_lost_partial hq (hu.reach hq hr) hs hcst ht h hgt hc

end

/-! ### the hypotheses can be met -/

/-- `x <= 3`, `x <= 7`, `&maximize{ x }`. -/
def globProg : List TAtom := [sumAtom "x" "<=" 3 1, sumAtom "x" "<=" 7 2, maxAtom "x"]

/-- The objective is global with step 1. -/
def globOpts : Options := { globalObjective := some ⟨1, 0⟩ }

theorem globOpts_step : StepOK ℚ globOpts := by
  intro q hq
  obtain rfl := Option.some.inj hq
  exact ⟨1, rfl⟩

/-- A model with value 3, a cut with value 4 and literal 1000, which is propagated, and an assignment with value 7. -/
def globRun : List Ev := [.init globProg 1, .prop 1 0 [1] true, .check 1 true 0, .model 0, .undo 0, .check 0 false 0, .prop 0 0 [1000] true, .prop 1 0 [2] true]

/-- The hypotheses of `C46_improves_partial` are met. -/
example : ∃ (p p' : Propagator ℚ) (g : Ghost ℚ) (ctl : Ctl) (gt : GThr) (t : Thr ℚ), Reach .imath globOpts Intact p g ∧ MayCheck p g ctl 0 gt t ∧
    p.check fuel ctl true 0 = some (p', true) ∧ p'.cutsOf 0 = [(1000, 4)] ∧ Act (p.checkFrames ctl t gt.frames) 1000 ∧
    g.reported = [(3, true)] ∧ p'.objectiveOf 0 = [(7, true)] := by
  obtain ⟨p, g, gt, t, p', ok, h1, -, h2, h3, h4⟩ := exists_check (V := ℚ) (be := .imath) (mode := .intact) (opts := globOpts) globRun 1 0 true
    (P := fun p g t gt p' ok => ok && decide (p'.cutsOf 0 = [(1000, 4)] ∧ Act (p.checkFrames (ctlOf 1 (p.checkFrames (ctlOf 1 [] true) t gt.frames) true) t gt.frames) 1000 ∧ g.reported = [(3, true)] ∧
      p'.objectiveOf 0 = [(7, true)])) (by decide +kernel)
  rw [Bool.and_eq_true] at h4
  obtain ⟨rfl, h4⟩ := h4
  exact ⟨p, p', g, _, gt, t, h1, h2, h3, of_decide_eq_true h4⟩

/-- The hypotheses of `C46_unbounded_kept_partial` are met: `x >= 0` is unbounded, with `x <= 3` it is bounded, and `x >= 1` is unbounded again. The cuts
have been propagated; the bounded assignment has been discarded. -/
example : ∃ (p p' : Propagator ℚ) (g : Ghost ℚ) (ctl : Ctl) (gt : GThr) (t : Thr ℚ), Reach .imath globOpts Intact p g ∧ MayCheck p g ctl 0 gt t ∧
    p.check fuel ctl true 0 = some (p', true) ∧ p'.cutsOf 0 = [(1000, 4)] ∧ Act (p.checkFrames ctl t gt.frames) 1000 ∧
    g.reported = [(0, false)] ∧ p'.objectiveOf 0 = [(4, false)] := by
  obtain ⟨p, g, gt, t, p', ok, h1, -, h2, h3, h4⟩ := exists_check (V := ℚ) (be := .imath) (mode := .intact) (opts := globOpts)
    [.init [sumAtom "x" ">=" 0 1, sumAtom "x" "<=" 3 2, maxAtom "x"] 1, .prop 1 0 [1] true, .check 1 true 0, .model 0, .undo 0, .prop 1 0 [2] true,
      .check 1 true 0, .undo 0, .prop 0 0 [1000] true] 0 0 true
    (P := fun p g t gt p' ok => ok && decide (p'.cutsOf 0 = [(1000, 4)] ∧ Act (p.checkFrames (ctlOf 0 (p.checkFrames (ctlOf 0 [] true) t gt.frames) true) t gt.frames) 1000 ∧ g.reported = [(0, false)] ∧
      p'.objectiveOf 0 = [(4, false)])) (by decide +kernel)
  rw [Bool.and_eq_true] at h4
  obtain ⟨rfl, h4⟩ := h4
  exact ⟨p, p', g, _, gt, t, h1, h2, h3, of_decide_eq_true h4⟩

/-- The hypotheses of `C46_better_not_lost_partial` are met by `x = 7` and the truth assignment where only 2 is true, after the model with value 3 and a
cut has been added and also a conflict clause between the cut and `x <= 3`. -/
example : ∃ (p : Propagator ℚ) (g : Ghost ℚ) (gt : GThr), Reach .imath globOpts Intact p g ∧ (∀ x ∈ p.prog.iqs, Supports ℚ x.rel) ∧
    (∀ x ∈ p.prog.iqs, x.lhs = [] → x.rel = .eq ∨ x.rhs = 0) ∧ g.thrs[0]? = some gt ∧ Solves p.prog.iqs (fun l => l = 2 ∨ l ≤ 0 ∧ l ≠ -2 ∨ 2 < l) (fun _ => 7) ∧
    BetterThanReported globOpts p.prog g.reported (fun _ => 7) ∧ g.reported ≠ [] ∧ p.clausesOf 0 = [[1000], [-1, -1000]] := by
  obtain ⟨p, g, h1, -, h2⟩ := exists_reach (V := ℚ) (be := .imath) (mode := .intact) (opts := globOpts)
    [.init globProg 1, .prop 1 0 [1] true, .check 1 true 0, .model 0, .undo 0, .check 0 false 0, .prop 0 0 [1000] true, .prop 1 0 [1] true]
    (P := fun p g => noStrict p.prog && (p.prog.iqs.all fun x => decide (x.lhs ≠ []) && decide (x.lit = 1 ∨ x.lit = 2 ∧ x.holds (fun _ => 7))) &&
      decide (p.prog.objective = [⟨1, symX⟩] ∧ g.reported = [(3, true)] ∧ p.clausesOf 0 = [[1000], [-1, -1000]]) && atThr g 0 fun _ => true) (by decide +kernel)
  simp only [Bool.and_eq_true, List.all_eq_true] at h2
  obtain ⟨⟨⟨h2, h3⟩, h4⟩, h5⟩ := h2
  obtain ⟨h6, h7, h8⟩ := of_decide_eq_true h4
  obtain ⟨gt, h9, -⟩ := atThr_spec h5
  refine ⟨p, g, gt, h1, noStrict_spec h2, fun x hx he => absurd he (of_decide_eq_true (h3 x hx).1), h9, fun x hx hl => ?_, ?_, by rw [h7]; simp, h8⟩
  · rcases of_decide_eq_true (h3 x hx).2 with h | h
    · rw [h] at hl; omega
    · exact h.2
  · intro x hx
    rw [h7, List.mem_singleton] at hx
    subst hx
    refine ⟨rfl, fun q d hq hd => ?_⟩
    obtain rfl := Option.some.inj hq
    have : d = 1 := (Option.some.inj hd).symm
    subst this
    rw [h6]
    show (3 : ℚ) + 1 ≤ (evalTerms (fun _ => 7) [⟨1, symX⟩] : ℚ)
    simp [evalTerms]; norm_num

/-- The hypotheses of `C46_exhausted_partial` are met: clingo searches through the assignments where 1 or 2 is true, and after the models with values 3 and 7 the
clauses exclude both. -/
example : ∃ (p : Propagator ℚ) (g : Ghost ℚ) (gt : GThr), Reach .imath globOpts Intact p g ∧ (∀ x ∈ p.prog.iqs, Supports ℚ x.rel) ∧
    (∀ x ∈ p.prog.iqs, x.lhs = [] → x.rel = .eq ∨ x.rhs = 0) ∧ g.thrs[0]? = some gt ∧ g.reported = [(3, true), (7, true)] ∧
    (∀ tr : ℤ → Prop, ((tr 1 ∨ tr 2) ∧ ∀ l, tr (-l) ↔ ¬ tr l) →
      ((withCuts (p.cutsOf 0) tr 1 ∨ withCuts (p.cutsOf 0) tr 2) ∧ ∀ l, withCuts (p.cutsOf 0) tr (-l) ↔ ¬ withCuts (p.cutsOf 0) tr l)) ∧
    ¬ ∃ tr : ℤ → Prop, ((tr 1 ∨ tr 2) ∧ ∀ l, tr (-l) ↔ ¬ tr l) ∧ ∀ c ∈ p.clausesOf 0, ∃ l ∈ c, tr l := by
  obtain ⟨p, g, h1, -, h2⟩ := exists_reach (V := ℚ) (be := .imath) (mode := .intact) (opts := globOpts)
    (globRun ++ [.check 1 true 0, .model 0, .undo 0, .check 0 false 0, .prop 0 0 [2001] true, .prop 1 0 [1] true, .undo 0, .prop 1 0 [2] true])
    (P := fun p g => noStrict p.prog && (p.prog.iqs.all fun x => decide (x.lhs ≠ [])) &&
      decide (g.reported = [(3, true), (7, true)] ∧ p.cutsOf 0 = [(1000, 4), (2001, 8)] ∧ p.clausesOf 0 = [[1000], [2001], [-1, -2001], [-2, -2001]]) &&
      atThr g 0 fun _ => true) (by decide +kernel)
  simp only [Bool.and_eq_true, List.all_eq_true] at h2
  obtain ⟨⟨⟨h2, h3⟩, h4⟩, h5⟩ := h2
  obtain ⟨h6, h7, h8⟩ := of_decide_eq_true h4
  obtain ⟨gt, h9, -⟩ := atThr_spec h5
  refine ⟨p, g, gt, h1, noStrict_spec h2, fun x hx he => absurd he (of_decide_eq_true (h3 x hx)), h9, h6, ?_, ?_⟩
  · rintro tr ⟨ha, hb⟩
    refine ⟨?_, fun l => withCuts_consistent (by rw [h7]; simp) (hb l)⟩
    rw [h7]
    unfold withCuts
    rcases ha with ha | ha
    · exact Or.inl (Or.inr ⟨ha, by simp⟩)
    · exact Or.inr (Or.inr ⟨ha, by simp⟩)
  · rw [h8]
    rintro ⟨tr, ⟨ha, hb⟩, hc⟩
    have k1 : tr 2001 := by simpa using hc [2001] (by simp)
    have k2 : tr (-1) ∨ tr (-2001) := by simpa using hc [-1, -2001] (by simp)
    have k3 : tr (-2) ∨ tr (-2001) := by simpa using hc [-2, -2001] (by simp)
    rw [hb] at k2 k3
    rw [hb] at k2 k3
    tauto

/-- The hypotheses of `C46_unbounded_not_lost_partial` are met after the bounded assignment has been discarded: all literals except 2 (`x <= 3`) are true. The
program is unmixed. -/
example : ∃ (p : Propagator ℚ) (g : Ghost ℚ) (gt : GThr), Reach .imath globOpts Intact p g ∧ Unmixed p.prog.iqs ∧ (∀ x ∈ p.prog.iqs, Supports ℚ x.rel) ∧
    (∀ x ∈ p.prog.iqs, x.lhs = [] → x.rel = .eq ∨ x.rhs = 0) ∧ g.thrs[0]? = some gt ∧
    (∀ q : ℚ, ∃ gv, Solves p.prog.iqs (fun l => l ≠ 2) gv ∧ q < evalTerms gv p.prog.objective) ∧ p.clausesOf 0 = [[1000], [-2, -1000]] := by
  obtain ⟨p, g, h1, -, h2⟩ := exists_reach (V := ℚ) (be := .imath) (mode := .intact) (opts := globOpts)
    [.init [sumAtom "x" ">=" 0 1, sumAtom "x" "<=" 3 2, maxAtom "x"] 1, .prop 1 0 [1] true, .check 1 true 0, .model 0, .undo 0, .prop 1 0 [2] true,
      .check 1 true 0, .undo 0, .prop 0 0 [1000] true, .prop 1 0 [2] true]
    (P := fun p g => noStrict p.prog && (p.prog.iqs.all fun x => decide (x.lhs ≠ []) && decide (x.rel ≠ .eq) && decide (x.lit = 2 ∨ (x.lhs = [⟨1, symX⟩] ∧ x.rel = .ge ∧ x.rhs = 0))) &&
      decide (p.prog.objective = [⟨1, symX⟩] ∧ p.clausesOf 0 = [[1000], [-2, -1000]]) && atThr g 0 fun _ => true) (by decide +kernel)
  simp only [Bool.and_eq_true, List.all_eq_true] at h2
  obtain ⟨⟨⟨h2, h3⟩, h4⟩, h5⟩ := h2
  obtain ⟨h6, h7⟩ := of_decide_eq_true h4
  obtain ⟨gt, h9, -⟩ := atThr_spec h5
  refine ⟨p, g, gt, h1, fun x hx _ _ _ _ _ he => absurd he (of_decide_eq_true (h3 x hx).1.2), noStrict_spec h2,
    fun x hx he => absurd he (of_decide_eq_true (h3 x hx).1.1), h9, fun q => ⟨fun _ => |q| + 1, fun x hx hl => ?_, ?_⟩, h7⟩
  · rcases of_decide_eq_true (h3 x hx).2 with h | ⟨h, h', h''⟩
    · exact absurd h hl
    · unfold Ineq.holds
      rw [h, h', h'']
      simp only [evalTerms, Relation.holds]
      simp; positivity
  · rw [h6]
    have := le_abs_self q
    simp [evalTerms]; linarith

end Lpx.Props
