import Verif.PropsGlobal
import Verif.PropsAgree

/-!
# Branch and bound makes progress (C65)
-/

set_option linter.unusedSectionVars false

namespace Lpx.Props
open Lpx Lpx.Witness

variable {V : Type} [LpFull V] {be : Backend} {opts : Options} {Q : Restr V}

/-- Histories of a solving step with a list of the models reported: for each model the literals that were true. A model is reported right after the
`check` of the total assignment succeeded, the literals of the cuts being true (clingo has been told unit clauses). Other callbacks happen in any order. -/
inductive ModelRun (be : Backend) (opts : Options) (Q : Restr V) : List (ℤ → Prop) → Propagator V → Ghost V → Prop
  | start {p : Propagator V} {g : Ghost V} : Reach be opts Q p g → g.reported = [] → ModelRun be opts Q [] p g
  | other {As : List (ℤ → Prop)} {p p' : Propagator V} {g g' : Ghost V} : ModelRun be opts Q As p g → Step be Q p g p' g' → g'.step = g.step →
      g'.reported = g.reported → ModelRun be opts Q As p' g'
  | model {As : List (ℤ → Prop)} {p p1 p' : Propagator V} {g : Ghost V} {fuel : ℕ} {ctl : Ctl} {th : ℕ} {gt : GThr} {t : Thr V} : ModelRun be opts Q As p g →
      MayCheck p g ctl th gt t → p.check fuel ctl true th = some (p1, true) → (∀ u ∈ p1.cutsOf th, Act (p.checkFrames ctl t gt.frames) u.1) →
      p1.onModel th = some p' →
      ModelRun be opts Q (As ++ [Act (p.checkFrames ctl t gt.frames)]) p'
        { g with thrs := g.thrs.set th { gt with frames := p.checkFrames ctl t gt.frames, stuck := false, checked := true }
                 reported := g.reported ++ (if p1.opts.globalObjective.isSome then p1.objectiveOf th else []) }

theorem factsOk_of {p p' : Propagator V} {fuel : ℕ} {ctl : Ctl} {total : Bool} {th : ℕ} (h : p.check fuel ctl total th = some (p', true)) :
    p.factsOk fuel ctl th = true := by
  unfold Propagator.check at h
  unfold Propagator.factsOk
  cases hf : p.checkFacts fuel ctl th with
  | none => rfl
  | some r =>
    obtain ⟨p1, ok1⟩ := r
    rw [hf] at h
    dsimp only at h ⊢
    cases ok1
    · simp at h
    · rfl

/-- The ghost state after `check`. -/
theorem check_step {p p1 : Propagator V} {g : Ghost V} {fuel : ℕ} {ctl : Ctl} {th : ℕ} {gt : GThr} {t : Thr V}
    (hm : MayCheck p g ctl th gt t) (hc : p.check fuel ctl true th = some (p1, true)) :
    Step be Q p g p1 { g with thrs := g.thrs.set th { gt with frames := p.checkFrames ctl t gt.frames, stuck := false, checked := true } } := by
  have := Step.check (be := be) (Q := Q) fuel ctl true th hm hc
  rw [factsOk_of hc] at this
  exact this

theorem model_step {p1 p' : Propagator V} {g : Ghost V} {th : ℕ} {gt gt' : GThr} (hgt : g.thrs[th]? = some gt) (hst : gt'.stuck = false)
    (ho : p1.onModel th = some p') :
    Step be Q p1 { g with thrs := g.thrs.set th gt' } p'
      { g with thrs := g.thrs.set th gt', reported := g.reported ++ (if p1.opts.globalObjective.isSome then p1.objectiveOf th else []) } :=
  Step.model (be := be) (Q := Q) (gt := gt') th (getElem?_set_some hgt) hst ho

theorem ModelRun.reach {As : List (ℤ → Prop)} {p : Propagator V} {g : Ghost V} (h : ModelRun be opts Q As p g) : Reach be opts Q p g := by
  induction h with
  | start h _ => exact h
  | other _ hs _ _ ih => exact ih.step hs
  | model _ hm hc _ ho ih => exact (ih.step (check_step hm hc)).step (model_step hm.thr rfl ho)

/-- The optimum for a set of true literals has been reported. -/
def Known (be : Backend) (opts : Options) (p : Propagator V) (g : Ghost V) (A : ℤ → Prop) : Prop :=
  ∃ (q : Propagator V) (gq : Ghost V) (th : ℕ) (gt : GThr) (v : V), Reach be opts Intact q gq ∧ q.prog = p.prog ∧ gq.thrs[th]? = some gt ∧
    gt.stuck = false ∧ gt.checked = true ∧ A = Act gt.frames ∧ q.objectiveOf th = [(v, true)] ∧ (v, true) ∈ g.reported

/-- C65 (partial: `Intact`): with a positive step, no set of true constraints is reported twice. -/
theorem C65_new_sets_partial (hq : StepOK V opts) {As : List (ℤ → Prop)} {p : Propagator V} {g : Ghost V} (h : ModelRun be opts Intact As p g)
    {q : RatQ} {d : V} (hgo : opts.globalObjective = some q) (hd : LpFull.asValue q = some d) (hpos : 0 < d) (hobj : p.prog.objective ≠ [])
    (hb : ∀ v, (v, false) ∉ g.reported) : As.Pairwise fun A B => ∃ x ∈ p.prog.iqs, ¬ (A x.lit ↔ B x.lit) := by
  suffices hh : As.Pairwise (fun A B => ∃ x ∈ p.prog.iqs, ¬ (A x.lit ↔ B x.lit)) ∧ ∀ A ∈ As, Known be opts p g A from hh.1
  induction h with
  | start _ _ => exact ⟨.nil, by simp⟩
  | other hr hs he hrep ih =>
    rename_i As p p' g g'
    have hprog : p'.prog = p.prog := (LaterInStep.step .refl hs he).same.1
    rw [hprog] at hobj ⊢
    rw [hrep] at hb
    obtain ⟨h1, h2⟩ := ih hobj hb
    refine ⟨h1, fun A hA => ?_⟩
    obtain ⟨q, gq, th, gt, v, k1, k2, k3⟩ := h2 A hA
    exact ⟨q, gq, th, gt, v, k1, k2.trans hprog.symm, by rw [hrep]; exact k3⟩
  | model hr hm hc hcut ho ih =>
    rename_i As p p1 p' g fuel ctl th gt t
    have hr0 := hr.reach
    have hs1 := check_step (be := be) (Q := Intact) hm hc
    have hr1 := hr0.step hs1
    have hs2 := model_step (be := be) (Q := Intact) (g := g) (gt' := { gt with frames := p.checkFrames ctl t gt.frames, stuck := false, checked := true }) hm.thr rfl ho
    have hp1 : p1.prog = p.prog := (LaterInStep.step .refl hs1 rfl).same.1
    have hp' : p'.prog = p1.prog := (LaterInStep.step .refl hs2 rfl).same.1
    have hopts : p1.opts = opts := hr1.weak.stat.hopts
    dsimp only at hb ⊢
    rw [hp', hp1] at hobj ⊢
    have hsome : p1.opts.globalObjective.isSome = true := by rw [hopts, hgo]; rfl
    rw [if_pos hsome] at hb ⊢
    obtain ⟨h1, h2⟩ := ih hobj fun v hv => hb v (List.mem_append_left _ hv)
    have hgt1 : (g.thrs.set th { gt with frames := p.checkFrames ctl t gt.frames, stuck := false, checked := true })[th]? = _ := getElem?_set_some hm.thr
    obtain ⟨w, b, hw⟩ : ∃ w b, p1.objectiveOf th = [(w, b)] := by
      obtain ⟨t2, ht2, E0, base, hwk⟩ := hr1.weak.thr th _ hgt1
      have hact : t2.slv.obj.active = true := by
        rw [hwk.active, hp1]
        cases ho : p.prog.objective with
        | nil => exact absurd ho hobj
        | cons => rfl
      refine ⟨t2.slv.value t2.slv.obj.var, t2.slv.obj.bounded, ?_⟩
      unfold Propagator.objectiveOf S.getObjective
      simp only [ht2, hact, if_true, Option.toList_some]
    have hbt : b = true := by
      cases b
      · exact absurd (List.mem_append_right _ (by rw [hw]; simp)) (hb w)
      · rfl
    subst hbt
    refine ⟨List.pairwise_append.2 ⟨h1, List.pairwise_singleton _ _, fun A hA B hB => ?_⟩, fun A hA => ?_⟩
    · rw [List.mem_singleton] at hB
      subst hB
      obtain ⟨q', gq, th', gt', v, k1, k2, k3, k4, k5, rfl, k7, k8⟩ := h2 A hA
      obtain ⟨w', b', hw', hle⟩ := C46_improves_partial hq hr0 hm hc hcut (fun v hv => hb v (List.mem_append_left _ hv)) k8 hgo hd
      rw [hw] at hw'
      obtain ⟨rfl, -⟩ := Prod.mk.inj (List.cons.inj hw').1
      by_contra hsame
      push Not at hsame
      have := (C47_optimum_unique_partial hq hq k1 hr1 k3 hgt1 k4 rfl k5 rfl
        ⟨fun x => by rw [k2, hp1], by rw [k2, hp1], fun x hx => hsame x (by rw [← k2]; exact hx)⟩ k7 hw).2 rfl
      subst this
      exact absurd hle (not_le.2 (lt_add_of_pos_right _ hpos))
    · rcases List.mem_append.1 hA with hA | hA
      · obtain ⟨q', gq, th', gt', v, k1, k2, k3, k4, k5, k6, k7, k8⟩ := h2 A hA
        exact ⟨q', gq, th', gt', v, k1, by rw [k2, hp', hp1], k3, k4, k5, k6, k7, List.mem_append_left _ k8⟩
      · rw [List.mem_singleton] at hA
        subst hA
        exact ⟨p1, _, th, _, w, hr1, hp'.symm, hgt1, rfl, rfl, rfl, hw, List.mem_append_right _ (by rw [hw]; simp)⟩

/-- C65 (partial as above): at most `2^n` models are reported in a solving step if there are `n` constraints. -/
theorem C65_finite_partial (hq : StepOK V opts) {As : List (ℤ → Prop)} {p : Propagator V} {g : Ghost V} (h : ModelRun be opts Intact As p g)
    {q : RatQ} {d : V} (hgo : opts.globalObjective = some q) (hd : LpFull.asValue q = some d) (hpos : 0 < d) (hobj : p.prog.objective ≠ [])
    (hb : ∀ v, (v, false) ∉ g.reported) : As.length ≤ 2 ^ p.prog.iqs.length := by
  classical
  have hp := C65_new_sets_partial hq h hgo hd hpos hobj hb
  have hnd : (As.map fun A => fun i : Fin p.prog.iqs.length => decide (A (p.prog.iqs.get i).lit)).Nodup := by
    unfold List.Nodup
    rw [List.pairwise_map]
    refine hp.imp fun {A B} hAB heq => ?_
    obtain ⟨x, hx, hne⟩ := hAB
    obtain ⟨i, rfl⟩ := List.mem_iff_get.1 hx
    have := congrFun heq i
    exact hne (decide_eq_decide.1 this)
  have := hnd.length_le_card
  rw [List.length_map, Fintype.card_fun, Fintype.card_bool, Fintype.card_fin] at this
  exact this

/-- C65 for programs without mixed equations (see C45): all histories. -/
theorem C65_unmixed (hq : StepOK V opts) {As : List (ℤ → Prop)} {p : Propagator V} {g : Ghost V} (h : ModelRun be opts Q As p g)
    (hu : Unmixed p.prog.iqs) {q : RatQ} {d : V} (hgo : opts.globalObjective = some q) (hd : LpFull.asValue q = some d) (hpos : 0 < d)
    (hobj : p.prog.objective ≠ []) (hb : ∀ v, (v, false) ∉ g.reported) :
    As.Pairwise (fun A B => ∃ x ∈ p.prog.iqs, ¬ (A x.lit ↔ B x.lit)) ∧ As.length ≤ 2 ^ p.prog.iqs.length := by
  have h' : ModelRun be opts Intact As p g := by
    clear hobj hb
    induction h with
    | start hr h0 => exact .start (hu.reach hq hr) h0
    | other hr hs he hrep ih =>
      have hu' := hu
      rw [(LaterInStep.step .refl hs he).same.1] at hu'
      exact .other (ih hu') (hu'.step hq hr.reach hs) he hrep
    | model hr hm hc hcut ho ih =>
      have hu' := hu
      rw [(model_same ho).1, (check_same hc).1] at hu'
      exact .model (ih hu') hm hc hcut ho
  exact ⟨C65_new_sets_partial hq h' hgo hd hpos hobj hb, C65_finite_partial hq h' hgo hd hpos hobj hb⟩

/-! ### a concrete run -/

theorem step_reported {p p' : Propagator V} {g g' : Ghost V} (h : Step be Q p g p' g') (he : g'.step = g.step) : g.reported <+: g'.reported := by
  cases h with
  | init _ _ _ _ _ => simp at he
  | fail _ _ _ _ _ _ => simp at he
  | propagate _ _ _ _ _ _ => exact List.prefix_rfl
  | check _ _ _ _ _ _ => exact List.prefix_rfl
  | undo _ _ _ _ _ => exact List.prefix_rfl
  | model _ _ _ _ => exact List.prefix_append _ _

theorem later_reported {p p' : Propagator V} {g g' : Ghost V} (h : LaterInStep be Q p g p' g') : g.reported <+: g'.reported := by
  induction h with
  | refl => exact List.prefix_rfl
  | step _ hs he ih => exact ih.trans (step_reported hs he)

theorem ModelRun.later {As : List (ℤ → Prop)} {p p' : Propagator V} {g g' : Ghost V} (h : ModelRun be opts Q As p g) (hl : LaterInStep be Q p g p' g')
    (hr : g'.reported = g.reported) : ModelRun be opts Q As p' g' := by
  induction hl with
  | refl => exact h
  | step hl hs he ih =>
    have h1 := later_reported hl
    have h2 := step_reported hs he
    rw [hr] at h2
    have e := h1.eq_of_length (le_antisymm h1.length_le h2.length_le)
    exact (ih e.symm).other hs he (hr.trans e)

/-- Executes events followed by the check of a total assignment on a level by a thread and the report of the model, repeatedly. The frames of the models are collected. -/
def modelRun (be : Backend) (mode : Mode) : List (List Ev × ℕ × ℕ) → List (List Frame) → Propagator ℚ × Ghost ℚ →
    Option (List (List Frame) × Propagator ℚ × Ghost ℚ)
  | [], fs, s => some (fs, s)
  | (es, dl, th) :: rest, fs, s =>
    match runs be mode es s with
    | none => none
    | some s1 =>
      if es.all Ev.inStep && decide (s1.2.reported = s.2.reported) then
        match s1.2.thrs[th]?, s1.1.thrs[th]? with
        | some gt, some t =>
          let frames := s1.1.checkFrames (ctlOf dl [] true) t gt.frames
          let ctl := ctlOf dl frames true
          if !gt.stuck && (gt.frames.all fun fr => decide (fr.level ≤ dl)) && lvlOK ctl frames && smallLits s1.1.prog.iqs frames then
            match s1.1.check fuel ctl true th with
            | some (p1, true) =>
              if (p1.cutsOf th).all fun u => decide (Act (s1.1.checkFrames ctl t gt.frames) u.1) then
                match p1.onModel th with
                | none => none
                | some p' => modelRun be mode rest (fs ++ [s1.1.checkFrames ctl t gt.frames]) (p', { s1.2 with
                    thrs := s1.2.thrs.set th { gt with frames := s1.1.checkFrames ctl t gt.frames, stuck := false, checked := true }
                    reported := s1.2.reported ++ (if p1.opts.globalObjective.isSome then p1.objectiveOf th else []) })
              else none
            | _ => none
          else none
        | _, _ => none
      else none

theorem modelRun_spec {be : Backend} {mode : Mode} {opts : Options} : ∀ {L : List (List Ev × ℕ × ℕ)} {fs fs' : List (List Frame)} {s s' : Propagator ℚ × Ghost ℚ},
    ModelRun be opts (restr mode) (fs.map Act) s.1 s.2 → NoDead s.2 → modelRun be mode L fs s = some (fs', s') →
    fs'.length = fs.length + L.length ∧ ModelRun be opts (restr mode) (fs'.map Act) s'.1 s'.2 := by
  intro L
  induction L with
  | nil =>
    intro fs fs' s s' h _ hr
    obtain ⟨rfl, rfl⟩ := Prod.mk.inj (Option.some.inj hr)
    exact ⟨rfl, h⟩
  | cons e rest ih =>
    obtain ⟨es, dl, th⟩ := e
    intro fs fs' s s' h hn hr
    unfold modelRun at hr
    split at hr
    · cases hr
    · rename_i s1 hs1
      split at hr
      · rename_i hcond
        simp only [Bool.and_eq_true, decide_eq_true_eq] at hcond
        obtain ⟨hin, hrep⟩ := hcond
        have hl := runs_inStep (p := s.1) (g := s.2) (p' := s1.1) (g' := s1.2) h.reach.weak hn hin hs1 .refl
        have hn1 := (runs_later (p := s.1) (g := s.2) (p' := s1.1) (g' := s1.2) h.reach.weak hn hs1 .refl).2
        have h1 := h.later hl hrep
        split at hr
        · rename_i gt t hgt ht
          dsimp only at hr
          split at hr
          · rename_i hc
            have hm := may_check hn1 hgt ht rfl hc
            split at hr
            · rename_i p1 hck
              split at hr
              · rename_i hcut
                split at hr
                · cases hr
                · rename_i p' ho
                  have h2 := ModelRun.model h1 hm hck (fun u hu => of_decide_eq_true (List.all_eq_true.1 hcut u hu)) ho
                  have hn2 : NoDead { s1.2 with
                      thrs := s1.2.thrs.set th { gt with frames := s1.1.checkFrames (ctlOf dl (s1.1.checkFrames (ctlOf dl [] true) t gt.frames) true) t gt.frames, stuck := false, checked := true }
                      reported := s1.2.reported ++ (if p1.opts.globalObjective.isSome then p1.objectiveOf th else []) } := by
                    intro gt' hgt' l
                    dsimp only at hgt'
                    rcases List.mem_or_eq_of_mem_set hgt' with hg | hg
                    · exact hn1 gt' hg l
                    · subst hg
                      exact hn1 gt (List.mem_of_getElem? hgt) l
                  obtain ⟨k1, k2⟩ := ih (by rw [List.map_append]; exact h2) hn2 hr
                  refine ⟨?_, k2⟩
                  rw [k1, List.length_append, List.length_singleton, List.length_cons]; omega
              · cases hr
            · cases hr
          · cases hr
        · cases hr
      · cases hr

/-- The hypotheses are met: two models with values 3 and 7 are reported; the cut 1000 is propagated in between. -/
example : ∃ (As : List (ℤ → Prop)) (p : Propagator ℚ) (g : Ghost ℚ), As.length = 2 ∧ ModelRun .imath globOpts Intact As p g ∧ StepOK ℚ globOpts ∧
    p.prog.objective ≠ [] ∧ g.reported = [(3, true), (7, true)] ∧ Unmixed p.prog.iqs := by
  obtain ⟨p, g, h1, h2, h3⟩ := exists_reach (V := ℚ) (be := .imath) (mode := .intact) (opts := globOpts) [.init globProg 1]
    (P := fun p g => decide (g.reported = []) && (modelRun .imath .intact [([.prop 1 0 [1] true], 1, 0),
      ([.undo 0, .check 0 false 0, .prop 0 0 [1000] true, .prop 1 0 [2] true], 1, 0)] [] (p, g)).any fun (s : List (List Frame) × Propagator ℚ × Ghost ℚ) =>
        decide (s.2.1.prog.objective ≠ [] ∧ s.2.2.reported = [(3, true), (7, true)]) && s.2.1.prog.iqs.all fun x => decide (x.rel ≠ .eq)) (by decide +kernel)
  rw [Bool.and_eq_true] at h3
  obtain ⟨h3, h4⟩ := h3
  obtain ⟨⟨fs, s'⟩, h5, h6⟩ := (Option.any_eq_true _ _).1 h4
  rw [Bool.and_eq_true] at h6
  obtain ⟨k1, k2⟩ := modelRun_spec (fs := []) (s := (p, g)) (.start h1 (of_decide_eq_true h3)) h2 h5
  refine ⟨fs.map Act, s'.1, s'.2, by rw [List.length_map]; exact k1, k2, globOpts_step, (of_decide_eq_true h6.1).1, (of_decide_eq_true h6.1).2, ?_⟩
  intro x hx _ _ _ _ _ he
  exact absurd he (of_decide_eq_true (List.all_eq_true.1 h6.2 x hx))

end Lpx.Props
