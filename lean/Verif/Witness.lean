import Verif.SysWeak
import Verif.Intact

/-!
# Concrete histories

A small interpreter for scripts of callbacks. It checks all conditions of the protocol (`Step`), so that the state after a
script is reachable (`runs_reach`). It is used to show that the hypotheses of theorems can be met and to refute properties
the code violates. All evaluations are done by the kernel.
-/

set_option linter.unusedSectionVars false

namespace Lpx.Witness
open Lpx

/-- Events of a script. -/
inductive Ev where
  | init (atoms : List TAtom) (n : ℕ)
  /-- propagate literals on a level; the flag is clingo's answer to `add_clause` for bound propagation -/
  | prop (dl th : ℕ) (lits : List ℤ) (accept : Bool)
  | check (dl : ℕ) (total : Bool) (th : ℕ)
  | undo (th : ℕ)
  | model (th : ℕ)

/-- No literal is false initially and all clauses are accepted. -/
def env : InitEnv := { isFalse := fun _ _ => false, ok := fun _ => true }

/-- Solver literals are program literals (condition 0, which is not used, is mapped to a literal). -/
def mapLit (c : ℤ) : ℤ := if c = 0 then 1 else c

theorem mapLit_ne (c : ℤ) : mapLit c ≠ 0 := by unfold mapLit; split <;> simp_all

/-- The level of a literal according to the frames; like clasp the answer for unassigned literals is `UINT32_MAX`. -/
def levelIn (frames : List Frame) (l : ℤ) : ℕ :=
  match frames.find? fun fr => decide (l ∈ fr.lits ∨ -l ∈ fr.lits) with
  | some fr => fr.level
  | none => 4294967295

/-- A literal larger than all literals propagated (1000 before the first cut literal is propagated). -/
def newBase (frames : List Frame) : ℤ := 1000 * (1 + (frames.map fun fr => fr.lits.countP fun l => decide (1000 ≤ l)).sum)

/-- The view of clingo given the frames after the call. -/
def ctlOf (dl : ℕ) (frames : List Frame) (accept : Bool) : Ctl where
  dl := dl
  lvl := levelIn frames
  isFalse := fun _ l => frames.any fun fr => decide (-l ∈ fr.lits)
  ok := fun _ => accept
  newLit := fun O => newBase frames + O.length

/-- Enough fuel for the examples. -/
def fuel : ℕ := 50

/-- All literals are smaller than those created by `ctlOf`. -/
def smallLits (iqs : List (Ineq Symbol)) (frames : List Frame) : Bool :=
  (iqs.all fun x => decide ((x.lit.natAbs : ℤ) < newBase frames)) && frames.all fun fr => fr.lits.all fun l => decide ((l.natAbs : ℤ) < newBase frames)

/-- `LvlOK` as a test. -/
def lvlOK (ctl : Ctl) (frames : List Frame) : Bool := frames.all fun fr => fr.lits.all fun l => decide (ctl.lvl l = fr.level)

instance decAct {frames : List Frame} {l : ℤ} : Decidable (Act frames l) := by unfold Act; infer_instance

/-- A test for constraints over the same single variable, the first one an equation: it leaves no slack. -/
def tightB (x x' : Ineq Symbol) : Bool :=
  match x.lhs, x'.lhs with
  | [t], [t'] => decide (t.var ≠ t'.var) || (decide (t.co ≠ 0) &&
      match x'.rel with
      | .le | .lt => decide (x'.rhs ≤ t'.co * (x.rhs / t.co))
      | .ge | .gt => decide (t'.co * (x.rhs / t.co) ≤ x'.rhs)
      | .eq => true)
  | _, _ => true

theorem tightB_spec {x x' : Ineq Symbol} (h : tightB x x' = true) {y : Symbol} (ho : OnVar x y) (ho' : OnVar x' y) (he : x.rel = .eq) :
    ¬ Loose x x' := by
  obtain ⟨a, ho⟩ := ho
  obtain ⟨b, ho'⟩ := ho'
  rintro ⟨g, hg, hs⟩
  unfold tightB at h
  rw [ho, ho'] at h
  simp only [ne_eq, not_true, decide_false, Bool.false_or, Bool.and_eq_true, decide_eq_true_eq] at h
  obtain ⟨ha, h⟩ := h
  have hgy : g y = x.rhs / a := by
    unfold Ineq.holds at hg
    rw [he, ho] at hg
    have hg : evalTerms g [⟨a, y⟩] = x.rhs := hg
    simp only [evalTerms, List.map_cons, List.map_nil, List.sum_cons, List.sum_nil, add_zero] at hg
    field_simp
    linarith
  unfold HasSlack at hs
  rw [ho'] at hs
  simp only [evalTerms, List.map_cons, List.map_nil, List.sum_cons, List.sum_nil, add_zero, hgy] at hs
  cases hr : x'.rel <;> rw [hr] at h hs <;> simp only [decide_eq_true_eq] at h <;> first | exact absurd hs (not_lt.2 h) | exact hs

/-- A test for `SafeEqs`. -/
def safeB (iqs : List (Ineq Symbol)) (frames : List Frame) (dl : ℕ) (lits : List ℤ) : Bool :=
  decide (dl = 0) || iqs.all fun x => !(decide (x.lit ∈ lits)) || decide (x.rel ≠ .eq) ||
    (iqs.all fun x' => tightB x x' || !decide (Act (nextFrames dl lits frames) x'.lit)) ||
    (iqs.any fun x' => decide (x'.lhs.map (·.var) = x.lhs.map (·.var)) && decide (x'.lhs.length = 1) && decide (Act frames x'.lit) && tightB x x')

/-- Which histories are considered. -/
inductive Mode where
  /-- all -/
  | any
  /-- backtracking restores the limits (`Intact`) -/
  | intact
  /-- the equations propagated are harmless (`SafeEqs`) -/
  | safe

variable {V : Type} [LpFull V]

/-- A test for the literals propagated. -/
def Mode.lits (m : Mode) (iqs : List (Ineq Symbol)) (frames : List Frame) (dl : ℕ) (lits : List ℤ) : Bool :=
  match m with
  | .safe => safeB iqs frames dl lits
  | _ => true

/-- A test for the limits of a solver. -/
def limitsB (s : S V) (frames : List Frame) : Bool :=
  s.bounds.all fun bd =>
    ((s.upper bd.var).all fun b => (s.bounds[b]?).any fun bd' => decide (bd'.rel ≠ .ge) && decide (Act frames bd'.lit)) &&
    ((s.lower bd.var).all fun b => (s.bounds[b]?).any fun bd' => decide (bd'.rel ≠ .le) && decide (Act frames bd'.lit)) &&
    (!decide (Act frames bd.lit) || ((decide (bd.rel = .ge) || (s.up bd.var).any fun y => decide (y ≤ bd.value)) &&
      (decide (bd.rel = .le) || (s.lo bd.var).any fun y => decide (bd.value ≤ y))))

/-- A test for the state after backtracking. -/
def Mode.back (m : Mode) (p : Propagator V) (th : ℕ) (frames : List Frame) : Bool :=
  match m with
  | .intact => (p.thrs[th]?).all fun t => limitsB t.slv frames
  | _ => true

/-- One event; only those allowed by `mode`. -/
def Ev.run (be : Backend) (mode : Mode) : Ev → Propagator V × Ghost V → Option (Propagator V × Ghost V)
  | .init atoms n, (p, g) =>
    match p.init be mapLit atoms (fun _ => env) n with
    | .error er => if er = .abort then none else some (p.initFail be mapLit atoms, { thrs := [], reported := g.reported, tops := g.tops, oldTops := g.tops, step := g.step + 1, failed := true })
    | .ok (p', ok) => some (p', { thrs := if ok then p'.thrs.zipIdx.map (fun t => ⟨[], false, fun l => ∃ O, O <+: t.1.slv.out ∧ ((fun _ => env) t.2).isFalse O l = true, false⟩) else [], reported := [], tops := g.tops, oldTops := g.tops, step := g.step + 1 })
  | .prop dl th lits accept, (p, g) =>
    match g.thrs[th]? with
    | none => none
    | some gt =>
      let frames := nextFrames dl lits gt.frames
      let ctl := ctlOf dl frames accept
      if !gt.stuck && (gt.frames.all fun fr => decide (fr.level ≤ dl)) && lvlOK ctl frames && mode.lits p.prog.iqs gt.frames dl lits then
        match p.propagate fuel ctl th lits with
        | none => none
        | some (p', ok) => some (p', { g with thrs := g.thrs.set th { gt with frames := nextFrames ctl.dl lits gt.frames, stuck := !ok, checked := false }, tops := if ctl.dl = 0 ∧ th = 0 then g.tops ++ lits else g.tops })
      else none
  | .check dl total th, (p, g) =>
    match g.thrs[th]?, p.thrs[th]? with
    | some gt, some t =>
      let ctl0 := ctlOf dl [] true
      let frames := p.checkFrames ctl0 t gt.frames
      let ctl := ctlOf dl frames true
      if !gt.stuck && (gt.frames.all fun fr => decide (fr.level ≤ dl)) && lvlOK ctl frames && smallLits p.prog.iqs frames then
        match p.check fuel ctl total th with
        | none => none
        | some (p', ok) => some (p', { g with thrs := g.thrs.set th { gt with frames := p.checkFrames ctl t gt.frames, stuck := !p.factsOk fuel ctl th, checked := total && ok } })
      else none
    | _, _ => none
  | .undo th, (p, g) =>
    match g.thrs[th]? with
    | none => none
    | some gt =>
      match gt.frames with
      | [] => none
      | fr :: frs =>
        if fr.level = 0 then none
        else
          match p.undo th with
          | none => none
          | some p' => if mode.back p' th frs then some (p', { g with thrs := g.thrs.set th { gt with frames := frs, stuck := false, checked := false } }) else none
  | .model th, (p, g) =>
    match g.thrs[th]? with
    | none => none
    | some gt =>
      if gt.stuck then none
      else
        match p.onModel th with
        | none => none
        | some p' => some (p', { g with reported := g.reported ++ (if p.opts.globalObjective.isSome then p.objectiveOf th else []) })

/-- A script. -/
def runs (be : Backend) (mode : Mode) : List Ev → Propagator V × Ghost V → Option (Propagator V × Ghost V)
  | [], s => some s
  | e :: es, s =>
    match e.run be mode s with
    | none => none
    | some s => runs be mode es s

/-- The restriction on literals. -/
def restr : Mode → Restr V
  | .any => AnyLits
  | .intact => Intact
  | .safe => SafeEqs

/-- In scripts no literal is false initially. -/
def NoDead (g : Ghost V) : Prop := ∀ gt ∈ g.thrs, ∀ l, ¬ gt.dead l

theorem NoDead.set {g : Ghost V} (h : NoDead g) {th : ℕ} {gt gt' : GThr} (hgt : g.thrs[th]? = some gt) (hd : gt'.dead = gt.dead)
    {r : List (V × Bool)} {t o : List ℤ} {k : ℕ} {f : Bool} : NoDead { thrs := g.thrs.set th gt', reported := r, tops := t, oldTops := o, step := k, failed := f } := by
  intro x hx l
  rcases List.mem_or_eq_of_mem_set hx with h1 | h1
  · exact h x h1 l
  · rw [h1, hd]; exact h gt (List.mem_of_getElem? hgt) l

theorem lvlOK_spec {ctl : Ctl} {frames : List Frame} (h : lvlOK ctl frames = true) : LvlOK ctl frames := by
  intro fr hfr l hl
  unfold lvlOK at h
  rw [List.all_eq_true] at h
  have := h fr hfr
  rw [List.all_eq_true] at this
  simpa using this l hl

theorem restr_spec {mode : Mode} {p : Propagator V} {frames : List Frame} {ctl : Ctl} {lits : List ℤ}
    (h : mode.lits p.prog.iqs frames ctl.dl lits = true) : (restr mode).prop p frames ctl lits := by
  cases mode
  · trivial
  · trivial
  · have h : safeB p.prog.iqs frames ctl.dl lits = true := h
    unfold safeB at h
    rw [Bool.or_eq_true, decide_eq_true_eq, List.all_eq_true] at h
    rcases h with h | h
    · exact Or.inl h
    · right
      intro x hx hl heq y hy
      have := h x hx
      simp only [hl, heq, decide_true, Bool.not_true, ne_eq, not_true, decide_false, Bool.false_or, Bool.or_eq_true, List.all_eq_true,
        List.any_eq_true, Bool.not_eq_true', decide_eq_false_iff_not, Bool.and_eq_true, decide_eq_true_eq] at this
      rcases this with h1 | ⟨x', hx', ⟨⟨h2, h3⟩, h4⟩, h5⟩
      · refine .inl fun x' hx' hy' ha => ?_
        rcases h1 x' hx' with h2 | h2
        · exact tightB_spec h2 hy hy' heq
        · exact absurd ha h2
      · obtain ⟨a, ha⟩ := hy
        obtain ⟨t, ht⟩ := List.length_eq_one_iff.1 h3
        rw [ha, ht] at h2
        have h2 : t.var = y := by simpa using h2
        have hy' : OnVar x' y := ⟨t.co, by rw [ht, ← h2]⟩
        exact .inr ⟨x', hx', hy', h4, tightB_spec h5 ⟨a, ha⟩ hy' heq⟩

theorem back_spec {mode : Mode} {opts : Options} {p : Propagator V} {g : Ghost V} (hw : WSys opts p g) {th : ℕ} {gt : GThr}
    (hgt : g.thrs[th]? = some gt) {frames : List Frame} (h : mode.back p th frames = true) : (restr mode).undo p th frames := by
  cases mode
  · trivial
  swap
  · trivial
  intro t ht
  have h : ((p.thrs[th]?).all fun t => limitsB t.slv frames) = true := h
  rw [ht] at h
  simp only [Option.all_some] at h
  obtain ⟨t', ht', E0, base, hd⟩ := hw.thr th gt hgt
  rw [ht] at ht'
  obtain rfl := Option.some.inj ht'
  have hp := hd.winv.ptr
  unfold limitsB at h
  rw [List.all_eq_true] at h
  refine ⟨fun v b hb => ?_, fun v b hb => ?_, fun bd hbd ha => ?_⟩
  · obtain ⟨bd, h1, h2⟩ := hp.up v b hb
    have := h bd (List.mem_of_getElem? h1)
    rw [h2, hb] at this
    simp only [Option.all_some, h1, Option.any_some, Bool.and_eq_true, decide_eq_true_eq] at this
    exact ⟨bd, h1, h2, this.1.1⟩
  · obtain ⟨bd, h1, h2⟩ := hp.lo v b hb
    have := h bd (List.mem_of_getElem? h1)
    rw [h2, hb] at this
    simp only [Option.all_some, h1, Option.any_some, Bool.and_eq_true, decide_eq_true_eq] at this
    exact ⟨bd, h1, h2, this.1.2⟩
  · have := h bd hbd
    simp only [ha, decide_true, Bool.not_true, Bool.false_or, Bool.and_eq_true, Bool.or_eq_true, decide_eq_true_eq, Option.any_eq_true] at this
    obtain ⟨-, h1, h2⟩ := this
    exact ⟨fun hr => h1.resolve_left hr, fun hr => h2.resolve_left hr⟩

theorem may_check {p : Propagator V} {g : Ghost V} {gt : GThr}
    {dl : ℕ} {th : ℕ} {t : Thr V} (hn : NoDead g)
    (hgt : g.thrs[th]? = some gt) (ht : p.thrs[th]? = some t) {ctl : Ctl}
    (hctl : ctl = ctlOf dl (p.checkFrames (ctlOf dl [] true) t gt.frames) true)
    (hc : (!gt.stuck && (gt.frames.all fun fr => decide (fr.level ≤ dl)) && lvlOK ctl (p.checkFrames (ctlOf dl [] true) t gt.frames) &&
      smallLits p.prog.iqs (p.checkFrames (ctlOf dl [] true) t gt.frames)) = true) : MayCheck p g ctl th gt t := by
  have hdl : ctl.dl = dl := by rw [hctl]; rfl
  have hfr : p.checkFrames ctl t gt.frames = p.checkFrames (ctlOf dl [] true) t gt.frames := by
    subst hctl; rfl
  simp only [Bool.and_eq_true, Bool.not_eq_true', List.all_eq_true, decide_eq_true_eq] at hc
  obtain ⟨⟨⟨h1, h2⟩, h3⟩, h4⟩ := hc
  unfold smallLits at h4
  simp only [Bool.and_eq_true, List.all_eq_true, decide_eq_true_eq] at h4
  refine ⟨hgt, h1, by rw [hdl]; exact h2, ht, by rw [hfr]; exact lvlOK_spec h3, fun l _ => hn gt (List.mem_of_getElem? hgt) l, ?_, ?_⟩
  · rintro O ⟨fr, k1, k2⟩
    rw [hfr] at k1
    have := h4.2 fr k1 _ k2
    rw [hctl] at this
    have e : (ctlOf dl (p.checkFrames (ctlOf dl [] true) t gt.frames) true).newLit O = newBase (p.checkFrames (ctlOf dl [] true) t gt.frames) + (O.length : ℤ) := rfl
    rw [e] at this; omega
  · intro O x hx
    have := h4.1 x hx
    rw [hctl]
    have e : (ctlOf dl (p.checkFrames (ctlOf dl [] true) t gt.frames) true).newLit O = newBase (p.checkFrames (ctlOf dl [] true) t gt.frames) + (O.length : ℤ) := rfl
    rw [e]; omega

theorem check_step {be : Backend} {Q : Restr V} {p p' : Propagator V} {g g' : Ghost V} {gt : GThr}
    {dl : ℕ} {total : Bool} {th : ℕ} {t : Thr V} {ok : Bool} (hn : NoDead g)
    (hgt : g.thrs[th]? = some gt) (ht : p.thrs[th]? = some t) {ctl : Ctl}
    (hctl : ctl = ctlOf dl (p.checkFrames (ctlOf dl [] true) t gt.frames) true)
    (hc : (!gt.stuck && (gt.frames.all fun fr => decide (fr.level ≤ dl)) && lvlOK ctl (p.checkFrames (ctlOf dl [] true) t gt.frames) &&
      smallLits p.prog.iqs (p.checkFrames (ctlOf dl [] true) t gt.frames)) = true)
    (hr : p.check fuel ctl total th = some (p', ok))
    (hg : g' = { g with thrs := g.thrs.set th { gt with frames := p.checkFrames ctl t gt.frames, stuck := !p.factsOk fuel ctl th, checked := total && ok } }) :
    MayCheck p g ctl th gt t ∧ Step be Q p g p' g' := by
  have hm := may_check hn hgt ht hctl hc
  exact ⟨hm, by rw [hg]; exact .check fuel ctl total th hm hr⟩

theorem Ev.run_step {be : Backend} {mode : Mode} {e : Ev} {opts : Options} {p p' : Propagator V} {g g' : Ghost V} (hw : WSys opts p g) (hn : NoDead g)
    (h : e.run be mode (p, g) = some (p', g')) : Step be (restr mode) p g p' g' ∧ NoDead g' := by
  cases e with
  | init atoms n =>
    unfold Ev.run at h
    simp only at h
    split at h
    · rename_i er hi
      split at h
      · cases h
      · rename_i ha
        simp only [Option.some.injEq, Prod.mk.injEq] at h
        obtain ⟨rfl, rfl⟩ := h
        exact ⟨.fail mapLit atoms (fun _ => env) n hi ha, fun gt hgt => by simp at hgt⟩
    · rename_i q ok hi
      simp only [Option.some.injEq, Prod.mk.injEq] at h
      obtain ⟨rfl, rfl⟩ := h
      refine ⟨.init mapLit atoms (fun _ => env) n hi, ?_⟩
      intro gt hgt l
      simp only at hgt
      split at hgt
      · simp only [List.mem_map] at hgt
        obtain ⟨t, -, rfl⟩ := hgt
        rintro ⟨O, -, h⟩
        exact absurd h (by simp [env])
      · simp at hgt
  | prop dl th lits accept =>
    unfold Ev.run at h
    simp only at h
    split at h
    · cases h
    · rename_i gt hgt
      split at h
      swap
      · cases h
      rename_i hc
      split at h
      · cases h
      rename_i q ok hr
      simp only [Option.some.injEq, Prod.mk.injEq] at h
      obtain ⟨rfl, rfl⟩ := h
      rw [Bool.and_eq_true, Bool.and_eq_true, Bool.and_eq_true] at hc
      obtain ⟨⟨⟨h1, h2⟩, h3⟩, h4⟩ := hc
      have hm : MayPropagate (restr mode) p g (ctlOf dl (nextFrames dl lits gt.frames) accept) th lits gt := by
        refine ⟨hgt, by simpa using h1, ?_, lvlOK_spec h3, fun l _ => hn gt (List.mem_of_getElem? hgt) l, restr_spec h4⟩
        rw [List.all_eq_true] at h2
        intro fr hfr
        exact of_decide_eq_true (h2 fr hfr)
      exact ⟨.propagate fuel _ th lits hm hr, by refine hn.set hgt ?_; rfl⟩
  | check dl total th =>
    unfold Ev.run at h
    simp only at h
    split at h
    swap
    · cases h
    rename_i gt t hgt ht
    split at h
    swap
    · cases h
    rename_i hc
    split at h
    · cases h
    rename_i q ok hr
    simp only [Option.some.injEq, Prod.mk.injEq] at h
    obtain ⟨rfl, rfl⟩ := h
    exact ⟨(check_step hn hgt ht rfl hc hr rfl).2, by refine hn.set hgt ?_; rfl⟩
  | undo th =>
    unfold Ev.run at h
    simp only at h
    split at h
    · cases h
    rename_i gt hgt
    split at h
    · cases h
    rename_i fr frs hf
    split at h
    · cases h
    rename_i hl
    split at h
    · cases h
    rename_i q hr
    split at h
    swap
    · cases h
    rename_i hb
    simp only [Option.some.injEq, Prod.mk.injEq] at h
    obtain ⟨rfl, rfl⟩ := h
    have hw' := hw.step (be := be) (Q := AnyLits) (.undo th hgt hf hl hr trivial)
    exact ⟨.undo th hgt hf hl hr (back_spec hw' (List.getElem?_set_self (List.getElem?_eq_some_iff.1 hgt).1) hb), by refine hn.set hgt ?_; rfl⟩
  | model th =>
    unfold Ev.run at h
    simp only at h
    split at h
    · cases h
    rename_i gt hgt
    split at h
    · cases h
    rename_i hst
    split at h
    · cases h
    rename_i q hr
    simp only [Option.some.injEq, Prod.mk.injEq] at h
    obtain ⟨rfl, rfl⟩ := h
    exact ⟨.model th hgt (by simpa using hst) hr, hn⟩

theorem runs_later {be : Backend} {mode : Mode} : ∀ {es : List Ev} {opts : Options} {p p' : Propagator V} {g g' : Ghost V}, WSys opts p g → NoDead g →
    runs be mode es (p, g) = some (p', g') → ∀ {p0 : Propagator V} {g0 : Ghost V}, Later be (restr mode) p0 g0 p g →
    Later be (restr mode) p0 g0 p' g' ∧ NoDead g' := by
  intro es
  induction es with
  | nil =>
    intro opts p p' g g' hw hn h p0 g0 hl
    simp only [runs, Option.some.injEq, Prod.mk.injEq] at h
    obtain ⟨rfl, rfl⟩ := h
    exact ⟨hl, hn⟩
  | cons e es ih =>
    intro opts p p' g g' hw hn h p0 g0 hl
    rw [runs] at h
    split at h
    · cases h
    rename_i s hs
    obtain ⟨p1, g1⟩ := s
    obtain ⟨k1, k2⟩ := Ev.run_step hw hn hs
    exact ih (hw.step k1) k2 h (hl.step k1)

/-- The event is not an `init`; if a program is rejected, an `init` fails. -/
def Ev.inStep : Ev → Bool
  | .init _ _ => false
  | _ => true

theorem Ev.run_inStep {be : Backend} {mode : Mode} {e : Ev} (he : e.inStep = true) {p p' : Propagator V} {g g' : Ghost V}
    (h : e.run be mode (p, g) = some (p', g')) : g'.step = g.step := by
  cases e with
  | init atoms n => cases he
  | prop dl th lits accept =>
    unfold Ev.run at h
    simp only at h
    repeat' split at h
    all_goals first | (cases h; done) | skip
    all_goals (simp only [Option.some.injEq, Prod.mk.injEq] at h; rw [← h.2])
  | check dl total th =>
    unfold Ev.run at h
    simp only at h
    repeat' split at h
    all_goals first | (cases h; done) | skip
    all_goals (simp only [Option.some.injEq, Prod.mk.injEq] at h; rw [← h.2])
  | undo th =>
    unfold Ev.run at h
    simp only at h
    repeat' split at h
    all_goals first | (cases h; done) | skip
    all_goals (simp only [Option.some.injEq, Prod.mk.injEq] at h; rw [← h.2])
  | model th =>
    unfold Ev.run at h
    simp only at h
    repeat' split at h
    all_goals first | (cases h; done) | skip
    all_goals (simp only [Option.some.injEq, Prod.mk.injEq] at h; rw [← h.2])

/-- A script without `init` stays in the same solving step. -/
theorem runs_inStep {be : Backend} {mode : Mode} : ∀ {es : List Ev} {opts : Options} {p p' : Propagator V} {g g' : Ghost V}, WSys opts p g → NoDead g → es.all Ev.inStep = true →
    runs be mode es (p, g) = some (p', g') → ∀ {p0 : Propagator V} {g0 : Ghost V}, LaterInStep be (restr mode) p0 g0 p g →
    LaterInStep be (restr mode) p0 g0 p' g' := by
  intro es
  induction es with
  | nil =>
    intro opts p p' g g' hw hn _ h p0 g0 hl
    simp only [runs, Option.some.injEq, Prod.mk.injEq] at h
    obtain ⟨rfl, rfl⟩ := h
    exact hl
  | cons e es ih =>
    intro opts p p' g g' hw hn he h p0 g0 hl
    rw [runs] at h
    split at h
    · cases h
    rename_i s hs
    obtain ⟨p1, g1⟩ := s
    obtain ⟨k1, k2⟩ := Ev.run_step hw hn hs
    simp only [List.all_cons, Bool.and_eq_true] at he
    exact ih (hw.step k1) k2 he.2 h (hl.step k1 (Ev.run_inStep he.1 hs))

/-- The state before any callback. -/
def start (opts : Options) : Propagator V × Ghost V := (Propagator.fresh opts, {})

theorem noDead_start : NoDead ({} : Ghost V) := fun _ h => absurd h List.not_mem_nil

/-- The state after a script is reachable. -/
theorem runs_reach {be : Backend} {mode : Mode} {opts : Options} {es : List Ev} {p : Propagator V} {g : Ghost V}
    (h : runs be mode es (start opts) = some (p, g)) : Reach be opts (restr mode) p g ∧ NoDead g := by
  obtain ⟨h1, h2⟩ := runs_later (WSys.start opts) noDead_start h .refl
  exact ⟨h1.reach .start, h2⟩

/-- Find a reachable state with a property. -/
theorem exists_reach {be : Backend} {mode : Mode} {opts : Options} (es : List Ev) {P : Propagator V → Ghost V → Bool}
    (h : ((runs (V := V) be mode es (start opts)).any fun s => P s.1 s.2) = true) :
    ∃ p g, Reach be opts (restr mode) p g ∧ NoDead g ∧ P p g = true := by
  cases hr : runs (V := V) be mode es (start opts) with
  | none => rw [hr] at h; cases h
  | some s =>
    obtain ⟨p, g⟩ := s
    rw [hr] at h
    obtain ⟨h1, h2⟩ := runs_reach hr
    exact ⟨p, g, h1, h2, h⟩

/-- A reachable state with a property and a propagation in this state. -/
theorem exists_prop_any {be : Backend} {mode mode' : Mode} {opts : Options} (es : List Ev) (dl th : ℕ) (lits : List ℤ) (accept : Bool)
    {P : Propagator V → Ghost V → Propagator V → Bool → Bool}
    (h : ((runs (V := V) be mode es (start opts)).any fun s =>
      ((Ev.prop dl th lits accept).run be mode' s).any fun s' => P s.1 s.2 s'.1 ((s'.2.thrs[th]?).any fun gt => !gt.stuck)) = true) :
    ∃ p g p' gt ok, Reach be opts (restr mode) p g ∧ NoDead g ∧
      MayPropagate (restr mode') p g (ctlOf dl (nextFrames dl lits gt.frames) accept) th lits gt ∧
      p.propagate fuel (ctlOf dl (nextFrames dl lits gt.frames) accept) th lits = some (p', ok) ∧ P p g p' ok = true := by
  cases hr : runs (V := V) be mode es (start opts) with
  | none => rw [hr] at h; cases h
  | some s =>
    obtain ⟨p, g⟩ := s
    rw [hr] at h
    simp only [Option.any_some] at h
    obtain ⟨h1, h2⟩ := runs_reach hr
    cases hs : (Ev.prop dl th lits accept).run be mode' (p, g) with
    | none => rw [hs] at h; cases h
    | some s' =>
      rw [hs] at h
      simp only [Option.any_some] at h
      unfold Ev.run at hs
      simp only at hs
      split at hs
      · cases hs
      · rename_i gt hgt
        split at hs
        swap
        · cases hs
        rename_i hc
        split at hs
        · cases hs
        rename_i q ok hr'
        simp only [Option.some.injEq] at hs
        subst hs
        rw [Bool.and_eq_true, Bool.and_eq_true, Bool.and_eq_true] at hc
        obtain ⟨⟨⟨k1, k2⟩, k3⟩, k4⟩ := hc
        simp only at h
        rw [getElem?_set_some hgt] at h
        simp only [Option.any_some, Bool.not_not] at h
        refine ⟨p, g, q, gt, ok, h1, h2, ⟨hgt, by simpa using k1, ?_, lvlOK_spec k3, fun l _ => h2 gt (List.mem_of_getElem? hgt) l, restr_spec k4⟩, hr', h⟩
        rw [List.all_eq_true] at k2
        intro fr hfr
        exact of_decide_eq_true (k2 fr hfr)

/-- The same restriction for all calls. -/
theorem exists_prop {be : Backend} {mode : Mode} {opts : Options} (es : List Ev) (dl th : ℕ) (lits : List ℤ) (accept : Bool)
    {P : Propagator V → Ghost V → Propagator V → Bool → Bool}
    (h : ((runs (V := V) be mode es (start opts)).any fun s =>
      ((Ev.prop dl th lits accept).run be mode s).any fun s' => P s.1 s.2 s'.1 ((s'.2.thrs[th]?).any fun gt => !gt.stuck)) = true) :
    ∃ p g p' gt ok, Reach be opts (restr mode) p g ∧ NoDead g ∧
      MayPropagate (restr mode) p g (ctlOf dl (nextFrames dl lits gt.frames) accept) th lits gt ∧
      p.propagate fuel (ctlOf dl (nextFrames dl lits gt.frames) accept) th lits = some (p', ok) ∧ P p g p' ok = true :=
  exists_prop_any es dl th lits accept h

/-- A reachable state with a property and a check in this state, whether or not the check terminates. -/
theorem exists_mayCheck {be : Backend} {mode : Mode} {opts : Options} (es : List Ev) (dl th : ℕ)
    {P : Propagator V → Ghost V → Thr V → GThr → Bool}
    (h : ((runs (V := V) be mode es (start opts)).any fun s =>
      match s.2.thrs[th]?, s.1.thrs[th]? with
      | some gt, some t =>
        let frames := s.1.checkFrames (ctlOf dl [] true) t gt.frames
        !gt.stuck && (gt.frames.all fun fr => decide (fr.level ≤ dl)) && lvlOK (ctlOf dl frames true) frames && smallLits s.1.prog.iqs frames &&
          P s.1 s.2 t gt
      | _, _ => false) = true) :
    ∃ p g gt t, Reach be opts (restr mode) p g ∧ NoDead g ∧
      MayCheck p g (ctlOf dl (p.checkFrames (ctlOf dl [] true) t gt.frames) true) th gt t ∧ P p g t gt = true := by
  cases hr : runs (V := V) be mode es (start opts) with
  | none => rw [hr] at h; cases h
  | some s =>
    obtain ⟨p, g⟩ := s
    rw [hr] at h
    simp only [Option.any_some] at h
    obtain ⟨h1, h2⟩ := runs_reach hr
    split at h
    · rename_i gt t hgt ht
      rw [Bool.and_eq_true] at h
      exact ⟨p, g, gt, t, h1, h2, may_check h2 hgt ht rfl h.1, h.2⟩
    · cases h

/-- Two reachable states, the second one later in the same solving step. -/
theorem exists_inStep {be : Backend} {mode : Mode} {opts : Options} (es es' : List Ev) (hes : es'.all Ev.inStep = true)
    {P : Propagator V → Ghost V → Propagator V → Ghost V → Bool}
    (h : ((runs (V := V) be mode es (start opts)).any fun s => (runs (V := V) be mode es' s).any fun s' => P s.1 s.2 s'.1 s'.2) = true) :
    ∃ p g p' g', Reach be opts (restr mode) p g ∧ NoDead g ∧ LaterInStep be (restr mode) p g p' g' ∧ P p g p' g' = true := by
  cases hr : runs (V := V) be mode es (start opts) with
  | none => rw [hr] at h; cases h
  | some s =>
    obtain ⟨p, g⟩ := s
    rw [hr] at h
    simp only [Option.any_some] at h
    obtain ⟨h1, h2⟩ := runs_reach hr
    cases hr' : runs (V := V) be mode es' (p, g) with
    | none => rw [hr'] at h; cases h
    | some s' =>
      obtain ⟨p', g'⟩ := s'
      rw [hr'] at h
      exact ⟨p, g, p', g', h1, h2, runs_inStep h1.weak h2 hes hr' .refl, h⟩

/-- Two reachable states, the second one later, possibly in another solving step. -/
theorem exists_later {be : Backend} {mode : Mode} {opts : Options} (es es' : List Ev)
    {P : Propagator V → Ghost V → Propagator V → Ghost V → Bool}
    (h : ((runs (V := V) be mode es (start opts)).any fun s => (runs (V := V) be mode es' s).any fun s' => P s.1 s.2 s'.1 s'.2) = true) :
    ∃ p g p' g', Reach be opts (restr mode) p g ∧ NoDead g ∧ Later be (restr mode) p g p' g' ∧ P p g p' g' = true := by
  cases hr : runs (V := V) be mode es (start opts) with
  | none => rw [hr] at h; cases h
  | some s =>
    obtain ⟨p, g⟩ := s
    rw [hr] at h
    simp only [Option.any_some] at h
    obtain ⟨h1, h2⟩ := runs_reach hr
    cases hr' : runs (V := V) be mode es' (p, g) with
    | none => rw [hr'] at h; cases h
    | some s' =>
      obtain ⟨p', g'⟩ := s'
      rw [hr'] at h
      exact ⟨p, g, p', g', h1, h2, (runs_later h1.weak h2 hr' .refl).1, h⟩

/-- A reachable state with a property and a check in this state that terminates. -/
theorem exists_check {be : Backend} {mode : Mode} {opts : Options} (es : List Ev) (dl th : ℕ) (total : Bool)
    {P : Propagator V → Ghost V → Thr V → GThr → Propagator V → Bool → Bool}
    (h : ((runs (V := V) be mode es (start opts)).any fun s =>
      match s.2.thrs[th]?, s.1.thrs[th]? with
      | some gt, some t =>
        let frames := s.1.checkFrames (ctlOf dl [] true) t gt.frames
        !gt.stuck && (gt.frames.all fun fr => decide (fr.level ≤ dl)) && lvlOK (ctlOf dl frames true) frames && smallLits s.1.prog.iqs frames &&
          ((s.1.check fuel (ctlOf dl frames true) total th).any fun r => P s.1 s.2 t gt r.1 r.2)
      | _, _ => false) = true) :
    ∃ p g gt t p' ok, Reach be opts (restr mode) p g ∧ NoDead g ∧
      MayCheck p g (ctlOf dl (p.checkFrames (ctlOf dl [] true) t gt.frames) true) th gt t ∧
      p.check fuel (ctlOf dl (p.checkFrames (ctlOf dl [] true) t gt.frames) true) total th = some (p', ok) ∧ P p g t gt p' ok = true := by
  obtain ⟨p, g, gt, t, h1, h2, h3, h4⟩ := exists_mayCheck (V := V) (be := be) (mode := mode) (opts := opts) es dl th
    (P := fun p g t gt => (p.check fuel (ctlOf dl (p.checkFrames (ctlOf dl [] true) t gt.frames) true) total th).any fun r => P p g t gt r.1 r.2) h
  cases hc : p.check fuel (ctlOf dl (p.checkFrames (ctlOf dl [] true) t gt.frames) true) total th with
  | none => rw [hc] at h4; cases h4
  | some r =>
    rw [hc] at h4
    exact ⟨p, g, gt, t, r.1, r.2, h1, h2, h3, hc, h4⟩

end Lpx.Witness
