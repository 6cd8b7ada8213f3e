import Verif.PropsExactly
import Verif.PropsAgree

/-!
# More true constraints never improve the result (C80)

Two propagators of which the second has all true constraints of the first one, up to the order of summands, the literals used for them, repetitions and further
constraints: if the second one accepts, so does the first; the optimum reported by the second is at most that of the first.
-/

set_option linter.unusedSectionVars false

namespace Lpx.Props
open Lpx Lpx.Witness

/-- Each true constraint of `a` is one of `b`, with any literal and order of summands, and the objectives have the same summands. -/
structure Stronger (a b : Prog) (fa fb : ℤ → Prop) : Prop where
  obj : b.objective.Perm a.objective
  iqs : ∀ x ∈ a.iqs, fa x.lit → ∃ y ∈ b.iqs, fb y.lit ∧ y.lhs.Perm x.lhs ∧ y.rel = x.rel ∧ y.rhs = x.rhs

theorem SameTask.stronger {a b : Prog} {fa fb : ℤ → Prop} (h : SameTask a b fa fb) : Stronger a b fa fb :=
  ⟨by rw [h.obj], fun x hx hf => ⟨x, (h.iqs x).2 hx, (h.act x hx).1 hf, List.Perm.refl _, rfl, rfl⟩⟩

section
variable {V : Type} [LpFull V]

theorem evalV_perm {gv : Symbol → V} {ts us : List (Term Symbol)} (h : ts.Perm us) : evalV gv ts = evalV gv us := by
  unfold evalV; exact (h.map _).sum_eq

theorem margin_perm {ts us : List (Term Symbol)} (h : ts.Perm us) : margin ts = margin us := by
  unfold margin
  match ts, us, h with
  | [], us, h => rw [List.nil_perm.1 h]
  | [t], us, h => rw [List.singleton_perm.1 h]
  | t :: t' :: ts, [], h => simp at h
  | t :: t' :: ts, [u], h => have := h.length_eq; simp at this
  | t :: t' :: ts, u :: u' :: us, _ => rfl

theorem holdsMargin_perm {gv : Symbol → V} {x y : Ineq Symbol} (h : y.lhs.Perm x.lhs) (hr : y.rel = x.rel) (hv : y.rhs = x.rhs) (hy : HoldsMargin gv y) :
    HoldsMargin gv x := by
  unfold HoldsMargin at *
  rw [hr, hv, evalV_perm h, margin_perm h] at hy
  exact hy

theorem Stronger.solves {a b : Prog} {fa fb : ℤ → Prop} (h : Stronger a b fa fb) {gv : Symbol → V} (hs : SolvesMargin (withVars b.iqs) fb gv) :
    SolvesMargin (withVars a.iqs) fa gv := by
  intro x hx hf
  obtain ⟨h1, h2⟩ := mem_withVars.1 hx
  obtain ⟨y, hy, hfy, hp, hr, hv⟩ := h.iqs x h1 hf
  refine holdsMargin_perm hp hr hv (hs y (mem_withVars.2 ⟨hy, fun h0 => h2 ?_⟩) hfy)
  rw [h0] at hp; exact List.nil_perm.1 hp

variable {be be' : Backend} {opts opts' : Options} {Q Q' : Restr V} {p q p1 q1 : Propagator V} {g g' : Ghost V}

/-- C80, C09 (partial: `Intact`): the values of the objective for solutions of the true constraints, with values that may have an infinitesimal part, are those
up to the reported value, which is attained, or unbounded as reported. -/
theorem C80_optimum_exactly_partial (hq : StepOK V opts) (hr : Reach be opts Intact p g) {th : ℕ} {gt : GThr} (hgt : g.thrs[th]? = some gt) (hst : gt.stuck = false)
    (hck : gt.checked = true) {v : V} {b : Bool} (ho : p.objectiveOf th = [(v, b)]) :
    (b = true → (∃ gv : Symbol → V, SolvesMargin (withVars p.prog.iqs) (Act gt.frames) gv ∧ evalV gv p.prog.objective = v) ∧
      ∀ gv : Symbol → V, SolvesMargin (withVars p.prog.iqs) (Act gt.frames) gv → evalV gv p.prog.objective ≤ v) ∧
    (b = false → ∀ w : V, ∃ gv : Symbol → V, SolvesMargin (withVars p.prog.iqs) (Act gt.frames) gv ∧ w < evalV gv p.prog.objective) := by
  have hi := hr.inv hq
  obtain ⟨t, E0, base, hu⟩ := hi.unpack hgt
  obtain ⟨ha, hv, hb, hne⟩ := objectiveOf_eq hu ho
  have hsi := hu.dyn.sinv hst
  replace hv : v = t.slv.view.value t.slv.obj.var := hv
  have toGv : ∀ {asg : ℕ → V}, E0 asg → (∀ bd ∈ t.slv.bounds, Act gt.frames bd.lit → bd.Holds asg) →
      SolvesMargin (withVars p.prog.iqs) (Act gt.frames) fun y => asg (ix p.lookup y) := by
    intro asg hE hall x hx hact
    obtain ⟨bd, k1, k2⟩ := hu.bound hx hact
    exact (k2.exactly hE fun _ _ => rfl).1 (hall bd k1 (by rw [k2.lit]; exact hact))
  have hval : ∀ {asg : ℕ → V}, E0 asg → asg t.slv.obj.var = evalV (fun y => asg (ix p.lookup y)) p.prog.objective := fun hE => (hu.dyn.set.ovar hne).2 _ hE
  refine ⟨fun hb1 => ⟨⟨_, toGv hsi.good.val hsi.holds, ?_⟩, fun gv hsol => ?_⟩, fun hb1 w => ?_⟩
  · rw [← hval hsi.good.val, hv]
  · by_contra hlt
    push Not at hlt
    obtain ⟨asg, hE, hasg⟩ := hu.liftV hi gv
    have hobj : asg t.slv.obj.var = evalV gv p.prog.objective := by rw [hval hE, evalV_congr (liftV_terms hasg (hi.onf hu.live))]
    refine absurd (((hu.dyn.optm hck) ha).1 (hb ▸ hb1) asg hE fun bd hbd hact => ?_) ?_
    swap
    · rw [hv] at hlt; rw [hobj]; exact not_le.2 hlt
    obtain ⟨cs, hcs, hcut⟩ := hu.dyn.cuts
    have hb' := hbd
    rw [hcs] at hb'
    rcases List.mem_append.1 hb' with hb' | hb'
    · obtain ⟨x, hx, hr⟩ := hu.dyn.set.src bd hb'
      refine (hr.exactly hE (liftV_terms hasg (hi.nf hu.live x hx))).2 (hsol x (mem_withVars.2 ⟨hx, ?_⟩) (by rw [← hr.lit]; exact hact))
      cases hr with
      | single a y hl _ _ _ _ _ => rw [hl]; simp
      | row hl _ _ _ _ _ => intro h0; rw [h0] at hl; simp at hl
    · have hk := hcut bd hb'
      have hcv := hu.cuts hsi.good.val hsi.holds (hk.mem_cutsOf hu.ht hbd) hact
      rw [← hval hsi.good.val, ← hv] at hcv
      rw [Bound.holds_iff, hk.rel, hk.var]
      show bd.value ≤ asg _
      rw [(hu.dyn.set.bvar hk.obj hk.glob).2.2 asg hE, ← hval hE, hobj]
      exact hcv.trans hlt.le
  · obtain ⟨c, hc⟩ := LpValue.archimedean w
    obtain ⟨asg, hE, hall, hlt⟩ := ((hu.dyn.optm hck) ha).2 (hb ▸ hb1) c
    exact ⟨_, toGv hE hall, by rw [← hval hE]; exact hc.trans hlt⟩

/-- C80 (partial: `Intact`): if the true constraints of the first propagator are true constraints of the second one, then the optimum reported by the second one
is not larger, and bounded if that of the first one is. -/
theorem C80_optimum_partial (hq : StepOK V opts) (hq' : StepOK V opts') (hr : Reach be opts Intact p g) (hr' : Reach be' opts' Intact q g')
    {th th' : ℕ} {gt gt' : GThr} (hgt : g.thrs[th]? = some gt) (hgt' : g'.thrs[th']? = some gt') (hst : gt.stuck = false)
    (hst' : gt'.stuck = false) (hck : gt.checked = true) (hck' : gt'.checked = true)
    (hmore : Stronger p.prog q.prog (Act gt.frames) (Act gt'.frames)) {v w : V} {b b' : Bool}
    (ho : p.objectiveOf th = [(v, b)]) (ho' : q.objectiveOf th' = [(w, b')]) : b = true → b' = true ∧ w ≤ v := by
  rintro rfl
  have h1 := ((C80_optimum_exactly_partial hq hr hgt hst hck ho).1 rfl).2
  obtain ⟨k1, k2⟩ := C80_optimum_exactly_partial hq' hr' hgt' hst' hck' ho'
  have h2 : ∀ gv : Symbol → V, SolvesMargin (withVars q.prog.iqs) (Act gt'.frames) gv → evalV gv q.prog.objective ≤ v := fun gv hs => by
    rw [evalV_perm hmore.obj]; exact h1 gv (hmore.solves hs)
  cases b' with
  | true =>
    obtain ⟨⟨gv, hs, rfl⟩, -⟩ := k1 rfl
    exact ⟨rfl, h2 gv hs⟩
  | false =>
    obtain ⟨gv, hs, hlt⟩ := k2 rfl v
    exact absurd (h2 gv hs) (not_le.2 hlt)

/-- C80 for programs without mixed equations (see C45): all histories. -/
theorem C80_unmixed_optimum (hq : StepOK V opts) (hq' : StepOK V opts') (hr : Reach be opts Q p g) (hr' : Reach be' opts' Q' q g')
    (hu : Unmixed p.prog.iqs) (hu' : Unmixed q.prog.iqs) {th th' : ℕ} {gt gt' : GThr} (hgt : g.thrs[th]? = some gt) (hgt' : g'.thrs[th']? = some gt')
    (hst : gt.stuck = false) (hst' : gt'.stuck = false) (hck : gt.checked = true) (hck' : gt'.checked = true)
    (hmore : Stronger p.prog q.prog (Act gt.frames) (Act gt'.frames)) {v w : V} {b b' : Bool}
    (ho : p.objectiveOf th = [(v, b)]) (ho' : q.objectiveOf th' = [(w, b')]) : b = true → b' = true ∧ w ≤ v :=
  C80_optimum_partial hq hq' (hu.reach hq hr) (hu'.reach hq' hr') hgt hgt' hst hst' hck hck' hmore ho ho'

/-- C80 (partial: `Intact`): a conflict remains when there are more true constraints. If the second propagator accepts, then so does the first one, provided that
it runs without bound propagation and global objective. -/
theorem C80_verdict_partial (hg : opts.globalObjective = none) (hpm : opts.propagateMode = .none) (hq' : StepOK V opts') (hr : Reach be opts Intact p g)
    (hr' : Reach be' opts' Intact q g') {ctl ctl' : Ctl} {th th' : ℕ} {lits lits' : List ℤ} {gt gt' : GThr} (hm : MayPropagate Intact p g ctl th lits gt)
    (hm' : MayPropagate Intact q g' ctl' th' lits' gt')
    (hmore : Stronger p.prog q.prog (fun l => l ∈ lits ∨ Act gt.frames l) (fun l => l ∈ lits' ∨ Act gt'.frames l)) {fuel fuel' : ℕ} {ok : Bool}
    (hc : p.propagate fuel ctl th lits = some (p1, ok)) (hc' : q.propagate fuel' ctl' th' lits' = some (q1, true)) : ok = true := by
  have hq : StepOK V opts := by intro q h; rw [hg] at h; cases h
  have hno := (hr.inv hq).noCuts ((hr.inv hq).alive hm.thr) hg th
  obtain ⟨gv, h1, -⟩ := (C05_exactly_partial hq' hr' hm' hc').1 rfl
  exact (C05_exactly_iff_partial hq hpm hr hm hc).2 ⟨gv, hmore.solves h1, by rw [hno]; intro c hc; cases hc⟩

/-- C80 for programs without mixed equations (see C45): all histories. -/
theorem C80_unmixed_verdict (hg : opts.globalObjective = none) (hpm : opts.propagateMode = .none) (hq' : StepOK V opts') (hr : Reach be opts Q p g)
    (hr' : Reach be' opts' Q' q g') (hu : Unmixed p.prog.iqs) (hu' : Unmixed q.prog.iqs) {ctl ctl' : Ctl} {th th' : ℕ} {lits lits' : List ℤ} {gt gt' : GThr}
    (hm : MayPropagate Q p g ctl th lits gt) (hm' : MayPropagate Q' q g' ctl' th' lits' gt')
    (hmore : Stronger p.prog q.prog (fun l => l ∈ lits ∨ Act gt.frames l) (fun l => l ∈ lits' ∨ Act gt'.frames l)) {fuel fuel' : ℕ} {ok : Bool}
    (hc : p.propagate fuel ctl th lits = some (p1, ok)) (hc' : q.propagate fuel' ctl' th' lits' = some (q1, true)) : ok = true :=
  C80_verdict_partial hg hpm hq' (hu.reach (by intro q h; rw [hg] at h; cases h) hr) (hu'.reach hq' hr') (hu.mayPropagate hm) (hu'.mayPropagate hm') hmore hc hc'

end

/-! ### the hypotheses can be met -/

deriving instance DecidableEq for Frame

/-- Decides `Stronger`. -/
def strongerB (a b : Prog) (fa fb : List Frame) : Bool :=
  decide (b.objective.Perm a.objective) && a.iqs.all fun x => !decide (Act fa x.lit) ||
    b.iqs.any fun y => decide (Act fb y.lit) && decide (y.lhs.Perm x.lhs) && decide (y.rel = x.rel) && decide (y.rhs = x.rhs)

theorem strongerB_spec {a b : Prog} {fa fb : List Frame} (h : strongerB a b fa fb = true) : Stronger a b (Act fa) (Act fb) := by
  unfold strongerB at h
  rw [Bool.and_eq_true, decide_eq_true_eq, List.all_eq_true] at h
  refine ⟨h.1, fun x hx hf => ?_⟩
  have := h.2 x hx
  rw [Bool.or_eq_true, Bool.not_eq_true', decide_eq_false_iff_not, List.any_eq_true] at this
  rcases this with this | ⟨y, hy, h1⟩
  · exact absurd hf this
  · simp only [Bool.and_eq_true, decide_eq_true_eq] at h1
    exact ⟨y, hy, h1.1.1.1, h1.1.1.2, h1.1.2, h1.2⟩

/-- `x + y <= 5`, `y >= 2`, `&maximize{ x }`. -/
def fewProg : List TAtom := [sum2Atom "x" "y" "<=" 5 1, sumAtom "y" ">=" 2 2, maxAtom "x"]

/-- `y >= 3`, `y + x <= 5`, `y >= 2`, `x + y <= 5`, `x >= 0`, `&maximize{ x }`, with other literals. -/
def moreProg : List TAtom :=
  [sumAtom "y" ">=" 3 1, sum2Atom "y" "x" "<=" 5 2, sumAtom "y" ">=" 2 3, sum2Atom "x" "y" "<=" 5 4, sumAtom "x" ">=" 0 5, maxAtom "x"]

/-- The state of thread 0 after a check. -/
def moreOK {V : Type} [LpFull V] (p : Propagator V) (g : Ghost V) (a : Prog) (fr : List Frame) (o : List (V × Bool)) : Bool :=
  g.thrs[0]?.any fun gt => !gt.stuck && gt.checked && decide (p.objectiveOf 0 = o) && decide (p.prog.iqs = a.iqs ∧ p.prog.objective = a.objective) && decide (gt.frames = fr)

theorem moreOK_spec {V : Type} [LpFull V] {p : Propagator V} {g : Ghost V} {a : Prog} {fr : List Frame} {o : List (V × Bool)} (h : moreOK p g a fr o = true) :
    ∃ gt, g.thrs[0]? = some gt ∧ gt.stuck = false ∧ gt.checked = true ∧ p.objectiveOf 0 = o ∧ (p.prog.iqs = a.iqs ∧ p.prog.objective = a.objective) ∧ gt.frames = fr := by
  unfold moreOK at h
  cases hg : g.thrs[0]? with
  | none => rw [hg] at h; cases h
  | some gt =>
    rw [hg] at h
    simp only [Option.any_some, Bool.and_eq_true, Bool.not_eq_true', decide_eq_true_eq] at h
    exact ⟨gt, rfl, h.1.1.1.1, h.1.1.1.2, h.1.1.2, h.1.2, h.2⟩

/-- What is read from a list of atoms. -/
def readProg (as : List TAtom) : Prog := match evaluateTheory .imath mapLit as {} with | .ok p => p | .error _ => {}

theorem stronger_congr {a b a' b' : Prog} {fa fb : ℤ → Prop} (h : Stronger a b fa fb) (ha : a'.iqs = a.iqs ∧ a'.objective = a.objective)
    (hb : b'.iqs = b.iqs ∧ b'.objective = b.objective) : Stronger a' b' fa fb :=
  ⟨by rw [ha.2, hb.2]; exact h.obj, by rw [ha.1, hb.1]; exact h.iqs⟩

/-- The hypotheses of `C80_optimum_partial` are met: the optimum decreases from 3 to 2. -/
example : ∃ (p q : Propagator ℚ) (g g' : Ghost ℚ) (gt gt' : GThr), Reach .imath {} Intact p g ∧ Reach .imath agreeOpts Intact q g' ∧
    g.thrs[0]? = some gt ∧ g'.thrs[0]? = some gt' ∧ gt.stuck = false ∧ gt'.stuck = false ∧ gt.checked = true ∧ gt'.checked = true ∧
    Stronger p.prog q.prog (Act gt.frames) (Act gt'.frames) ∧ p.objectiveOf 0 = [(3, true)] ∧ q.objectiveOf 0 = [(2, true)] := by
  obtain ⟨p, g, h1, -, h2⟩ := exists_reach (V := ℚ) (be := .imath) (mode := .intact) (opts := {}) [.init fewProg 1, .prop 0 0 [1, 2] true, .check 0 true 0]
    (P := fun p g => moreOK p g (readProg fewProg) [⟨0, [1, 2]⟩] [(3, true)]) (by decide +kernel)
  obtain ⟨q, g', k1, -, k2⟩ := exists_reach (V := ℚ) (be := .imath) (mode := .intact) (opts := agreeOpts)
    [.init moreProg 1, .prop 0 0 [1] true, .prop 1 0 [4, 3, 5] true, .check 1 true 0]
    (P := fun p g => moreOK p g (readProg moreProg) [⟨1, [4, 3, 5]⟩, ⟨0, [1]⟩] [(2, true)]) (by decide +kernel)
  obtain ⟨gt, h3, h4, h5, h6, h7, h8⟩ := moreOK_spec h2
  obtain ⟨gt', k3, k4, k5, k6, k7, k8⟩ := moreOK_spec k2
  refine ⟨p, q, g, g', gt, gt', h1, k1, h3, k3, h4, k4, h5, k5, ?_, h6, k6⟩
  rw [h8, k8]
  exact stronger_congr (strongerB_spec (by decide +kernel)) h7 k7

theorem act_cons {l : ℤ} {lits : List ℤ} {fr : List Frame} : Act (⟨0, lits⟩ :: fr) l ↔ l ∈ lits ∨ Act fr l := by
  unfold Act; simp

/-- What the example below needs to know about a propagator. -/
def moreLive {V : Type} [LpFull V] (p : Propagator V) (g : Ghost V) (a : Prog) (fr : List Frame) : Bool :=
  decide (p.prog.iqs = a.iqs ∧ p.prog.objective = a.objective) && g.thrs[0]?.any fun gt => decide (gt.frames = fr)

theorem moreLive_spec {V : Type} [LpFull V] {p : Propagator V} {g : Ghost V} {a : Prog} {fr : List Frame} (h : moreLive p g a fr = true) :
    (p.prog.iqs = a.iqs ∧ p.prog.objective = a.objective) ∧ ∀ gt, g.thrs[0]? = some gt → gt.frames = fr := by
  unfold moreLive at h
  rw [Bool.and_eq_true, decide_eq_true_eq] at h
  refine ⟨h.1, fun gt hg => ?_⟩
  have := h.2
  rw [hg, Option.any_some, decide_eq_true_eq] at this
  exact this

/-- The hypotheses of `C80_verdict_partial` are met. -/
example : ∃ (p q p1 q1 : Propagator ℚ) (g g' : Ghost ℚ) (ctl ctl' : Ctl) (gt gt' : GThr), Reach .imath {} Intact p g ∧ Reach .imath agreeOpts Intact q g' ∧
    MayPropagate Intact p g ctl 0 [1, 2] gt ∧ MayPropagate Intact q g' ctl' 0 [4, 3, 5] gt' ∧
    Stronger p.prog q.prog (fun l => l ∈ [1, 2] ∨ Act gt.frames l) (fun l => l ∈ [4, 3, 5] ∨ Act gt'.frames l) ∧
    p.propagate fuel ctl 0 [1, 2] = some (p1, true) ∧ q.propagate fuel ctl' 0 [4, 3, 5] = some (q1, true) := by
  obtain ⟨p, g, p1, gt, ok, h1, -, h2, h3, h4⟩ := exists_prop (V := ℚ) (be := .imath) (mode := .intact) (opts := {}) [.init fewProg 1] 0 0 [1, 2] true
    (P := fun p g _ ok => ok && moreLive p g (readProg fewProg) []) (by decide +kernel)
  obtain ⟨q, g', q1, gt', ok', k1, -, k2, k3, k4⟩ := exists_prop (V := ℚ) (be := .imath) (mode := .intact) (opts := agreeOpts)
    [.init moreProg 1, .prop 0 0 [1] true] 1 0 [4, 3, 5] true (P := fun p g _ ok => ok && moreLive p g (readProg moreProg) [⟨0, [1]⟩]) (by decide +kernel)
  rw [Bool.and_eq_true] at h4 k4
  obtain ⟨rfl, h4⟩ := h4
  obtain ⟨rfl, k4⟩ := k4
  obtain ⟨h5, h6⟩ := moreLive_spec h4
  obtain ⟨k5, k6⟩ := moreLive_spec k4
  refine ⟨p, q, p1, q1, g, g', _, _, gt, gt', h1, k1, h2, k2, ?_, h3, k3⟩
  rw [h6 gt h2.thr, k6 gt' k2.thr]
  have key : Stronger (readProg fewProg) (readProg moreProg) (Act [⟨0, [1, 2]⟩]) (Act [⟨0, [4, 3, 5]⟩, ⟨0, [1]⟩]) := strongerB_spec (by decide +kernel)
  have := stronger_congr key h5 k5
  exact ⟨this.obj, fun x hx hf => by
    obtain ⟨y, hy, hy', h⟩ := this.iqs x hx (act_cons.2 hf)
    exact ⟨y, hy, act_cons.1 hy', h⟩⟩

end Lpx.Props
