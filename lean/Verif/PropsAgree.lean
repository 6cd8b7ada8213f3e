import Verif.PropsUnmixed

/-!
# Results do not depend on how they are found (C47, C48)

Two propagators, with their own options, backends, threads and histories, that agree on the constraints and on which of them are true,
agree on what they report: the optimum and whether it is bounded (C47), and, for programs without strict relations, this is so even if only one
of them runs in strict mode (C48).
-/

set_option linter.unusedSectionVars false

namespace Lpx.Props
open Lpx Lpx.Witness

/-- The same constraints, of which the same are true, and the same objective. -/
structure SameTask (a b : Prog) (fa fb : ℤ → Prop) : Prop where
  iqs : ∀ x, x ∈ b.iqs ↔ x ∈ a.iqs
  obj : b.objective = a.objective
  act : ∀ x ∈ a.iqs, fa x.lit ↔ fb x.lit

theorem SameTask.symm {a b : Prog} {fa fb : ℤ → Prop} (h : SameTask a b fa fb) : SameTask b a fb fa :=
  ⟨fun x => (h.iqs x).symm, h.obj.symm, fun x hx => (h.act x ((h.iqs x).1 hx)).symm⟩

theorem SameTask.solves {a b : Prog} {fa fb : ℤ → Prop} (h : SameTask a b fa fb) {gv : Symbol → ℚ} :
    Solves (withVars a.iqs) fa gv ↔ Solves (withVars b.iqs) fb gv := by
  constructor
  · intro hs x hx hf
    obtain ⟨h1, h2⟩ := mem_withVars.1 hx
    have h1 := (h.iqs x).1 h1
    exact hs x (mem_withVars.2 ⟨h1, h2⟩) ((h.act x h1).2 hf)
  · intro hs x hx hf
    obtain ⟨h1, h2⟩ := mem_withVars.1 hx
    exact hs x (mem_withVars.2 ⟨(h.iqs x).2 h1, h2⟩) ((h.act x h1).1 hf)

section
variable {V : Type} [LpFull V]
variable {be be' : Backend} {opts opts' : Options} {Q Q' : Restr V} {p q : Propagator V} {g g' : Ghost V}

/-- A point satisfying all active bounds of one solver yields a point of the other one with the same values of variables; it satisfies the
bounds of all active constraints, and those of active cuts if its objective is large enough. -/
theorem transfer {gt gt' : GThr} {th th' : ℕ} {t t' : Thr V} {E0 E0' : (ℕ → V) → Prop} {base base' : List (Bound V)} (hi : SysInv opts p g)
    (hi' : SysInv opts' q g') (h : Unpacked opts p g gt th t E0 base) (h' : Unpacked opts' q g' gt' th' t' E0' base')
    (hsame : SameTask p.prog q.prog (Act gt.frames) (Act gt'.frames)) {asg' : ℕ → V} (hE' : E0' asg')
    (hall : ∀ bd ∈ t'.slv.bounds, Act gt'.frames bd.lit → bd.Holds asg') :
    ∃ asg, E0 asg ∧ evalV (fun y => asg (ix p.lookup y)) p.prog.objective = evalV (fun y => asg' (ix q.lookup y)) q.prog.objective ∧
      ((∀ c ∈ p.cutsOf th, Act gt.frames c.1 → c.2 ≤ evalV (fun y => asg' (ix q.lookup y)) q.prog.objective) →
        ∀ bd ∈ t.slv.bounds, Act gt.frames bd.lit → bd.Holds asg) := by
  obtain ⟨asg, hE, hval⟩ := h.dyn.set.ext fun j => ((p.varVec[j]?).map fun y => asg' (ix q.lookup y)).getD 0
  have hv : ∀ y j, p.lookup y = some j → asg j = asg' (ix q.lookup y) := by
    intro y j hy
    rw [hval j (hi.vars.lt hy), (hi.vars.lookup y j).1 hy]; rfl
  have hts : ∀ {ts : List (Term Symbol)}, NF p.lookup p.varMap.length ts →
      evalV (fun y => asg (ix p.lookup y)) ts = evalV (fun y => asg' (ix q.lookup y)) ts := by
    intro ts hn
    refine evalV_congr fun u hu => ?_
    obtain ⟨j, hj, -⟩ := hn.known u hu
    rw [← hv u.var j hj]; simp [ix, hj]
  have hob : evalV (fun y => asg (ix p.lookup y)) p.prog.objective = evalV (fun y => asg' (ix q.lookup y)) q.prog.objective := by
    rw [hts (hi.onf h.live), hsame.obj]
  refine ⟨asg, hE, hob, fun hcuts bd hbd hact => ?_⟩
  obtain ⟨cs, hcs, hcut⟩ := h.dyn.cuts
  have hb' := hbd
  rw [hcs] at hb'
  rcases List.mem_append.1 hb' with hb' | hb'
  · obtain ⟨x, hx, hr⟩ := h.dyn.set.src bd hb'
    have hne : x.lhs ≠ [] := by
      cases hr with
      | single a y hl _ _ _ _ _ => rw [hl]; simp
      | row hl _ _ _ _ _ => intro h0; rw [h0] at hl; simp at hl
    have ha : Act gt'.frames x.lit := (hsame.act x hx).1 (by rw [← hr.lit]; exact hact)
    obtain ⟨bd', hb1, hr'⟩ := h'.bound (mem_withVars.2 ⟨(hsame.iqs x).2 hx, hne⟩) ha
    have hh := hall bd' hb1 (by rw [hr'.lit]; exact ha)
    rw [Bound.holds_iff] at hh ⊢
    cases hr with
    | single a y hl _ _ hvar hval' hrel =>
      cases hr' with
      | single a' y' hl' _ _ hvar' hval'' hrel' =>
        rw [hl] at hl'
        simp only [List.cons.injEq, Term.mk.injEq, and_true] at hl'
        obtain ⟨rfl, rfl⟩ := hl'
        obtain ⟨j, hj, hjb⟩ := hvar
        obtain ⟨j', hj', hjb'⟩ := hvar'
        have : asg bd.var = asg' bd'.var := by rw [hjb, hv y j hj, hjb']; simp [ix, hj']
        rw [this, hval', hrel, ← hval'', ← hrel']
        exact hh
      | row hl' _ _ _ _ _ => rw [hl] at hl'; simp at hl'
    | row hl hnew _ hval' hrel hvar =>
      cases hr' with
      | single a' y' hl' _ _ hvar' hval'' hrel' => rw [hl'] at hl; simp at hl
      | row hl' _ _ hval'' hrel' hvar' =>
        have : asg bd.var = asg' bd'.var := by rw [hvar asg hE, hvar' asg' hE', hts (hi.nf h.live x hx)]
        rw [this, hval', hrel, ← hval'', ← hrel']
        exact hh
  · have hk := hcut bd hb'
    rw [Bound.holds_iff, hk.rel, hk.var]
    show bd.value ≤ asg _
    rw [(h.dyn.set.bvar hk.obj hk.glob).2.2 asg hE, hob]
    exact hcuts _ (hk.mem_cutsOf h.ht hbd) hact

/-- The reported objective of a thread is the value of the objective variable. -/
theorem objectiveOf_eq {gt : GThr} {th : ℕ} {t : Thr V} {E0 : (ℕ → V) → Prop} {base : List (Bound V)}
    (h : Unpacked opts p g gt th t E0 base) {v : V} {b : Bool} (ho : p.objectiveOf th = [(v, b)]) :
    t.slv.obj.active = true ∧ v = t.slv.value t.slv.obj.var ∧ b = t.slv.obj.bounded ∧ p.prog.objective ≠ [] := by
  unfold Propagator.objectiveOf S.getObjective at ho
  simp only [h.ht] at ho
  split at ho
  swap
  · simp at ho
  rename_i ha
  simp only [Option.toList_some, List.cons.injEq, Prod.mk.injEq, and_true] at ho
  exact ⟨ha, ho.1.symm, ho.2.symm, fun h0 => by rw [h.dyn.active, h0] at ha; simp at ha⟩

/-- One half of C47. -/
theorem optimum_le (hq : StepOK V opts) (hq' : StepOK V opts') (hr : Reach be opts Intact p g) (hr' : Reach be' opts' Intact q g') {th th' : ℕ}
    {gt gt' : GThr} (hgt : g.thrs[th]? = some gt) (hgt' : g'.thrs[th']? = some gt') (hst : gt.stuck = false) (hst' : gt'.stuck = false)
    (hck : gt.checked = true) (hck' : gt'.checked = true) (hsame : SameTask p.prog q.prog (Act gt.frames) (Act gt'.frames)) {v w : V} {b : Bool}
    (ho : p.objectiveOf th = [(v, true)]) (ho' : q.objectiveOf th' = [(w, b)]) : b = true ∧ w ≤ v := by
  have hi := hr.inv hq
  have hi' := hr'.inv hq'
  obtain ⟨t, E0, base, hu⟩ := hi.unpack hgt
  obtain ⟨t', E0', base', hu'⟩ := hi'.unpack hgt'
  obtain ⟨ha, hv, hb, hne⟩ := objectiveOf_eq hu ho
  obtain ⟨ha', hw, hb', hne'⟩ := objectiveOf_eq hu' ho'
  have hsi := hu.dyn.sinv hst
  have hsi' := hu'.dyn.sinv hst'
  have key : ∀ asg', E0' asg' → (∀ bd ∈ t'.slv.bounds, Act gt'.frames bd.lit → bd.Holds asg') → asg' t'.slv.obj.var ≤ v := by
    intro asg' hE' hall
    rw [(hu'.dyn.set.ovar hne').2 asg' hE']
    by_contra hlt
    push Not at hlt
    obtain ⟨asg, hE, h1, h2⟩ := transfer hi hi' hu hu' hsame hE' hall
    refine absurd (((hu.dyn.optm hck) ha).1 hb.symm asg hE (h2 fun c hc hact => ?_)) ?_
    · refine (hu.cuts hsi.good.val hsi.holds hc hact).trans (le_trans (le_of_eq ?_) hlt.le)
      rw [hv]
      exact ((hu.dyn.set.ovar hne).2 _ hsi.good.val).symm
    · rw [(hu.dyn.set.ovar hne).2 asg hE, h1, ← hv]
      exact not_le.2 hlt
  have hb1 : b = true := by
    cases b
    · obtain ⟨c, hc⟩ := LpValue.archimedean v
      obtain ⟨asg', hE', hall, hlt⟩ := ((hu'.dyn.optm hck') ha').2 hb'.symm c
      exact absurd (key asg' hE' hall) (not_le.2 (hc.trans hlt))
    · rfl
  exact ⟨hb1, by rw [hw]; exact key _ hsi'.good.val hsi'.holds⟩

/-- C47 (partial: `Intact`). The optimum is determined by the task. Two reports of the objective for the same true constraints, by whatever
threads, options, numbers of steps and histories, agree: either both are unbounded, or both are bounded and have the same value. In strict mode, this
includes the coefficient of epsilon. -/
theorem C47_optimum_unique_partial (hq : StepOK V opts) (hq' : StepOK V opts') (hr : Reach be opts Intact p g) (hr' : Reach be' opts' Intact q g')
    {th th' : ℕ} {gt gt' : GThr} (hgt : g.thrs[th]? = some gt) (hgt' : g'.thrs[th']? = some gt') (hst : gt.stuck = false)
    (hst' : gt'.stuck = false) (hck : gt.checked = true) (hck' : gt'.checked = true)
    (hsame : SameTask p.prog q.prog (Act gt.frames) (Act gt'.frames)) {v w : V} {b b' : Bool}
    (ho : p.objectiveOf th = [(v, b)]) (ho' : q.objectiveOf th' = [(w, b')]) : b = b' ∧ (b = true → v = w) := by
  cases b
  · cases b'
    · exact ⟨rfl, by simp⟩
    · have := (optimum_le hq' hq hr' hr hgt' hgt hst' hst hck' hck hsame.symm ho' ho).1
      cases this
  · obtain ⟨rfl, h1⟩ := optimum_le hq hq' hr hr' hgt hgt' hst hst' hck hck' hsame ho ho'
    exact ⟨rfl, fun _ => le_antisymm (optimum_le hq' hq hr' hr hgt' hgt hst' hst hck' hck hsame.symm ho' ho).2 h1⟩

/-- C47 for programs without mixed equations (see C45): all histories. -/
theorem C47_unmixed_optimum_unique (hq : StepOK V opts) (hq' : StepOK V opts') (hr : Reach be opts Q p g) (hr' : Reach be' opts' Q' q g')
    (hu : Unmixed p.prog.iqs) {th th' : ℕ} {gt gt' : GThr} (hgt : g.thrs[th]? = some gt) (hgt' : g'.thrs[th']? = some gt') (hst : gt.stuck = false)
    (hst' : gt'.stuck = false) (hck : gt.checked = true) (hck' : gt'.checked = true)
    (hsame : SameTask p.prog q.prog (Act gt.frames) (Act gt'.frames)) {v w : V} {b b' : Bool}
    (ho : p.objectiveOf th = [(v, b)]) (ho' : q.objectiveOf th' = [(w, b')]) : b = b' ∧ (b = true → v = w) :=
  C47_optimum_unique_partial hq hq' (hu.reach hq hr) ((hu.mono fun x hx => (hsame.iqs x).1 hx).reach hq' hr') hgt hgt' hst hst' hck hck' hsame ho ho'

end

/-! ### with and without strict mode -/

section
variable {be be' : Backend} {opts opts' : Options} {p : Propagator ℚ} {q : Propagator RatQ} {g : Ghost ℚ} {g' : Ghost RatQ}

theorem supports_ratq (r : Relation) : Supports RatQ r := by
  cases r <;> simp [Supports, LpSem.strict]

/-- C48 (partial: `Intact`): strict mode does not change the verdict on programs without strict relations. -/
theorem C48_strict_mode_verdict_partial (hg : opts.globalObjective = none) (hpm : opts.propagateMode = .none) (hg' : opts'.globalObjective = none)
    (hpm' : opts'.propagateMode = .none) (hr : Reach be opts Intact p g) (hr' : Reach be' opts' Intact q g')
    (hs : ∀ x ∈ p.prog.iqs, Supports ℚ x.rel) {ctl ctl' : Ctl} {th th' : ℕ} {lits lits' : List ℤ} {gt gt' : GThr}
    (hm : MayPropagate Intact p g ctl th lits gt) (hm' : MayPropagate Intact q g' ctl' th' lits' gt')
    (hsame : SameTask p.prog q.prog (fun l => l ∈ lits ∨ Act gt.frames l) (fun l => l ∈ lits' ∨ Act gt'.frames l))
    {fuel fuel' : ℕ} {p1 : Propagator ℚ} {q1 : Propagator RatQ} {ok ok' : Bool} (hc : p.propagate fuel ctl th lits = some (p1, ok))
    (hc' : q.propagate fuel' ctl' th' lits' = some (q1, ok')) : ok = ok' := by
  rw [Bool.eq_iff_iff, C05_verdict_iff_partial hg hpm hr hs hm hc,
    C05_verdict_iff_partial hg' hpm' hr' (fun x _ => supports_ratq x.rel) hm' hc']
  exact exists_congr fun gv => hsame.solves

/-- C48 (partial: `Intact`): strict mode does not change the optimum of programs without strict relations, and the optimum has no
epsilon. -/
theorem C48_strict_mode_optimum_partial (hq : StepOK ℚ opts) (hr : Reach be opts Intact p g) (hr' : Reach be' opts' Intact q g')
    (hs : ∀ x ∈ p.prog.iqs, Supports ℚ x.rel) {th th' : ℕ} {gt gt' : GThr} (hgt : g.thrs[th]? = some gt) (hgt' : g'.thrs[th']? = some gt')
    (hst : gt.stuck = false) (hst' : gt'.stuck = false) (hck : gt.checked = true) (hck' : gt'.checked = true)
    (hsame : SameTask p.prog q.prog (Act gt.frames) (Act gt'.frames)) {v : ℚ} {w : RatQ} {b b' : Bool}
    (ho : p.objectiveOf th = [(v, b)]) (ho' : q.objectiveOf th' = [(w, b')]) : b = b' ∧ (b = true → w.c = v ∧ w.k = 0) := by
  have hq' : StepOK RatQ opts' := by
    intro x hx
    exact ⟨x, rfl⟩
  have hs' : ∀ x ∈ q.prog.iqs, Supports RatQ x.rel := fun x _ => supports_ratq x.rel
  cases b <;> cases b'
  · exact ⟨rfl, by simp⟩
  · obtain ⟨-, h1⟩ := C09_bounded_is_optimal_partial hq' hr' hs' hgt' hst' hck' ho'
    obtain ⟨gv, h2, h3⟩ := C10_unbounded_partial hq hr hs hgt hck ho (w.c + 1)
    have := h1 gv (hsame.solves.1 h2)
    rw [hsame.obj] at this
    have h4 : w < LpValue.ofRat (evalTerms gv p.prog.objective) := by
      rw [RatQ.lt_def]
      left
      show w.c < evalTerms gv p.prog.objective
      linarith
    exact absurd this (not_le.2 h4)
  · obtain ⟨-, h1⟩ := C09_bounded_is_optimal_partial hq hr hs hgt hst hck ho
    obtain ⟨gv, h2, h3⟩ := C10_unbounded_partial hq' hr' hs' hgt' hck' ho' v
    have := h1 gv (hsame.solves.2 h2)
    rw [hsame.obj] at h3
    exact absurd this (not_le.2 h3)
  · refine ⟨rfl, fun _ => ?_⟩
    obtain ⟨hv, h1⟩ := C09_bounded_is_optimal_partial hq hr hs hgt hst hck ho
    obtain ⟨hw, h2⟩ := C09_bounded_is_optimal_partial hq' hr' hs' hgt' hst' hck' ho'
    obtain ⟨e0, he0, h3⟩ := (C01_active_constraints_hold_partial hq hr hs hgt hst).exists
    have h4 := C01_active_constraints_hold_partial hq' hr' hs' hgt' hst'
    have h5 : (LpValue.ofRat v : RatQ) ≤ w := by
      refine le_trans (le_of_eq ?_) (h2 _ (hsame.solves.1 h3))
      rw [hsame.obj, hv]
      rfl
    have h6 : Small fun e => w.c + w.k * e ≤ v := by
      refine h4.mono fun e _ hh => ?_
      refine le_trans (le_of_eq ?_) (h1 _ (hsame.solves.2 hh))
      rw [← hsame.obj, ← evalV_conc, ← hw]
      rfl
    have h7 : ¬ (LpValue.ofRat v : RatQ) < w := by
      intro hlt
      have h8 : Small fun e => LpSem.conc e (LpValue.ofRat v : RatQ) < LpSem.conc e w := LpSem.conc_lt _ _ hlt
      obtain ⟨e, -, j1, j2⟩ := (h6.and h8).exists
      rw [LpSem.conc_ofRat] at j2
      exact absurd j1 (not_le.2 j2)
    have h8 : (LpValue.ofRat v : RatQ) = w := le_antisymm h5 (not_lt.1 h7)
    rw [← h8]
    exact ⟨rfl, rfl⟩

/-- C48 for programs without mixed equations (see C45): all histories. -/
theorem C48_unmixed_strict_mode {Q : Restr ℚ} {Q' : Restr RatQ}
    (hq : StepOK ℚ opts) (hr : Reach be opts Q p g) (hr' : Reach be' opts' Q' q g') (hu : Unmixed p.prog.iqs)
    (hs : ∀ x ∈ p.prog.iqs, Supports ℚ x.rel) {th th' : ℕ} {gt gt' : GThr} (hgt : g.thrs[th]? = some gt) (hgt' : g'.thrs[th']? = some gt')
    (hst : gt.stuck = false) (hst' : gt'.stuck = false) (hck : gt.checked = true) (hck' : gt'.checked = true)
    (hsame : SameTask p.prog q.prog (Act gt.frames) (Act gt'.frames)) {v : ℚ} {w : RatQ} {b b' : Bool}
    (ho : p.objectiveOf th = [(v, b)]) (ho' : q.objectiveOf th' = [(w, b')]) : b = b' ∧ (b = true → w.c = v ∧ w.k = 0) :=
  C48_strict_mode_optimum_partial hq (hu.reach hq hr) ((hu.mono fun x hx => (hsame.iqs x).1 hx).reach (fun x _ => ⟨x, rfl⟩) hr') hs hgt hgt' hst hst' hck hck' hsame ho ho'

end

/-! ### the hypotheses can be met -/

/-- `x >= 1`, `x + y <= 5`, `y >= 2`, `x >= 4`, the constraints of `prog4`. -/
def agreeIqs : List (Ineq Symbol) :=
  [⟨[⟨1, symX⟩], 1, .ge, 1⟩, ⟨[⟨1, symX⟩, ⟨1, symY⟩], 5, .le, 2⟩, ⟨[⟨1, symY⟩], 2, .ge, 3⟩, ⟨[⟨1, symX⟩], 4, .ge, 4⟩]

/-- The program, and the constraints 1, 2 and 3 are the true ones. -/
def agreeTask (a : Prog) (frames : List Frame) : Bool :=
  decide (a.iqs = agreeIqs ∧ a.objective = [⟨1, symX⟩] ∧ Act frames 1 ∧ Act frames 2 ∧ Act frames 3 ∧ ¬ Act frames 4)

theorem agreeTask_same {a b : Prog} {fa fb : List Frame} (ha : agreeTask a fa = true) (hb : agreeTask b fb = true) :
    SameTask a b (Act fa) (Act fb) := by
  obtain ⟨a1, a2, a3, a4, a5, a6⟩ := of_decide_eq_true ha
  obtain ⟨b1, b2, b3, b4, b5, b6⟩ := of_decide_eq_true hb
  refine ⟨fun x => by rw [a1, b1], by rw [a2, b2], fun x hx => ?_⟩
  rw [a1] at hx
  unfold agreeIqs at hx
  simp only [List.mem_cons, List.not_mem_nil, or_false] at hx
  rcases hx with rfl | rfl | rfl | rfl
  · exact ⟨fun _ => b3, fun _ => a3⟩
  · exact ⟨fun _ => b4, fun _ => a4⟩
  · exact ⟨fun _ => b5, fun _ => a5⟩
  · exact ⟨fun h => absurd h a6, fun h => absurd h b6⟩

/-- What the examples below need to know about a propagator. -/
def agreeOK {V : Type} [LpFull V] (p : Propagator V) (g : Ghost V) : Bool := g.thrs[0]?.any fun gt => !gt.stuck && gt.checked && agreeTask p.prog gt.frames

theorem agreeOK_spec {V : Type} [LpFull V] {p : Propagator V} {g : Ghost V} (h : agreeOK p g = true) :
    ∃ gt, g.thrs[0]? = some gt ∧ gt.stuck = false ∧ gt.checked = true ∧ agreeTask p.prog gt.frames = true := by
  unfold agreeOK at h
  cases hg : g.thrs[0]? with
  | none => rw [hg] at h; cases h
  | some gt =>
    rw [hg] at h
    simp only [Option.any_some, Bool.and_eq_true, Bool.not_eq_true'] at h
    exact ⟨gt, rfl, h.1.1, h.1.2, h.2⟩

/-- One way to the task: everything on one level. -/
def agreeRun1 : List Ev := [.init (prog4 ++ [maxAtom "x"]) 1, .prop 0 0 [1, 2, 3] true, .check 0 true 0]

/-- Another way: with a conflict that is undone and the literals in another order. -/
def agreeRun2 : List Ev :=
  [.init (prog4 ++ [maxAtom "x"]) 1, .prop 0 0 [3] true, .prop 1 0 [2] true, .prop 2 0 [4] true, .undo 0, .prop 2 0 [1] true, .check 2 true 0]

/-- Different options. -/
def agreeOpts : Options := { select := .conflict, store := .part, propagateMode := .full }

/-- The hypotheses of `C47_optimum_unique_partial` (and, since the program has no equations, `C47_unmixed_optimum_unique`) are met. -/
example : ∃ (p q : Propagator ℚ) (g g' : Ghost ℚ) (gt gt' : GThr), Reach .imath {} Intact p g ∧ Reach .imath agreeOpts Intact q g' ∧
    g.thrs[0]? = some gt ∧ g'.thrs[0]? = some gt' ∧ gt.stuck = false ∧ gt'.stuck = false ∧ gt.checked = true ∧ gt'.checked = true ∧
    SameTask p.prog q.prog (Act gt.frames) (Act gt'.frames) ∧ p.objectiveOf 0 = [(3, true)] ∧ q.objectiveOf 0 = [(3, true)] := by
  obtain ⟨p, g, h1, -, h2⟩ := exists_reach (V := ℚ) (be := .imath) (mode := .intact) (opts := {}) agreeRun1
    (P := fun p g => agreeOK p g && decide (p.objectiveOf 0 = [(3, true)])) (by decide +kernel)
  obtain ⟨q, g', k1, -, k2⟩ := exists_reach (V := ℚ) (be := .imath) (mode := .intact) (opts := agreeOpts) agreeRun2
    (P := fun p g => agreeOK p g && decide (p.objectiveOf 0 = [(3, true)])) (by decide +kernel)
  rw [Bool.and_eq_true] at h2 k2
  obtain ⟨gt, h3, h4, h5, h6⟩ := agreeOK_spec h2.1
  obtain ⟨gt', k3, k4, k5, k6⟩ := agreeOK_spec k2.1
  exact ⟨p, q, g, g', gt, gt', h1, k1, h3, k3, h4, k4, h5, k5, agreeTask_same h6 k6, of_decide_eq_true h2.2, of_decide_eq_true k2.2⟩

/-- The hypotheses of the C48 theorems on the optimum are met. -/
example : ∃ (p : Propagator ℚ) (q : Propagator RatQ) (g : Ghost ℚ) (g' : Ghost RatQ) (gt gt' : GThr), Reach .imath {} Intact p g ∧
    Reach .imath agreeOpts Intact q g' ∧ (∀ x ∈ p.prog.iqs, Supports ℚ x.rel) ∧ Unmixed p.prog.iqs ∧
    g.thrs[0]? = some gt ∧ g'.thrs[0]? = some gt' ∧ gt.stuck = false ∧ gt'.stuck = false ∧ gt.checked = true ∧ gt'.checked = true ∧
    SameTask p.prog q.prog (Act gt.frames) (Act gt'.frames) ∧ p.objectiveOf 0 = [(3, true)] ∧ q.objectiveOf 0 = [(⟨3, 0⟩, true)] := by
  obtain ⟨p, g, h1, -, h2⟩ := exists_reach (V := ℚ) (be := .imath) (mode := .intact) (opts := {}) agreeRun1
    (P := fun p g => agreeOK p g && decide (p.objectiveOf 0 = [(3, true)])) (by decide +kernel)
  obtain ⟨q, g', k1, -, k2⟩ := exists_reach (V := RatQ) (be := .imath) (mode := .intact) (opts := agreeOpts) agreeRun2
    (P := fun p g => agreeOK p g && decide (p.objectiveOf 0 = [(⟨3, 0⟩, true)])) (by decide +kernel)
  rw [Bool.and_eq_true] at h2 k2
  obtain ⟨gt, h3, h4, h5, h6⟩ := agreeOK_spec h2.1
  obtain ⟨gt', k3, k4, k5, k6⟩ := agreeOK_spec k2.1
  have hiq : p.prog.iqs = agreeIqs := (of_decide_eq_true h6).1
  refine ⟨p, q, g, g', gt, gt', h1, k1, ?_, ?_, h3, k3, h4, k4, h5, k5, agreeTask_same h6 k6, of_decide_eq_true h2.2, of_decide_eq_true k2.2⟩
  · rw [hiq]; unfold agreeIqs; simp [Supports]
  · rw [hiq]; unfold agreeIqs Unmixed; simp

/-- The hypotheses of `C48_strict_mode_verdict_partial` are met: both reject `x >= 4`. -/
example : ∃ (p p1 : Propagator ℚ) (q q1 : Propagator RatQ) (g : Ghost ℚ) (g' : Ghost RatQ) (ctl ctl' : Ctl) (gt gt' : GThr),
    Reach .imath {} Intact p g ∧ Reach .imath { select := .conflict } Intact q g' ∧ (∀ x ∈ p.prog.iqs, Supports ℚ x.rel) ∧
    MayPropagate Intact p g ctl 0 [4] gt ∧ MayPropagate Intact q g' ctl' 0 [4] gt' ∧
    SameTask p.prog q.prog (fun l => l ∈ [4] ∨ Act gt.frames l) (fun l => l ∈ [4] ∨ Act gt'.frames l) ∧
    p.propagate fuel ctl 0 [4] = some (p1, false) ∧ q.propagate fuel ctl' 0 [4] = some (q1, false) := by
  obtain ⟨p, g, p1, gt, ok, h1, -, h2, h3, h4⟩ := exists_prop (V := ℚ) (be := .imath) (mode := .intact) (opts := {}) agreeRun1 1 0 [4] true
    (P := fun p g _ ok => !ok && agreeOK p g) (by decide +kernel)
  obtain ⟨q, g', q1, gt', ok', k1, -, k2, k3, k4⟩ := exists_prop (V := RatQ) (be := .imath) (mode := .intact) (opts := { select := .conflict }) agreeRun2 3 0 [4] true
    (P := fun p g _ ok => !ok && agreeOK p g) (by decide +kernel)
  rw [Bool.and_eq_true, Bool.not_eq_true'] at h4 k4
  obtain ⟨rfl, h4⟩ := h4
  obtain ⟨rfl, k4⟩ := k4
  obtain ⟨gt0, h5, -, -, h6⟩ := agreeOK_spec h4
  obtain ⟨gt1, k5, -, -, k6⟩ := agreeOK_spec k4
  obtain rfl := Option.some.inj (h5.symm.trans h2.thr)
  obtain rfl := Option.some.inj (k5.symm.trans k2.thr)
  have hsame := agreeTask_same h6 k6
  have hiq : p.prog.iqs = agreeIqs := (of_decide_eq_true h6).1
  refine ⟨p, p1, q, q1, g, g', _, _, gt0, gt1, h1, k1, ?_, h2, k2, ⟨hsame.iqs, hsame.obj, fun x hx => or_congr_right (hsame.act x hx)⟩, h3, k3⟩
  rw [hiq]; unfold agreeIqs; simp [Supports]

end Lpx.Props
