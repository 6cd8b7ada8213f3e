import Verif.Idle
import Verif.PropsExactly

/-!
# The assignment only changes if it has to (C81)
-/

set_option linter.unusedSectionVars false

namespace Lpx.Props
open Lpx Lpx.Witness

section
variable {V : Type} [LpFull V]
variable {be : Backend} {opts : Options} {Q Q' : Restr V} {p p' : Propagator V} {g : Ghost V}

/-- C81 (partial: `Intact`): if the current values satisfy all constraints and cuts of the literals that become true, then `propagate` keeps all values. Without bound
propagation, it succeeds and adds no clause. -/
theorem C81_assignment_kept_partial (hq : StepOK V opts) (hr : Reach be opts Intact p g) {ctl : Ctl} {th : ℕ} {lits : List ℤ} {gt : GThr}
    (hm : MayPropagate Q' p g ctl th lits gt) (hsat : ∀ x ∈ withVars p.prog.iqs, x.lit ∈ lits → HoldsMargin (p.valueOf th) x)
    (hcut : ∀ c ∈ p.cutsOf th, c.1 ∈ lits → c.2 ≤ evalV (p.valueOf th) p.prog.objective) {fuel : ℕ} {ok : Bool}
    (hc : p.propagate fuel ctl th lits = some (p', ok)) :
    (∀ y, p'.valueOf th y = p.valueOf th y) ∧ (opts.propagateMode = .none → ok = true ∧ p'.clausesOf th = p.clausesOf th) := by
  have hi := hr.inv hq
  obtain ⟨t, E0, base, hu⟩ := hi.unpack hm.thr
  have hsi := hu.dyn.sinv hm.ready
  obtain ⟨s', hs', hp'⟩ := (propagate_eq hu.ht).1 hc
  have h4 : p'.thrs[th]? = some { t with slv := s' } := by rw [hp']; exact getElem?_set_some hu.ht
  have hb : ∀ bd ∈ t.slv.bounds, bd.lit ∈ lits → bd.Holds t.slv.value := by
    intro bd hbd hl
    obtain ⟨cs, hcs, hcut'⟩ := hu.dyn.cuts
    have hb' := hbd
    rw [hcs] at hb'
    rcases List.mem_append.1 hb' with hb' | hb'
    · obtain ⟨x, hx, hr⟩ := hu.dyn.set.src bd hb'
      refine (hr.exactly hsi.good.val (gv := p.valueOf th) fun u hu' => (valueOf_ix hu.ht (hi.nf hu.live x hx) hu').symm).2
        (hsat x (mem_withVars.2 ⟨hx, ?_⟩) (by rw [← hr.lit]; exact hl))
      cases hr with
      | single a y hl _ _ _ _ _ => rw [hl]; simp
      | row hl _ _ _ _ _ => intro h0; rw [h0] at hl; simp at hl
    · have hk := hcut' bd hb'
      rw [Bound.holds_iff, hk.rel, hk.var]
      show bd.value ≤ t.slv.view.value _
      rw [(hu.dyn.set.bvar hk.obj hk.glob).2.2 _ hsi.good.val, evalV_congr (g' := p.valueOf th) fun u hu' => (valueOf_ix hu.ht (hi.onf hu.live) hu').symm]
      exact hcut _ (hk.mem_cutsOf hu.ht hbd) hl
  obtain ⟨k1, -, k2⟩ := S.solve_idle ctl fuel hb hsi.good.win hs'
  refine ⟨fun y => ?_, fun hn => ?_⟩
  · unfold Propagator.valueOf Propagator.apiLookup Propagator.apiValue
    rw [h4, hu.ht]
    have : p'.lookup y = p.lookup y := by rw [hp']; rfl
    simp only [this, Option.map_some, k1]
  · obtain ⟨k3, k4⟩ := k2 (by rw [hu.dyn.hopts]; exact hn)
    exact ⟨k3, by rw [clausesOf_eq h4, clausesOf_eq hu.ht, k4]⟩

/-- C81 (partial: `Intact`): if all the literals are already true in the thread, then nothing changes. -/
theorem C81_again_partial (hq : StepOK V opts) (hr : Reach be opts Intact p g) {ctl : Ctl} {th : ℕ} {lits : List ℤ} {gt : GThr}
    (hm : MayPropagate Q' p g ctl th lits gt) (hact : ∀ l ∈ lits, Act gt.frames l) {fuel : ℕ} {ok : Bool} (hc : p.propagate fuel ctl th lits = some (p', ok)) :
    (∀ y, p'.valueOf th y = p.valueOf th y) ∧ (opts.propagateMode = .none → ok = true ∧ p'.clausesOf th = p.clausesOf th) := by
  have hi := hr.inv hq
  obtain ⟨t, E0, base, hu⟩ := hi.unpack hm.thr
  have hsi := hu.dyn.sinv hm.ready
  refine C81_assignment_kept_partial hq hr hm (fun x hx hl => ?_) (fun c hc hl => ?_) hc
  · obtain ⟨bd, k1, k2⟩ := hu.bound hx (hact _ hl)
    exact (k2.exactly hsi.good.val (gv := p.valueOf th) fun u hu' => (valueOf_ix hu.ht (hi.nf hu.live x (mem_withVars.1 hx).1) hu').symm).1
      (hsi.holds bd k1 (by rw [k2.lit]; exact hact _ hl))
  · have := hu.cuts hsi.good.val hsi.holds hc (hact _ hl)
    rwa [evalV_congr (g' := p.valueOf th) fun u hu' => (valueOf_ix hu.ht (hi.onf hu.live) hu').symm] at this

/-- C81 in the usual sense (partial: `Intact`): if the current values are rational and satisfy all constraints of the literals that become true, and there are no cuts for
these literals, then all values are kept. -/
theorem C81_rational_partial (hq : StepOK V opts) (hr : Reach be opts Intact p g) {ctl : Ctl} {th : ℕ} {lits : List ℤ} {gt : GThr}
    (hm : MayPropagate Q' p g ctl th lits gt) {gv : Symbol → ℚ} (hgv : ∀ y, p.valueOf th y = LpValue.ofRat (gv y))
    (hsat : ∀ x ∈ withVars p.prog.iqs, x.lit ∈ lits → Supports V x.rel ∧ x.holds gv) (hcut : ∀ c ∈ p.cutsOf th, c.1 ∉ lits)
    {fuel : ℕ} {ok : Bool} (hc : p.propagate fuel ctl th lits = some (p', ok)) :
    (∀ y, p'.valueOf th y = LpValue.ofRat (gv y)) ∧ (opts.propagateMode = .none → ok = true ∧ p'.clausesOf th = p.clausesOf th) := by
  have hi := hr.inv hq
  obtain ⟨t, E0, base, hu⟩ := hi.unpack hm.thr
  have hv : p.valueOf th = fun y => (LpValue.ofRat (gv y) : V) := funext hgv
  obtain ⟨k1, k2⟩ := C81_assignment_kept_partial hq hr hm (fun x hx hl => by
    obtain ⟨h1, h2⟩ := hsat x hx hl
    rw [hv]
    exact (holdsMargin_rat h1 (fun a y h => (hi.nf hu.live x (mem_withVars.1 hx).1).nz ⟨a, y⟩ (by rw [h]; simp)) gv).2 h2)
    (fun c hc hl => absurd hl (hcut c hc)) hc
  exact ⟨fun y => (k1 y).trans (hgv y), k2⟩

/-- C81 for programs without mixed equations (see C45): all histories. -/
theorem C81_unmixed (hq : StepOK V opts) (hr : Reach be opts Q p g) (hu : Unmixed p.prog.iqs) {ctl : Ctl} {th : ℕ} {lits : List ℤ} {gt : GThr}
    (hm : MayPropagate Q' p g ctl th lits gt) (hsat : ∀ x ∈ withVars p.prog.iqs, x.lit ∈ lits → HoldsMargin (p.valueOf th) x)
    (hcut : ∀ c ∈ p.cutsOf th, c.1 ∈ lits → c.2 ≤ evalV (p.valueOf th) p.prog.objective) {fuel : ℕ} {ok : Bool}
    (hc : p.propagate fuel ctl th lits = some (p', ok)) :
    (∀ y, p'.valueOf th y = p.valueOf th y) ∧ (opts.propagateMode = .none → ok = true ∧ p'.clausesOf th = p.clausesOf th) :=
  C81_assignment_kept_partial hq (hu.reach hq hr) hm hsat hcut hc

/-- C81: every solving step starts with the values 0 in all threads. -/
theorem C81_initial {be : Backend} {mapper : ℤ → ℤ} {atoms : List TAtom} {envs : ℕ → InitEnv} {n : ℕ} {ok : Bool} (hi : p.init be mapper atoms envs n = .ok (p', ok)) (th : ℕ)
    (y : Symbol) : p'.valueOf th y = 0 := by
  have key : ∀ (opts : Options) (idx : Symbol → Option ℕ) (size : ℕ) (a : Prog) (k i : ℕ), ∀ t ∈ (initThrs (V := V) envs opts idx size a k i).1, t.slv.value = fun _ => 0 := by
    intro opts idx size a k
    induction k with
    | zero => intro i t ht; cases ht
    | succ k ih =>
      intro i t ht
      unfold initThrs at ht
      simp only at ht
      split at ht
      · rcases List.mem_cons.1 ht with rfl | ht
        · exact S.prepare_value ..
        · exact ih _ t ht
      · rcases List.mem_cons.1 ht with rfl | ht
        · exact S.prepare_value ..
        · cases ht
  unfold Propagator.init at hi
  simp only at hi
  split at hi
  · cases hi
  · simp only [Except.ok.injEq, Prod.mk.injEq] at hi
    obtain ⟨rfl, -⟩ := hi
    unfold Propagator.valueOf Propagator.apiValue
    cases Propagator.apiLookup _ y with
    | none => rfl
    | some j =>
      simp only [Option.bind_some]
      have key' := fun idx size a => key p.opts idx size a n 0
      revert key'
      clear key
      generalize hL : initThrs (V := V) envs p.opts _ _ _ n 0 = L
      intro key'
      cases ht : L.1[th]? with
      | none => rfl
      | some t =>
        simp only [Option.map_some, Option.getD_some]
        rw [key' _ _ _ t (by rw [hL]; exact List.mem_of_getElem? ht)]

/-- C81: `check` keeps all values if the assignment is not total or there is no objective, except if facts of earlier steps are asserted at the top level. This is so in all
states. -/
theorem C81_check {ctl : Ctl} {th : ℕ} {total : Bool} {fuel : ℕ} {ok : Bool} (hfacts : ctl.dl ≠ 0 ∨ p.factsOffset = 0)
    (hobj : total = false ∨ p.objectiveOf th = []) (hc : p.check fuel ctl total th = some (p', ok)) : ∀ y, p'.valueOf th y = p.valueOf th y := by
  unfold Propagator.check Propagator.checkFacts at hc
  cases ht : p.thrs[th]? with
  | none => rw [ht] at hc; cases hc
  | some t =>
    rw [ht] at hc
    have hnf : ¬ p.needFacts ctl t := by
      rintro ⟨h1, h2⟩
      rcases hfacts with h | h
      · exact h h1
      · rw [h] at h2; exact Nat.not_lt_zero _ h2
    simp only [hnf, if_false, if_true] at hc
    unfold Propagator.checkObj at hc
    rw [ht] at hc
    simp only at hc
    cases hs : t.slv.checkObj ctl fuel total p.obj with
    | none => rw [hs] at hc; cases hc
    | some r =>
      rw [hs] at hc
      simp only [Option.some.injEq, Prod.mk.injEq] at hc
      obtain ⟨rfl, -⟩ := hc
      have hv : r.1.value = t.slv.value := by
        have hint : (t.slv.integrate ctl p.obj).1.value = t.slv.value ∧ (t.slv.integrate ctl p.obj).1.obj.active = t.slv.obj.active := by
          unfold S.integrate
          split
          · exact ⟨rfl, rfl⟩
          · simp only
            split
            · exact ⟨rfl, rfl⟩
            · split
              · exact ⟨rfl, rfl⟩
              · split <;> exact ⟨rfl, rfl⟩
        unfold S.checkObj at hs
        simp only at hs
        split at hs
        · obtain rfl := Option.some.inj hs; exact hint.1
        · split at hs
          · rename_i htot
            have hact : t.slv.obj.active = false := by
              rcases hobj with h | h
              · rw [htot] at h; cases h
              · unfold Propagator.objectiveOf S.getObjective at h
                simp only [ht] at h
                split at h
                · simp at h
                · rename_i ha; exact Bool.eq_false_iff.2 ha
            unfold S.checkTotal S.optimize S.discardBounded at hs
            simp only [hint.2, hact, Bool.false_eq_true, if_false, Option.some.injEq] at hs
            rw [← hs]
            split <;> (split <;> exact hint.1)
          · obtain rfl := Option.some.inj hs; exact hint.1
      intro y
      unfold Propagator.valueOf Propagator.apiLookup Propagator.apiValue Propagator.setThr
      simp only [getElem?_set_some ht, ht, Option.map_some]
      rw [hv]; rfl

end

/-- `x >= 1`, `x + y >= 5`, `x + y >= 2`, `x <= 9`, `x + y = 5`. -/
def idleProg : List TAtom :=
  [sumAtom "x" ">=" 1 1, sum2Atom "x" "y" ">=" 5 2, sum2Atom "x" "y" ">=" 2 3, sumAtom "x" "<=" 9 4, sum2Atom "x" "y" "=" 5 5]

/-- The hypotheses of `C81_rational_partial` are met, with values other than 0. -/
example : ∃ (p p' : Propagator ℚ) (g : Ghost ℚ) (ctl : Ctl) (gt : GThr) (ok : Bool), Reach .imath {} Intact p g ∧ MayPropagate Intact p g ctl 0 [3, 4, 5] gt ∧
    p.propagate fuel ctl 0 [3, 4, 5] = some (p', ok) ∧ (withVars p.prog.iqs).length = 5 ∧ p.cutsOf 0 = [] ∧
    (∀ x ∈ withVars p.prog.iqs, x.lit ∈ [3, 4, 5] → Supports ℚ x.rel ∧ x.holds (p.valueOf 0)) ∧ 1 ≤ p.valueOf 0 (.fn "x".toList [] true) := by
  obtain ⟨p, g, p', gt, ok, h1, -, h2, h3, h4⟩ := Witness.exists_prop (V := ℚ) (be := .imath) (mode := .intact) (opts := {}) [.init idleProg 1, .prop 0 0 [1, 2] true] 1 0 [3, 4, 5] true
    (P := fun p _ _ _ => decide ((withVars p.prog.iqs).length = 5) && decide (p.cutsOf 0 = []) && ((withVars p.prog.iqs).all fun x => decide (x.rel ≠ .lt ∧ x.rel ≠ .gt ∧ (x.lit ∈ ([3, 4, 5] : List ℤ) → x.holds (p.valueOf 0)))) && decide (1 ≤ p.valueOf 0 (.fn "x".toList [] true))) (by decide +kernel)
  simp only [Bool.and_eq_true, decide_eq_true_eq, List.all_eq_true] at h4
  obtain ⟨⟨⟨h4, h5⟩, h6⟩, h7⟩ := h4
  exact ⟨p, p', g, _, gt, ok, h1, h2, h3, h4, h5, fun x hx hl => ⟨fun h => (h.elim (h6 x hx).1 (h6 x hx).2.1).elim, (h6 x hx).2.2 hl⟩, h7⟩

/-- The hypotheses of `C81_again_partial` are met. -/
example : ∃ (p p' : Propagator ℚ) (g : Ghost ℚ) (ctl : Ctl) (gt : GThr) (ok : Bool), Reach .imath {} Intact p g ∧ MayPropagate Intact p g ctl 0 [2, 1] gt ∧
    (∀ l ∈ [2, 1], Act gt.frames l) ∧ p.propagate fuel ctl 0 [2, 1] = some (p', ok) ∧ 1 ≤ p.valueOf 0 (.fn "x".toList [] true) := by
  obtain ⟨p, g, p', gt, ok, h1, -, h2, h3, h4⟩ := Witness.exists_prop (V := ℚ) (be := .imath) (mode := .intact) (opts := {}) [.init idleProg 1, .prop 0 0 [1, 2] true] 0 0 [2, 1] true
    (P := fun p g _ _ => decide (1 ≤ p.valueOf 0 (.fn "x".toList [] true)) && atThr g 0 fun gt => ([2, 1] : List ℤ).all fun l => decide (Act gt.frames l)) (by decide +kernel)
  rw [Bool.and_eq_true, decide_eq_true_eq] at h4
  obtain ⟨gt', h5, h6⟩ := atThr_spec h4.2
  obtain rfl := Option.some.inj (h5.symm.trans h2.thr)
  exact ⟨p, p', g, _, _, ok, h1, h2, fun l hl => of_decide_eq_true (List.all_eq_true.1 h6 l hl), h3, h4.1⟩

/-- The hypothesis of `C81_initial` is met, with two threads. -/
example : ∃ p' : Propagator ℚ, (Propagator.fresh {} : Propagator ℚ).init .imath mapLit idleProg (fun _ => env) 2 = .ok (p', true) := by
  have key : ((Propagator.fresh {} : Propagator ℚ).init .imath mapLit idleProg (fun _ => env) 2).toOption.any (fun r => r.2) = true := by decide +kernel
  cases hi : (Propagator.fresh {} : Propagator ℚ).init .imath mapLit idleProg (fun _ => env) 2 with
  | error e => rw [hi] at key; cases key
  | ok r => obtain ⟨p', ok⟩ := r; rw [hi] at key; obtain rfl : ok = true := key; exact ⟨p', rfl⟩

/-- The hypotheses of `C81_check` are met, and so `check` on this state keeps values other than 0. -/
example : ∃ (p : Propagator ℚ) (g : Ghost ℚ) (ctl : Ctl) (gt : GThr) (t : Thr ℚ), Reach .imath {} Intact p g ∧ MayCheck p g ctl 0 gt t ∧
    (ctl.dl ≠ 0 ∨ p.factsOffset = 0) ∧ p.objectiveOf 0 = [] ∧ 1 ≤ p.valueOf 0 (.fn "x".toList [] true) := by
  obtain ⟨p, g, gt, t, h1, -, h2, h3⟩ := exists_mayCheck (V := ℚ) (be := .imath) (mode := .intact) (opts := {}) [.init idleProg 1, .prop 1 0 [1, 2] true] 1 0
    (P := fun p _ _ _ => decide (p.objectiveOf 0 = []) && decide (1 ≤ p.valueOf 0 (.fn "x".toList [] true))) (by decide +kernel)
  simp only [Bool.and_eq_true, decide_eq_true_eq] at h3
  exact ⟨p, g, _, gt, t, h1, h2, Or.inl Nat.one_ne_zero, h3.1, h3.2⟩

end Lpx.Props
