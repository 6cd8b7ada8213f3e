import Verif.SysWeak

/-!
# The number of iterations of the loops of `propagate` and `check`
-/

set_option linter.unusedSectionVars false

namespace Lpx
open Finset

variable {V : Type} [LpFull V]

/-- Number of unknowns: the variables of the program, one for each constraint over at least two variables, and two for the objective. -/
def Propagator.unknowns (p : Propagator V) : ℕ :=
  p.varVec.length + (p.prog.iqs.filter fun x => decide (2 ≤ x.lhs.length)).length + if p.prog.objective = [] then 0 else 2

theorem integrate_nvars (s : S V) (ctl : Ctl) (o : ObjState V) : (s.integrate ctl o).1.nvars = s.nvars := by
  unfold S.integrate
  split
  · rfl
  · simp only
    split
    · rfl
    · split
      · rfl
      · split <;> rfl

section
variable {opts : Options} {Q : Restr V} {p : Propagator V} {g : Ghost V} {ctl : Ctl} {th : ℕ} {gt : GThr} {t : Thr V}

theorem WSys.unknowns (h : WSys opts p g) (hgt : g.thrs[th]? = some gt) (ht : p.thrs[th]? = some t) : t.slv.nvars ≤ p.unknowns := by
  obtain ⟨t', ht', E0, base, hd⟩ := h.thr th gt hgt
  obtain rfl := Option.some.inj (ht.symm.trans ht')
  have := hd.nv
  have hl : p.varMap.length = p.varVec.length := by
    have := h.stat.vars.map; dsimp only at this; rw [this, List.length_zipIdx]
  unfold S.numRows at this
  unfold Propagator.unknowns
  omega

theorem WSys.solveReturns (h : WSys opts p g) (hgt : g.thrs[th]? = some gt) (ht : p.thrs[th]? = some t) (hdl : ∀ fr ∈ gt.frames, fr.level ≤ ctl.dl)
    (lits : List ℤ) {fuel : ℕ} (hf : 12 ^ p.unknowns < fuel) :
    ∃ r, t.slv.solve ctl fuel lits = some r ∧ t.slv.solve ctl (12 ^ p.unknowns + 1) lits = some r ∧ r.1.nvars = t.slv.nvars := by
  have hle := h.unknowns hgt ht
  obtain ⟨t', ht', E0, base, hd⟩ := h.thr th gt hgt
  obtain rfl := Option.some.inj (ht.symm.trans ht')
  have hl : ∀ l ∈ gt.frames.map (·.level), l ≤ ctl.dl := by
    intro l hl
    obtain ⟨fr, hfr, rfl⟩ := List.mem_map.1 hl
    exact hdl fr hfr
  obtain ⟨⟨s', ok⟩, hr⟩ := S.solve_terminates_weak hd.winv hl lits
  have hpow : 12 ^ t.slv.nvars ≤ 12 ^ p.unknowns := Nat.pow_le_pow_right (by omega) hle
  exact ⟨_, solve_mono hr (by omega), solve_mono hr (by omega), (S.solve_weak hd.winv hl hr).2.nvars⟩

/-- `propagate` returns after at most `12 ^ n` iterations where `n` is the number of unknowns. -/
theorem WSys.propagateReturns (h : WSys opts p g) {lits : List ℤ} (hm : MayPropagate Q p g ctl th lits gt) :
    ∃ r, ∀ fuel, 12 ^ p.unknowns < fuel → p.propagate fuel ctl th lits = some r := by
  obtain ⟨t, ht, -⟩ := h.thr th gt hm.thr
  obtain ⟨⟨s', ok⟩, -, hr, -⟩ := h.solveReturns hm.thr ht hm.dl lits (Nat.lt_succ_self _)
  exact ⟨_, fun fuel hf => (propagate_eq ht).2 ⟨s', solve_mono hr hf, rfl⟩⟩

/-- The first part of `check`. -/
theorem WSys.checkFactsReturns (h : WSys opts p g) (hm : MayCheck p g ctl th gt t) :
    ∃ p1 ok t1, (∀ fuel, 12 ^ p.unknowns < fuel → p.checkFacts fuel ctl th = some (p1, ok)) ∧ p1.thrs[th]? = some t1 ∧ t1.slv.nvars = t.slv.nvars := by
  have hlt : th < p.thrs.length := (List.getElem?_eq_some_iff.1 hm.slv).1
  unfold Propagator.checkFacts
  simp only [hm.slv]
  by_cases hn : p.needFacts ctl t
  · simp only [if_pos hn]
    obtain ⟨⟨s', ok⟩, -, hr, hnv⟩ := h.solveReturns hm.thr hm.slv hm.dl (p.factSpan t) (Nat.lt_succ_self _)
    refine ⟨p.setThr th ⟨p.factsOffset, s'⟩, ok, ⟨p.factsOffset, s'⟩, fun fuel hf => ?_, ?_, hnv⟩
    · rw [solve_mono hr hf]
    · show (p.thrs.set th _)[th]? = _
      rw [List.getElem?_set_self hlt]
  · simp only [if_neg hn]
    exact ⟨p, true, t, fun _ _ => rfl, hm.slv, rfl⟩

/-- The second part of `check` without optimization. -/
theorem checkObj_idle {p1 : Propagator V} {t1 : Thr V} (ht1 : p1.thrs[th]? = some t1) {total : Bool}
    (h : total = false ∨ t1.slv.obj.active = false ∨ (t1.slv.integrate ctl p1.obj).2 = false) : ∃ r, ∀ fuel, p1.checkObj fuel ctl total th = some r := by
  have hact : (t1.slv.integrate ctl p1.obj).1.obj.active = t1.slv.obj.active := by
    unfold S.integrate
    split
    · rfl
    · simp only
      split
      · rfl
      · split
        · rfl
        · split <;> rfl
  have key : ∃ r, ∀ fuel, t1.slv.checkObj ctl fuel total p1.obj = some r := by
    unfold S.checkObj
    dsimp only
    cases hi : (t1.slv.integrate ctl p1.obj).2
    · exact ⟨_, fun _ => rfl⟩
    · rw [hi] at h
      simp only [Bool.not_true, Bool.false_eq_true, if_false]
      cases total
      · exact ⟨_, fun _ => rfl⟩
      · have ha : (t1.slv.integrate ctl p1.obj).1.obj.active = false := by rw [hact]; simpa using h
        simp only [if_true]
        unfold S.checkTotal S.optimize
        rw [ha]
        exact ⟨_, fun _ => rfl⟩
  obtain ⟨r, hr⟩ := key
  refine ⟨(p1.setThr th { t1 with slv := r.1 }, r.2), fun fuel => ?_⟩
  unfold Propagator.checkObj
  simp only [ht1, hr fuel]

/-- `check` without optimization returns after at most `12 ^ n` iterations. -/
theorem WSys.checkIdleReturns (h : WSys opts p g) (hm : MayCheck p g ctl th gt t) {total : Bool} (ho : total = false ∨ p.prog.objective = []) :
    ∃ r, ∀ fuel, 12 ^ p.unknowns < fuel → p.check fuel ctl total th = some r := by
  obtain ⟨p1, ok, t1, h1, h2, -⟩ := h.checkFactsReturns hm
  cases ok with
  | false => exact ⟨(p1, false), fun fuel hf => by unfold Propagator.check; rw [h1 fuel hf]; rfl⟩
  | true =>
    have hact : p.prog.objective = [] → t1.slv.obj.active = false := by
      intro h0
      obtain ⟨t', ht', E0, base, hd⟩ := h.thr th gt hm.thr
      obtain rfl := Option.some.inj (hm.slv.symm.trans ht')
      have hc := h1 _ (Nat.lt_succ_self _)
      unfold Propagator.checkFacts at hc
      simp only [hm.slv] at hc
      split at hc
      · cases hs : t.slv.solve ctl (12 ^ p.unknowns).succ (p.factSpan t) with
        | none => rw [hs] at hc; cases hc
        | some r =>
          rw [hs] at hc
          obtain ⟨rfl, hok⟩ := Prod.mk.inj (Option.some.inj hc)
          have hlt : th < p.thrs.length := (List.getElem?_eq_some_iff.1 hm.slv).1
          have h2' : (p.thrs.set th ⟨p.factsOffset, r.1⟩)[th]? = some t1 := h2
          rw [List.getElem?_set_self hlt] at h2'
          obtain rfl := Option.some.inj h2'
          obtain ⟨s', ok'⟩ := r
          have hw := hd.solve hm.dl hs false false
          show s'.obj.active = false
          rw [hw.active, h0]; rfl
      · obtain ⟨rfl, -⟩ := Prod.mk.inj (Option.some.inj hc)
        obtain rfl := Option.some.inj (hm.slv.symm.trans h2)
        rw [hd.active, h0]; rfl
    obtain ⟨r, hr⟩ := checkObj_idle (ctl := ctl) (total := total) h2 (ho.imp id fun h0 => Or.inl (hact h0))
    exact ⟨r, fun fuel hf => by unfold Propagator.check; rw [h1 fuel hf]; exact hr fuel⟩

/-- `check` returns after at most `12 ^ n` iterations. -/
theorem SysInv.checkReturns [Hon] (h : SysInv opts p g) (hw : WSys opts p g) (hq : StepOK V opts) (hm : MayCheck p g ctl th gt t) (total : Bool) :
    ∃ r, ∀ fuel, 12 ^ p.unknowns < fuel → p.check fuel ctl total th = some r := by
  obtain ⟨p1, ok, t1, h1, h2, hnv⟩ := hw.checkFactsReturns hm
  cases ok with
  | false => exact ⟨(p1, false), fun fuel hf => by unfold Propagator.check; rw [h1 fuel hf]; rfl⟩
  | true =>
    obtain ⟨k2, hprog, hlen⟩ := h.checkFacts hm.thr hm.ready hm.dl hm.slv hm.lvl hm.dead (h1 _ (Nat.lt_succ_self _))
    obtain ⟨t2, E2, base2, hu2⟩ := k2.unpack (th := th) (getElem?_set_some hm.thr)
    obtain rfl := Option.some.inj (h2.symm.trans hu2.ht)
    have hn : NewLits p1.prog (p.checkFrames ctl t gt.frames) ctl := ⟨hm.fresh.act, by rw [hprog]; exact hm.fresh.iqs⟩
    have hint := hu2.dyn.integrate (by rfl) ctl k2.obj (fun hne => (k2.rep (h.alive hm.thr) hne).1) hq hn
    have key : ∃ r, ∀ fuel, 12 ^ p.unknowns < fuel → t1.slv.checkObj ctl fuel total p1.obj = some r := by
      have hnv1 := (integrate_nvars t1.slv ctl p1.obj).trans hnv
      unfold S.checkObj
      simp only
      generalize t1.slv.integrate ctl p1.obj = res at hint hnv1 ⊢
      obtain ⟨s1, b⟩ := res
      cases b
      · exact ⟨(s1, false), fun _ _ => rfl⟩
      · cases total
        · exact ⟨(s1, true), fun _ _ => rfl⟩
        · obtain ⟨t3, h3⟩ := S.optimize_terminates (hint.sinv (by rfl))
          have hle := hw.unknowns hm.thr hm.slv
          rw [← hnv1] at hle
          have e1 : 6 ^ s1.nvars ≤ 6 ^ p.unknowns := Nat.pow_le_pow_right (by omega) hle
          have e2 : 6 ^ p.unknowns ≤ 12 ^ p.unknowns := Nat.pow_le_pow_left (by omega) _
          have h4 : s1.checkTotal ctl (6 ^ s1.nvars + 1) = some (S.discardBounded ctl (if t3.opts.store = .no then t3 else t3.storeSat)) := by
            unfold S.checkTotal; rw [h3]
          exact ⟨_, fun fuel hf => checkTotal_mono h4 (show 6 ^ s1.nvars + 1 ≤ fuel by omega)⟩
    obtain ⟨r, hr⟩ := key
    refine ⟨(p1.setThr th { t1 with slv := r.1 }, r.2), fun fuel hf => ?_⟩
    unfold Propagator.check
    rw [h1 fuel hf]
    simp only [if_true]
    unfold Propagator.checkObj
    simp only [h2, hr fuel hf]

end

end Lpx
