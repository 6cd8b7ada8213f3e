import Verif.SysReach

/-! # From the invariant to statements about constraints and reported values -/

set_option linter.unusedSectionVars false

namespace Lpx
open Finset

variable {V : Type} [LpFull V] [Hon]

omit [Hon] in
theorem mem_withVars {iqs : List (Ineq Symbol)} {x : Ineq Symbol} : x ∈ withVars iqs ↔ x ∈ iqs ∧ x.lhs ≠ [] := by
  unfold withVars; simp

omit [Hon] in
/-- The value reported for a variable. -/
theorem valueOf_eq {p : Propagator V} {th : ℕ} {t : Thr V} (ht : p.thrs[th]? = some t) {y : Symbol} {j : ℕ} (hy : p.lookup y = some j) :
    p.valueOf th y = t.slv.value j := by
  unfold Propagator.valueOf Propagator.apiLookup Propagator.apiValue
  simp [hy, ht]

omit [Hon] in
theorem valueOf_ix {p : Propagator V} {th : ℕ} {t : Thr V} (ht : p.thrs[th]? = some t) {ts : List (Term Symbol)}
    (hn : NF p.lookup p.varMap.length ts) {u : Term Symbol} (hu : u ∈ ts) : p.valueOf th u.var = t.slv.value (ix p.lookup u.var) := by
  obtain ⟨j, hj, -⟩ := hn.known u hu
  rw [valueOf_eq ht hj]; simp [ix, hj]

omit [Hon] in
theorem holds_congr {g g' : Symbol → ℚ} {x : Ineq Symbol} (h : ∀ t ∈ x.lhs, g t.var = g' t.var) : x.holds g ↔ x.holds g' := by
  unfold Ineq.holds; rw [evalTerms_congr h]

/-- What is known about a thread, unpacked. -/
structure Unpacked (opts : Options) (p : Propagator V) (g : Ghost V) (gt : GThr) (th : ℕ) (t : Thr V) (E0 : (ℕ → V) → Prop)
    (base : List (Bound V)) : Prop where
  ht : p.thrs[th]? = some t
  live : g.failed = false
  dyn : TDyn opts p.lookup p.varMap.length p.prog g.reported p.obj.generation gt E0 base t.slv
  inv : ThrInv opts p g gt t

theorem SysInv.unpack {opts : Options} {p : Propagator V} {g : Ghost V} (h : SysInv opts p g) {th : ℕ} {gt : GThr}
    (hgt : g.thrs[th]? = some gt) : ∃ t E0 base, Unpacked opts p g gt th t E0 base := by
  obtain ⟨t, ht, hi⟩ := h.thr th gt hgt
  obtain ⟨E0, base, hd⟩ := hi.dyn
  exact ⟨t, E0, base, ht, h.alive hgt, hd, hi⟩

section
variable {opts : Options} {p : Propagator V} {g : Ghost V} {gt : GThr} {th : ℕ} {t : Thr V} {E0 : (ℕ → V) → Prop} {base : List (Bound V)}

theorem Unpacked.baseMem (h : Unpacked opts p g gt th t E0 base) {bd : Bound V} (hb : bd ∈ base) : bd ∈ t.slv.bounds := by
  obtain ⟨cs, hc, -⟩ := h.dyn.cuts; rw [hc]; exact List.mem_append_left _ hb

/-- The bound of an active constraint. -/
theorem Unpacked.bound (h : Unpacked opts p g gt th t E0 base) {x : Ineq Symbol} (hx : x ∈ withVars p.prog.iqs)
    (ha : Act gt.frames x.lit) : ∃ bd ∈ t.slv.bounds, Represents p.lookup p.varMap.length E0 x bd := by
  obtain ⟨hx1, hx2⟩ := mem_withVars.1 hx
  rcases h.dyn.set.cov x hx1 hx2 with ⟨bd, h1, h2⟩ | h1
  · exact ⟨bd, h.baseMem h1, h2⟩
  · exact absurd h1 (h.dyn.live _ ha)

/-- A point of the solver satisfying all active bounds yields solutions of the constraints. -/
theorem Unpacked.small (h : Unpacked opts p g gt th t E0 base) (hs : ∀ x ∈ p.prog.iqs, Supports V x.rel) {asg : ℕ → V} (hE : E0 asg)
    (hall : ∀ bd ∈ t.slv.bounds, Act gt.frames bd.lit → bd.Holds asg) :
    Small fun e => Solves (withVars p.prog.iqs) (Act gt.frames) fun y => LpSem.conc e (asg (ix p.lookup y)) := by
  refine Small.list _ fun x hx => ?_
  by_cases ha : Act gt.frames x.lit
  · obtain ⟨bd, h1, h2⟩ := h.bound hx ha
    exact (h2.small (hs x (mem_withVars.1 hx).1) hE (hall bd h1 (by rw [h2.lit]; exact ha))).mono fun e _ h _ => h
  · exact Small.of_all fun _ _ h => absurd h ha

/-- The reported values satisfy the active constraints. -/
theorem Unpacked.values (h : Unpacked opts p g gt th t E0 base) (hi : SysInv opts p g) (hs : ∀ x ∈ p.prog.iqs, Supports V x.rel)
    (hst : gt.stuck = false) :
    Small fun e => Solves (withVars p.prog.iqs) (Act gt.frames) fun y => LpSem.conc e (p.valueOf th y) := by
  have hsi := h.dyn.sinv hst
  refine (h.small hs hsi.good.val hsi.holds).mono fun e _ hh x hx ha => ?_
  refine (holds_congr fun u hu => ?_).1 (hh x hx ha)
  show LpSem.conc e _ = _
  rw [valueOf_ix h.ht (hi.nf h.live x (mem_withVars.1 hx).1) hu]; rfl

/-- The solver point of a valuation in `V`. -/
theorem Unpacked.lift (h : Unpacked opts p g gt th t E0 base) (hi : SysInv opts p g) (gv : Symbol → ℚ) :
    ∃ asg, E0 asg ∧ ∀ y j, p.lookup y = some j → asg j = LpValue.ofRat (gv y) := by
  obtain ⟨asg, h1, h2⟩ := h.dyn.set.ext fun j => LpValue.ofRat (((p.varVec[j]?).map gv).getD 0)
  refine ⟨asg, h1, fun y j hy => ?_⟩
  rw [h2 j (hi.vars.lt hy), (hi.vars.lookup y j).1 hy]; rfl

end

/-- The same for `TOut`. -/
theorem lift_of_ext {opts : Options} {p : Propagator V} {g : Ghost V} (hi : SysInv opts p g) {E0 : (ℕ → V) → Prop}
    (hext : ∀ g : ℕ → V, ∃ asg, E0 asg ∧ ∀ j, j < p.varMap.length → asg j = g j) (gv : Symbol → ℚ) :
    ∃ asg, E0 asg ∧ ∀ y j, p.lookup y = some j → asg j = LpValue.ofRat (gv y) := by
  obtain ⟨asg, h1, h2⟩ := hext fun j => LpValue.ofRat (((p.varVec[j]?).map gv).getD 0)
  refine ⟨asg, h1, fun y j hy => ?_⟩
  rw [h2 j (hi.vars.lt hy), (hi.vars.lookup y j).1 hy]; rfl

omit [Hon] in
theorem lift_terms {p : Propagator V} {asg : ℕ → V} {gv : Symbol → ℚ} (h : ∀ y j, p.lookup y = some j → asg j = LpValue.ofRat (gv y))
    {ts : List (Term Symbol)} (hn : NF p.lookup p.varMap.length ts) : ∀ u ∈ ts, asg (ix p.lookup u.var) = LpValue.ofRat (gv u.var) := by
  intro u hu
  obtain ⟨j, hj, -⟩ := hn.known u hu
  rw [← h u.var j hj]; simp [ix, hj]

omit [Hon] in
theorem lift_eval {p : Propagator V} {asg : ℕ → V} {gv : Symbol → ℚ} (h : ∀ y j, p.lookup y = some j → asg j = LpValue.ofRat (gv y))
    {ts : List (Term Symbol)} (hn : NF p.lookup p.varMap.length ts) :
    evalV (fun y => asg (ix p.lookup y)) ts = LpValue.ofRat (evalTerms gv ts) := by
  rw [evalV_congr (g' := fun y => LpValue.ofRat (gv y)) (lift_terms h hn), evalV_ofRat]

omit [Hon] in
/-- Literals of cuts. -/
theorem mem_cutsOf {p : Propagator V} {th : ℕ} {t : Thr V} (ht : p.thrs[th]? = some t) {c : ℤ × V} :
    c ∈ p.cutsOf th ↔ ∃ bd ∈ t.slv.bounds, (∀ x ∈ p.prog.iqs, x.lit ≠ bd.lit) ∧ c = (bd.lit, bd.value) := by
  unfold Propagator.cutsOf
  rw [ht]
  simp only [List.mem_map, List.mem_filter, Bool.not_eq_true', List.any_eq_false, decide_eq_true_eq]
  constructor
  · rintro ⟨bd, ⟨h1, h2⟩, h3⟩; exact ⟨bd, h1, h2, h3.symm⟩
  · rintro ⟨bd, h1, h2, h3⟩; exact ⟨bd, ⟨h1, h2⟩, h3.symm⟩

omit [Hon] in
theorem IsCut.mem_cutsOf {opts : Options} {p : Propagator V} {g : Ghost V} {th : ℕ} {t : Thr V} (ht : p.thrs[th]? = some t) {bv : ℕ} {bd : Bound V}
    (h : IsCut opts p.prog g.reported bv bd) (hb : bd ∈ t.slv.bounds) : (bd.lit, bd.value) ∈ p.cutsOf th :=
  (Lpx.mem_cutsOf ht).2 ⟨bd, hb, fun x hx => (h.lit x hx).1, rfl⟩

/-- A clause is a cut, or the constraints and cuts whose negated literals it contains have no common solution. -/
theorem SysInv.clause {opts : Options} {p : Propagator V} {g : Ghost V} (h : SysInv opts p g) (hlv : g.failed = false) (hs : ∀ x ∈ p.prog.iqs, Supports V x.rel)
    (hc : ∀ x ∈ p.prog.iqs, x.lhs = [] → x.rel = .eq ∨ x.rhs = 0) {th : ℕ} {c : List ℤ} (hcl : c ∈ p.clausesOf th) :
    (∃ u ∈ p.cutsOf th, c = [u.1]) ∨
      ∀ gv : Symbol → ℚ, ¬ (Solves p.prog.iqs (fun l => -l ∈ c) gv ∧ MeetsCuts (p.cutsOf th) (fun l => -l ∈ c) p.prog.objective gv) := by
  unfold Propagator.clausesOf at hcl
  cases ht : p.thrs[th]? with
  | none => rw [ht] at hcl; simp at hcl
  | some t =>
    rw [ht] at hcl
    obtain ⟨E0, bv, h1, h2, h3⟩ := h.outs hlv t (List.mem_of_getElem? ht)
    have const : ∀ x ∈ p.prog.iqs, x.lhs = [] → constTest x.rel x.rhs = true → c = [-x.lit] →
        ∀ gv : Symbol → ℚ, ¬ (Solves p.prog.iqs (fun l => -l ∈ c) gv ∧ MeetsCuts (p.cutsOf th) (fun l => -l ∈ c) p.prog.objective gv) := by
      rintro x hx hl htest rfl gv ⟨hsol, -⟩
      have := hsol x hx (by simp)
      unfold Ineq.holds at this
      rw [hl] at this
      simp only [evalTerms, List.map_nil, List.sum_nil] at this
      rcases hc x hx hl with he | he <;> rw [he] at this htest
      · simp only [Relation.holds] at this
        simp [constTest, ← this] at htest
      · cases hrel : x.rel <;> rw [hrel] at this htest <;> simp [constTest, Relation.holds] at this htest
    cases h3 c hcl with
    | const x hx hl htest hcx => exact Or.inr (const x hx hl htest hcx)
    | cut bd hb hcut hcx => exact Or.inl ⟨(bd.lit, bd.value), hcut.mem_cutsOf ht hb, hcx⟩
    | valid hv =>
      rcases h2 with h2 | hext
      · obtain ⟨x, hx, hl, htest, hcx⟩ := h2 c hcl
        exact Or.inr (const x hx hl htest hcx)
      · right
        rintro gv ⟨hsol, hmeet⟩
        obtain ⟨asg, hE, hasg⟩ := lift_of_ext h hext gv
        refine hv.spec asg hE fun bd hbd hneg => ?_
        rcases h1 bd hbd with ⟨x, hx, hrep⟩ | ⟨hcut, hval⟩
        · exact (hrep.rat (hs x hx) hE (lift_terms hasg (h.nf hlv x hx))).2 (hsol x hx (by rw [← hrep.lit]; exact hneg))
        · rw [Bound.holds_iff, hcut.rel, hcut.var]
          show bd.value ≤ asg bv
          rw [hval asg hE, lift_eval hasg (h.onf hlv)]
          exact hmeet _ (hcut.mem_cutsOf ht hbd) hneg

/-- The values of active cuts are reached. -/
theorem Unpacked.cuts {opts : Options} {p : Propagator V} {g : Ghost V} {gt : GThr} {th : ℕ} {t : Thr V} {E0 : (ℕ → V) → Prop}
    {base : List (Bound V)} (h : Unpacked opts p g gt th t E0 base) {asg : ℕ → V} (hE : E0 asg)
    (hall : ∀ bd ∈ t.slv.bounds, Act gt.frames bd.lit → bd.Holds asg) {c : ℤ × V} (hc : c ∈ p.cutsOf th) (ha : Act gt.frames c.1) :
    c.2 ≤ evalV (fun y => asg (ix p.lookup y)) p.prog.objective := by
  obtain ⟨bd, hb, hne, rfl⟩ := (mem_cutsOf h.ht).1 hc
  obtain ⟨cs, hcs, hcut⟩ := h.dyn.cuts
  have hb' := hb
  rw [hcs] at hb'
  rcases List.mem_append.1 hb' with hb' | hb'
  · obtain ⟨x, hx, hr⟩ := h.dyn.set.src bd hb'
    exact absurd hr.lit.symm (hne x hx)
  · have hk := hcut bd hb'
    have := hall bd hb ha
    rw [Bound.holds_iff, hk.rel, hk.var] at this
    rw [← (h.dyn.set.bvar hk.obj hk.glob).2.2 asg hE]
    exact this

/-- Conversely, a solution of all constraints and cuts that are active satisfies all active bounds. -/
theorem Unpacked.competitor {opts : Options} {p : Propagator V} {g : Ghost V} {gt : GThr} {th : ℕ} {t : Thr V} {E0 : (ℕ → V) → Prop}
    {base : List (Bound V)} (h : Unpacked opts p g gt th t E0 base) (hi : SysInv opts p g) (hs : ∀ x ∈ p.prog.iqs, Supports V x.rel)
    {act : ℤ → Prop} {gv : Symbol → ℚ} (hsol : Solves (withVars p.prog.iqs) act gv)
    (hm : MeetsCuts (p.cutsOf th) act p.prog.objective gv) {asg : ℕ → V} (hE : E0 asg)
    (hasg : ∀ y j, p.lookup y = some j → asg j = LpValue.ofRat (gv y)) :
    ∀ bd ∈ t.slv.bounds, act bd.lit → bd.Holds asg := by
  intro bd hbd hact
  obtain ⟨cs, hcs, hcut⟩ := h.dyn.cuts
  have hb' := hbd
  rw [hcs] at hb'
  rcases List.mem_append.1 hb' with hb' | hb'
  · obtain ⟨x, hx, hr⟩ := h.dyn.set.src bd hb'
    refine (hr.rat (hs x hx) hE (lift_terms hasg (hi.nf h.live x hx))).2 (hsol x (mem_withVars.2 ⟨hx, ?_⟩) (by rw [← hr.lit]; exact hact))
    cases hr with
    | single a y hl _ _ _ _ _ => rw [hl]; simp
    | row hl _ _ _ _ _ => intro h0; rw [h0] at hl; simp at hl
  · have hk := hcut bd hb'
    rw [Bound.holds_iff, hk.rel, hk.var]
    show bd.value ≤ asg _
    rw [(h.dyn.set.bvar hk.obj hk.glob).2.2 asg hE, lift_eval hasg (hi.onf h.live)]
    exact hm _ (hk.mem_cutsOf h.ht hbd) hact

/-- No cuts without a global objective. -/
theorem SysInv.noCuts {opts : Options} {p : Propagator V} {g : Ghost V} (h : SysInv opts p g) (hlv : g.failed = false) (hg : opts.globalObjective = none) (th : ℕ) :
    p.cutsOf th = [] := by
  rw [List.eq_nil_iff_forall_not_mem]
  intro c hc
  cases ht : p.thrs[th]? with
  | none => unfold Propagator.cutsOf at hc; rw [ht] at hc; simp at hc
  | some t =>
    obtain ⟨bd, hb, hne, -⟩ := (mem_cutsOf ht).1 hc
    obtain ⟨E0, bv, h1, -, -⟩ := h.outs hlv t (List.mem_of_getElem? ht)
    rcases h1 bd hb with ⟨x, hx, hr⟩ | ⟨hk, -⟩
    · exact hne x hx hr.lit.symm
    · have := hk.glob; rw [hg] at this; simp at this

end Lpx
