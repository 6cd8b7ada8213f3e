import Verif.PropsGlobal

/-!
# C02 and C05, exactly

C05 with arbitrary cuts, including cuts with an infinitesimal part (`--strict --objective=global`), and C02 for programs with arbitrary constraints
without variables (Finding 2).

In strict mode the solver does not look for a rational solution but for one with values `c + k·e`, in which strict constraints hold with a margin: a
constraint `a*y < b` over one variable means `y <= b/a - e` (for positive `a`), and `s < b` over several variables means `s <= b - e`. `HoldsMargin`
is this reading, `SolvesMargin` and `ReachesCuts` extend it to all constraints and cuts with true literals. For rational values there is no
difference (`holdsMargin_rat`).
-/

set_option linter.unusedSectionVars false

namespace Lpx.Props
open Lpx Lpx.Witness

variable {V : Type} [LpFull V]

/-- The margin for strict constraints, as a multiple of the infinitesimal. -/
def margin (ts : List (Term Symbol)) : ℚ :=
  match ts with
  | [t] => |t.co|
  | _ => 1

/-- A constraint holds for values in `V`; strict constraints hold with a margin. -/
def HoldsMargin (gv : Symbol → V) (x : Ineq Symbol) : Prop :=
  match x.rel with
  | .le => evalV gv x.lhs ≤ LpValue.ofRat x.rhs
  | .ge => LpValue.ofRat x.rhs ≤ evalV gv x.lhs
  | .eq => evalV gv x.lhs = LpValue.ofRat x.rhs
  | .lt => evalV gv x.lhs + margin x.lhs • LpValue.eps ≤ LpValue.ofRat x.rhs
  | .gt => LpValue.ofRat x.rhs + margin x.lhs • LpValue.eps ≤ evalV gv x.lhs

/-- All constraints with true literals hold. -/
def SolvesMargin (iqs : List (Ineq Symbol)) (act : ℤ → Prop) (gv : Symbol → V) : Prop := ∀ x ∈ iqs, act x.lit → HoldsMargin gv x

/-- The objective reaches the values of all cuts with true literals. -/
def ReachesCuts (cuts : List (ℤ × V)) (act : ℤ → Prop) (objective : List (Term Symbol)) (gv : Symbol → V) : Prop :=
  ∀ c ∈ cuts, act c.1 → c.2 ≤ evalV gv objective

section
variable {W : Type} [LpSem W]

theorem smul_le_pos {a : ℚ} (ha : 0 < a) (x y : W) : a • x ≤ a • y ↔ x ≤ y := smul_le_smul_iff_of_pos_left ha

theorem ofRat_div' (b : ℚ) {a : ℚ} (ha : a ≠ 0) : (LpValue.ofRat b : W) = a • LpValue.ofRat (b / a) := by
  rw [← LpValue.ofRat_smul, mul_div_cancel₀ b ha]

theorem margin_single (r : Relation) {a : ℚ} (ha : a ≠ 0) (v : W) (b : ℚ) :
    (boundRel (if a < 0 then r.invert else r)).holds v (boundVal (b / a) (if a < 0 then r.invert else r)) ↔
      match r with
      | .le => a • v ≤ LpValue.ofRat b
      | .ge => LpValue.ofRat b ≤ a • v
      | .eq => a • v = LpValue.ofRat b
      | .lt => a • v + |a| • LpValue.eps ≤ LpValue.ofRat b
      | .gt => LpValue.ofRat b + |a| • LpValue.eps ≤ a • v := by
  rw [ofRat_div' b ha]
  rcases lt_or_gt_of_ne ha with hn | hp
  · have hp : 0 < -a := by linarith
    rw [if_pos hn, abs_of_neg hn]
    have e1 : ∀ x y : W, a • x ≤ a • y ↔ y ≤ x := fun x y => by
      rw [← smul_le_pos hp y x, neg_smul, neg_smul, neg_le_neg_iff]
    cases r <;> simp only [Relation.invert, boundRel, boundVal, BRel.holds]
    · rw [e1]
    · rw [e1]
    · rw [smul_right_injective W ha |>.eq_iff]
    · rw [neg_smul, ← sub_eq_add_neg, ← smul_sub, e1, le_sub_iff_add_le]
    · rw [neg_smul, ← sub_eq_add_neg, ← smul_sub, e1]
  · have hp : 0 < a := hp
    rw [if_neg (not_lt.2 hp.le), abs_of_pos hp]
    cases r <;> simp only [boundRel, boundVal, BRel.holds]
    · rw [smul_le_pos hp]
    · rw [smul_le_pos hp]
    · rw [smul_right_injective W ha |>.eq_iff]
    · rw [← smul_add, smul_le_pos hp, le_sub_iff_add_le]
    · rw [← smul_add, smul_le_pos hp]

end

/-- A bound is equivalent to the constraint it represents, on all points. -/
theorem _root_.Lpx.Represents.exactly {idx : Symbol → Option ℕ} {size : ℕ} {E : (ℕ → V) → Prop} {x : Ineq Symbol} {bd : Bound V}
    (h : Represents idx size E x bd) {asg : ℕ → V} (hE : E asg) {gv : Symbol → V} (hg : ∀ t ∈ x.lhs, asg (ix idx t.var) = gv t.var) :
    bd.Holds asg ↔ HoldsMargin gv x := by
  rw [Bound.holds_iff]
  cases h with
  | single a y hl ha hlit hvar hval hrel =>
    obtain ⟨j, hj, hv⟩ := hvar
    have hy := hg ⟨a, y⟩ (by rw [hl]; simp)
    simp only [ix, hj, Option.getD_some] at hy
    rw [hrel, hval, hv, hy, margin_single (W := V) _ ha]
    unfold HoldsMargin
    rw [hl]
    simp only [evalV, margin, List.map_cons, List.map_nil, List.sum_cons, List.sum_nil, add_zero]
  | row hlen hnew hlit hval hrel hvar =>
    have hm : margin x.lhs = 1 := by
      unfold margin
      split
      · rename_i h; rw [h] at hlen; simp at hlen
      · rfl
    rw [hrel, hval, hvar asg hE, evalV_congr (g' := gv) hg]
    unfold HoldsMargin
    rw [hm, one_smul]
    cases x.rel <;> simp only [boundRel, boundVal, BRel.holds, le_sub_iff_add_le]

/-- For rational values in the usual sense and relations that are supported the margin does not matter. -/
theorem holdsMargin_rat {x : Ineq Symbol} (hs : Supports V x.rel) (hn : ∀ a y, x.lhs = [⟨a, y⟩] → a ≠ 0) (gv : Symbol → ℚ) :
    HoldsMargin (fun y => (LpValue.ofRat (gv y) : V)) x ↔ x.holds gv := by
  unfold HoldsMargin Ineq.holds
  have hm : x.rel = .lt ∨ x.rel = .gt → 0 < margin x.lhs := by
    intro _
    unfold margin
    split
    · rename_i t ht; exact abs_pos.2 (hn t.co t.var ht)
    · exact one_pos
  have small : LpSem.strict V = true → ∀ a b m : ℚ, 0 < m → ((LpValue.ofRat a : V) + m • LpValue.eps ≤ LpValue.ofRat b ↔ a < b) := by
    intro hst a b m hmp
    constructor
    · intro h
      by_contra hlt
      have h1 : (LpValue.ofRat b : V) ≤ LpValue.ofRat a := (ofRat_le_iff _ _).2 (not_lt.1 hlt)
      have h2 : (0 : V) < m • LpValue.eps := smul_pos hmp (LpSem.eps_pos hst)
      exact absurd (h.trans h1) (not_le.2 (lt_add_of_pos_right _ h2))
    · intro h
      have h1 := LpSem.eps_small (V := V) hst ((b - a) / m) (div_pos (sub_pos.2 h) hmp)
      have h2 : m • (LpValue.eps : V) ≤ m • LpValue.ofRat ((b - a) / m) := (smul_le_pos hmp _ _).2 h1.le
      rw [← LpValue.ofRat_smul, mul_div_cancel₀ _ hmp.ne'] at h2
      calc (LpValue.ofRat a : V) + m • LpValue.eps ≤ LpValue.ofRat a + LpValue.ofRat (b - a) := by gcongr
        _ = LpValue.ofRat b := by rw [← LpValue.ofRat_add]; congr 1; ring
  rw [evalV_ofRat]
  cases hr : x.rel with
  | le => exact ofRat_le_iff _ _
  | ge => exact ofRat_le_iff _ _
  | eq => exact ⟨fun h => le_antisymm ((ofRat_le_iff (V := V) _ _).1 h.le) ((ofRat_le_iff (V := V) _ _).1 h.ge), fun h => by rw [show evalTerms gv x.lhs = x.rhs from h]⟩
  | lt => exact small (hs (Or.inl hr)) _ _ _ (hm (Or.inl hr))
  | gt => exact small (hs (Or.inr hr)) _ _ _ (hm (Or.inr hr))

section
variable {be : Backend} {opts : Options} {p p' : Propagator V} {g g' : Ghost V}

/-- The solver point of a valuation in `V`. -/
theorem _root_.Lpx.Unpacked.liftV {gt : GThr} {th : ℕ} {t : Thr V} {E0 : (ℕ → V) → Prop} {base : List (Bound V)}
    (h : Unpacked opts p g gt th t E0 base) (hi : SysInv opts p g) (gv : Symbol → V) :
    ∃ asg, E0 asg ∧ ∀ y j, p.lookup y = some j → asg j = gv y := by
  obtain ⟨asg, h1, h2⟩ := h.dyn.set.ext fun j => ((p.varVec[j]?).map gv).getD 0
  refine ⟨asg, h1, fun y j hy => ?_⟩
  rw [h2 j (hi.vars.lt hy), (hi.vars.lookup y j).1 hy]; rfl

theorem liftV_terms {asg : ℕ → V} {gv : Symbol → V} (h : ∀ y j, p.lookup y = some j → asg j = gv y)
    {ts : List (Term Symbol)} (hn : NF p.lookup p.varMap.length ts) : ∀ u ∈ ts, asg (ix p.lookup u.var) = gv u.var := by
  intro u hu
  obtain ⟨j, hj, -⟩ := hn.known u hu
  rw [← h u.var j hj]; simp [ix, hj]

/-- C05 (partial: `Intact`, constraints with variables), for all options and all cuts: `propagate` accepts only if the true constraints and cuts have a
solution; if it rejects then they have none, or clingo rejected a clause of the bound propagation. -/
theorem C05_exactly_partial (hq : StepOK V opts) (hr : Reach be opts Intact p g) {ctl : Ctl} {th : ℕ} {lits : List ℤ} {gt : GThr}
    (hm : MayPropagate Intact p g ctl th lits gt) {fuel : ℕ} {ok : Bool} (hc : p.propagate fuel ctl th lits = some (p', ok)) :
    (ok = true → ∃ gv : Symbol → V, SolvesMargin (withVars p.prog.iqs) (fun l => l ∈ lits ∨ Act gt.frames l) gv ∧
      ReachesCuts (p.cutsOf th) (fun l => l ∈ lits ∨ Act gt.frames l) p.prog.objective gv) ∧
    (ok = false → (¬ ∃ gv : Symbol → V, SolvesMargin (withVars p.prog.iqs) (fun l => l ∈ lits ∨ Act gt.frames l) gv ∧
      ReachesCuts (p.cutsOf th) (fun l => l ∈ lits ∨ Act gt.frames l) p.prog.objective gv) ∨
      (opts.propagateMode ≠ .none ∧ ctl.ok (p'.clausesOf th) = false)) := by
  have hi := hr.inv hq
  obtain ⟨t, s', E0, base, hu, h1, h2, h3, h4⟩ := hi.call hm hc
  have hprog : p'.prog = p.prog := by rw [h3]
  constructor
  · rintro rfl
    have hr' := hr.step (.propagate fuel ctl th lits hm hc)
    have hi' := hr'.inv hq
    obtain ⟨t2, E2, base2, hu2⟩ := hi'.unpack (th := th) (getElem?_set_some hm.thr)
    have hsi := hu2.dyn.sinv rfl
    have hcuts : p'.cutsOf th = p.cutsOf th := cutsOf_congr hu.ht h4 hprog h2.bounds
    refine ⟨fun y => t2.slv.value (ix p'.lookup y), fun x hx ha => ?_, fun u hu' ha => ?_⟩
    · obtain ⟨bd, k1, k2⟩ := hu2.bound (by rw [hprog]; exact hx) (act_nextFrames.2 ha)
      exact (k2.exactly hsi.good.val fun _ _ => rfl).1 (hsi.holds bd k1 (by rw [k2.lit]; exact act_nextFrames.2 ha))
    · have := hu2.cuts hsi.good.val hsi.holds (c := u) (by rw [hcuts]; exact hu') (act_nextFrames.2 ha)
      rw [hprog] at this; exact this
  · rintro rfl
    generalize hok : (s', false) = r at h1
    cases h1 with
    | sat t1 ok _ _ _ hpm hrej =>
      obtain ⟨rfl, rfl⟩ := Prod.mk.inj hok
      refine Or.inr ⟨fun hn => ?_, by rw [clausesOf_eq h4]; exact hrej rfl⟩
      have := hpm (by rw [hu.dyn.hopts]; exact hn)
      cases this
    | unsat t1 c _ _ _ hout hval hfrom =>
      left
      rintro ⟨gv, hsol, hmeet⟩
      obtain ⟨asg, hE, hasg⟩ := hu.liftV hi gv
      refine hval.spec asg hE fun bd hbd hneg => ?_
      have hact : bd.lit ∈ lits ∨ Act gt.frames bd.lit := by
        obtain ⟨bd', -, heq, hact⟩ := hfrom _ hneg
        rw [neg_inj.1 heq]; exact act_nextFrames.1 hact
      obtain ⟨cs, hcs, hcut⟩ := hu.dyn.cuts
      have hb' := hbd
      rw [hcs] at hb'
      rcases List.mem_append.1 hb' with hb' | hb'
      · obtain ⟨x, hx, hr⟩ := hu.dyn.set.src bd hb'
        refine (hr.exactly hE (liftV_terms hasg (hi.nf hu.live x hx))).2 (hsol x (mem_withVars.2 ⟨hx, ?_⟩) (by rw [← hr.lit]; exact hact))
        cases hr with
        | single a y hl _ _ _ _ _ => rw [hl]; simp
        | row hl _ _ _ _ _ => intro h0; rw [h0] at hl; simp at hl
      · have hk := hcut bd hb'
        rw [Bound.holds_iff, hk.rel, hk.var]
        show bd.value ≤ asg _
        rw [(hu.dyn.set.bvar hk.obj hk.glob).2.2 asg hE, evalV_congr (liftV_terms hasg (hi.onf hu.live))]
        exact hmeet _ (hk.mem_cutsOf hu.ht hbd) hact

/-- C05 without bound propagation: the verdict is exactly the satisfiability of the true constraints and cuts. -/
theorem C05_exactly_iff_partial (hq : StepOK V opts) (hpm : opts.propagateMode = .none) (hr : Reach be opts Intact p g) {ctl : Ctl} {th : ℕ}
    {lits : List ℤ} {gt : GThr} (hm : MayPropagate Intact p g ctl th lits gt) {fuel : ℕ} {ok : Bool}
    (hc : p.propagate fuel ctl th lits = some (p', ok)) :
    ok = true ↔ ∃ gv : Symbol → V, SolvesMargin (withVars p.prog.iqs) (fun l => l ∈ lits ∨ Act gt.frames l) gv ∧
      ReachesCuts (p.cutsOf th) (fun l => l ∈ lits ∨ Act gt.frames l) p.prog.objective gv := by
  obtain ⟨h1, h2⟩ := C05_exactly_partial hq hr hm hc
  refine ⟨h1, fun h => ?_⟩
  cases ok
  · rcases h2 rfl with h3 | ⟨h3, -⟩
    · exact absurd h h3
    · exact absurd hpm h3
  · rfl

/-- C05 exactly, for programs without mixed equations (see C45) and all histories. -/
theorem C05_unmixed_exactly (hq : StepOK V opts) (hpm : opts.propagateMode = .none) {Q : Restr V}
    (hr : Reach be opts Q p g) (hu : Unmixed p.prog.iqs) {ctl : Ctl} {th : ℕ}
    {lits : List ℤ} {gt : GThr} (hm : MayPropagate Q p g ctl th lits gt) {fuel : ℕ} {ok : Bool}
    (hc : p.propagate fuel ctl th lits = some (p', ok)) :
    ok = true ↔ ∃ gv : Symbol → V, SolvesMargin (withVars p.prog.iqs) (fun l => l ∈ lits ∨ Act gt.frames l) gv ∧
      ReachesCuts (p.cutsOf th) (fun l => l ∈ lits ∨ Act gt.frames l) p.prog.objective gv :=
  C05_exactly_iff_partial hq hpm (hu.reach hq hr) (hu.mayPropagate hm) hc

/-! ### C02 with arbitrary constraints without variables -/

/-- What the program makes of a constraint: the sides of a constraint without variables are swapped (Finding 2). -/
def Decided (gv : Symbol → ℚ) (x : Ineq Symbol) : Prop :=
  if x.lhs = [] then x.rel.holds x.rhs 0 else x.holds gv

/-- All constraints with true literals are decided positively. -/
def SolvesDecided (iqs : List (Ineq Symbol)) (act : ℤ → Prop) (gv : Symbol → ℚ) : Prop := ∀ x ∈ iqs, act x.lit → Decided gv x

/-- Both readings agree for constraints with variables, for equations and comparisons with zero. -/
theorem decided_iff {gv : Symbol → ℚ} {x : Ineq Symbol} (h : x.lhs = [] → x.rel = .eq ∨ x.rhs = 0) : Decided gv x ↔ x.holds gv := by
  unfold Decided Ineq.holds
  split
  · rename_i hl
    rw [hl]
    simp only [evalTerms, List.map_nil, List.sum_nil]
    rcases h hl with h | h <;> rw [h]
    · exact eq_comm
  · rfl

/-- A clause is a cut, or the constraints and cuts whose negated literals it contains are not decided positively by any common values. -/
theorem _root_.Lpx.SysInv.clauseDecided (h : SysInv opts p g) (hlv : g.failed = false) (hs : ∀ x ∈ p.prog.iqs, Supports V x.rel) {th : ℕ} {c : List ℤ}
    (hcl : c ∈ p.clausesOf th) :
    (∃ u ∈ p.cutsOf th, c = [u.1]) ∨
      ∀ gv : Symbol → ℚ, ¬ (SolvesDecided p.prog.iqs (fun l => -l ∈ c) gv ∧ MeetsCuts (p.cutsOf th) (fun l => -l ∈ c) p.prog.objective gv) := by
  unfold Propagator.clausesOf at hcl
  cases ht : p.thrs[th]? with
  | none => rw [ht] at hcl; simp at hcl
  | some t =>
    rw [ht] at hcl
    obtain ⟨E0, bv, h1, h2, h3⟩ := h.outs hlv t (List.mem_of_getElem? ht)
    have const : ∀ x ∈ p.prog.iqs, x.lhs = [] → constTest x.rel x.rhs = true → c = [-x.lit] →
        ∀ gv : Symbol → ℚ, ¬ (SolvesDecided p.prog.iqs (fun l => -l ∈ c) gv ∧ MeetsCuts (p.cutsOf th) (fun l => -l ∈ c) p.prog.objective gv) := by
      rintro x hx hl htest rfl gv ⟨hsol, -⟩
      have := hsol x hx (by simp)
      unfold Decided at this
      rw [if_pos hl] at this
      cases hrel : x.rel <;> rw [hrel] at this htest <;> simp only [constTest, Relation.holds, decide_eq_true_eq] at this htest
      · exact absurd this (not_le.2 htest)
      · exact absurd this (not_le.2 htest)
      · exact htest this
      · exact absurd this (not_lt.2 htest)
      · exact absurd this (not_lt.2 htest)
    cases h3 c hcl with
    | const x hx hl htest hcx => exact Or.inr (const x hx hl htest hcx)
    | cut bd hb hcut hcx => exact Or.inl ⟨(bd.lit, bd.value), hcut.mem_cutsOf ht hb, hcx⟩
    | valid hv =>
      rcases h2 with h2 | hext
      · obtain ⟨x, hx, hl, htest, hcx⟩ := h2 c hcl
        exact Or.inr (const x hx hl htest hcx)
      · right
        rintro gv ⟨hsol, hmeet⟩
        obtain ⟨asg, hE, hasg⟩ := lift_of_ext h hext gv
        refine hv.spec asg hE fun bd hbd hneg => ?_
        rcases h1 bd hbd with ⟨x, hx, hrep⟩ | ⟨hcut, hval⟩
        · refine (hrep.rat (hs x hx) hE (lift_terms hasg (h.nf hlv x hx))).2 ((decided_iff fun hl => ?_).1 (hsol x hx (by rw [← hrep.lit]; exact hneg)))
          cases hrep with
          | single a y hl' _ _ _ _ _ => rw [hl'] at hl; cases hl
          | row hl' _ _ _ _ _ => rw [hl] at hl'; simp at hl'
        · rw [Bound.holds_iff, hcut.rel, hcut.var]
          show bd.value ≤ asg bv
          rw [hval asg hE, lift_eval hasg (h.onf hlv)]
          exact hmeet _ (hcut.mem_cutsOf ht hbd) hneg

/-- C02 (partial: `Intact`), for programs with arbitrary constraints without variables. A clause added by a thread is an objective cut, or it is
satisfied by every truth assignment for which the constraints of its true literals, with the sides of those without variables swapped, and the true
cuts have a common solution. -/
theorem C02_exactly_partial (hq : StepOK V opts) (hr : Reach be opts Intact p g) (hlv : g.failed = false) (hs : ∀ x ∈ p.prog.iqs, Supports V x.rel) {th : ℕ} {c : List ℤ}
    (hcl : c ∈ p.clausesOf th) :
    (∃ u ∈ p.cutsOf th, c = [u.1]) ∨
      ∀ (tr : ℤ → Prop) (gv : Symbol → ℚ), (∀ l, tr l ∨ tr (-l)) → SolvesDecided p.prog.iqs tr gv →
        MeetsCuts (p.cutsOf th) tr p.prog.objective gv → ∃ l ∈ c, tr l := by
  rcases (hr.inv hq).clauseDecided hlv hs hcl with h | h
  · exact Or.inl h
  · right
    intro tr gv ht hsol hm
    by_contra hno
    push Not at hno
    have key : ∀ l, -l ∈ c → tr l := by
      intro l hl
      rcases ht l with h1 | h1
      · exact h1
      · exact absurd h1 (hno _ hl)
    exact h gv ⟨fun x hx ha => hsol x hx (key _ ha), fun u hu ha => hm u hu (key _ ha)⟩

/-- C02 exactly, for programs without mixed equations (see C45) and all histories. -/
theorem C02_unmixed_exactly (hq : StepOK V opts) {Q : Restr V} (hr : Reach be opts Q p g) (hlv : g.failed = false)
    (hu : Unmixed p.prog.iqs) (hs : ∀ x ∈ p.prog.iqs, Supports V x.rel) {th : ℕ} {c : List ℤ} (hcl : c ∈ p.clausesOf th) :
    (∃ u ∈ p.cutsOf th, c = [u.1]) ∨
      ∀ (tr : ℤ → Prop) (gv : Symbol → ℚ), (∀ l, tr l ∨ tr (-l)) → SolvesDecided p.prog.iqs tr gv →
        MeetsCuts (p.cutsOf th) tr p.prog.objective gv → ∃ l ∈ c, tr l :=
  C02_exactly_partial hq (hu.reach hq hr) hlv hs hcl

end

/-! ### The hypotheses are met -/

/-- `x < 3`, `x < 7`, `&maximize{ x }`. -/
def strictProg : List TAtom := [sumAtom "x" "<" 3 1, sumAtom "x" "<" 7 2, maxAtom "x"]

theorem globOpts_stepQ : StepOK RatQ globOpts := by
  intro q hq
  obtain rfl := Option.some.inj hq
  exact ⟨_, rfl⟩

/-- The optimum `3 - e` has been reported and the cut `4 - e` is true: then `x < 7` is accepted and `x < 3` is rejected. The hypotheses of the C05 theorems above
are met with a cut that is not rational. -/
example : (∃ (p p' : Propagator RatQ) (g : Ghost RatQ) (ctl : Ctl) (gt : GThr), StepOK RatQ globOpts ∧ Reach .imath globOpts Intact p g ∧
      MayPropagate Intact p g ctl 0 [2] gt ∧ p.propagate fuel ctl 0 [2] = some (p', true) ∧ p.cutsOf 0 = [(1000, ⟨4, -1⟩)] ∧ Act gt.frames 1000) ∧
    ∃ (p p' : Propagator RatQ) (g : Ghost RatQ) (ctl : Ctl) (gt : GThr), StepOK RatQ globOpts ∧ Reach .imath globOpts Intact p g ∧
      MayPropagate Intact p g ctl 0 [1] gt ∧ p.propagate fuel ctl 0 [1] = some (p', false) ∧ p.cutsOf 0 = [(1000, ⟨4, -1⟩)] ∧ Act gt.frames 1000 := by
  constructor
  · obtain ⟨p, g, p', gt, ok, h1, -, h2, h3, h4⟩ := exists_prop (V := RatQ) (be := .imath) (mode := .intact) (opts := globOpts)
      [.init strictProg 1, .prop 1 0 [1] true, .check 1 true 0, .model 0, .undo 0, .check 0 false 0, .prop 0 0 [1000] true] 1 0 [2] true
      (P := fun p g _ ok => ok && decide (p.cutsOf 0 = [(1000, ⟨4, -1⟩)]) && g.thrs.all fun gt => decide (Act gt.frames 1000)) (by decide +kernel)
    simp only [Bool.and_eq_true] at h4
    obtain ⟨⟨rfl, h5⟩, h6⟩ := h4
    exact ⟨p, p', g, _, gt, globOpts_stepQ, h1, h2, h3, of_decide_eq_true h5,
      of_decide_eq_true (List.all_eq_true.1 h6 gt (List.mem_of_getElem? h2.thr))⟩
  · obtain ⟨p, g, p', gt, ok, h1, -, h2, h3, h4⟩ := exists_prop (V := RatQ) (be := .imath) (mode := .intact) (opts := globOpts)
      [.init strictProg 1, .prop 1 0 [1] true, .check 1 true 0, .model 0, .undo 0, .check 0 false 0, .prop 0 0 [1000] true] 1 0 [1] true
      (P := fun p g _ ok => !ok && decide (p.cutsOf 0 = [(1000, ⟨4, -1⟩)]) && g.thrs.all fun gt => decide (Act gt.frames 1000)) (by decide +kernel)
    simp only [Bool.and_eq_true, Bool.not_eq_true'] at h4
    obtain ⟨⟨rfl, h5⟩, h6⟩ := h4
    exact ⟨p, p', g, _, gt, globOpts_stepQ, h1, h2, h3, of_decide_eq_true h5,
      of_decide_eq_true (List.all_eq_true.1 h6 gt (List.mem_of_getElem? h2.thr))⟩

/-- The hypotheses of the C02 theorems are met by a program with `0 >= -1`, the literal of which is excluded by a clause, and a conflict clause. -/
example : ∃ (p : Propagator ℚ) (g : Ghost ℚ) (x : Ineq Symbol), Reach .imath {} Intact p g ∧ g.failed = false ∧ (∀ x ∈ p.prog.iqs, Supports ℚ x.rel) ∧
    x ∈ p.prog.iqs ∧ x.lhs = [] ∧ x.rel = .ge ∧ x.rhs = -1 ∧ x.lit = 3 ∧ p.clausesOf 0 = [[-3], [-1, -2]] := by
  obtain ⟨p, g, h1, -, h2⟩ := exists_reach (V := ℚ) (be := .imath) (mode := .intact) (opts := {})
    [.init [sumAtom "x" "<=" 1 1, sumAtom "x" ">=" 2 2, constAtom ">=" (-1) 3] 1, .prop 1 0 [1, 2] true]
    (P := fun p g => !g.failed && noStrict p.prog && decide (p.clausesOf 0 = [[-3], [-1, -2]]) &&
      p.prog.iqs.any fun x => decide (x.lhs = [] ∧ x.rel = .ge ∧ x.rhs = -1 ∧ x.lit = 3)) (by decide +kernel)
  simp only [Bool.and_eq_true, List.any_eq_true, Bool.not_eq_true'] at h2
  obtain ⟨⟨⟨h0, h3⟩, h4⟩, x, hx, h5⟩ := h2
  obtain ⟨k1, k2, k3, k4⟩ := of_decide_eq_true h5
  exact ⟨p, g, x, h1, h0, noStrict_spec h3, hx, k1, k2, k3, k4, of_decide_eq_true h4⟩

end Lpx.Props
