import Verif.PropsSolving

/-!
# Limits of variables (C06), effects of `check` (C08), undefined behaviour (C39), threads (C42)

`Witness.lean` and `PropsViolations.lean` show that C06 fails without `SafeEqs`.
-/

set_option linter.unusedSectionVars false

namespace Lpx.Props
open Lpx Lpx.Witness

variable {V : Type} [LpFull V]

/-! ### specification -/

/-- The lower limit that a constraint over the single variable `y` states: `a*y rel b` is `y rel' b/a`, where the relation is
flipped if `a` is negative; `y > c` is `y >= c + e`. -/
def lowerOf (x : Ineq Symbol) (y : Symbol) : Option V :=
  match x.lhs with
  | [t] =>
    if t.var = y then
      match if t.co < 0 then x.rel.invert else x.rel with
      | .ge | .eq => some (LpValue.ofRat (x.rhs / t.co))
      | .gt => some (LpValue.ofRat (x.rhs / t.co) + LpValue.eps)
      | _ => none
    else none
  | _ => none

/-- The upper limit that a constraint over the single variable `y` states. -/
def upperOf (x : Ineq Symbol) (y : Symbol) : Option V :=
  match x.lhs with
  | [t] =>
    if t.var = y then
      match if t.co < 0 then x.rel.invert else x.rel with
      | .le | .eq => some (LpValue.ofRat (x.rhs / t.co))
      | .lt => some (LpValue.ofRat (x.rhs / t.co) - LpValue.eps)
      | _ => none
    else none
  | _ => none

/-- `m` is the largest element (`none`: there is no element). -/
def IsLargest (P : V → Prop) : Option V → Prop
  | none => ∀ v, ¬ P v
  | some m => P m ∧ ∀ v, P v → v ≤ m

/-- `m` is the smallest element (`none`: there is no element). -/
def IsSmallest (P : V → Prop) : Option V → Prop
  | none => ∀ v, ¬ P v
  | some m => P m ∧ ∀ v, P v → m ≤ v

theorem IsLargest.unique {P : V → Prop} {a b : Option V} (h : IsLargest P a) (k : IsLargest P b) : a = b := by
  cases a <;> cases b
  · rfl
  · exact absurd k.1 (h _)
  · exact absurd h.1 (k _)
  · exact congrArg some (le_antisymm (k.2 _ h.1) (h.2 _ k.1))

theorem IsSmallest.unique {P : V → Prop} {a b : Option V} (h : IsSmallest P a) (k : IsSmallest P b) : a = b := by
  cases a <;> cases b
  · rfl
  · exact absurd k.1 (h _)
  · exact absurd h.1 (k _)
  · exact congrArg some (le_antisymm (h.2 _ k.1) (k.2 _ h.1))

/-- The lower limit the solver of a thread enforces for a variable of the program. -/
def lowerLimit (p : Propagator V) (th : ℕ) (y : Symbol) : Option V :=
  (p.thrs[th]?).bind fun t => (p.lookup y).bind fun j => t.slv.lo j
/-- The upper limit the solver of a thread enforces for a variable of the program. -/
def upperLimit (p : Propagator V) (th : ℕ) (y : Symbol) : Option V :=
  (p.thrs[th]?).bind fun t => (p.lookup y).bind fun j => t.slv.up j

/-! ### C06 -/

/-- Bounds of variables of the program and single-variable constraints. -/
theorem lower_of_represents {idx : Symbol → Option ℕ} {size : ℕ} {E : (ℕ → V) → Prop} {x : Ineq Symbol} {bd : Bound V}
    (h : Represents idx size E x bd) (hinj : IdxInj idx) {y : Symbol} {j : ℕ} (hy : idx y = some j) (hj : j < size) (v : V) :
    lowerOf x y = some v ↔ bd.var = j ∧ bd.rel ≠ .le ∧ bd.value = v := by
  cases h with
  | single a z hl ha hlit hvar hval hrel =>
    obtain ⟨k, hk, hkv⟩ := hvar
    unfold lowerOf
    rw [hl]
    simp only
    by_cases hz : z = y
    · subst hz
      have hkj : k = j := by rw [hy] at hk; exact (Option.some.inj hk).symm
      rw [if_pos rfl]
      generalize hrr : (if a < 0 then x.rel.invert else x.rel) = r at *
      cases r <;> simp_all [boundRel, boundVal]
    · rw [if_neg hz]
      simp only [reduceCtorEq, false_iff]
      rintro ⟨hv, -⟩
      exact hz (hinj _ _ _ (hk.trans (by rw [← hkv, hv])) hy)
  | row hlen hn hlit hval hrel hvar =>
    unfold lowerOf
    constructor
    · intro hh
      split at hh
      · rename_i he; rw [he] at hlen; simp at hlen
      · cases hh
    · rintro ⟨hv, -⟩; omega

theorem upper_of_represents {idx : Symbol → Option ℕ} {size : ℕ} {E : (ℕ → V) → Prop} {x : Ineq Symbol} {bd : Bound V}
    (h : Represents idx size E x bd) (hinj : IdxInj idx) {y : Symbol} {j : ℕ} (hy : idx y = some j) (hj : j < size) (v : V) :
    upperOf x y = some v ↔ bd.var = j ∧ bd.rel ≠ .ge ∧ bd.value = v := by
  cases h with
  | single a z hl ha hlit hvar hval hrel =>
    obtain ⟨k, hk, hkv⟩ := hvar
    unfold upperOf
    rw [hl]
    simp only
    by_cases hz : z = y
    · subst hz
      have hkj : k = j := by rw [hy] at hk; exact (Option.some.inj hk).symm
      rw [if_pos rfl]
      generalize hrr : (if a < 0 then x.rel.invert else x.rel) = r at *
      cases r <;> simp_all [boundRel, boundVal]
    · rw [if_neg hz]
      simp only [reduceCtorEq, false_iff]
      rintro ⟨hv, -⟩
      exact hz (hinj _ _ _ (hk.trans (by rw [← hkv, hv])) hy)
  | row hlen hn hlit hval hrel hvar =>
    unfold upperOf
    constructor
    · intro hh
      split at hh
      · rename_i he; rw [he] at hlen; simp at hlen
      · cases hh
    · rintro ⟨hv, -⟩; omega

theorem lowerOf_lhs {x : Ineq Symbol} {y : Symbol} {v : V} (h : lowerOf x y = some v) : x.lhs ≠ [] := by
  unfold lowerOf at h
  split at h
  · rename_i he; rw [he]; simp
  · cases h

theorem upperOf_lhs {x : Ineq Symbol} {y : Symbol} {v : V} (h : upperOf x y = some v) : x.lhs ≠ [] := by
  unfold upperOf at h
  split at h
  · rename_i he; rw [he]; simp
  · cases h

section
variable {be : Backend} {opts : Options} {p : Propagator V} {g : Ghost V}

theorem limits_intact (hq : StepOK V opts) (hr : Reach be opts Intact p g) {th : ℕ} {gt : GThr}
    (hgt : g.thrs[th]? = some gt) (hst : gt.stuck = false) {y : Symbol} (hy : (p.lookup y).isSome = true) :
    IsLargest (fun v : V => ∃ x ∈ p.prog.iqs, Act gt.frames x.lit ∧ lowerOf x y = some v) (lowerLimit p th y) ∧
    IsSmallest (fun v : V => ∃ x ∈ p.prog.iqs, Act gt.frames x.lit ∧ upperOf x y = some v) (upperLimit p th y) := by
  have hi := hr.inv hq
  obtain ⟨t, E0, base, hu⟩ := hi.unpack hgt
  obtain ⟨j, hj⟩ := Option.isSome_iff_exists.1 hy
  have hjs := hi.idxLt y j hj
  have hsi := hu.dyn.sinv hst
  have hl : lowerLimit p th y = bvalOf t.slv.bounds (t.slv.lower j) := by
    unfold lowerLimit; rw [hu.ht, hj]; rfl
  have hup : upperLimit p th y = bvalOf t.slv.bounds (t.slv.upper j) := by
    unfold upperLimit; rw [hu.ht, hj]; rfl
  obtain ⟨cs, hcs, hcut⟩ := hu.dyn.cuts
  have hbase : ∀ bd ∈ t.slv.bounds, bd.var = j → ∃ x ∈ p.prog.iqs, Represents p.lookup p.varMap.length E0 x bd := by
    intro bd hbd hv
    rw [hcs] at hbd
    rcases List.mem_append.1 hbd with hbd | hbd
    · exact hu.dyn.set.src bd hbd
    · have hk := hcut bd hbd
      have := hu.dyn.set.bnew hk.obj hk.glob
      rw [← hk.var, hv] at this; omega
  constructor
  · rw [hl]
    have enf : ∀ v, (∃ x ∈ p.prog.iqs, Act gt.frames x.lit ∧ lowerOf x y = some v) →
        ∃ m, bvalOf t.slv.bounds (t.slv.lower j) = some m ∧ v ≤ m := by
      rintro v ⟨x, hx, ha, hv⟩
      obtain ⟨bd, hb, hrep⟩ := hu.bound (mem_withVars.2 ⟨hx, lowerOf_lhs hv⟩) ha
      obtain ⟨h1, h2, h3⟩ := (lower_of_represents hrep hi.inj hj hjs v).1 hv
      obtain ⟨m, h4, h5⟩ := (hsi.good.enf bd hb (by rw [hrep.lit]; exact ha)).2 h2
      rw [h1] at h4
      exact ⟨m, h4, h3 ▸ h5⟩
    cases hb : t.slv.lower j with
    | none =>
      intro v hv
      obtain ⟨m, hm, -⟩ := enf v hv
      rw [hb] at hm; cases hm
    | some b =>
      obtain ⟨bd, h1, h2, h3, h4⟩ := hsi.good.ptr.lo j b hb
      have hval : bvalOf t.slv.bounds (some b) = some bd.value := by simp [bvalOf, h1]
      rw [hval]
      obtain ⟨x, hx, hrep⟩ := hbase bd (List.mem_of_getElem? h1) h2
      refine ⟨⟨x, hx, by rw [← hrep.lit]; exact h4, (lower_of_represents hrep hi.inj hj hjs _).2 ⟨h2, h3, rfl⟩⟩, fun v hv => ?_⟩
      obtain ⟨m, hm, hle⟩ := enf v hv
      rw [hb, hval] at hm
      obtain rfl := Option.some.inj hm
      exact hle
  · rw [hup]
    have enf : ∀ v, (∃ x ∈ p.prog.iqs, Act gt.frames x.lit ∧ upperOf x y = some v) →
        ∃ m, bvalOf t.slv.bounds (t.slv.upper j) = some m ∧ m ≤ v := by
      rintro v ⟨x, hx, ha, hv⟩
      obtain ⟨bd, hb, hrep⟩ := hu.bound (mem_withVars.2 ⟨hx, upperOf_lhs hv⟩) ha
      obtain ⟨h1, h2, h3⟩ := (upper_of_represents hrep hi.inj hj hjs v).1 hv
      obtain ⟨m, h4, h5⟩ := (hsi.good.enf bd hb (by rw [hrep.lit]; exact ha)).1 h2
      rw [h1] at h4
      exact ⟨m, h4, h3 ▸ h5⟩
    cases hb : t.slv.upper j with
    | none =>
      intro v hv
      obtain ⟨m, hm, -⟩ := enf v hv
      rw [hb] at hm; cases hm
    | some b =>
      obtain ⟨bd, h1, h2, h3, h4⟩ := hsi.good.ptr.up j b hb
      have hval : bvalOf t.slv.bounds (some b) = some bd.value := by simp [bvalOf, h1]
      rw [hval]
      obtain ⟨x, hx, hrep⟩ := hbase bd (List.mem_of_getElem? h1) h2
      refine ⟨⟨x, hx, by rw [← hrep.lit]; exact h4, (upper_of_represents hrep hi.inj hj hjs _).2 ⟨h2, h3, rfl⟩⟩, fun v hv => ?_⟩
      obtain ⟨m, hm, hle⟩ := enf v hv
      rw [hb, hval] at hm
      obtain rfl := Option.some.inj hm
      exact hle

/-- C06 (partial: `SafeEqs`). In every reachable state, the limits enforced for a variable of the program are the tightest
limits stated by the active constraints over this variable; there is no limit if no active constraint states one. -/
theorem C06_limits_partial (hq : StepOK V opts) (hr : Reach be opts SafeEqs p g) {th : ℕ} {gt : GThr}
    (hgt : g.thrs[th]? = some gt) (hst : gt.stuck = false) {y : Symbol} (hy : (p.lookup y).isSome = true) :
    IsLargest (fun v : V => ∃ x ∈ p.prog.iqs, Act gt.frames x.lit ∧ lowerOf x y = some v) (lowerLimit p th y) ∧
    IsSmallest (fun v : V => ∃ x ∈ p.prog.iqs, Act gt.frames x.lit ∧ upperOf x y = some v) (upperLimit p th y) :=
  limits_intact hq (hr.intact hq) hgt hst hy

/-- The hypotheses are met by a state with two levels in which `x >= 1`, `x >= 4` and `-2 * x >= -14` are true: the limits of `x` are
4 and 7, and there is no upper limit for `y`. -/
example : ∃ (p : Propagator ℚ) (g : Ghost ℚ) (gt : GThr), StepOK ℚ {} ∧ Reach .imath {} SafeEqs p g ∧ g.thrs[0]? = some gt ∧ gt.stuck = false ∧
    (p.lookup symX).isSome = true ∧ (p.lookup symY).isSome = true ∧ lowerLimit p 0 symX = some 4 ∧ upperLimit p 0 symX = some 7 ∧
    lowerLimit p 0 symY = some 2 ∧ upperLimit p 0 symY = none ∧ gt.frames.length = 2 := by
  obtain ⟨p, g, h1, -, h2⟩ := exists_reach (V := ℚ) (be := .imath) (mode := .safe) (opts := {})
    [.init (prog4 ++ [linAtom "sum" [(-2, "x")] (some (">=", .number (-14))) 5]) 1, .prop 0 0 [1, 3] true, .prop 1 0 [4, 5] true]
    (P := fun p g => decide ((p.lookup symX).isSome = true ∧ (p.lookup symY).isSome = true ∧ lowerLimit p 0 symX = some 4 ∧ upperLimit p 0 symX = some 7 ∧
      lowerLimit p 0 symY = some 2 ∧ upperLimit p 0 symY = none) && atThr g 0 fun gt => !gt.stuck && decide (gt.frames.length = 2))
    (by decide +kernel)
  rw [Bool.and_eq_true] at h2
  obtain ⟨a1, a2, a3, a4, a5, a6⟩ := of_decide_eq_true h2.1
  obtain ⟨gt, h3, h4⟩ := atThr_spec h2.2
  rw [Bool.and_eq_true, Bool.not_eq_true'] at h4
  exact ⟨p, g, gt, stepOK_none rfl, h1, h3, h4.1, a1, a2, a3, a4, a5, a6, of_decide_eq_true h4.2⟩

theorem limits_history {be' : Backend} {opts' : Options} {p' : Propagator V} {g' : Ghost V} (hq : StepOK V opts)
    (hq' : StepOK V opts') (hr : Reach be opts Intact p g) (hr' : Reach be' opts' Intact p' g') {th th' : ℕ} {gt gt' : GThr}
    (hgt : g.thrs[th]? = some gt) (hst : gt.stuck = false) (hgt' : g'.thrs[th']? = some gt') (hst' : gt'.stuck = false)
    (hsame : ∀ x, x ∈ p'.prog.iqs ↔ x ∈ p.prog.iqs)
    (hact : ∀ x ∈ p.prog.iqs, Act gt.frames x.lit ↔ Act gt'.frames x.lit) {y : Symbol} (hy : (p.lookup y).isSome = true)
    (hy' : (p'.lookup y).isSome = true) :
    lowerLimit p' th' y = lowerLimit p th y ∧ upperLimit p' th' y = upperLimit p th y := by
  obtain ⟨h1, h2⟩ := limits_intact hq hr hgt hst hy
  obtain ⟨k1, k2⟩ := limits_intact hq' hr' hgt' hst' hy'
  have e1 : (fun v : V => ∃ x ∈ p'.prog.iqs, Act gt'.frames x.lit ∧ lowerOf x y = some v) =
      fun v => ∃ x ∈ p.prog.iqs, Act gt.frames x.lit ∧ lowerOf x y = some v := by
    funext v
    apply propext
    constructor
    · rintro ⟨x, hx, ha, hv⟩; exact ⟨x, (hsame x).1 hx, (hact x ((hsame x).1 hx)).2 ha, hv⟩
    · rintro ⟨x, hx, ha, hv⟩; exact ⟨x, (hsame x).2 hx, (hact x hx).1 ha, hv⟩
  have e2 : (fun v : V => ∃ x ∈ p'.prog.iqs, Act gt'.frames x.lit ∧ upperOf x y = some v) =
      fun v => ∃ x ∈ p.prog.iqs, Act gt.frames x.lit ∧ upperOf x y = some v := by
    funext v
    apply propext
    constructor
    · rintro ⟨x, hx, ha, hv⟩; exact ⟨x, (hsame x).1 hx, (hact x ((hsame x).1 hx)).2 ha, hv⟩
    · rintro ⟨x, hx, ha, hv⟩; exact ⟨x, (hsame x).2 hx, (hact x hx).1 ha, hv⟩
  rw [e1] at k1
  rw [e2] at k2
  exact ⟨k1.unique h1, k2.unique h2⟩

/-- C06: the limits are a function of the constraints and the literals that are true, whatever happened before and whatever
the thread. -/
theorem C06_history_irrelevant_partial {be' : Backend} {opts' : Options} {p' : Propagator V} {g' : Ghost V} (hq : StepOK V opts)
    (hq' : StepOK V opts') (hr : Reach be opts SafeEqs p g) (hr' : Reach be' opts' SafeEqs p' g') {th th' : ℕ} {gt gt' : GThr}
    (hgt : g.thrs[th]? = some gt) (hst : gt.stuck = false) (hgt' : g'.thrs[th']? = some gt') (hst' : gt'.stuck = false)
    (hsame : ∀ x, x ∈ p'.prog.iqs ↔ x ∈ p.prog.iqs)
    (hact : ∀ x ∈ p.prog.iqs, Act gt.frames x.lit ↔ Act gt'.frames x.lit) {y : Symbol} (hy : (p.lookup y).isSome = true)
    (hy' : (p'.lookup y).isSome = true) :
    lowerLimit p' th' y = lowerLimit p th y ∧ upperLimit p' th' y = upperLimit p th y :=
  limits_history hq hq' (hr.intact hq) (hr'.intact hq') hgt hst hgt' hst' hsame hact hy hy'

end

/-! ### what callbacks leave unchanged -/

theorem undo_same {p p' : Propagator V} {th : ℕ} (h : p.undo th = some p') :
    p'.prog = p.prog ∧ p'.varMap = p.varMap ∧ p'.varVec = p.varVec := by
  unfold Propagator.undo at h
  split at h
  · cases h
  · obtain rfl := Option.some.inj h
    exact ⟨rfl, rfl, rfl⟩

theorem propagate_same {p p' : Propagator V} {fuel : ℕ} {ctl : Ctl} {th : ℕ} {lits : List ℤ} {ok : Bool}
    (h : p.propagate fuel ctl th lits = some (p', ok)) : p'.prog = p.prog ∧ p'.varMap = p.varMap ∧ p'.varVec = p.varVec := by
  unfold Propagator.propagate at h
  simp only at h
  split at h
  · cases h
  · split at h
    · cases h
    · simp only [Option.some.injEq, Prod.mk.injEq] at h
      rw [← h.1]
      split <;> exact ⟨rfl, rfl, rfl⟩

theorem check_same {p p' : Propagator V} {fuel : ℕ} {ctl : Ctl} {total : Bool} {th : ℕ} {ok : Bool}
    (h : p.check fuel ctl total th = some (p', ok)) : p'.prog = p.prog ∧ p'.varMap = p.varMap ∧ p'.varVec = p.varVec := by
  unfold Propagator.check at h
  split at h
  · cases h
  · rename_i r hr
    have h1 : r.1.prog = p.prog ∧ r.1.varMap = p.varMap ∧ r.1.varVec = p.varVec := by
      unfold Propagator.checkFacts at hr
      split at hr
      · cases hr
      · split at hr
        · split at hr
          · cases hr
          · obtain rfl := Option.some.inj hr
            exact ⟨rfl, rfl, rfl⟩
        · obtain rfl := Option.some.inj hr
          exact ⟨rfl, rfl, rfl⟩
    split at h
    · unfold Propagator.checkObj at h
      split at h
      · cases h
      · split at h
        · cases h
        · simp only [Option.some.injEq, Prod.mk.injEq] at h
          rw [← h.1]
          exact h1
    · simp only [Option.some.injEq] at h
      subst h
      exact h1

theorem model_same {p p' : Propagator V} {th : ℕ} (h : p.onModel th = some p') :
    p'.prog = p.prog ∧ p'.varMap = p.varMap ∧ p'.varVec = p.varVec := by
  unfold Propagator.onModel at h
  split at h
  · cases h
  · split at h
    · obtain rfl := Option.some.inj h; exact ⟨rfl, rfl, rfl⟩
    · split at h
      · obtain rfl := Option.some.inj h; exact ⟨rfl, rfl, rfl⟩
      · obtain rfl := Option.some.inj h; exact ⟨rfl, rfl, rfl⟩

section
variable {be : Backend} {opts : Options} {p p' : Propagator V} {g g' : Ghost V}

theorem _root_.Lpx.LaterInStep.same {Q : Restr V} (h : LaterInStep be Q p g p' g') :
    p'.prog = p.prog ∧ p'.varMap = p.varMap ∧ p'.varVec = p.varVec := by
  induction h with
  | refl => exact ⟨rfl, rfl, rfl⟩
  | step _ hs hstep ih =>
    rename_i p1 p2 g1 g2 _
    have hh : p2.prog = p1.prog ∧ p2.varMap = p1.varMap ∧ p2.varVec = p1.varVec := by
      cases hs with
      | init _ _ _ _ _ => simp at hstep
      | fail _ _ _ _ _ _ => simp at hstep
      | propagate _ _ _ _ _ hc => exact propagate_same hc
      | check _ _ _ _ _ hc => exact check_same hc
      | undo _ _ _ _ hc _ => exact undo_same hc
      | model _ _ _ hc => exact model_same hc
    exact ⟨hh.1.trans ih.1, hh.2.1.trans ih.2.1, hh.2.2.trans ih.2.2⟩

theorem limits_restored (hq : StepOK V opts) (hr : Reach be opts Intact p g) {th : ℕ} {gt gt' : GThr}
    (hgt : g.thrs[th]? = some gt) (hst : gt.stuck = false) (hl : LaterInStep be Intact p g p' g') (hgt' : g'.thrs[th]? = some gt')
    (hst' : gt'.stuck = false) (hf : gt'.frames = gt.frames) {y : Symbol} (hy : (p.lookup y).isSome = true) :
    lowerLimit p' th y = lowerLimit p th y ∧ upperLimit p' th y = upperLimit p th y := by
  obtain ⟨h1, h2, -⟩ := hl.same
  refine limits_history hq hq hr (hl.reach hr) hgt hst hgt' hst' (by rw [h1]; exact fun _ => Iff.rfl)
    (by rw [hf]; exact fun _ _ => Iff.rfl) hy ?_
  unfold Propagator.lookup at hy ⊢
  rw [h2]; exact hy

/-- C06 for a level: from a state of a thread, let anything happen in this and other threads and be undone until the same
levels remain; then the limits of all variables are those of the first state. -/
theorem C06_backtracking_restores_limits_partial (hq : StepOK V opts) (hr : Reach be opts SafeEqs p g) {th : ℕ} {gt gt' : GThr}
    (hgt : g.thrs[th]? = some gt) (hst : gt.stuck = false) (hl : LaterInStep be SafeEqs p g p' g') (hgt' : g'.thrs[th]? = some gt')
    (hst' : gt'.stuck = false) (hf : gt'.frames = gt.frames) {y : Symbol} (hy : (p.lookup y).isSome = true) :
    lowerLimit p' th y = lowerLimit p th y ∧ upperLimit p' th y = upperLimit p th y :=
  limits_restored hq (hr.intact hq) hgt hst (hl.intact hq hr) hgt' hst' hf hy

/-- The hypotheses are met: after a level with `x >= 4` that ended in a conflict has been undone, the limit of `x` is that of `x >= 1`. -/
example : ∃ (p p' : Propagator ℚ) (g g' : Ghost ℚ) (gt gt' : GThr), StepOK ℚ {} ∧ Reach .imath {} SafeEqs p g ∧ LaterInStep .imath SafeEqs p g p' g' ∧
    g.thrs[0]? = some gt ∧ gt.stuck = false ∧ g'.thrs[0]? = some gt' ∧ gt'.stuck = false ∧ gt'.frames = gt.frames ∧
    (p.lookup symX).isSome = true ∧ lowerLimit p 0 symX = some 1 ∧ gt.frames.length = 2 ∧ p.clausesOf 0 = [] ∧ p'.clausesOf 0 ≠ [] := by
  obtain ⟨p, g, p', g', h1, -, h2, h3⟩ := exists_inStep (V := ℚ) (be := .imath) (mode := .safe) (opts := {})
    [.init prog4 1, .prop 0 0 [1] true, .prop 1 0 [2] true] [.prop 2 0 [3, 4] true, .undo 0] rfl
    (P := fun p g p' g' => decide ((p.lookup symX).isSome = true ∧ lowerLimit p 0 symX = some 1 ∧ p.clausesOf 0 = [] ∧ p'.clausesOf 0 ≠ []) &&
      atThr g 0 fun gt => atThr g' 0 fun gt' => !gt.stuck && !gt'.stuck &&
        decide (gt'.frames.map (fun fr => (fr.level, fr.lits)) = gt.frames.map (fun fr => (fr.level, fr.lits)) ∧ gt.frames.length = 2))
    (by decide +kernel)
  rw [Bool.and_eq_true] at h3
  obtain ⟨a1, a2, a3, a4⟩ := of_decide_eq_true h3.1
  obtain ⟨gt, h4, h5⟩ := atThr_spec h3.2
  obtain ⟨gt', h6, h7⟩ := atThr_spec h5
  simp only [Bool.and_eq_true, Bool.not_eq_true'] at h7
  obtain ⟨⟨h7, h8⟩, h9⟩ := h7
  obtain ⟨h9, h10⟩ := of_decide_eq_true h9
  refine ⟨p, p', g, g', gt, gt', stepOK_none rfl, h1, h2, h4, h7, h6, h8, ?_, a1, a2, h10, a3, a4⟩
  exact List.map_injective_iff.2 (fun a b h => by cases a; cases b; simp only [Prod.mk.injEq] at h; simp [h.1, h.2]) h9

/-- C06 including the variables introduced by the solver: as long as the solver has the same bounds, the limits of all its
variables only depend on the literals that are true. -/
theorem C06_all_variables_partial (hq : StepOK V opts) (hr : Reach be opts SafeEqs p g) (hr' : Reach be opts SafeEqs p' g') {th : ℕ}
    {gt gt' : GThr} {t t' : Thr V} (hgt : g.thrs[th]? = some gt) (hst : gt.stuck = false) (hgt' : g'.thrs[th]? = some gt')
    (hst' : gt'.stuck = false) (ht : p.thrs[th]? = some t) (ht' : p'.thrs[th]? = some t') (hb : t'.slv.bounds = t.slv.bounds)
    (hact : ∀ l, Act gt'.frames l ↔ Act gt.frames l) (v : ℕ) : t'.slv.lo v = t.slv.lo v ∧ t'.slv.up v = t.slv.up v := by
  obtain ⟨t1, E0, base, hu⟩ := ((hr.intact hq).inv hq).unpack hgt
  obtain ⟨t2, E0', base', hu'⟩ := ((hr'.intact hq).inv hq).unpack hgt'
  obtain rfl := Option.some.inj (ht.symm.trans hu.ht)
  obtain rfl := Option.some.inj (ht'.symm.trans hu'.ht)
  have key : ∀ {E0 E0' : (ℕ → V) → Prop} {F F' : List Frame} {s s' : S V}, s'.bounds = s.bounds → (∀ l, Act F' l → Act F l) →
      Good E0 s.bounds F s.view → Good E0' s'.bounds F' s'.view →
      (∀ m, s'.lo v = some m → ∃ m', s.lo v = some m' ∧ m ≤ m') ∧ (∀ m, s'.up v = some m → ∃ m', s.up v = some m' ∧ m' ≤ m) := by
    intro E0 E0' F F' s s' hb hact h h'
    constructor
    · intro m hm
      unfold S.lo S.bval at hm
      cases hl : s'.lower v with
      | none => rw [hl] at hm; cases hm
      | some b =>
        obtain ⟨bd, h1, h2, h3, h4⟩ := h'.ptr.lo v b hl
        rw [hl] at hm
        simp only [Option.bind_some] at hm
        rw [h1] at hm
        obtain rfl := Option.some.inj hm
        obtain ⟨m', h5, h6⟩ := (h.enf bd (by rw [← hb]; exact List.mem_of_getElem? h1) (hact _ h4)).2 h3
        rw [h2] at h5
        exact ⟨m', h5, h6⟩
    · intro m hm
      unfold S.up S.bval at hm
      cases hl : s'.upper v with
      | none => rw [hl] at hm; cases hm
      | some b =>
        obtain ⟨bd, h1, h2, h3, h4⟩ := h'.ptr.up v b hl
        rw [hl] at hm
        simp only [Option.bind_some] at hm
        rw [h1] at hm
        obtain rfl := Option.some.inj hm
        obtain ⟨m', h5, h6⟩ := (h.enf bd (by rw [← hb]; exact List.mem_of_getElem? h1) (hact _ h4)).1 h3
        rw [h2] at h5
        exact ⟨m', h5, h6⟩
  have k1 := key hb (fun l => (hact l).1) (hu.dyn.sinv hst).good (hu'.dyn.sinv hst').good
  have k2 := key hb.symm (fun l => (hact l).2) (hu'.dyn.sinv hst').good (hu.dyn.sinv hst).good
  constructor
  · cases h1 : t'.slv.lo v with
    | none =>
      cases h2 : t.slv.lo v with
      | none => rfl
      | some m => obtain ⟨m', h3, -⟩ := k2.1 m h2; rw [h1] at h3; cases h3
    | some m =>
      obtain ⟨m', h3, h4⟩ := k1.1 m h1
      obtain ⟨m'', h5, h6⟩ := k2.1 m' h3
      rw [h1] at h5
      obtain rfl := Option.some.inj h5
      rw [h3, le_antisymm h4 h6]
  · cases h1 : t'.slv.up v with
    | none =>
      cases h2 : t.slv.up v with
      | none => rfl
      | some m => obtain ⟨m', h3, -⟩ := k2.2 m h2; rw [h1] at h3; cases h3
    | some m =>
      obtain ⟨m', h3, h4⟩ := k1.2 m h1
      obtain ⟨m'', h5, h6⟩ := k2.2 m' h3
      rw [h1] at h5
      obtain rfl := Option.some.inj h5
      rw [h3, le_antisymm h6 h4]

/-! ### C08 -/

/-- C08 (partial: `Intact`, constraints with variables). A `check` (in particular of a total assignment, with
optimization) that asserts no facts of earlier steps leaves the program and the limits of all variables unchanged, and the new
values still satisfy all active constraints. -/
theorem C08_check_keeps_feasible_partial (hq : StepOK V opts) (hr : Reach be opts Intact p g) (hs : ∀ x ∈ p.prog.iqs, Supports V x.rel)
    {fuel : ℕ} {ctl : Ctl} {total : Bool} {th : ℕ} {gt : GThr} {t : Thr V} (hm : MayCheck p g ctl th gt t) {ok : Bool}
    (hc : p.check fuel ctl total th = some (p', ok)) (hn : ¬ p.needFacts ctl t) :
    p'.prog = p.prog ∧
    (Small fun e => Solves (withVars p'.prog.iqs) (Act gt.frames) fun y => LpSem.conc e (p'.valueOf th y)) ∧
    (∀ v b, p'.objectiveOf th = [(v, b)] → v = evalV (p'.valueOf th) p'.prog.objective) ∧
    ∀ y, (p.lookup y).isSome = true → lowerLimit p' th y = lowerLimit p th y ∧ upperLimit p' th y = upperLimit p th y := by
  obtain ⟨h1, h2, -⟩ := check_same hc
  have hf : p.checkFrames ctl t gt.frames = gt.frames := by unfold Propagator.checkFrames; rw [if_neg hn]
  have hok : p.factsOk fuel ctl th = true := by
    unfold Propagator.factsOk Propagator.checkFacts
    simp only [hm.slv, if_neg hn]
  have hstep := Step.check (be := be) (Q := Intact) fuel ctl total th hm hc
  rw [hf, hok] at hstep
  have hr' := hr.step hstep
  have hgt' := getElem?_set_some (b := { gt with frames := gt.frames, stuck := !true, checked := total && ok }) hm.thr
  refine ⟨h1, ?_, ?_, fun y hy => ?_⟩
  · have := C01_active_constraints_hold_partial hq hr' (by rw [h1]; exact hs) hgt' rfl
    exact this
  · exact fun v b ho => C01_objective_value hr' hgt' ho
  · exact limits_restored hq hr hm.thr hm.ready (.step .refl hstep rfl) hgt' rfl rfl hy

/-- The hypotheses are met: a total check that maximizes `x` moves `x` from 1 to 3 while `x + y <= 5` and `y >= 2` are true. -/
example : ∃ (p p' : Propagator ℚ) (g : Ghost ℚ) (ctl : Ctl) (gt : GThr) (t : Thr ℚ) (ok : Bool), StepOK ℚ {} ∧ Reach .imath {} Intact p g ∧
    (∀ x ∈ p.prog.iqs, Supports ℚ x.rel) ∧ MayCheck p g ctl 0 gt t ∧ p.check fuel ctl true 0 = some (p', ok) ∧ ¬ p.needFacts ctl t ∧
    p.valueOf 0 symX = 1 ∧ p'.valueOf 0 symX = 3 ∧ gt.frames.length = 2 := by
  obtain ⟨p, g, gt, t, p', ok, h1, -, h2, h3, h4⟩ := exists_check (V := ℚ) (be := .imath) (mode := .intact) (opts := {})
    [.init (prog4 ++ [maxAtom "x"]) 1, .prop 0 0 [1] true, .prop 1 0 [2, 3] true] 1 0 true
    (P := fun p _ t gt p' _ => noStrict p.prog && decide (p.valueOf 0 symX = 1 ∧ p'.valueOf 0 symX = 3 ∧ gt.frames.length = 2)) (by decide +kernel)
  rw [Bool.and_eq_true] at h4
  obtain ⟨a1, a2, a3⟩ := of_decide_eq_true h4.2
  exact ⟨p, p', g, _, gt, t, ok, stepOK_none rfl, h1, noStrict_spec h4.1, h2, h3, by rintro ⟨h, -⟩; exact absurd (show (1 : ℕ) = 0 from h) (by decide), a1, a2, a3⟩

/-! ### C39 -/

/-- C39 (partial: `Intact`). No callback of any history performs one of the operations recorded as undefined behaviour: use of a
missing bound, the last entry of an empty trail, division by zero, access to a missing tableau entry, an index out of range,
or an unexpected exception. -/
theorem C39_no_undefined_behaviour_partial (hq : StepOK V opts) (hr : Reach be opts Intact p g) {th : ℕ} {gt : GThr} {t : Thr V}
    (hgt : g.thrs[th]? = some gt) (ht : p.thrs[th]? = some t) : t.slv.ub = false := by
  obtain ⟨t', E0, base, hu⟩ := (hr.inv hq).unpack hgt
  obtain rfl := Option.some.inj (ht.symm.trans hu.ht)
  exact hu.dyn.cinv.ub

/-! ### C42 -/

/-- C42 (partial: `Intact`; constraints without variables are equations or compare with zero). Whatever the interleaving of the
callbacks of the threads, the values of every thread that is not in conflict satisfy its own active constraints, and every
clause of every thread is an objective cut or satisfied by all consistent truth assignments. -/
theorem C42_threads_partial (hq : StepOK V opts) (hr : Reach be opts Intact p g) (hlv : g.failed = false)
    (hs : ∀ x ∈ p.prog.iqs, Supports V x.rel) (hc : ∀ x ∈ p.prog.iqs, x.lhs = [] → x.rel = .eq ∨ x.rhs = 0) :
    (∀ th gt, g.thrs[th]? = some gt → gt.stuck = false →
      Small fun e => Solves (withVars p.prog.iqs) (Act gt.frames) fun y => LpSem.conc e (p.valueOf th y)) ∧
    (∀ th c, c ∈ p.clausesOf th → (∃ u ∈ p.cutsOf th, c = [u.1]) ∨
      ∀ (tr : ℤ → Prop) (gv : Symbol → ℚ), (∀ l, tr l ∨ tr (-l)) → Solves p.prog.iqs tr gv →
        MeetsCuts (p.cutsOf th) tr p.prog.objective gv → ∃ l ∈ c, tr l) :=
  ⟨fun _ _ h1 h2 => C01_active_constraints_hold_partial hq hr hs h1 h2,
    fun _ _ h => C02_clauses_exclude_no_model_partial hq hr hlv hs hc h⟩

/-- The hypotheses of C39 and C42 are met by two threads, one of which is in conflict, after 6 callbacks. -/
example : ∃ (p : Propagator ℚ) (g : Ghost ℚ) (gt gt' : GThr) (t : Thr ℚ), StepOK ℚ {} ∧ Reach .imath {} Intact p g ∧ g.failed = false ∧ (∀ x ∈ p.prog.iqs, Supports ℚ x.rel) ∧
    (∀ x ∈ p.prog.iqs, x.lhs = [] → x.rel = .eq ∨ x.rhs = 0) ∧ g.thrs[0]? = some gt ∧ g.thrs[1]? = some gt' ∧ p.thrs[0]? = some t ∧
    gt.stuck = true ∧ gt'.stuck = false ∧ p.clausesOf 0 = [[-2, -4, -3]] ∧ p.clausesOf 1 = [] ∧ Act gt'.frames 4 := by
  obtain ⟨p, g, h1, -, h2⟩ := exists_reach (V := ℚ) (be := .imath) (mode := .intact) (opts := {})
    [.init prog4 2, .prop 0 0 [1] true, .prop 0 1 [1] true, .prop 1 1 [4, 3] true, .prop 1 0 [2, 3] true, .prop 2 0 [4] true]
    (P := fun p g => noStrict p.prog && (p.prog.iqs.all fun x => !x.lhs.isEmpty) && (p.thrs[0]?).isSome && decide (p.clausesOf 0 = [[-2, -4, -3]] ∧ p.clausesOf 1 = []) &&
      (atThr g 0 fun gt => gt.stuck) && atThr g 1 fun gt => !gt.stuck && decide (Act gt.frames 4))
    (by decide +kernel)
  simp only [Bool.and_eq_true] at h2
  obtain ⟨⟨⟨⟨⟨a1, a2⟩, a3⟩, a4⟩, a5⟩, a6⟩ := h2
  obtain ⟨gt, b1, b2⟩ := atThr_spec a5
  obtain ⟨gt', c1, c2⟩ := atThr_spec a6
  rw [Bool.and_eq_true, Bool.not_eq_true'] at c2
  obtain ⟨t, ht⟩ := Option.isSome_iff_exists.1 a3
  obtain ⟨a4, a4'⟩ := of_decide_eq_true a4
  refine ⟨p, g, gt, gt', t, stepOK_none rfl, h1, h1.stat.alive b1, noStrict_spec a1, fun x hx h => ?_, b1, c1, ht, b2, c2.1, a4, a4', of_decide_eq_true c2.2⟩
  have := List.all_eq_true.1 a2 x hx
  rw [h] at this; cases this

/-- What can be observed about a thread: values, objective, clauses, cuts, limits. -/
structure SameThread (p p' : Propagator V) (th : ℕ) : Prop where
  value : ∀ y, p'.valueOf th y = p.valueOf th y
  objective : p'.objectiveOf th = p.objectiveOf th
  clauses : p'.clausesOf th = p.clausesOf th
  cuts : p'.cutsOf th = p.cutsOf th
  lower : ∀ y, lowerLimit p' th y = lowerLimit p th y
  upper : ∀ y, upperLimit p' th y = upperLimit p th y

theorem sameThread_of {p p' : Propagator V} {th : ℕ} (h : p'.prog = p.prog) (hv : p'.varMap = p.varMap)
    (ht : p'.thrs[th]? = p.thrs[th]?) : SameThread p p' th := by
  constructor
  · intro y; simp [Propagator.valueOf, Propagator.apiLookup, Propagator.lookup, Propagator.apiValue, hv, ht]
  · simp [Propagator.objectiveOf, ht]
  · simp [Propagator.clausesOf, ht]
  · simp [Propagator.cutsOf, ht, h]
  · intro y; simp [lowerLimit, Propagator.lookup, hv, ht]
  · intro y; simp [upperLimit, Propagator.lookup, hv, ht]

theorem set_other {α : Type} (l : List α) {i j : ℕ} (h : j ≠ i) (a : α) : (l.set i a)[j]? = l[j]? := by
  rw [List.getElem?_set_ne (Ne.symm h)]

/-- C42: a callback of one thread does not change anything that can be observed about another thread (no hypothesis on the
history). -/
theorem C42_isolated {th th' : ℕ} (hne : th' ≠ th) :
    (∀ fuel ctl lits ok, p.propagate fuel ctl th lits = some (p', ok) → SameThread p p' th') ∧
    (∀ fuel ctl total ok, p.check fuel ctl total th = some (p', ok) → SameThread p p' th') ∧
    (p.undo th = some p' → SameThread p p' th') ∧ (p.onModel th = some p' → ∀ th'', SameThread p p' th'') := by
  refine ⟨fun fuel ctl lits ok h => ?_, fun fuel ctl total ok h => ?_, fun h => ?_, fun h th'' => ?_⟩
  · obtain ⟨h1, h2, -⟩ := propagate_same h
    refine sameThread_of h1 h2 ?_
    unfold Propagator.propagate at h
    simp only at h
    split at h
    · cases h
    · split at h
      · cases h
      · simp only [Option.some.injEq, Prod.mk.injEq] at h
        rw [← h.1]
        show (List.set _ _ _)[th']? = _
        rw [set_other _ hne]
        split <;> rfl
  · obtain ⟨h1, h2, -⟩ := check_same h
    refine sameThread_of h1 h2 ?_
    unfold Propagator.check at h
    split at h
    · cases h
    · rename_i r hr
      have hr' : r.1.thrs[th']? = p.thrs[th']? := by
        unfold Propagator.checkFacts at hr
        split at hr
        · cases hr
        · split at hr
          · split at hr
            · cases hr
            · obtain rfl := Option.some.inj hr
              exact set_other _ hne _
          · obtain rfl := Option.some.inj hr
            rfl
      split at h
      · unfold Propagator.checkObj at h
        split at h
        · cases h
        · split at h
          · cases h
          · simp only [Option.some.injEq, Prod.mk.injEq] at h
            rw [← h.1, ← hr']
            exact set_other _ hne _
      · simp only [Option.some.injEq] at h
        subst h
        exact hr'
  · obtain ⟨h1, h2, -⟩ := undo_same h
    refine sameThread_of h1 h2 ?_
    unfold Propagator.undo at h
    split at h
    · cases h
    · obtain rfl := Option.some.inj h
      exact set_other _ hne _
  · obtain ⟨h1, h2, -⟩ := model_same h
    refine sameThread_of h1 h2 ?_
    unfold Propagator.onModel at h
    split at h
    · cases h
    · split at h
      · obtain rfl := Option.some.inj h; rfl
      · split at h <;> (obtain rfl := Option.some.inj h; rfl)

end

end Lpx.Props
