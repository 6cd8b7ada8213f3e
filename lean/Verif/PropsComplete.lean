import Verif.Queue
import Verif.PropsReasons
import Verif.PropsStats

/-!
# C68: bound propagation is complete for rows

What the option `--propagate-bounds` promises. The equations between the unknowns of a thread (the variables of the program and one unknown for each
constraint over several variables) are solved for some of the unknowns, the basic ones; each of these equations is a row. Bound propagation derives
limits for the basic unknown of a row from the limits of the other unknowns in the row. `C68_full`, `C68_changed` and `C68_none` say which constraints
are propagated.
-/

set_option linter.unusedSectionVars false

namespace Lpx.Props
open Lpx Lpx.Witness

variable {V : Type} [LpFull V]

/-- Values of the unknowns that satisfy all equations and the limits of the non-basic unknowns; the limits of the basic unknowns are ignored. -/
structure Relaxed (s : S V) (asg : ℕ → V) : Prop where
  eqs : ∀ i, i < s.m → s.RowEq i asg
  limits : ∀ j, j < s.n → s.InLimits asg (s.index j)

/-- The unknown that stands for the left-hand side of the constraint (divided by the coefficient if there is only one variable) is the basic unknown of
row `i`. -/
def HasRow (p : Propagator V) (s : S V) (x : Ineq Symbol) (i : ℕ) : Prop :=
  i < s.m ∧ ∃ bd ∈ s.bounds, Represents p.lookup p.varMap.length (fun asg => ∀ i, i < s.m → s.RowEq i asg) x bd ∧ bd.var = s.index (i + s.n)

/-- The limits of the non-basic unknowns are not contradictory but exclude the constraint. -/
structure Excluded (p : Propagator V) (s : S V) (x : Ineq Symbol) : Prop where
  inhabited : ∃ asg, Relaxed s asg
  excluded : ∀ asg, Relaxed s asg → ¬ HoldsMargin (fun y => asg (ix p.lookup y)) x

/-- The literal sets a limit of an unknown. -/
def SetsLimit (s : S V) (l : ℤ) : Prop :=
  ∃ v b bd, (s.lower v = some b ∨ s.upper v = some b) ∧ s.bounds[b]? = some bd ∧ bd.lit = l

/-- Between the clauses `o` and `o'`, the literal was found to be false, or a clause was added that consists of the negations of literals setting
limits followed by the negation of the literal. -/
def Told (ctl : Ctl) (s : S V) (o o' : List (List ℤ)) (l : ℤ) : Prop :=
  (∃ O, o <+: O ∧ O <+: o' ∧ ctl.isFalse O l = true) ∨
  ∃ O front, o <+: O ∧ O ++ [front ++ [-l]] <+: o' ∧ ∀ k ∈ front, SetsLimit s (-k)

/-- Row `i` is the same in both states: its basic unknown, the value of this unknown, and the equation. -/
structure SameRow (s s' : S V) (i : ℕ) : Prop where
  var : s'.index (i + s'.n) = s.index (i + s.n)
  value : s'.value (s.index (i + s.n)) = s.value (s.index (i + s.n))
  eqn : ∀ asg, s'.RowEq i asg ↔ s.RowEq i asg

section
variable {be : Backend} {opts : Options} {Q : Restr V} {p : Propagator V} {g : Ghost V}

/-- The values of the non-basic unknowns determine those of the basic ones. -/
theorem exists_relaxed {s : S V} (hs : S.Struct s) (asg : ℕ → V) : ∃ asg', (∀ i, i < s.m → s.RowEq i asg') ∧ ∀ j, j < s.n → asg' (s.index j) = asg (s.index j) := by
  obtain ⟨f, hf⟩ : ∃ f : ℕ → V, ∀ v, f v = if s.rindex v < s.n then asg v else ∑ j ∈ Finset.range s.n, s.tab.coef (s.rindex v - s.n) j • asg (s.index j) :=
    ⟨_, fun _ => rfl⟩
  have hnb : ∀ j, j < s.n → f (s.index j) = asg (s.index j) := by
    intro j hj
    have : s.rindex (s.index j) = j := hs.ri j (by have := hs.nv; omega)
    rw [hf, this, if_pos hj]
  refine ⟨f, fun i hi => ?_, hnb⟩
  unfold S.RowEq
  rw [Finset.sum_congr rfl fun j hj => by rw [hnb j (Finset.mem_range.1 hj)]]
  have : s.rindex (s.index (i + s.n)) = i + s.n := hs.ri _ (by have := hs.nv; omega)
  rw [hf, this, if_neg (by omega), Nat.add_sub_cancel]

theorem refutedBy_of {s : S V} (hs : S.Struct s) {x : Ineq Symbol} {i : ℕ} (hi : i < s.m) {bd : Bound V}
    (hR : Represents p.lookup p.varMap.length (fun asg => ∀ i, i < s.m → s.RowEq i asg) x bd) (hv : bd.var = s.index (i + s.n)) (he : Excluded p s x) :
    s.RefutedBy i bd := by
  obtain ⟨a0, h0⟩ := he.inhabited
  refine ⟨hv, ⟨a0, h0.limits⟩, fun asg hrow hlim hh => ?_⟩
  obtain ⟨asg', h1, h2⟩ := exists_relaxed hs asg
  have hrel : Relaxed s asg' := ⟨h1, fun j hj => by
    have := hlim j hj
    unfold S.InLimits at this ⊢
    rw [h2 j hj]; exact this⟩
  refine he.excluded asg' hrel ((hR.exactly (E := fun asg => ∀ i, i < s.m → s.RowEq i asg) h1 fun _ _ => rfl).1 ?_)
  have hval : asg' bd.var = asg bd.var := by
    rw [hv]
    have e1 := h1 i hi
    unfold S.RowEq at e1 hrow
    rw [e1, hrow]
    exact Finset.sum_congr rfl fun j hj => by rw [h2 j (Finset.mem_range.1 hj)]
  unfold Bound.Holds at hh ⊢
  rw [hval]; exact hh

/-- What a successful `propagate` has done. -/
theorem propagate_complete (hr : Reach be opts Q p g) {ctl : Ctl} {th : ℕ} {lits : List ℤ} {gt : GThr} (hm : MayPropagate Q p g ctl th lits gt)
    {fuel : ℕ} {p' : Propagator V} (hc : p.propagate fuel ctl th lits = some (p', true)) :
    ∃ t t', p.thrs[th]? = some t ∧ p'.thrs[th]? = some t' ∧ t.slv.opts = opts ∧ S.PF t.slv ∧ S.Propagated ctl t.slv t'.slv ∧
      ∀ x ∈ p.prog.iqs, ∀ i, HasRow p' t'.slv x i → Excluded p' t'.slv x → S.RowDone ctl t'.slv t.slv.out t'.slv.out i →
        Told ctl t'.slv t.slv.out t'.slv.out x.lit := by
  obtain ⟨t, ht, E0, base, hd⟩ := hr.weak.thr th gt hm.thr
  obtain ⟨s', h1, rfl⟩ := (propagate_eq ht).1 hc
  have hvb : S.VB t.slv := by
    intro v b hb
    obtain ⟨bd, h2, h3⟩ := (hd.vb v b).1 hb
    obtain ⟨cs, h4, -⟩ := hd.cuts
    exact ⟨bd, by rw [h4, List.getElem?_append_left (List.getElem?_eq_some_iff.1 h2).1]; exact h2, h3⟩
  have hdl : ∀ l ∈ gt.frames.map (·.level), l ≤ ctl.dl := by
    intro l hl
    obtain ⟨fr, hfr, rfl⟩ := List.mem_map.1 hl
    exact hm.dl fr hfr
  have hp := S.solve_complete hd.winv hvb hdl h1
  have hd' := hd.solve hm.dl h1 false false
  refine ⟨t, { t with slv := s' }, ht, getElem?_set_some ht, hd.hopts, hd.pf, hp, ?_⟩
  rintro x hx i ⟨hi, bd, hbd, hR, hv⟩ he hdone
  obtain ⟨cs, h4, h5⟩ := hd'.cuts
  have hbb : bd ∈ base := by
    rw [h4] at hbd
    rcases List.mem_append.1 hbd with h | h
    · exact h
    · exact absurd hR.lit.symm ((h5 bd h).lit x hx).1
  obtain ⟨b, hb⟩ := List.mem_iff_getElem?.1 hbb
  have hb' : s'.bounds[b]? = some bd := by rw [h4, List.getElem?_append_left (List.getElem?_eq_some_iff.1 hb).1]; exact hb
  have hset := hdone b ((hd'.vb _ b).2 ⟨bd, hb, hv⟩) bd hb' (refutedBy_of hd'.winv.struct hi hR hv he)
  rw [hR.lit] at hset
  rcases hset with h | ⟨O, front, k1, k2, k3⟩
  · exact .inl h
  · refine .inr ⟨O, front, k1, k2, fun k hk => ?_⟩
    obtain ⟨v, b, bd, q1, q2, q3⟩ := k3 k hk
    exact ⟨v, b, bd, q1, q2, by rw [q3, neg_neg]⟩

/-- **C68**, `--propagate-bounds=full`. After a successful `propagate`, every constraint that has a row and is excluded by the limits of the non-basic
unknowns is false or has been propagated to false. For arbitrary histories. -/
theorem C68_full (hr : Reach be opts Q p g) (ho : opts.propagateMode = .full) {ctl : Ctl} {th : ℕ} {lits : List ℤ} {gt : GThr}
    (hm : MayPropagate Q p g ctl th lits gt) {fuel : ℕ} {p' : Propagator V} (hc : p.propagate fuel ctl th lits = some (p', true))
    {t' : Thr V} (ht' : p'.thrs[th]? = some t') {x : Ineq Symbol} (hx : x ∈ p.prog.iqs) {i : ℕ} (hi : HasRow p' t'.slv x i) (he : Excluded p' t'.slv x) :
    Told ctl t'.slv (p.clausesOf th) (p'.clausesOf th) x.lit := by
  obtain ⟨t, t1, h1, h2, h3, h4, h5, h6⟩ := propagate_complete hr hm hc
  obtain rfl := Option.some.inj (h2.symm.trans ht')
  have e1 : p.clausesOf th = t.slv.out := by unfold Propagator.clausesOf; rw [h1]
  have e2 : p'.clausesOf th = t1.slv.out := by unfold Propagator.clausesOf; rw [h2]
  rw [e1, e2]
  exact h6 x hx i hi he (h5.full (by rw [h3]; exact ho) i hi.1)

/-- **C68**, `--propagate-bounds=changed`. The same for constraints whose row has changed in the call: the basic unknown, its value, or the equation. -/
theorem C68_changed (hr : Reach be opts Q p g) (ho : opts.propagateMode = .changed) {ctl : Ctl} {th : ℕ} {lits : List ℤ} {gt : GThr}
    (hm : MayPropagate Q p g ctl th lits gt) {fuel : ℕ} {p' : Propagator V} (hc : p.propagate fuel ctl th lits = some (p', true))
    {t t' : Thr V} (ht : p.thrs[th]? = some t) (ht' : p'.thrs[th]? = some t') {x : Ineq Symbol} (hx : x ∈ p.prog.iqs) {i : ℕ} (hi : HasRow p' t'.slv x i)
    (he : Excluded p' t'.slv x) (hch : ¬ SameRow t.slv t'.slv i) :
    Told ctl t'.slv (p.clausesOf th) (p'.clausesOf th) x.lit := by
  obtain ⟨t0, t1, h1, h2, h3, h4, h5, h6⟩ := propagate_complete hr hm hc
  obtain rfl := Option.some.inj (h2.symm.trans ht')
  obtain rfl := Option.some.inj (h1.symm.trans ht)
  have e1 : p.clausesOf th = t0.slv.out := by unfold Propagator.clausesOf; rw [h1]
  have e2 : p'.clausesOf th = t1.slv.out := by unfold Propagator.clausesOf; rw [h2]
  rw [e1, e2]
  refine h6 x hx i hi he ((h5.changed (by rw [h3]; exact ho) h4 i hi.1).resolve_left fun h => hch ⟨h.var, h.value, h.eqn⟩)

/-- **C68**, `--propagate-bounds=none`. A successful `propagate` adds no clauses. -/
theorem C68_none (hr : Reach be opts Q p g) (ho : opts.propagateMode = .none) {ctl : Ctl} {th : ℕ} {lits : List ℤ} {gt : GThr}
    (hm : MayPropagate Q p g ctl th lits gt) {fuel : ℕ} {p' : Propagator V} (hc : p.propagate fuel ctl th lits = some (p', true)) :
    p'.clausesOf th = p.clausesOf th := by
  obtain ⟨t0, t1, h1, h2, h3, h4, h5, h6⟩ := propagate_complete hr hm hc
  have e1 : p.clausesOf th = t0.slv.out := by unfold Propagator.clausesOf; rw [h1]
  have e2 : p'.clausesOf th = t1.slv.out := by unfold Propagator.clausesOf; rw [h2]
  rw [e1, e2]
  exact h5.none (by rw [h3]; exact ho)

/-- The limits of the non-basic unknowns are never contradictory after a successful `propagate` if no limits are lost (`Intact`): the current values meet
them. -/
theorem relaxed_value (hq : StepOK V opts) (hr : Reach be opts Intact p g) {ctl : Ctl} {th : ℕ} {lits : List ℤ} {gt : GThr}
    (hm : MayPropagate Intact p g ctl th lits gt) {fuel : ℕ} {p' : Propagator V} (hc : p.propagate fuel ctl th lits = some (p', true))
    {t' : Thr V} (ht' : p'.thrs[th]? = some t') : Relaxed t'.slv t'.slv.value := by
  have hr' := hr.step (.propagate fuel ctl th lits hm hc)
  obtain ⟨t, ht, ⟨E0, base, hd⟩, -⟩ := (hr'.inv hq).thr th _ (getElem?_set_some hm.thr)
  obtain rfl := Option.some.inj (ht.symm.trans ht')
  have hs := (hd.sinv rfl).core
  refine ⟨hs.val, fun j hj => ?_⟩
  have := hs.nb j hj
  exact this

/-- **C68**, `--propagate-bounds=full`, if no limits are lost: every constraint that has a row and is excluded by the limits of the non-basic unknowns is
false or has been propagated to false. -/
theorem C68_full_intact (hq : StepOK V opts) (hr : Reach be opts Intact p g) (ho : opts.propagateMode = .full) {ctl : Ctl} {th : ℕ} {lits : List ℤ}
    {gt : GThr} (hm : MayPropagate Intact p g ctl th lits gt) {fuel : ℕ} {p' : Propagator V} (hc : p.propagate fuel ctl th lits = some (p', true))
    {t' : Thr V} (ht' : p'.thrs[th]? = some t') {x : Ineq Symbol} (hx : x ∈ p.prog.iqs) {i : ℕ} (hi : HasRow p' t'.slv x i)
    (he : ∀ asg, Relaxed t'.slv asg → ¬ HoldsMargin (fun y => asg (ix p'.lookup y)) x) :
    Told ctl t'.slv (p.clausesOf th) (p'.clausesOf th) x.lit :=
  C68_full hr ho hm hc ht' hx hi ⟨⟨_, relaxed_value hq hr hm hc ht'⟩, he⟩

end

/-! ### example: `x >= 1` and `y >= 2` exclude `x + y <= 2` -/

/-- `x + y <= 2`. -/
def sumLe : Ineq Symbol := ⟨[⟨1, symX⟩, ⟨1, symY⟩], 2, .le, 2⟩

/-- The state before and after `y >= 2` is propagated. -/
def exclCheck (p p' : Propagator ℚ) (ok : Bool) : Bool :=
  ok && decide (sumLe ∈ p.prog.iqs) && decide (sumLe ∈ p'.prog.iqs) && decide (p'.lookup symX = some 0) && decide (p'.lookup symY = some 1) &&
    decide (p'.varMap.length = 2) &&
    (p.thrs[0]?).any (fun t => decide (t.slv.n = 2 ∧ t.slv.index 2 = 2 ∧ t.slv.value 2 = 1)) &&
    (p'.thrs[0]?).any fun t => decide (t.slv.n = 2 ∧ t.slv.m = 1 ∧ t.slv.nvars = 3 ∧ t.slv.index 0 = 0 ∧ t.slv.index 1 = 1 ∧ t.slv.index 2 = 2 ∧
      t.slv.lo 0 = some 1 ∧ t.slv.lo 1 = some 2 ∧ t.slv.value 2 = 3)

theorem excl_example {opts : Options} (ho : StepOK ℚ opts) (hrun : ((runs (V := ℚ) .imath .intact
    [.init [sumAtom "x" ">=" 1 1, sum2Atom "x" "y" "<=" 2 2, sumAtom "y" ">=" 2 3] 1, .prop 0 0 [1] true] (start opts)).any fun s =>
      ((Ev.prop 1 0 [3] true).run .imath .intact s).any fun s' => exclCheck s.1 s'.1 ((s'.2.thrs[0]?).any fun gt => !gt.stuck)) = true) :
    ∃ (p p' : Propagator ℚ) (g : Ghost ℚ) (ctl : Ctl) (gt : GThr) (t t' : Thr ℚ) (fuel : ℕ), Reach .imath opts Intact p g ∧
      MayPropagate Intact p g ctl 0 [3] gt ∧ p.propagate fuel ctl 0 [3] = some (p', true) ∧ p.thrs[0]? = some t ∧ p'.thrs[0]? = some t' ∧
      sumLe ∈ p.prog.iqs ∧ HasRow p' t'.slv sumLe 0 ∧ Excluded p' t'.slv sumLe ∧ ¬ SameRow t.slv t'.slv 0 := by
  obtain ⟨p, g, p', gt, ok, h1, hnd, h2, h3, h4⟩ := exists_prop (V := ℚ) (be := .imath) (mode := .intact) (opts := opts) _ 1 0 [3] true
    (P := fun p _ p' ok => exclCheck p p' ok) hrun
  unfold exclCheck at h4
  simp only [Bool.and_eq_true, decide_eq_true_eq] at h4
  obtain ⟨⟨⟨⟨⟨⟨⟨hok, hx⟩, hpr⟩, hlx⟩, hly⟩, hlen⟩, hb⟩, ha⟩ := h4
  rw [Option.any_eq_true] at hb ha
  obtain ⟨t, ht, hb⟩ := hb
  obtain ⟨t', ht', ha⟩ := ha
  obtain ⟨b1, b2, b3⟩ := of_decide_eq_true hb
  obtain ⟨a1, a2, a3, a4, a5, a6, a7, a8, a9⟩ := of_decide_eq_true ha
  subst hok
  have hr' := h1.step (.propagate _ _ 0 [3] h2 h3)
  obtain ⟨t0, ht0, E0, base, hd⟩ := hr'.weak.thr 0 _ (getElem?_set_some h2.thr)
  obtain rfl := Option.some.inj (ht0.symm.trans ht')
  have hE : ∀ asg, (∀ i, i < t0.slv.m → t0.slv.RowEq i asg) → E0 asg := fun asg h => (hd.winv.eqv asg).1 h
  refine ⟨p, p', g, _, gt, t, t0, fuel, h1, h2, h3, ht, ht', hx, ⟨by omega, ?_⟩, ⟨⟨_, relaxed_value ho h1 h2 h3 ht'⟩, ?_⟩, ?_⟩
  · rcases hd.set.cov sumLe hpr (by simp [sumLe]) with ⟨bd, hbd, hR⟩ | hdead
    · obtain ⟨cs, hcs, -⟩ := hd.cuts
      have hbd' : bd ∈ t0.slv.bounds := by rw [hcs]; exact List.mem_append_left _ hbd
      refine ⟨bd, hbd', hR.mono hE, ?_⟩
      have hlt := hd.winv.bvar bd hbd'
      cases hR with
      | single a y hl => simp [sumLe] at hl
      | row _ hnew _ _ _ _ =>
        rw [hlen] at hnew
        have : bd.var = 2 := by omega
        rw [a1, this]; exact a6.symm
    · exact absurd hdead (hnd gt (List.mem_of_getElem? h2.thr) _)
  · intro asg hrel hh
    have l0 := (hrel.limits 0 (by omega)).1 1 (by rw [a4]; exact a7)
    have l1 := (hrel.limits 1 (by omega)).1 2 (by rw [a5]; exact a8)
    rw [a4] at l0
    rw [a5] at l1
    have hh' : evalV (fun y => asg (ix p'.lookup y)) [⟨1, symX⟩, ⟨1, symY⟩] ≤ (2 : ℚ) := hh
    simp only [evalV, ix, hlx, hly, List.map_cons, List.map_nil, List.sum_cons, List.sum_nil, Option.getD_some, one_smul, add_zero] at hh'
    linarith
  · intro hsame
    have := hsame.value
    rw [b1, b2, a9, b3] at this
    norm_num at this

/-- The hypotheses of `C68_full` (and `C68_full_intact`) are met. -/
example : ∃ (opts : Options) (p p' : Propagator ℚ) (g : Ghost ℚ) (ctl : Ctl) (gt : GThr) (t t' : Thr ℚ) (fuel : ℕ), opts.propagateMode = .full ∧
    Reach .imath opts Intact p g ∧
      MayPropagate Intact p g ctl 0 [3] gt ∧ p.propagate fuel ctl 0 [3] = some (p', true) ∧ p.thrs[0]? = some t ∧ p'.thrs[0]? = some t' ∧
      sumLe ∈ p.prog.iqs ∧ HasRow p' t'.slv sumLe 0 ∧ Excluded p' t'.slv sumLe ∧ ¬ SameRow t.slv t'.slv 0 := by
  obtain ⟨p, p', g, ctl, gt, t, t', fuel, h⟩ := excl_example (opts := { propagateMode := .full }) (stepOK_none rfl) (by decide +kernel)
  exact ⟨_, p, p', g, ctl, gt, t, t', fuel, rfl, h⟩

/-- The hypotheses of `C68_changed` are met. -/
example : ∃ (opts : Options) (p p' : Propagator ℚ) (g : Ghost ℚ) (ctl : Ctl) (gt : GThr) (t t' : Thr ℚ) (fuel : ℕ), opts.propagateMode = .changed ∧
    Reach .imath opts Intact p g ∧
      MayPropagate Intact p g ctl 0 [3] gt ∧ p.propagate fuel ctl 0 [3] = some (p', true) ∧ p.thrs[0]? = some t ∧ p'.thrs[0]? = some t' ∧
      sumLe ∈ p.prog.iqs ∧ HasRow p' t'.slv sumLe 0 ∧ Excluded p' t'.slv sumLe ∧ ¬ SameRow t.slv t'.slv 0 := by
  obtain ⟨p, p', g, ctl, gt, t, t', fuel, h⟩ := excl_example (opts := { propagateMode := .changed }) (stepOK_none rfl) (by decide +kernel)
  exact ⟨_, p, p', g, ctl, gt, t, t', fuel, rfl, h⟩

/-- The hypotheses of `C68_none` are met, and the excluded constraint is not propagated. -/
example : ∃ (opts : Options) (p p' : Propagator ℚ) (g : Ghost ℚ) (ctl : Ctl) (gt : GThr) (t t' : Thr ℚ) (fuel : ℕ), opts.propagateMode = .none ∧
    Reach .imath opts Intact p g ∧
      MayPropagate Intact p g ctl 0 [3] gt ∧ p.propagate fuel ctl 0 [3] = some (p', true) ∧ p.thrs[0]? = some t ∧ p'.thrs[0]? = some t' ∧
      sumLe ∈ p.prog.iqs ∧ HasRow p' t'.slv sumLe 0 ∧ Excluded p' t'.slv sumLe ∧ ¬ SameRow t.slv t'.slv 0 := by
  obtain ⟨p, p', g, ctl, gt, t, t', fuel, h⟩ := excl_example (opts := { propagateMode := .none }) (stepOK_none rfl) (by decide +kernel)
  exact ⟨_, p, p', g, ctl, gt, t, t', fuel, rfl, h⟩

end Lpx.Props
