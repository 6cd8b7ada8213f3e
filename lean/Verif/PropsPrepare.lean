import Verif.PropsViolations

/-!
# Properties of the preparation of constraints: C13, C18, C19, C20

These hold for every call of `init` in every history, without any restriction on the literals.
-/

set_option linter.unusedSectionVars false

namespace Lpx.Props
open Lpx Lpx.Witness

variable {V : Type} [LpFull V]

/-! ### C18: strict constraints -/

section
variable {Sym : Type}

/-- Specification: an epsilon valuation satisfies a constraint if the left-hand side is at most (at least) the right-hand
side, minus (plus) one epsilon if the constraint is strict. -/
def EpsHolds (g : Sym → RatQ) (x : Ineq Sym) : Prop :=
  match x.rel with
  | .le => evalV g x.lhs ≤ ⟨x.rhs, 0⟩
  | .ge => (⟨x.rhs, 0⟩ : RatQ) ≤ evalV g x.lhs
  | .eq => evalV g x.lhs = ⟨x.rhs, 0⟩
  | .lt => evalV g x.lhs ≤ ⟨x.rhs, -1⟩
  | .gt => (⟨x.rhs, 1⟩ : RatQ) ≤ evalV g x.lhs

/-- The bounds built by the code (`bound_val` and `bound_rel`) express exactly this. -/
theorem C18_bounds (g : Sym → RatQ) (x : Ineq Sym) :
    (boundRel x.rel).holds (evalV g x.lhs) (boundVal x.rhs x.rel) ↔ EpsHolds g x := by
  rw [boundVal_ratq]
  unfold EpsHolds
  cases x.rel <;> exact Iff.rfl

/-- C18: replacing epsilon by any small enough positive rational in an epsilon solution yields a rational solution. -/
theorem C18_small_epsilon (xs : List (Ineq Sym)) (g : Sym → RatQ) (h : ∀ x ∈ xs, EpsHolds g x) :
    ∃ δ : ℚ, 0 < δ ∧ ∀ e, 0 < e → e ≤ δ → ∀ x ∈ xs, x.holds fun y => (g y).c + (g y).k * e := by
  refine Small.list xs fun x hx => ?_
  have := bound_conc (supports_ratq x.rel) ((C18_bounds g x).2 (h x hx))
  refine this.mono fun e _ h => ?_
  rw [evalV_conc] at h
  exact h

/-- C18: a finite set of strict and non-strict constraints has a rational solution iff it has an epsilon solution. -/
theorem C18_strict_exact (xs : List (Ineq Sym)) :
    (∃ g : Sym → ℚ, ∀ x ∈ xs, x.holds g) ↔ ∃ g : Sym → RatQ, ∀ x ∈ xs, EpsHolds g x := by
  constructor
  · rintro ⟨g, h⟩
    refine ⟨fun y => ⟨g y, 0⟩, fun x hx => ?_⟩
    rw [← C18_bounds]
    have := (bound_ofRat (V := RatQ) (supports_ratq x.rel) (evalTerms g x.lhs) x.rhs).2 (h x hx)
    rw [← evalV_ofRat] at this
    exact this
  · rintro ⟨g, h⟩
    obtain ⟨δ, h1, h2⟩ := C18_small_epsilon xs g h
    exact ⟨_, h2 δ h1 le_rfl⟩

/-- `0 < x < 1` has the epsilon solution `x = epsilon`. -/
example : ∀ x ∈ [(⟨[⟨1, 0⟩], 0, .gt, 1⟩ : Ineq ℕ), ⟨[⟨1, 0⟩], 1, .lt, 2⟩], EpsHolds (fun _ => ⟨0, 1⟩) x := by
  simp only [List.mem_cons, List.not_mem_nil, or_false, forall_eq_or_imp, forall_eq, EpsHolds]
  decide +kernel

end

/-! ### C19: bounds on a single variable -/

/-- C19: dividing by the coefficient and flipping the relation iff it is negative does not change the solutions. -/
theorem C19_division (r : Relation) (a b x : ℚ) (ha : a ≠ 0) :
    (if a < 0 then r.invert else r).holds x (b / a) ↔ r.holds (a * x) b := Relation.div_holds r ha x b

section
variable {be : Backend} {opts : Options} {Q : Restr V} {p p' : Propagator V} {g : Ghost V}
  {mapper : ℤ → ℤ} {atoms : List TAtom} {envs : ℕ → InitEnv} {n : ℕ}

/-- What is known about a thread after `init`. -/
theorem init_thread (hr : Reach be opts Q p g) (hi : p.init be mapper atoms envs n = .ok (p', true)) {th : ℕ} {t : Thr V}
    (ht : p'.thrs[th]? = some t) :
    S.PrepOK (envs th) opts p'.lookup p'.varMap.length p'.prog.iqs p'.prog.objective (th == 0) t.slv ∧
      ∀ c ∈ t.slv.out, (th == 0) = true ∧ S.PreClause (envs th) opts p'.prog.iqs t.slv c := by
  obtain ⟨-, h2⟩ := hr.stat.init hi
  obtain ⟨-, ok', h3, h4⟩ := h2.prep th t ht
  exact ⟨h3.ok (h4 rfl), h3.out⟩

/-- C19: after `init`, each constraint `a*y rel b` over a single variable whose literal was not false is enforced as a bound
on the variable `y` itself that is satisfied by exactly the same rationals. -/
theorem C19_bounds_equivalent (hr : Reach be opts Q p g) (hi : p.init be mapper atoms envs n = .ok (p', true)) {th : ℕ} {t : Thr V}
    (ht : p'.thrs[th]? = some t) {x : Ineq Symbol} (hx : x ∈ p'.prog.iqs) (hs : Supports V x.rel) {a : ℚ} {y : Symbol} (hl : x.lhs = [⟨a, y⟩]) :
    (∃ O, O <+: t.slv.out ∧ (envs th).isFalse O x.lit = true) ∨
    ∃ bd ∈ t.slv.bounds, bd.lit = x.lit ∧ p'.lookup y = some bd.var ∧
      ∀ v : ℚ, bd.rel.holds (LpValue.ofRat v) bd.value ↔ x.rel.holds (a * v) x.rhs := by
  obtain ⟨h1, -⟩ := init_thread hr hi ht
  rcases h1.cov x hx (by rw [hl]; simp) with ⟨bd, hb, hrep⟩ | h
  · right
    cases hrep with
    | single a' y' hl' ha hlit hvar hval hrel =>
      rw [hl] at hl'
      simp only [List.cons.injEq, Term.mk.injEq, and_true] at hl'
      obtain ⟨rfl, rfl⟩ := hl'
      obtain ⟨j, hj, hv⟩ := hvar
      refine ⟨bd, hb, hlit, by rw [hv]; exact hj, fun v => ?_⟩
      rw [hrel, hval, bound_ofRat (hs.div a), Relation.div_holds _ ha]
    | row hlen _ _ _ _ _ => rw [hl] at hlen; simp at hlen
  · exact Or.inl h

/-! ### C13: conflicting pairs of bounds -/

/-- Two constraints exclude each other. -/
def Exclude (x x' : Ineq Symbol) : Prop := ∀ gv : Symbol → ℚ, ¬ (x.holds gv ∧ x'.holds gv)

/-- For bounds on the same program variable, `conflicts` tells whether the constraints exclude each other. -/
theorem conflicts_spec (hinj : IdxInj p.lookup) {size : ℕ} {E : (ℕ → V) → Prop} {x x' : Ineq Symbol} {bd bd' : Bound V}
    (hr : Represents p.lookup size E x bd) (hr' : Represents p.lookup size E x' bd') (hs : Supports V x.rel) (hs' : Supports V x'.rel)
    (hv : bd.var = bd'.var) {y : Symbol} (hx : OnVar x y) (hx' : OnVar x' y) :
    bd.conflicts bd' = true ↔ Exclude x x' := by
  obtain ⟨a, hl⟩ := hx
  obtain ⟨a', hl'⟩ := hx'
  cases hr with
  | row hlen _ _ _ _ _ => rw [hl] at hlen; simp at hlen
  | single b z e1 ha hlit hvar hval hrel =>
    rw [hl] at e1
    simp only [List.cons.injEq, Term.mk.injEq, and_true] at e1
    obtain ⟨rfl, rfl⟩ := e1
    cases hr' with
    | row hlen _ _ _ _ _ => rw [hl'] at hlen; simp at hlen
    | single b' z' e1' ha' hlit' hvar' hval' hrel' =>
      rw [hl'] at e1'
      simp only [List.cons.injEq, Term.mk.injEq, and_true] at e1'
      obtain ⟨rfl, rfl⟩ := e1'
      rw [Bound.conflicts_iff bd bd' hv]
      have hh : ∀ gv : Symbol → ℚ, x.holds gv ↔ (if a < 0 then x.rel.invert else x.rel).holds (gv y) (x.rhs / a) := by
        intro gv; rw [Relation.div_holds _ ha]; unfold Ineq.holds; rw [hl]; simp [evalTerms]
      have hh' : ∀ gv : Symbol → ℚ, x'.holds gv ↔ (if a' < 0 then x'.rel.invert else x'.rel).holds (gv y) (x'.rhs / a') := by
        intro gv; rw [Relation.div_holds _ ha']; unfold Ineq.holds; rw [hl']; simp [evalTerms]
      constructor
      · rintro h gv ⟨k1, k2⟩
        refine h (fun _ => LpValue.ofRat (gv y)) ⟨?_, ?_⟩
        · rw [Bound.holds_iff, hrel, hval, bound_ofRat (hs.div a), ← hh]; exact k1
        · rw [Bound.holds_iff, hrel', hval', bound_ofRat (hs'.div a'), ← hh']; exact k2
      · rintro h asg ⟨k1, k2⟩
        rw [Bound.holds_iff, hrel, hval] at k1
        rw [Bound.holds_iff, hrel', hval'] at k2
        obtain ⟨e, -, j1, j2⟩ := ((bound_conc (hs.div a) k1).and (bound_conc (hs'.div a') k2)).exists
        refine h (fun _ => LpSem.conc e (asg bd.var)) ⟨(hh _).2 j1, (hh' _).2 ?_⟩
        rw [hv]; exact j2

theorem Represents.onVar_of_var (hinj : IdxInj p.lookup) {size : ℕ} (hlt : ∀ y j, p.lookup y = some j → j < size) {E : (ℕ → V) → Prop} {x x' : Ineq Symbol} {bd bd' : Bound V}
    (hr : Represents p.lookup size E x bd) (hr' : Represents p.lookup size E x' bd') (hv : bd.var = bd'.var) (hs : bd.var < size) :
    ∃ y, OnVar x y ∧ OnVar x' y := by
  cases hr with
  | row _ hn _ _ _ _ => omega
  | single b z e1 ha hlit hvar hval hrel =>
    cases hr' with
    | row _ hn _ _ _ _ => omega
    | single b' z' e1' ha' hlit' hvar' hval' hrel' =>
      obtain ⟨j, hj, h1⟩ := hvar
      obtain ⟨j', hj', h1'⟩ := hvar'
      have : j = j' := by omega
      subst this
      have := hinj _ _ _ hj hj'
      subst this
      exact ⟨z, ⟨b, e1⟩, ⟨b', e1'⟩⟩

theorem bound_not_self (b : Bound V) : b.conflicts b = false := by
  cases h : b.conflicts b with
  | false => rfl
  | true =>
    refine absurd ⟨?_, ?_⟩ ((Bound.conflicts_iff b b rfl).1 h fun _ => b.value) <;>
    · rw [Bound.holds_iff]; unfold BRel.holds; cases b.rel <;> simp

theorem init_lookup (hr : Reach be opts Q p g) (hi : p.init be mapper atoms envs n = .ok (p', true)) :
    IdxInj p'.lookup ∧ ∀ y j, p'.lookup y = some j → j < p'.varMap.length := by
  have h := (hr.stat.init hi).1
  exact ⟨h.vars.inj, fun y j hj => h.vars.lt hj⟩

/-- C13, soundness and exactness: a clause added by `init` rejects a constraint without variables (see C20), or
`--propagate-conflicts` is enabled and it consists of the negated literals of two constraints over the same single variable that exclude
each other, that are not complementary, and the second of which was not false when the clause was added. -/
theorem C13_clauses (hr : Reach be opts Q p g) (hi : p.init be mapper atoms envs n = .ok (p', true))
    (hs : ∀ x ∈ p'.prog.iqs, Supports V x.rel) {c : List ℤ} (hc : c ∈ p'.clausesOf 0) :
    (∃ x ∈ p'.prog.iqs, x.lhs = [] ∧ c = [-x.lit]) ∨
    opts.propagateConflicts = true ∧ ∃ x ∈ p'.prog.iqs, ∃ x' ∈ p'.prog.iqs, ∃ y, OnVar x y ∧ OnVar x' y ∧ Exclude x x' ∧
      x.lit ≠ -x'.lit ∧ c = [-x.lit, -x'.lit] ∧ ∃ O, O <+: p'.clausesOf 0 ∧ (envs 0).isFalse O x'.lit = false := by
  cases ht : p'.thrs[0]? with
  | none => unfold Propagator.clausesOf at hc; rw [ht] at hc; simp at hc
  | some t =>
    rw [clausesOf_eq ht] at hc ⊢
    obtain ⟨h1, h2⟩ := init_thread hr hi ht
    obtain ⟨hinj, hlt⟩ := init_lookup hr hi
    obtain ⟨-, h3⟩ := h2 c hc
    cases h3 with
    | const x hx hl _ hcx => exact Or.inl ⟨x, hx, hl, hcx⟩
    | pair a b ba bb ho hab ha hb hv hne hcf hcx hnf =>
      right
      have ma := List.mem_of_getElem? ha
      have mb := List.mem_of_getElem? hb
      obtain ⟨x, hx, hrx⟩ := h1.src ba ma
      obtain ⟨x', hx', hrx'⟩ := h1.src bb mb
      have hsz : ba.var < p'.varMap.length := by
        by_contra hh
        have := h1.uniq ba ma bb mb hv (by omega)
        subst this
        rw [bound_not_self] at hcf; cases hcf
      obtain ⟨y, o1, o2⟩ := Represents.onVar_of_var hinj hlt hrx hrx' hv hsz
      refine ⟨ho, x, hx, x', hx', y, o1, o2, (conflicts_spec hinj hrx hrx' (hs x hx) (hs x' hx') hv o1 o2).1 hcf, ?_, ?_, ?_⟩
      · rw [← hrx.lit, ← hrx'.lit]; exact hne
      · rw [← hrx.lit, ← hrx'.lit]; exact hcx
      · rw [← hrx'.lit]; exact hnf

/-- C13, completeness: with `--propagate-conflicts`, for any two constraints over the same single variable that exclude each
other and are not complementary, `init` adds the binary clause, unless one of the literals was false already. -/
theorem C13_complete (hr : Reach be opts Q p g) (hi : p.init be mapper atoms envs n = .ok (p', true)) (hn : 0 < n)
    (ho : opts.propagateConflicts = true) {x x' : Ineq Symbol} (hx : x ∈ p'.prog.iqs) (hx' : x' ∈ p'.prog.iqs) (hs : Supports V x.rel)
    (hs' : Supports V x'.rel) {y : Symbol} (hy : OnVar x y) (hy' : OnVar x' y) (hex : Exclude x x') (hne : x.lit ≠ -x'.lit) :
    [-x.lit, -x'.lit] ∈ p'.clausesOf 0 ∨ [-x'.lit, -x.lit] ∈ p'.clausesOf 0 ∨
      ∃ O, O <+: p'.clausesOf 0 ∧ ((envs 0).isFalse O x.lit = true ∨ (envs 0).isFalse O x'.lit = true) := by
  have hnum := (hr.stat.init hi).2.num rfl
  obtain ⟨t, ht⟩ : ∃ t, p'.thrs[0]? = some t := ⟨_, List.getElem?_eq_getElem (by omega)⟩
  rw [clausesOf_eq ht]
  obtain ⟨h1, h2⟩ := init_thread hr hi ht
  obtain ⟨hinj, hlt⟩ := init_lookup hr hi
  rcases h1.cov x hx (by obtain ⟨a, h⟩ := hy; rw [h]; simp) with ⟨ba, ma, hrx⟩ | ⟨O, h, k⟩
  swap
  · exact Or.inr (Or.inr ⟨O, h, Or.inl k⟩)
  rcases h1.cov x' hx' (by obtain ⟨a, h⟩ := hy'; rw [h]; simp) with ⟨bb, mb, hrx'⟩ | ⟨O, h, k⟩
  swap
  · exact Or.inr (Or.inr ⟨O, h, Or.inr k⟩)
  have hv : ba.var = bb.var := by
    obtain ⟨a, hl⟩ := hy
    obtain ⟨a', hl'⟩ := hy'
    cases hrx with
    | row hlen _ _ _ _ _ => rw [hl] at hlen; simp at hlen
    | single b z e1 ha hlit hvar hval hrel =>
      rw [hl] at e1
      simp only [List.cons.injEq, Term.mk.injEq, and_true] at e1
      cases hrx' with
      | row hlen _ _ _ _ _ => rw [hl'] at hlen; simp at hlen
      | single b' z' e1' ha' hlit' hvar' hval' hrel' =>
        rw [hl'] at e1'
        simp only [List.cons.injEq, Term.mk.injEq, and_true] at e1'
        obtain ⟨j, hj, q1⟩ := hvar
        obtain ⟨j', hj', q1'⟩ := hvar'
        rw [← e1.2] at hj; rw [← e1'.2, hj] at hj'
        rw [q1, q1']; exact Option.some.inj hj'
  have hcf := (conflicts_spec hinj hrx hrx' hs hs' hv hy hy').2 hex
  have hcf' := (conflicts_spec hinj hrx' hrx hs' hs hv.symm hy' hy).2 (fun gv h => hex gv ⟨h.2, h.1⟩)
  obtain ⟨a, ha⟩ := List.mem_iff_getElem?.1 ma
  obtain ⟨b, hb⟩ := List.mem_iff_getElem?.1 mb
  have hl1 := hrx.lit
  have hl2 := hrx'.lit
  have hab : a ≠ b := by
    rintro rfl
    rw [ha] at hb
    obtain rfl := Option.some.inj hb
    rw [bound_not_self] at hcf; cases hcf
  rcases h1.conf rfl ho a b ba bb hab ha hb hv (by rw [hl1, hl2]; exact hne) hcf hcf' with (h | ⟨O, h, k⟩) | (h | ⟨O, h, k⟩)
  · left; rw [← hl1, ← hl2]; exact h
  · exact Or.inr (Or.inr ⟨O, h, Or.inr (by rw [← hl2]; exact k)⟩)
  · right; left; rw [← hl1, ← hl2]; exact h
  · exact Or.inr (Or.inr ⟨O, h, Or.inl (by rw [← hl1]; exact k)⟩)

/-- C13: the other threads add no clauses when they are initialised. -/
theorem C13_other_threads (hr : Reach be opts Q p g) (hi : p.init be mapper atoms envs n = .ok (p', true)) {th : ℕ} (hth : th ≠ 0) :
    p'.clausesOf th = [] := by
  cases ht : p'.thrs[th]? with
  | none => unfold Propagator.clausesOf; rw [ht]
  | some t =>
    rw [clausesOf_eq ht, List.eq_nil_iff_forall_not_mem]
    intro c hc
    obtain ⟨-, h2⟩ := init_thread hr hi ht
    have := (h2 c hc).1
    simp [hth] at this

/-! ### C20: constraints without variables -/

/-- C20 (partial: equations and comparisons with zero; `C20_false_constant_accepted_violation` and
`C20_true_constant_rejected_violation` refute the full property): for an arithmetically false constraint without variables,
`init` adds the clause that makes its literal false, unless it was false already. -/
theorem C20_false_constants_partial (hr : Reach be opts Q p g) (hi : p.init be mapper atoms envs n = .ok (p', true)) (hn : 0 < n)
    {x : Ineq Symbol} (hx : x ∈ p'.prog.iqs) (hl : x.lhs = []) (hc : x.rel = .eq ∨ x.rhs = 0) (hf : ∀ gv, ¬ x.holds gv) :
    [-x.lit] ∈ p'.clausesOf 0 ∨ ∃ O, O <+: p'.clausesOf 0 ∧ (envs 0).isFalse O x.lit = true := by
  have hnum := (hr.stat.init hi).2.num rfl
  obtain ⟨t, ht⟩ : ∃ t, p'.thrs[0]? = some t := ⟨_, List.getElem?_eq_getElem (by omega)⟩
  rw [clausesOf_eq ht]
  obtain ⟨h1, h2⟩ := init_thread hr hi ht
  refine h1.const rfl x hx hl ?_
  have := hf fun _ => 0
  simp only [Ineq.holds, hl, evalTerms, List.map_nil, List.sum_nil] at this
  rcases hc with he | he
  · rw [he] at this ⊢
    simp only [Relation.holds] at this
    simpa [constTest] using fun h => this h.symm
  · rw [he] at this ⊢
    cases hrel : x.rel <;> rw [hrel] at this <;> simp [constTest, Relation.holds] at this ⊢

/-- C20 (partial: as above): a clause consisting of one literal is only added by `init` for a constraint without variables
that is arithmetically false. -/
theorem C20_only_false_constants_partial (hr : Reach be opts Q p g) (hi : p.init be mapper atoms envs n = .ok (p', true))
    (hc : ∀ x ∈ p'.prog.iqs, x.lhs = [] → x.rel = .eq ∨ x.rhs = 0) {l : ℤ} (hcl : [l] ∈ p'.clausesOf 0) :
    ∃ x ∈ p'.prog.iqs, x.lhs = [] ∧ l = -x.lit ∧ ∀ gv, ¬ x.holds gv := by
  cases ht : p'.thrs[0]? with
  | none => unfold Propagator.clausesOf at hcl; rw [ht] at hcl; simp at hcl
  | some t =>
    rw [clausesOf_eq ht] at hcl
    obtain ⟨-, h3⟩ := (init_thread hr hi ht).2 _ hcl
    cases h3 with
    | pair a b ba bb ho hab ha hb hv hne hcf hcx hnf => simp at hcx
    | const x hx hl htest hcx =>
      refine ⟨x, hx, hl, by simpa using hcx, fun gv h => ?_⟩
      simp only [Ineq.holds, hl, evalTerms, List.map_nil, List.sum_nil] at h
      rcases hc x hx hl with he | he <;> rw [he] at h htest
      · simp only [Relation.holds] at h
        simp [constTest, ← h] at htest
      · cases hrel : x.rel <;> rw [hrel] at h htest <;> simp [constTest, Relation.holds] at h htest

/-- C20, what the code decides instead: it compares the sides in the wrong order. For a constraint `0 rel r` without variables,
`init` adds the clause making its literal false if `r rel 0` is false (unless the literal was false already); and a clause
consisting of one literal is only added for such a constraint. (`0 rel r` and `r rel 0` agree for equations
and for `r = 0`.) -/
theorem C20_sides_swapped (hr : Reach be opts Q p g) (hi : p.init be mapper atoms envs n = .ok (p', true)) (hn : 0 < n) :
    (∀ x ∈ p'.prog.iqs, x.lhs = [] → ¬ x.rel.holds x.rhs 0 →
      [-x.lit] ∈ p'.clausesOf 0 ∨ ∃ O, O <+: p'.clausesOf 0 ∧ (envs 0).isFalse O x.lit = true) ∧
    ∀ l : ℤ, [l] ∈ p'.clausesOf 0 → ∃ x ∈ p'.prog.iqs, x.lhs = [] ∧ l = -x.lit ∧ ¬ x.rel.holds x.rhs 0 := by
  have hnum := (hr.stat.init hi).2.num rfl
  obtain ⟨t, ht⟩ : ∃ t, p'.thrs[0]? = some t := ⟨_, List.getElem?_eq_getElem (by omega)⟩
  rw [clausesOf_eq ht]
  obtain ⟨h1, h2⟩ := init_thread hr hi ht
  refine ⟨fun x hx hl hf => h1.const rfl x hx hl ?_, fun l hcl => ?_⟩
  · cases hrel : x.rel <;> rw [hrel] at hf <;> simp [constTest, Relation.holds] at hf ⊢ <;> assumption
  · obtain ⟨-, h3⟩ := h2 _ hcl
    cases h3 with
    | pair a b ba bb ho hab ha hb hv hne hcf hcx hnf => simp at hcx
    | const x hx hl htest hcx =>
      refine ⟨x, hx, hl, by simpa using hcx, ?_⟩
      cases hrel : x.rel <;> rw [hrel] at htest <;> simp [constTest, Relation.holds] at htest ⊢ <;> assumption

end

/-! ### examples -/

/-- `x <= 1` and `x >= 2` exclude each other; `2 x >= 4` is equivalent to `x >= 2`; `&sum { } = 1` is false. The hypotheses of
the theorems above are met by the initialisation of this program. -/
example : ∃ p p' : Propagator ℚ, ∃ g, Reach .imath { propagateConflicts := true } Intact p g ∧
    p.init .imath id [sumAtom "x" "<=" 1 1, sumAtom "x" ">=" 2 2, constAtom "=" 1 3] (fun _ => env) 2 = .ok (p', true) ∧
    p'.clausesOf 0 = [[-3], [-1, -2]] ∧ p'.clausesOf 1 = [] := by
  have h : (match (Propagator.fresh { propagateConflicts := true } : Propagator ℚ).init .imath id
      [sumAtom "x" "<=" 1 1, sumAtom "x" ">=" 2 2, constAtom "=" 1 3] (fun _ => env) 2 with
    | .ok r => r.2 && decide (r.1.clausesOf 0 = [[-3], [-1, -2]]) && decide (r.1.clausesOf 1 = [])
    | .error _ => false) = true := by decide +kernel
  split at h
  · rename_i r hr
    obtain ⟨p', ok⟩ := r
    simp only [Bool.and_eq_true, decide_eq_true_eq] at h
    obtain ⟨⟨rfl, h1⟩, h2⟩ := h
    exact ⟨_, p', _, .start, hr, h1, h2⟩
  · cases h

end Lpx.Props
