import Verif.PropsExactly
import Verif.PropsViolations

/-!
# C67: the reasons for conflicts are irreducible

Every clause a thread adds is an objective cut, excludes the literal of a constraint without variables, or consists of the negated literals of a set of
constraints and cuts that is contradictory and irreducible: after dropping any one of them, the others have a common solution.
-/

set_option linter.unusedSectionVars false

namespace Lpx.Props
open Lpx Lpx.Witness

variable {V : Type} [LpFull V]

/-- The constraints in `R` hold and the objective reaches the values of the cuts in `U`, for values in `V` (see `HoldsMargin`). -/
def Meets (objective : List (Term Symbol)) (R : Ineq Symbol → Prop) (U : ℤ × V → Prop) (gv : Symbol → V) : Prop :=
  (∀ x, R x → HoldsMargin gv x) ∧ ∀ u, U u → u.2 ≤ evalV gv objective

/-- The constraints in `R` and the cuts in `U` have no common solution, but all of them except an arbitrary one have. -/
structure Irreducible (objective : List (Term Symbol)) (R : Ineq Symbol → Prop) (U : ℤ × V → Prop) : Prop where
  unsat : ¬ ∃ gv, Meets objective R U gv
  dropConstraint : ∀ x, R x → ∃ gv, Meets objective (fun y => R y ∧ y ≠ x) U gv
  dropCut : ∀ u, U u → ∃ gv, Meets objective R (fun v => U v ∧ v ≠ u) gv

/-- The clause consists of the negated literals of constraints and cuts that contradict each other irreducibly. -/
def Reason (iqs : List (Ineq Symbol)) (cuts : List (ℤ × V)) (objective : List (Term Symbol)) (c : List ℤ) : Prop :=
  ∃ (R : Ineq Symbol → Prop) (U : ℤ × V → Prop), (∀ x, R x → x ∈ iqs ∧ x.lhs ≠ []) ∧ (∀ u, U u → u ∈ cuts) ∧
    (∀ l, l ∈ c ↔ (∃ x, R x ∧ l = -x.lit) ∨ ∃ u, U u ∧ l = -u.1) ∧ Irreducible objective R U

/-- The same for rational values and without cuts. -/
def RatReason (iqs : List (Ineq Symbol)) (c : List ℤ) : Prop :=
  ∃ R : Ineq Symbol → Prop, (∀ x, R x → x ∈ iqs ∧ x.lhs ≠ []) ∧ (∀ l, l ∈ c ↔ ∃ x, R x ∧ l = -x.lit) ∧
    (¬ ∃ gv : Symbol → ℚ, ∀ x, R x → x.holds gv) ∧ ∀ x, R x → ∃ gv : Symbol → ℚ, ∀ y, R y → y ≠ x → y.holds gv

section
variable {be : Backend} {opts : Options} {p : Propagator V} {g : Ghost V}

/-- A linear expression with variables takes all values. -/
theorem exists_evalV {idx : Symbol → Option ℕ} {size : ℕ} (hinj : IdxInj idx) {ts : List (Term Symbol)} (hn : NF idx size ts) (hne : ts ≠ []) (v : V) :
    ∃ f : ℕ → V, evalV (fun y => f (ix idx y)) ts = v := by
  obtain ⟨nd, nz, kn⟩ := hn
  cases ts with
  | nil => exact absurd rfl hne
  | cons t ts =>
    refine ⟨fun j => if j = ix idx t.var then t.co⁻¹ • v else 0, ?_⟩
    have h0 : evalV (fun y => if ix idx y = ix idx t.var then t.co⁻¹ • v else 0) ts = evalV (fun _ => (0 : V)) ts := by
      refine evalV_congr fun u hu => if_neg fun he => ?_
      obtain ⟨j, hj, -⟩ := kn t (by simp)
      obtain ⟨k, hk, -⟩ := kn u (by simp [hu])
      simp only [ix, hj, hk, Option.getD_some] at he
      subst he
      rw [List.map_cons, List.nodup_cons] at nd
      exact nd.1 (List.mem_map.2 ⟨u, hu, hinj _ _ _ hk hj⟩)
    have h1 : evalV (fun _ => (0 : V)) ts = 0 := by
      unfold evalV
      exact List.sum_eq_zero fun x hx => by
        obtain ⟨u, -, rfl⟩ := List.mem_map.1 hx
        exact smul_zero _
    have h2 : ∀ f : Symbol → V, evalV f (t :: ts) = t.co • f t.var + evalV f ts := fun f => by simp [evalV]
    rw [h2, h0, h1]
    simp only [if_true]
    rw [smul_smul, mul_inv_cancel₀ (nz t (by simp)), one_smul, add_zero]

theorem _root_.Lpx.Represents.lhs {idx : Symbol → Option ℕ} {size : ℕ} {E : (ℕ → V) → Prop} {x : Ineq Symbol} {bd : Bound V}
    (h : Represents idx size E x bd) : x.lhs ≠ [] := by
  cases h with
  | single a y hl _ _ _ _ _ => rw [hl]; simp
  | row hl _ _ _ _ _ => intro h0; rw [h0] at hl; simp at hl

/-- A bound of a constraint or cut can be met. -/
theorem _root_.Lpx.SysInv.single (hi : SysInv opts p g) (hlv : g.failed = false) {E0 : (ℕ → V) → Prop}
    (hext : ∀ g : ℕ → V, ∃ asg, E0 asg ∧ ∀ j, j < p.varMap.length → asg j = g j) {bv : ℕ} {bd : Bound V}
    (hsrc : (∃ x ∈ p.prog.iqs, Represents p.lookup p.varMap.length E0 x bd) ∨
      (IsCut opts p.prog g.reported bv bd ∧ ∀ asg, E0 asg → asg bv = evalV (fun y => asg (ix p.lookup y)) p.prog.objective)) :
    ∃ asg, E0 asg ∧ bd.Holds asg := by
  have hof : ∀ {asg : ℕ → V}, asg bd.var = bd.value → bd.Holds asg := fun h => Bound.holds_of (fun _ => h.le) (fun _ => h.ge)
  have hrow : ∀ ts : List (Term Symbol), NF p.lookup p.varMap.length ts → ts ≠ [] →
      (∀ asg, E0 asg → asg bd.var = evalV (fun y => asg (ix p.lookup y)) ts) → ∃ asg, E0 asg ∧ bd.Holds asg := by
    intro ts hn hne hv
    obtain ⟨f, hf⟩ := exists_evalV hi.inj hn hne bd.value
    obtain ⟨asg, h1, h2⟩ := hext f
    refine ⟨asg, h1, hof ?_⟩
    rw [hv asg h1, evalV_congr (g' := fun y => f (ix p.lookup y)), hf]
    intro u hu
    obtain ⟨j, hj, hlt⟩ := hn.known u hu
    simp only [ix, hj, Option.getD_some]
    exact h2 j hlt
  rcases hsrc with ⟨x, hx, hr⟩ | ⟨hcut, hv⟩
  · have hne := hr.lhs
    cases hr with
    | single a y hl ha hlit hvar hval hrel =>
      obtain ⟨j, hj, hv⟩ := hvar
      obtain ⟨asg, h1, h2⟩ := hext fun _ => bd.value
      exact ⟨asg, h1, hof (by rw [hv, h2 j (hi.idxLt y j hj)])⟩
    | row hlen hnew hlit hval hrel hvar => exact hrow x.lhs (hi.nf hlv x hx) hne hvar
  · exact hrow _ (hi.onf hlv) hcut.obj (by rw [hcut.var]; exact hv)

/-- The test for constraints without variables; note that the sides are swapped (Finding 2). -/
theorem constTest_spec {r : Relation} {q : ℚ} (h : constTest r q = true) : ¬ r.holds q 0 := by
  cases r <;> simpa [constTest, Relation.holds] using h

/-- Where clauses come from. -/
theorem _root_.Lpx.SysInv.reason (h : SysInv opts p g) (hlv : g.failed = false) {th : ℕ} {c : List ℤ} (hcl : c ∈ p.clausesOf th) :
    (∃ u ∈ p.cutsOf th, c = [u.1]) ∨ (∃ x ∈ p.prog.iqs, x.lhs = [] ∧ ¬ x.rel.holds x.rhs 0 ∧ c = [-x.lit]) ∨
      Reason p.prog.iqs (p.cutsOf th) p.prog.objective c := by
  unfold Propagator.clausesOf at hcl
  cases ht : p.thrs[th]? with
  | none => rw [ht] at hcl; simp at hcl
  | some t =>
    rw [ht] at hcl
    obtain ⟨E0, bv, h1, h2, h3⟩ := h.outs hlv t (List.mem_of_getElem? ht)
    cases h3 c hcl with
    | const x hx hl htest hcx => exact Or.inr (Or.inl ⟨x, hx, hl, constTest_spec htest, hcx⟩)
    | cut bd hb hcut hcx => exact Or.inl ⟨(bd.lit, bd.value), hcut.mem_cutsOf ht hb, hcx⟩
    | valid hv =>
      rcases h2 with h2 | hext
      · obtain ⟨x, k1, k2, k3, k4⟩ := h2 c hcl
        exact Or.inr (Or.inl ⟨x, k1, k2, constTest_spec k3, k4⟩)
      right; right
      obtain ⟨R, hR⟩ := hv
      -- dropping one bound
      have hmin : ∀ bd, R bd → ∃ asg, E0 asg ∧ ∀ bd', R bd' → bd' ≠ bd → bd'.Holds asg := by
        rcases hR.min with ⟨a, b, hab⟩ | hm
        · have key : ∀ d e, R d → (∀ bd', R bd' → bd' = d ∨ bd' = e) → ∃ asg, E0 asg ∧ ∀ bd', R bd' → bd' ≠ d → bd'.Holds asg := by
            intro d e hd hde
            by_cases he : R e
            · obtain ⟨asg, k1, k2⟩ := h.single hlv hext (h1 e (hR.sub e he))
              refine ⟨asg, k1, fun bd' hb hne => ?_⟩
              rcases hde bd' hb with rfl | rfl
              · exact absurd rfl hne
              · exact k2
            · obtain ⟨asg, k1, -⟩ := hext fun _ => 0
              refine ⟨asg, k1, fun bd' hb hne => ?_⟩
              rcases hde bd' hb with rfl | rfl
              · exact absurd rfl hne
              · exact absurd hb he
          intro bd hbd
          rcases hab bd hbd with rfl | rfl
          · exact key _ _ hbd hab
          · exact key _ a hbd fun bd' hb => (hab bd' hb).symm
        · exact hm
      -- a constraint for each bound
      have hch : ∀ bd : Bound V, ∃ x : Option (Ineq Symbol), R bd → match x with
          | some x => x ∈ p.prog.iqs ∧ Represents p.lookup p.varMap.length E0 x bd
          | none => IsCut opts p.prog g.reported bv bd ∧ ∀ asg, E0 asg → asg bv = evalV (fun y => asg (ix p.lookup y)) p.prog.objective := by
        intro bd
        by_cases hb : R bd
        · rcases h1 bd (hR.sub bd hb) with ⟨x, hx, hr⟩ | hc
          · exact ⟨some x, fun _ => ⟨hx, hr⟩⟩
          · exact ⟨none, fun _ => hc⟩
        · exact ⟨none, fun h => absurd h hb⟩
      choose src hsrc using hch
      have hsome : ∀ {bd x}, R bd → src bd = some x → x ∈ p.prog.iqs ∧ Represents p.lookup p.varMap.length E0 x bd := by
        intro bd x hb hx
        have := hsrc bd hb; rw [hx] at this; exact this
      have hnone : ∀ {bd}, R bd → src bd = none → IsCut opts p.prog g.reported bv bd ∧
          ∀ asg, E0 asg → asg bv = evalV (fun y => asg (ix p.lookup y)) p.prog.objective := by
        intro bd hb hx
        have := hsrc bd hb; rw [hx] at this; exact this
      -- points and values of symbols
      have hcutv : ∀ {bd : Bound V} {asg : ℕ → V}, R bd → src bd = none → E0 asg →
          (bd.Holds asg ↔ bd.value ≤ evalV (fun y => asg (ix p.lookup y)) p.prog.objective) := by
        intro bd asg hb hx hE
        obtain ⟨k1, k2⟩ := hnone hb hx
        rw [Bound.holds_iff, k1.rel, k1.var, ← k2 asg hE]; rfl
      have hlift : ∀ gv : Symbol → V, ∃ asg, E0 asg ∧ ∀ y j, p.lookup y = some j → asg j = gv y := by
        intro gv
        obtain ⟨asg, k1, k2⟩ := hext fun j => ((p.varVec[j]?).map gv).getD 0
        refine ⟨asg, k1, fun y j hy => ?_⟩
        rw [k2 j (h.vars.lt hy), (h.vars.lookup y j).1 hy]; rfl
      refine ⟨fun x => ∃ bd, R bd ∧ src bd = some x, fun u => ∃ bd, R bd ∧ src bd = none ∧ u = (bd.lit, bd.value), ?_, ?_, ?_, ?_, ?_, ?_⟩
      · rintro x ⟨bd, hb, hx⟩
        obtain ⟨k1, k2⟩ := hsome hb hx
        exact ⟨k1, k2.lhs⟩
      · rintro u ⟨bd, hb, hx, rfl⟩
        exact (hnone hb hx).1.mem_cutsOf ht (hR.sub bd hb)
      · intro l
        rw [hR.lits]
        constructor
        · rintro ⟨bd, hb, rfl⟩
          cases hx : src bd with
          | some x => exact Or.inl ⟨x, ⟨bd, hb, hx⟩, by rw [(hsome hb hx).2.lit]⟩
          | none => exact Or.inr ⟨_, ⟨bd, hb, hx, rfl⟩, rfl⟩
        · rintro (⟨x, ⟨bd, hb, hx⟩, rfl⟩ | ⟨u, ⟨bd, hb, hx, rfl⟩, rfl⟩)
          · exact ⟨bd, hb, by rw [(hsome hb hx).2.lit]⟩
          · exact ⟨bd, hb, rfl⟩
      · rintro ⟨gv, hgc, hgu⟩
        obtain ⟨asg, hE, hasg⟩ := hlift gv
        refine hR.unsat asg hE fun bd hb => ?_
        cases hx : src bd with
        | some x =>
          obtain ⟨k1, k2⟩ := hsome hb hx
          exact (k2.exactly hE (liftV_terms hasg (h.nf hlv x k1))).2 (hgc x ⟨bd, hb, hx⟩)
        | none =>
          rw [hcutv hb hx hE, evalV_congr (liftV_terms hasg (h.onf hlv))]
          exact hgu _ ⟨bd, hb, hx, rfl⟩
      · rintro x ⟨bd, hb, hx⟩
        obtain ⟨asg, hE, hall⟩ := hmin bd hb
        refine ⟨fun y => asg (ix p.lookup y), ?_, ?_⟩
        · rintro y ⟨⟨bd', hb', hy⟩, hne⟩
          exact ((hsome hb' hy).2.exactly hE fun _ _ => rfl).1
            (hall bd' hb' fun he => hne (by rw [he, hx] at hy; exact (Option.some.inj hy).symm))
        · rintro u ⟨bd', hb', hy, rfl⟩
          exact (hcutv hb' hy hE).1 (hall bd' hb' fun he => by rw [he, hx] at hy; cases hy)
      · rintro u ⟨bd, hb, hx, rfl⟩
        obtain ⟨asg, hE, hall⟩ := hmin bd hb
        refine ⟨fun y => asg (ix p.lookup y), ?_, ?_⟩
        · rintro y ⟨bd', hb', hy⟩
          exact ((hsome hb' hy).2.exactly hE fun _ _ => rfl).1 (hall bd' hb' fun he => by rw [he, hx] at hy; cases hy)
        · rintro u ⟨⟨bd', hb', hy, rfl⟩, hne⟩
          exact (hcutv hb' hy hE).1 (hall bd' hb' fun he => hne (by rw [he]))

/-- C67 (partial: `Intact`). -/
theorem C67_reasons_partial (hq : StepOK V opts) (hr : Reach be opts Intact p g) (hlv : g.failed = false) {th : ℕ} {c : List ℤ} (hcl : c ∈ p.clausesOf th) :
    (∃ u ∈ p.cutsOf th, c = [u.1]) ∨ (∃ x ∈ p.prog.iqs, x.lhs = [] ∧ ¬ x.rel.holds x.rhs 0 ∧ c = [-x.lit]) ∨
      Reason p.prog.iqs (p.cutsOf th) p.prog.objective c :=
  (hr.inv hq).reason hlv hcl

/-- A set of constraints without cuts: rational solutions exist if and only if solutions in `V` exist. -/
theorem ratSolves_iff {iqs : List (Ineq Symbol)} (hs : ∀ x ∈ iqs, Supports V x.rel) (hn : ∀ x ∈ iqs, ∀ a y, x.lhs = [⟨a, y⟩] → a ≠ 0)
    {R : Ineq Symbol → Prop} (hR : ∀ x, R x → x ∈ iqs) :
    (∃ gv : Symbol → V, ∀ x, R x → HoldsMargin gv x) ↔ ∃ gv : Symbol → ℚ, ∀ x, R x → x.holds gv := by
  constructor
  · rintro ⟨gv, h⟩
    have h1 : Small fun e => ∀ x ∈ iqs, R x → x.holds fun y => LpSem.conc e (gv y) := by
      refine Small.list _ fun x hx => ?_
      by_cases hx' : R x
      · refine Small.mono (?_ : Small fun e => x.holds fun y => LpSem.conc e (gv y)) fun e _ h _ => h
        have hh := h x hx'
        have hm : 0 < margin x.lhs := by
          unfold margin
          split
          · rename_i t ht; exact abs_pos.2 (hn x hx t.co t.var ht)
          · exact one_pos
        unfold HoldsMargin at hh
        unfold Ineq.holds
        have hstr : ∀ {a : V} {b : V}, LpSem.strict V = true → a + margin x.lhs • LpValue.eps ≤ b → a < b := fun hst hab =>
          lt_of_lt_of_le (lt_add_of_pos_right _ (smul_pos hm (LpSem.eps_pos hst))) hab
        cases hrel : x.rel <;> rw [hrel] at hh <;> simp only at hh
        · refine (conc_le hh).mono fun e _ k => ?_
          rw [LpSem.conc_ofRat, evalV_conc] at k; exact k
        · refine (conc_le hh).mono fun e _ k => ?_
          rw [LpSem.conc_ofRat, evalV_conc] at k; exact k
        · refine Small.of_all fun e _ => ?_
          have := congrArg (LpSem.conc e) hh
          rw [LpSem.conc_ofRat, evalV_conc] at this; exact this
        · refine Small.mono (show Small _ from LpSem.conc_lt _ _ (hstr (hs x hx (Or.inl hrel)) hh)) fun e _ k => ?_
          rw [LpSem.conc_ofRat, evalV_conc] at k; exact k
        · refine Small.mono (show Small _ from LpSem.conc_lt _ _ (hstr (hs x hx (Or.inr hrel)) hh)) fun e _ k => ?_
          rw [LpSem.conc_ofRat, evalV_conc] at k; exact k
      · exact Small.of_all fun _ _ h => absurd h hx'
    obtain ⟨e, -, h2⟩ := h1.exists
    exact ⟨_, fun x hx => h2 x (hR x hx) hx⟩
  · rintro ⟨gv, h⟩
    exact ⟨_, fun x hx => (holdsMargin_rat (hs x (hR x hx)) (hn x (hR x hx)) gv).2 (h x hx)⟩

theorem _root_.Lpx.SysInv.ratReason (h : SysInv opts p g) (hlv : g.failed = false) (hg : opts.globalObjective = none) (hs : ∀ x ∈ p.prog.iqs, Supports V x.rel) {th : ℕ}
    {c : List ℤ} (hcl : c ∈ p.clausesOf th) :
    (∃ x ∈ p.prog.iqs, x.lhs = [] ∧ ¬ x.rel.holds x.rhs 0 ∧ c = [-x.lit]) ∨ RatReason p.prog.iqs c := by
  have hno := h.noCuts hlv hg th
  have hn : ∀ x ∈ p.prog.iqs, ∀ a y, x.lhs = [⟨a, y⟩] → a ≠ 0 := fun x hx a y hl => (h.nf hlv x hx).nz ⟨a, y⟩ (by rw [hl]; simp)
  rcases h.reason hlv hcl with ⟨u, hu, -⟩ | hc | ⟨R, U, h1, h2, h3, h4⟩
  · rw [hno] at hu; cases hu
  · exact Or.inl hc
  · right
    have hU : ∀ u, ¬ U u := fun u hu => by have := h2 u hu; rw [hno] at this; cases this
    have hR : ∀ x, R x → x ∈ p.prog.iqs := fun x hx => (h1 x hx).1
    refine ⟨R, h1, fun l => ?_, fun hsol => ?_, fun x hx => ?_⟩
    · rw [h3]
      exact ⟨fun h => h.resolve_right fun ⟨u, hu, _⟩ => hU u hu, Or.inl⟩
    · obtain ⟨gv, hgv⟩ := (ratSolves_iff (V := V) hs hn hR).2 hsol
      exact h4.unsat ⟨gv, hgv, fun u hu => absurd hu (hU u)⟩
    · obtain ⟨gv, hgv, -⟩ := h4.dropConstraint x hx
      obtain ⟨gv', hgv'⟩ := (ratSolves_iff (V := V) hs hn (R := fun y => R y ∧ y ≠ x) fun y hy => hR y hy.1).1 ⟨gv, hgv⟩
      exact ⟨gv', fun y hy hne => hgv' y ⟨hy, hne⟩⟩

/-- C67 (partial: `Intact`) for rational values, if there are no cuts. -/
theorem C67_rational_partial (hq : StepOK V opts) (hg : opts.globalObjective = none) (hr : Reach be opts Intact p g) (hlv : g.failed = false)
    (hs : ∀ x ∈ p.prog.iqs, Supports V x.rel) {th : ℕ} {c : List ℤ} (hcl : c ∈ p.clausesOf th) :
    (∃ x ∈ p.prog.iqs, x.lhs = [] ∧ ¬ x.rel.holds x.rhs 0 ∧ c = [-x.lit]) ∨ RatReason p.prog.iqs c :=
  (hr.inv hq).ratReason hlv hg hs hcl

/-- C67 (partial: `Intact`), for the clause: if different constraints have different literals then no literal of a clause of at least two literals can be
dropped; the constraints of the other literals have a common solution. -/
theorem C67_no_redundant_literal_partial (hq : StepOK V opts) (hg : opts.globalObjective = none) (hr : Reach be opts Intact p g) (hlv : g.failed = false)
    (hs : ∀ x ∈ p.prog.iqs, Supports V x.rel) (hd : ∀ x ∈ p.prog.iqs, ∀ y ∈ p.prog.iqs, x.lit = y.lit → x = y) {th : ℕ} {c : List ℤ}
    (hcl : c ∈ p.clausesOf th) {l : ℤ} (hl : l ∈ c) (htwo : ∃ l' ∈ c, l' ≠ l) :
    ∃ gv : Symbol → ℚ, Solves p.prog.iqs (fun k => -k ∈ c ∧ -k ≠ l) gv := by
  rcases C67_rational_partial hq hg hr hlv hs hcl with ⟨x, -, -, -, rfl⟩ | ⟨R, h1, h2, -, h4⟩
  · obtain ⟨l', h1, h2⟩ := htwo
    rw [List.mem_singleton] at hl h1
    exact absurd (h1.trans hl.symm) h2
  · obtain ⟨x, hx, rfl⟩ := (h2 l).1 hl
    obtain ⟨gv, hgv⟩ := h4 x hx
    refine ⟨gv, fun y hy ⟨hc, hne⟩ => ?_⟩
    obtain ⟨z, hz, he⟩ := (h2 _).1 hc
    obtain rfl := hd y hy z (h1 z hz).1 (neg_inj.1 he)
    exact hgv y hz fun he' => hne (by rw [he'])

/-- C67 for programs without mixed equations (see C45) and all histories. -/
theorem C67_unmixed (hq : StepOK V opts) {Q : Restr V} (hr : Reach be opts Q p g) (hlv : g.failed = false) (hu : Unmixed p.prog.iqs) {th : ℕ} {c : List ℤ}
    (hcl : c ∈ p.clausesOf th) :
    (∃ u ∈ p.cutsOf th, c = [u.1]) ∨ (∃ x ∈ p.prog.iqs, x.lhs = [] ∧ ¬ x.rel.holds x.rhs 0 ∧ c = [-x.lit]) ∨
      Reason p.prog.iqs (p.cutsOf th) p.prog.objective c :=
  C67_reasons_partial hq (hu.reach hq hr) hlv hcl

end

/-- C67 is violated without the assumption `Intact` (Finding 1): the clause `[-4, -2]` is added, but the constraints of 4 and 2 have a common solution. -/
theorem C67_violation : ∃ p g, Reach .imath {} (AnyLits (V := ℚ)) p g ∧ (∀ x ∈ p.prog.iqs, Supports ℚ x.rel) ∧ ∃ c ∈ p.clausesOf 0,
    ¬ ((∃ x ∈ p.prog.iqs, x.lhs = [] ∧ ¬ x.rel.holds x.rhs 0 ∧ c = [-x.lit]) ∨ RatReason p.prog.iqs c) := by
  obtain ⟨p, g, h1, -, h2⟩ := exists_reach (V := ℚ) (be := .imath) (mode := .any) (opts := {})
    [.init prog2 1, .prop 0 0 [1, 2] true, .prop 1 0 [3] true, .undo 0, .prop 1 0 [4] true]
    (P := fun p _ => noStrict p.prog && decide ([-4, -2] ∈ p.clausesOf 0) && p.prog.iqs.all fun x =>
      decide (x.lit ∈ ([4, 2] : List ℤ) → x.holds fun _ => 1)) (by decide +kernel)
  simp only [Bool.and_eq_true, decide_eq_true_eq, List.all_eq_true] at h2
  obtain ⟨⟨h3, h4⟩, h5⟩ := h2
  refine ⟨p, g, h1, noStrict_spec h3, _, h4, ?_⟩
  rintro (⟨x, -, -, -, hx⟩ | ⟨R, k1, k2, k3, -⟩)
  · exact absurd (congrArg List.length hx) (by simp)
  · refine k3 ⟨fun _ => 1, fun x hx => h5 x (k1 x hx).1 ?_⟩
    have := (k2 _).2 ⟨x, hx, rfl⟩
    simp only [List.mem_cons, List.not_mem_nil, or_false, neg_inj] at this ⊢
    exact this

/-! ### The hypotheses are met -/

/-- A conflict between `x + y <= 5`, `x >= 4` and `y >= 2`. -/
example : ∃ (p : Propagator ℚ) (g : Ghost ℚ), StepOK ℚ {} ∧ Reach .imath {} Intact p g ∧ g.failed = false ∧ (∀ x ∈ p.prog.iqs, Supports ℚ x.rel) ∧
    (∀ x ∈ p.prog.iqs, ∀ y ∈ p.prog.iqs, x.lit = y.lit → x = y) ∧ Unmixed p.prog.iqs ∧ [-2, -4, -3] ∈ p.clausesOf 0 := by
  obtain ⟨p, g, h1, -, h2⟩ := exists_reach (V := ℚ) (be := .imath) (mode := .intact) (opts := {})
    [.init prog4 1, .prop 1 0 [1, 2, 3] true, .prop 2 0 [4] true]
    (P := fun p g => !g.failed && noStrict p.prog && decide ([-2, -4, -3] ∈ p.clausesOf 0) && unmixedB p.prog.iqs && p.prog.iqs.all fun x =>
      p.prog.iqs.all fun y => decide (x.lit = y.lit → x = y)) (by decide +kernel)
  simp only [Bool.and_eq_true, decide_eq_true_eq, List.all_eq_true, Bool.not_eq_true'] at h2
  obtain ⟨⟨⟨⟨h0, h3⟩, h4⟩, h6⟩, h5⟩ := h2
  exact ⟨p, g, (fun q hq => by cases hq), h1, h0, noStrict_spec h3, h5, unmixedB_spec h6, h4⟩

/-- A conflict between the strict constraint `x < 3` and the cut `4 - e`. -/
example : ∃ (p : Propagator RatQ) (g : Ghost RatQ), StepOK RatQ globOpts ∧ Reach .imath globOpts Intact p g ∧ g.failed = false ∧
    [1000] ∈ p.clausesOf 0 ∧ [-1, -1000] ∈ p.clausesOf 0 ∧ p.cutsOf 0 = [(1000, ⟨4, -1⟩)] := by
  obtain ⟨p, g, h1, -, h2⟩ := exists_reach (V := RatQ) (be := .imath) (mode := .intact) (opts := globOpts)
    [.init strictProg 1, .prop 1 0 [1] true, .check 1 true 0, .model 0, .undo 0, .check 0 false 0, .prop 0 0 [1000] true, .prop 1 0 [1] true]
    (P := fun p g => decide (g.failed = false ∧ [1000] ∈ p.clausesOf 0) && decide ([-1, -1000] ∈ p.clausesOf 0) && decide (p.cutsOf 0 = [(1000, ⟨4, -1⟩)]))
    (by decide +kernel)
  simp only [Bool.and_eq_true, decide_eq_true_eq] at h2
  exact ⟨p, g, globOpts_stepQ, h1, h2.1.1.1, h2.1.1.2, h2.1.2, h2.2⟩

end Lpx.Props
