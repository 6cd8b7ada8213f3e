import Verif.Literals
import Verif.PropsUnit

/-!
# The theory only rules out constraints that hold (C77)
-/

set_option linter.unusedSectionVars false

namespace Lpx.Props
open Lpx Lpx.Witness

variable {V : Type} [LpFull V] {be : Backend} {opts : Options} {Q : Restr V} {p : Propagator V} {g : Ghost V}

/-- The literals of the clauses and bounds of a thread. -/
structure LitInv (opts : Options) (iqs : List (Ineq Symbol)) (s : S V) : Prop where
  out : ∀ c ∈ s.out, (∃ bd ∈ s.bounds, c = [bd.lit] ∧ ∀ x ∈ iqs, x.lit ≠ bd.lit) ∨
    c ≠ [] ∧ ∀ l ∈ c, (∃ x ∈ iqs, l = -x.lit) ∨ ∃ bd ∈ s.bounds, l = -bd.lit
  none : opts.globalObjective = Option.none → ∀ bd ∈ s.bounds, ∃ x ∈ iqs, bd.lit = x.lit

theorem LitInv.congr {iqs : List (Ineq Symbol)} {s t : S V} (h : LitInv opts iqs s) (ho : t.out = s.out) (hb : t.bounds = s.bounds) : LitInv opts iqs t :=
  ⟨by rw [ho, hb]; exact h.out, by rw [hb]; exact h.none⟩

theorem LitInv.neg {iqs : List (Ineq Symbol)} {s t : S V} (h : LitInv opts iqs s) (k : S.Neg s t) : LitInv opts iqs t := by
  obtain ⟨k1, cs, k2, k3⟩ := k
  refine ⟨fun c hc => ?_, by rw [k1]; exact h.none⟩
  rw [k2] at hc
  rw [k1]
  rcases List.mem_append.1 hc with hc | hc
  · exact h.out c hc
  · exact Or.inr ⟨(k3 c hc).1, fun l hl => Or.inr ((k3 c hc).2 l hl)⟩

theorem LitInv.prep {env : InitEnv} {idx : Symbol → Option ℕ} {size : ℕ} {iqs : List (Ineq Symbol)} {objective : List (Term Symbol)} {master : Bool}
    {r : S V × Bool} (h : S.PrepRes env opts idx size iqs objective master r) : LitInv opts iqs r.1 := by
  refine ⟨fun c hc => Or.inr ?_, fun _ bd hbd => ?_⟩
  · cases (h.out c hc).2 with
    | const x hx _ _ hc =>
      subst hc
      exact ⟨by simp, fun l hl => Or.inl ⟨x, hx, List.mem_singleton.1 hl⟩⟩
    | pair a b ba bb _ _ ha hb _ _ _ hc _ =>
      subst hc
      refine ⟨by simp, fun l hl => Or.inr ?_⟩
      rcases List.mem_cons.1 hl with rfl | hl
      · exact ⟨ba, List.mem_of_getElem? ha, rfl⟩
      · exact ⟨bb, List.mem_of_getElem? hb, List.mem_singleton.1 hl⟩
  · obtain ⟨x, hx, hr⟩ := h.src bd hbd
    exact ⟨x, hx, by cases hr <;> assumption⟩

/-- The clauses of all threads of a state. -/
def LitSys (opts : Options) (p : Propagator V) : Prop := ∀ (th : ℕ) (t : Thr V), p.thrs[th]? = some t → LitInv opts p.prog.iqs t.slv

theorem LitSys.setThr {pa : Propagator V} (h : LitSys opts pa) {th : ℕ} {t' : Thr V} (ht : LitInv opts pa.prog.iqs t'.slv) : LitSys opts (pa.setThr th t') := by
  intro i u hu
  by_cases hi : i = th
  · subst hi
    have hlt : i < (pa.setThr i t').thrs.length := (List.getElem?_eq_some_iff.1 hu).1
    have hlt' : i < pa.thrs.length := by simpa [Propagator.setThr] using hlt
    obtain ⟨t, ht0⟩ : ∃ t, pa.thrs[i]? = some t := ⟨_, List.getElem?_eq_getElem hlt'⟩
    rw [setThr_same ht0] at hu
    obtain rfl := Option.some.inj hu
    exact ht
  · rw [setThr_other hi] at hu
    exact h i u hu

/-- The literals of the clauses are those of constraints and cuts. -/
theorem reach_lits (hr : Reach be opts Q p g) (hf : g.failed = false) : LitSys opts p := by
  induction hr with
  | start => intro th t ht; simp [Propagator.fresh] at ht
  | @step pa p1' g0 g1' hr hs ih =>
    have hr' := Reach.step hr hs
    cases hs with
    | init mapper atoms envs n hi =>
      intro th t ht
      obtain ⟨-, ok', h1, -⟩ := (hr.stat.init hi).2.prep th t ht
      exact LitInv.prep h1
    | fail => cases hf
    | propagate fuel ctl th lits hm h =>
      have ih := ih hf
      unfold Propagator.propagate at h
      generalize hpa : (if ctl.dl = 0 ∧ th = 0 then _ else _) = pa at h
      have h0 : LitSys opts pa := by
        subst hpa
        split <;> exact ih
      dsimp only at h
      cases ht : pa.thrs[th]? with
      | none => rw [ht] at h; cases h
      | some t =>
        rw [ht] at h
        dsimp only at h
        cases hs : t.slv.solve ctl fuel lits with
        | none => rw [hs] at h; cases h
        | some r =>
          rw [hs] at h
          obtain ⟨rfl, -⟩ := Prod.mk.inj (Option.some.inj h)
          exact h0.setThr ((h0 th t ht).neg (S.neg_solve hs))
    | check fuel ctl total th hm h =>
      have hth := hm.thr
      have hw := hr'.weak
      have ih := ih hf
      unfold Propagator.check at h
      cases hfa : pa.checkFacts fuel ctl th with
      | none => rw [hfa] at h; cases h
      | some r =>
        obtain ⟨p1, ok1⟩ := r
        rw [hfa] at h
        dsimp only at h
        have hA : LitSys opts p1 ∧ p1.prog = pa.prog := by
          unfold Propagator.checkFacts at hfa
          cases ht : pa.thrs[th]? with
          | none => rw [ht] at hfa; cases hfa
          | some t =>
            rw [ht] at hfa
            dsimp only at hfa
            split at hfa
            · cases hs : t.slv.solve ctl fuel (pa.factSpan t) with
              | none => rw [hs] at hfa; cases hfa
              | some r =>
                rw [hs] at hfa
                obtain ⟨rfl, rfl⟩ := Prod.mk.inj (Option.some.inj hfa)
                exact ⟨ih.setThr ((ih th t ht).neg (S.neg_solve hs)), rfl⟩
            · obtain ⟨rfl, rfl⟩ := Prod.mk.inj (Option.some.inj hfa)
              exact ⟨ih, rfl⟩
        obtain ⟨h1, hp1⟩ := hA
        split at h
        · unfold Propagator.checkObj at h
          cases ht1 : p1.thrs[th]? with
          | none => rw [ht1] at h; cases h
          | some t1 =>
            rw [ht1] at h
            dsimp only at h
            cases hs : t1.slv.checkObj ctl fuel total p1.obj with
            | none => rw [hs] at h; cases h
            | some r =>
              rw [hs] at h
              obtain ⟨rfl, -⟩ := Prod.mk.inj (Option.some.inj h)
              refine h1.setThr ⟨?_, ?_⟩
              · obtain ⟨-, -, cuts, b3, bs, b4, b5, b6⟩ := S.cut_checkObj hs
                have h2 := (h1 th t1 ht1).out
                intro c hc
                dsimp only at hc ⊢
                rw [b3] at hc
                rw [b4]
                rcases List.mem_append.1 hc with hc | hc
                · rcases h2 c hc with ⟨bd, hbd, h3⟩ | ⟨h3, h4⟩
                  · exact Or.inl ⟨bd, List.mem_append_left _ hbd, h3⟩
                  · refine Or.inr ⟨h3, fun l hl => (h4 l hl).imp_right ?_⟩
                    rintro ⟨bd, hbd, h5⟩
                    exact ⟨bd, List.mem_append_left _ hbd, h5⟩
                · rw [b5] at hc
                  obtain ⟨bd, hbd, rfl⟩ := List.mem_map.1 hc
                  refine Or.inl ⟨bd, List.mem_append_right _ hbd, rfl, fun x hx => ?_⟩
                  obtain ⟨O, hO⟩ := b6 bd hbd
                  rw [hO]
                  exact (hm.fresh.iqs O x (by rw [hp1] at hx; exact hx)).1
              · intro hg bd hbd
                have hlt := (List.getElem?_eq_some_iff.1 hth).1
                obtain ⟨t2, ht2, E0, base, hT⟩ := hw.thr th _ (by rw [List.getElem?_set_self hlt])
                rw [setThr_same ht1] at ht2
                obtain rfl := Option.some.inj ht2
                obtain ⟨cs, hcs, hcut⟩ := hT.cuts
                dsimp only at hbd hcs
                rw [hcs] at hbd
                rcases List.mem_append.1 hbd with hbd | hbd
                · have := hT.sub.subset (List.mem_map_of_mem hbd)
                  obtain ⟨x, hx, e⟩ := List.mem_map.1 this
                  exact ⟨x, hx, e.symm⟩
                · have := (hcut bd hbd).glob
                  rw [hg] at this
                  cases this
        · obtain ⟨rfl, -⟩ := Prod.mk.inj (Option.some.inj h)
          exact h1
    | undo th h1 h2 h3 h =>
      have ih := ih hf
      unfold Propagator.undo at h
      cases ht : pa.thrs[th]? with
      | none => rw [ht] at h; cases h
      | some t =>
        rw [ht] at h
        obtain rfl := Option.some.inj h
        have hc := S.calm_undo t.slv
        exact ih.setThr ((ih th t ht).congr hc.out hc.bounds)
    | model th h1 h2 h =>
      have ih := ih hf
      unfold Propagator.onModel at h
      cases ht : pa.thrs[th]? with
      | none => rw [ht] at h; cases h
      | some t =>
        rw [ht] at h
        dsimp only at h
        split at h
        · obtain rfl := Option.some.inj h; exact ih
        · split at h <;> (obtain rfl := Option.some.inj h; exact ih)

/-- C77: a clause added by a thread is the clause of an objective cut, or it is not empty and all its literals are negations of literals of constraints
or of objective cuts; for all histories. -/
theorem C77_clause_literals (hr : Reach be opts Q p g) (hf : g.failed = false) {th : ℕ} {c : List ℤ} (hc : c ∈ p.clausesOf th) :
    (∃ u ∈ p.cutsOf th, c = [u.1]) ∨ c ≠ [] ∧ ∀ l ∈ c, Negates p th l := by
  cases ht : p.thrs[th]? with
  | none => simp [Propagator.clausesOf, ht] at hc
  | some t =>
    rw [clausesOf_eq ht] at hc
    rcases (reach_lits hr hf th t ht).out c hc with ⟨bd, hbd, rfl, h1⟩ | ⟨h1, h2⟩
    · exact Or.inl ⟨(bd.lit, bd.value), (mem_cutsOf ht).2 ⟨bd, hbd, h1, rfl⟩, rfl⟩
    · refine Or.inr ⟨h1, fun l hl => ?_⟩
      rcases h2 l hl with ⟨x, hx, rfl⟩ | ⟨bd, hbd, rfl⟩
      · exact Or.inl ⟨x, hx, neg_neg _⟩
      · exact negates_of ht hbd

/-- The hypotheses are met: `x >= 1`, `y >= 2` and `x + y <= 2`; the clause has three literals, all of them negated literals of constraints. -/
example : ∃ (p : Propagator ℚ) (g : Ghost ℚ), Reach .imath { propagateMode := .full } AnyLits p g ∧ g.failed = false ∧ [-1, -3, -2] ∈ p.clausesOf 0 := by
  obtain ⟨p, g, h1, -, h2⟩ := exists_reach (V := ℚ) (be := .imath) (mode := .any) (opts := { propagateMode := .full })
    [.init [sumAtom "x" ">=" 1 1, sum2Atom "x" "y" "<=" 2 2, sumAtom "y" ">=" 2 3] 1, .prop 0 0 [1] true, .prop 1 0 [3] true]
    (P := fun p g => !g.failed && decide ([-1, -3, -2] ∈ p.clausesOf 0)) (by decide +kernel)
  simp only [Bool.and_eq_true, decide_eq_true_eq, Bool.not_eq_true'] at h2
  exact ⟨p, g, h1, h2.1, h2.2⟩

/-- A total assignment: of each literal and its negation exactly one is true. -/
def TotalAsg (tr : ℤ → Prop) : Prop := ∀ l, l ≠ 0 → (tr (-l) ↔ ¬ tr l)

/-- The assignment satisfies the clauses. -/
def SatisfiesAll (tr : ℤ → Prop) (cs : List (List ℤ)) : Prop := ∀ c ∈ cs, ∃ l ∈ c, tr l

/-- C77: the theory never requires a constraint to be true. If an assignment satisfies the clauses of a thread, then so does every assignment in which fewer
constraints are true (and the cuts are as before). -/
theorem C77_fewer_constraints (hr : Reach be opts Q p g) (hf : g.failed = false) (hz : ∀ x ∈ p.prog.iqs, x.lit ≠ 0) {th : ℕ} {tr tr' : ℤ → Prop} (ht : TotalAsg tr) (ht' : TotalAsg tr')
    (hle : ∀ x ∈ p.prog.iqs, tr' x.lit → tr x.lit) (hcut : ∀ u ∈ p.cutsOf th, tr' u.1 ↔ tr u.1) (hs : SatisfiesAll tr (p.clausesOf th)) :
    SatisfiesAll tr' (p.clausesOf th) := by
  intro c hc
  obtain ⟨l, hl, h1⟩ := hs c hc
  rcases C77_clause_literals hr hf hc with ⟨u, hu, rfl⟩ | ⟨-, h2⟩
  · rw [List.mem_singleton] at hl
    subst hl
    exact ⟨_, List.mem_singleton_self _, (hcut u hu).2 h1⟩
  · refine ⟨l, hl, ?_⟩
    by_cases hl0 : l = 0
    · rcases h2 l hl with ⟨x, hx, e⟩ | ⟨u, hu, e⟩
      · exact absurd (by rw [← e, hl0, neg_zero]) (hz x hx)
      · have e' : u.1 = l := by rw [← e, hl0, neg_zero]
        rw [← e']
        exact (hcut u hu).2 (by rw [e']; exact h1)
    · by_contra hn
      have h3 : tr' (-l) := (ht' l hl0).2 hn
      have h4 : ¬ tr (-l) := fun h => (ht l hl0).1 h h1
      rcases h2 l hl with ⟨x, hx, e⟩ | ⟨u, hu, e⟩
      · rw [e] at h3 h4; exact h4 (hle x hx h3)
      · rw [e] at h3 h4; exact h4 ((hcut u hu).1 h3)

/-- C77: without a global objective, an assignment in which no constraint is true satisfies all clauses. -/
theorem C77_no_constraint (hr : Reach be opts Q p g) (hf : g.failed = false) (hg : opts.globalObjective = none) (hz : ∀ x ∈ p.prog.iqs, x.lit ≠ 0) {th : ℕ} {tr : ℤ → Prop} (ht : TotalAsg tr)
    (hno : ∀ x ∈ p.prog.iqs, ¬ tr x.lit) : SatisfiesAll tr (p.clausesOf th) := by
  intro c hc
  cases ht0 : p.thrs[th]? with
  | none => simp [Propagator.clausesOf, ht0] at hc
  | some t =>
    have hcuts : p.cutsOf th = [] := by
      rw [List.eq_nil_iff_forall_not_mem]
      intro u hu
      obtain ⟨bd, hbd, h1, -⟩ := (mem_cutsOf ht0).1 hu
      obtain ⟨x, hx, e⟩ := (reach_lits hr hf th t ht0).none hg bd hbd
      exact h1 x hx e.symm
    rcases C77_clause_literals hr hf hc with ⟨u, hu, -⟩ | ⟨h1, h2⟩
    · rw [hcuts] at hu; cases hu
    · obtain ⟨l, hl⟩ := List.exists_mem_of_ne_nil c h1
      refine ⟨l, hl, ?_⟩
      rcases h2 l hl with ⟨x, hx, e⟩ | ⟨u, hu, -⟩
      · by_contra hn
        have hl0 : l ≠ 0 := fun h => hz x hx (by rw [← e, h, neg_zero])
        have h3 : tr (-l) := (ht l hl0).2 hn
        rw [e] at h3
        exact hno x hx h3
      · rw [hcuts] at hu; cases hu

/-- The hypotheses are met: the clauses are `[-1, -3, -2]` (see above); they are satisfied if the first two constraints are true and the third is not, hence
also if only the first one is true, and if none is. -/
example : ∃ (p : Propagator ℚ) (g : Ghost ℚ) (tr tr' tr'' : ℤ → Prop), Reach .imath { propagateMode := .full } AnyLits p g ∧ g.failed = false ∧
    (∀ x ∈ p.prog.iqs, x.lit ≠ 0) ∧ TotalAsg tr ∧ TotalAsg tr' ∧ TotalAsg tr'' ∧ (∀ x ∈ p.prog.iqs, tr' x.lit → tr x.lit) ∧ p.cutsOf 0 = [] ∧
    SatisfiesAll tr (p.clausesOf 0) ∧ (∃ x ∈ p.prog.iqs, tr x.lit ∧ ¬ tr' x.lit) ∧ (∀ x ∈ p.prog.iqs, ¬ tr'' x.lit) ∧ p.clausesOf 0 ≠ [] := by
  obtain ⟨p, g, h1, -, h2⟩ := exists_reach (V := ℚ) (be := .imath) (mode := .any) (opts := { propagateMode := .full })
    [.init [sumAtom "x" ">=" 1 1, sum2Atom "x" "y" "<=" 2 2, sumAtom "y" ">=" 2 3] 1, .prop 0 0 [1] true, .prop 1 0 [3] true]
    (P := fun p g => !g.failed && decide (p.clausesOf 0 = [[-1, -3, -2]]) && decide (p.prog.iqs.map (·.lit) = [1, 2, 3]) && decide (p.cutsOf 0 = [])) (by decide +kernel)
  simp only [Bool.and_eq_true, decide_eq_true_eq, Bool.not_eq_true'] at h2
  obtain ⟨⟨⟨hf, hc⟩, hm⟩, hcut⟩ := h2
  have hx : ∀ x ∈ p.prog.iqs, x.lit = 1 ∨ x.lit = 2 ∨ x.lit = 3 := fun x hx => by
    have : x.lit ∈ p.prog.iqs.map (·.lit) := List.mem_map_of_mem hx
    rw [hm] at this
    simpa using this
  obtain ⟨x3, hx3, e3⟩ : ∃ x ∈ p.prog.iqs, x.lit = 3 := by
    have : (3 : ℤ) ∈ p.prog.iqs.map (·.lit) := by rw [hm]; simp
    simpa using this
  have htot : ∀ A : ℤ → Prop, TotalAsg fun l => (0 < l ∧ A l) ∨ (l < 0 ∧ ¬ A (-l)) := by
    intro A l hl
    by_cases hp : 0 < l
    · have hn : ¬ l < 0 := by omega
      have h1 : -l < 0 := by omega
      have h2 : ¬ 0 < -l := by omega
      simp [hp, hn]
    · have hn : l < 0 := by omega
      simp [hp, hn]
  refine ⟨p, g, fun l => (0 < l ∧ (l = 1 ∨ l = 3)) ∨ (l < 0 ∧ ¬ (-l = 1 ∨ -l = 3)), fun l => (0 < l ∧ l = 1) ∨ (l < 0 ∧ ¬ -l = 1),
    fun l => (0 < l ∧ False) ∨ (l < 0 ∧ ¬ False), h1, hf, ?_, htot _, htot _, htot _, ?_, hcut, ?_, ⟨x3, hx3, ?_⟩, ?_, by rw [hc]; simp⟩
  · intro x h; have := hx x h; omega
  · intro x h; have := hx x h; omega
  · rw [hc]; intro c h; rw [List.mem_singleton] at h; subst h; exact ⟨-2, by simp, by omega⟩
  · rw [e3]; omega
  · intro x h; have := hx x h; simp only [and_false, not_false_eq_true, and_true, false_or]; omega

end Lpx.Props
