import Verif.SysInv
import Verif.SolverOptMain

/-! # `check`: integrating the best known objective value, optimizing and discarding bounded solutions -/

set_option linter.unusedSectionVars false

namespace Lpx
open Finset

variable {V : Type} [LpFull V] [Hon]

/-- The values satisfying all active bounds are exactly those within the current bounds. -/
theorem S.SInv.within_iff {E0 : (ℕ → V) → Prop} {F : List Frame} {s : S V} (h : S.SInv E0 F s) (asg : ℕ → V) :
    (∀ v, v < s.nvars → Within (s.lo v) (s.up v) (asg v)) ↔ ∀ bd ∈ s.bounds, Act F bd.lit → bd.Holds asg := by
  constructor
  · intro hw bd hbd hact
    obtain ⟨h1, h2⟩ := h.good.enf bd hbd hact
    obtain ⟨w1, w2⟩ := hw bd.var (h.bvar bd hbd)
    have hle : bd.rel ≠ .ge → asg bd.var ≤ bd.value := by
      intro hr; obtain ⟨y, hy, hle⟩ := h1 hr; exact (w2 y hy).trans hle
    have hge : bd.rel ≠ .le → bd.value ≤ asg bd.var := by
      intro hr; obtain ⟨y, hy, hle⟩ := h2 hr; exact hle.trans (w1 y hy)
    rw [Bound.holds_iff]
    unfold BRel.holds
    cases hr : bd.rel
    · exact hle (by rw [hr]; simp)
    · exact hge (by rw [hr]; simp)
    · exact le_antisymm (hle (by rw [hr]; simp)) (hge (by rw [hr]; simp))
  · intro hall v _
    constructor
    · intro b hb
      cases hp : s.lower v with
      | none => simp [S.lo, S.bval, hp] at hb
      | some i =>
        obtain ⟨bd, g1, g2, g3, g4⟩ := h.good.ptr.lo v i hp
        have hb' : bd.value = b := by simpa [S.lo, S.bval, hp, g1] using hb
        have := (hall bd (List.mem_of_getElem? g1) g4).ge g3
        rw [← hb', ← g2]; exact this
    · intro b hb
      cases hp : s.upper v with
      | none => simp [S.up, S.bval, hp] at hb
      | some i =>
        obtain ⟨bd, g1, g2, g3, g4⟩ := h.good.ptr.up v i hp
        have hb' : bd.value = b := by simpa [S.up, S.bval, hp, g1] using hb
        have := (hall bd (List.mem_of_getElem? g1) g4).le g3
        rw [← hb', ← g2]; exact this

omit [Hon] in
/-- Values that satisfy the right limits satisfy all active bounds. -/
theorem Good.holds {E0 : (ℕ → V) → Prop} {bounds : List (Bound V)} {F : List Frame} {w : View V} (h : Good E0 bounds F w) :
    ∀ bd ∈ bounds, Act F bd.lit → bd.Holds w.value := by
  intro bd hbd hact
  obtain ⟨h1, h2⟩ := h.enf bd hbd hact
  obtain ⟨w1, w2⟩ := h.win bd.var
  have hle : bd.rel ≠ .ge → w.value bd.var ≤ bd.value := by
    intro hr; obtain ⟨y, hy, hle⟩ := h1 hr; exact (w2 y hy).trans hle
  have hge : bd.rel ≠ .le → bd.value ≤ w.value bd.var := by
    intro hr; obtain ⟨y, hy, hle⟩ := h2 hr; exact hle.trans (w1 y hy)
  rw [Bound.holds_iff]
  unfold BRel.holds
  cases hr : bd.rel
  · exact hle (by rw [hr]; simp)
  · exact hge (by rw [hr]; simp)
  · exact le_antisymm (hle (by rw [hr]; simp)) (hge (by rw [hr]; simp))

/-- The current values satisfy all active bounds. -/
theorem S.SInv.holds {E0 : (ℕ → V) → Prop} {F : List Frame} {s : S V} (h : S.SInv E0 F s) :
    ∀ bd ∈ s.bounds, Act F bd.lit → bd.Holds s.value :=
  (h.within_iff s.value).1 fun v _ => h.good.win v

/-! ### the shared objective value -/

/-- What the shared objective state knows about the models reported. -/
structure ObjInv (reported : List (V × Bool)) (o : ObjState V) : Prop where
  gen0 : o.generation = 0 ↔ reported = []
  mem : reported ≠ [] → (o.value, o.bounded) ∈ reported
  best : o.bounded = true → ∀ x ∈ reported, x.2 = true ∧ x.1 ≤ o.value
  unb : o.bounded = false → reported ≠ []

omit [Hon] in
theorem ObjInv.init : ObjInv ([] : List (V × Bool)) ObjState.init := ⟨by simp [ObjState.init], by simp, by simp, by simp [ObjState.init]⟩

omit [Hon] in
theorem ObjInv.update {reported : List (V × Bool)} {o : ObjState V} (h : ObjInv reported o) (x : V × Bool) :
    ObjInv (reported ++ [x]) (o.update x) ∧ o.generation ≤ (o.update x).generation := by
  unfold ObjState.update
  split
  · rename_i hc
    simp only [Bool.and_eq_true, Bool.or_eq_true, Bool.not_eq_true', decide_eq_true_eq] at hc
    obtain ⟨hb, hc⟩ := hc
    refine ⟨⟨by simp, fun _ => by simp, ?_, by simp⟩, by simp⟩
    intro hx y hy
    simp only at hx
    rcases List.mem_append.1 hy with hy | hy
    · obtain ⟨h1, h2⟩ := h.best hb y hy
      refine ⟨h1, ?_⟩
      rcases hc with (hc | hc) | hc
      · rw [hx] at hc; cases hc
      · rw [h.gen0.1 hc] at hy; simp at hy
      · exact h2.trans hc.le
    · simp only [List.mem_singleton] at hy; subst hy; exact ⟨hx, le_rfl⟩
  · rename_i hc
    refine ⟨?_, le_rfl⟩
    simp only [Bool.and_eq_true, Bool.or_eq_true, Bool.not_eq_true', decide_eq_true_eq, not_and_or, not_or] at hc
    have hne : reported ≠ [] := by
      rcases hc with hc | ⟨⟨_, hc⟩, _⟩
      · exact h.unb (by simpa using hc)
      · intro h0; exact hc (h.gen0.2 h0)
    refine ⟨⟨fun hg => absurd (h.gen0.1 hg) hne, by simp⟩, fun _ => List.mem_append_left _ (h.mem hne), ?_, by simp⟩
    intro hb y hy
    rcases List.mem_append.1 hy with hy | hy
    · exact h.best hb y hy
    · simp only [List.mem_singleton] at hy; subst hy
      rcases hc with hc | ⟨⟨hc1, _⟩, hc3⟩
      · exact absurd hb hc
      · exact ⟨by simpa using hc1, not_lt.1 hc3⟩

/-- The step of the objective can be converted. -/
def StepOK (V : Type) [LpFull V] (opts : Options) : Prop := ∀ q, opts.globalObjective = some q → ∃ d : V, LpFull.asValue q = some d

section
variable {opts : Options} {idx : Symbol → Option ℕ} {size : ℕ} {prog : Prog} {r : List (V × Bool)} {gen : ℕ}
    {gt : GThr} {E0 : (ℕ → V) → Prop} {base : List (Bound V)} {s : S V}

/-- The literals created are new. -/
structure NewLits (prog : Prog) (frames : List Frame) (ctl : Ctl) : Prop where
  act : ∀ O, ¬ Act frames (ctl.newLit O)
  iqs : ∀ O, ∀ x ∈ prog.iqs, x.lit ≠ ctl.newLit O ∧ x.lit ≠ -ctl.newLit O

theorem TDyn.integrate {o : ObjState V} (h : TDyn opts idx size prog r o.generation gt E0 base s) (hst : gt.stuck = false)
    (ctl : Ctl) (ho : ObjInv r o) (hr : r ≠ [] → prog.objective ≠ []) (hq : StepOK V opts) (hn : NewLits prog gt.frames ctl) :
    TDyn opts idx size prog r o.generation gt E0 base (s.integrate ctl o).1 := by
  generalize hrr : s.integrate ctl o = res
  unfold S.integrate at hrr
  split at hrr
  · subst hrr; exact h
  · rename_i q hg
    have hgl : opts.globalObjective = some q := by rw [← h.hopts]; exact hg
    unfold ObjState.read at hrr
    by_cases hgen : s.obj.generation = o.generation
    · simp only [ne_eq, hgen, not_true_eq_false, if_false] at hrr
      subst hrr
      exact h.setObj hst rfl rfl rfl rfl le_rfl h.disc
    · simp only [ne_eq, hgen, not_false_eq_true, if_true] at hrr
      have hgt : o.generation ≠ 0 := by have := h.hgen; omega
      have hne : r ≠ [] := fun h0 => hgt (ho.gen0.2 h0)
      have hmem := ho.mem hne
      cases hb : o.bounded
      · simp only [hb, Bool.not_false, if_true] at hrr
        subst hrr
        refine h.setObj hst rfl rfl rfl rfl le_rfl fun _ => ⟨o.value, ?_⟩
        rw [hb] at hmem; exact hmem
      · simp only [hb, Bool.not_true, Bool.false_eq_true, if_false] at hrr
        obtain ⟨d, hd⟩ := hq q hgl
        rw [hd] at hrr
        simp only at hrr
        subst hrr
        have h1 := h.setObj hst (o := { s.obj with generation := o.generation }) rfl rfl rfl rfl le_rfl h.disc
        exact h1.assertBound hst ctl (o.value + d) (hr hne) (by rw [hgl]; rfl)
          (Or.inl ⟨q, d, o.value, hgl, hd, by rw [hb] at hmem; exact hmem, rfl⟩) hn.act hn.iqs

theorem TDyn.optimize (h : TDyn opts idx size prog r gen gt E0 base s) (hst : gt.stuck = false) {fuel : ℕ} {t : S V}
    (ht : s.optimize fuel = some t) : TDyn opts idx size prog r gen { gt with checked := true } E0 base t := by
  have hinv := h.sinv hst
  by_cases ha : s.obj.active = true
  · obtain ⟨h1, he⟩ := S.optimize_spec hinv ha ht
    have hov : t.obj.var = s.obj.var := by rw [he.obj]
    have hbv : t.obj.boundVar = s.obj.boundVar := by rw [he.obj]
    refine ⟨by rw [hov, hbv]; exact h.set, by rw [hbv, he.bounds]; exact h.cuts, fun _ => h1, S.CInv.of h1, h1.vb,
      he.opts.trans h.hopts, he.n.trans h.n, by rw [he.obj]; exact h.active, by rw [hbv, he.nvars]; exact h.bvlt,
      by rw [he.obj]; exact h.hgen, by rw [he.obj]; exact h.disc, by rw [he.out, hbv, he.bounds]; exact h.out, h.live, ?_⟩
    intro _ _
    rw [hov, he.bounds]
    constructor
    · intro hb asg hE hall
      exact he.bounded hb asg hE ((hinv.within_iff asg).2 hall)
    · intro hb q
      obtain ⟨asg, hE, hw, hq⟩ := he.unbounded hb q
      exact ⟨asg, hE, (hinv.within_iff asg).1 hw, hq⟩
  · have hts : t = s := by
      unfold S.optimize at ht; rw [if_neg ha] at ht; exact (Option.some.inj ht).symm
    subst hts
    exact ⟨h.set, h.cuts, h.sinv, h.cinv, h.vb, h.hopts, h.n, h.active, h.bvlt, h.hgen, h.disc, h.out, h.live,
      fun _ ha' => absurd ha' ha⟩

theorem TDyn.storeSat (h : TDyn opts idx size prog r gen gt E0 base s) (hst : gt.stuck = false) :
    TDyn opts idx size prog r gen gt E0 base s.storeSat := by
  have h1 := (h.sinv hst).store
  exact ⟨h.set, h.cuts, fun _ => h1, S.CInv.of h1, h.vb, h.hopts, h.n, h.active, h.bvlt, h.hgen, h.disc, h.out, h.live, h.optm⟩

theorem TDyn.discard (h : TDyn opts idx size prog r gen gt E0 base s) (hst : gt.stuck = false) (ctl : Ctl)
    (hn : NewLits prog gt.frames ctl) : TDyn opts idx size prog r gen gt E0 base (s.discardBounded ctl).1 := by
  unfold S.discardBounded
  split
  · exact h
  · rename_i hc
    simp only [Bool.or_eq_true, Bool.not_eq_true', Option.isNone_iff_eq_none, not_or, Bool.not_eq_false] at hc
    obtain ⟨⟨⟨h1, h2⟩, h3⟩, h4⟩ := hc
    have hobj : prog.objective ≠ [] := by
      intro h0; rw [h.active, h0] at h1; simp at h1
    have hg : opts.globalObjective.isSome = true := by rw [← h.hopts, Option.isSome_iff_ne_none]; exact h2
    exact h.assertBound hst ctl _ hobj hg (Or.inr (h.disc h4)) hn.act hn.iqs

theorem TDyn.checkTotal (h : TDyn opts idx size prog r gen gt E0 base s) (hst : gt.stuck = false) (ctl : Ctl)
    (hn : NewLits prog gt.frames ctl) {fuel : ℕ} {t : S V} {ok : Bool} (ht : s.checkTotal ctl fuel = some (t, ok)) :
    TDyn opts idx size prog r gen { gt with checked := true } E0 base t := by
  unfold S.checkTotal at ht
  cases hs1 : s.optimize fuel with
  | none => rw [hs1] at ht; simp at ht
  | some s1 =>
    rw [hs1] at ht
    simp only [Option.some.injEq] at ht
    have h1 := h.optimize hst hs1
    have h2 : TDyn opts idx size prog r gen { gt with checked := true } E0 base (if s1.opts.store = .no then s1 else s1.storeSat) := by
      split
      · exact h1
      · exact h1.storeSat hst
    have := h2.discard hst ctl hn
    rw [ht] at this; exact this

theorem TDyn.uncheck (h : TDyn opts idx size prog r gen gt E0 base s) : TDyn opts idx size prog r gen { gt with checked := false } E0 base s :=
  ⟨h.set, h.cuts, h.sinv, h.cinv, h.vb, h.hopts, h.n, h.active, h.bvlt, h.hgen, h.disc, h.out, h.live, by simp⟩

/-- The second part of `check`. -/
theorem TDyn.checkObj {o : ObjState V} (h : TDyn opts idx size prog r o.generation gt E0 base s) (hst : gt.stuck = false)
    (ctl : Ctl) (total : Bool) (ho : ObjInv r o) (hr : r ≠ [] → prog.objective ≠ []) (hq : StepOK V opts) (hn : NewLits prog gt.frames ctl)
    {fuel : ℕ} {t : S V} {ok : Bool} (ht : s.checkObj ctl fuel total o = some (t, ok)) :
    TDyn opts idx size prog r o.generation { gt with checked := total && ok } E0 base t := by
  unfold S.checkObj at ht
  simp only at ht
  have h1 := h.integrate hst ctl ho hr hq hn
  generalize s.integrate ctl o = res at ht h1
  obtain ⟨s1, b⟩ := res
  cases b
  · simp only [Bool.not_false, if_true, Option.some.injEq, Prod.mk.injEq] at ht
    obtain ⟨rfl, rfl⟩ := ht
    rw [Bool.and_false]; exact h1.uncheck
  · cases total
    · simp only [Bool.not_true, Bool.false_eq_true, if_false, Option.some.injEq, Prod.mk.injEq] at ht
      obtain ⟨rfl, rfl⟩ := ht
      exact h1.uncheck
    · simp only [Bool.not_true, Bool.false_eq_true, if_false, if_true] at ht
      have h2 := h1.checkTotal hst ctl hn ht
      cases ok
      · exact h2.uncheck
      · exact h2

end

end Lpx
