import Verif.AssertsInit
import Verif.SysWeak
import Verif.SysCalls

/-! # The assertions evaluated by the callbacks -/

set_option linter.unusedSectionVars false

namespace Lpx
open Finset

variable {V : Type} [LpFull V] [Hon]

section
variable {opts : Options} {idx : Symbol → Option ℕ} {size : ℕ} {prog : Prog} {r : List (V × Bool)} {gen : ℕ}
    {gt : GThr} {E0 : (ℕ → V) → Prop} {base : List (Bound V)} {s : S V}

omit [Hon] in
/-- Both invariants talk about the same equations. -/
theorem equations_eq {E1 E2 : (ℕ → V) → Prop} {L : List ℕ} (h : S.WInv E1 L s) (hc : S.Core E2 s) : E2 = E1 := by
  funext asg
  exact propext ((hc.eqv asg).symm.trans (h.eqv asg))

theorem TWeak.solveAsserts (h : TWeak opts idx size prog r gen gt E0 base s) {ctl : Ctl} {lits : List ℤ} (hdl : ∀ fr ∈ gt.frames, fr.level ≤ ctl.dl)
    {extra : Bool} (fuel : ℕ)
    (hx : extra = true → ∃ E1 base1, TDyn opts idx size prog r gen gt E1 base1 s ∧ gt.stuck = false ∧ LvlOK ctl (nextFrames ctl.dl lits gt.frames) ∧
      (Hon.hon → ctl.dl = 0 ∨ ∀ bd ∈ s.bounds, bd.lit ∈ lits → SafeEq s.bounds (Act gt.frames) (Act (nextFrames ctl.dl lits gt.frames)) bd)) :
    s.solveAsserts extra ctl fuel lits = true := by
  refine S.solveAsserts_true h.winv (fun l hl => ?_) fuel lits fun he => ?_
  · obtain ⟨fr, hfr, rfl⟩ := List.mem_map.1 hl
    exact hdl fr hfr
  · obtain ⟨E1, base1, hd, hst, hlv, hsafe⟩ := hx he
    have hinv := hd.sinv hst
    obtain rfl := equations_eq h.winv hinv.core
    have hsl : Hon.hon → S.SafeLits ctl lits (s.pushOff ctl) := by
      intro hh
      refine S.safe_of_eq hinv ctl lits hdl hlv fun bd hbd hl => ?_
      rcases hsafe hh with h0 | h1
      · exact Or.inl h0
      · exact Or.inr (h1 bd hbd hl)
    refine ⟨S.QR.core hinv.core fun v _ => hinv.good.win v, fun hok => ?_⟩
    obtain ⟨ls, frs, hF, hls, hu⟩ := S.pushOff_uinv hinv ctl lits hdl hlv
    obtain ⟨-, h1, -⟩ := S.updateLits_spec lits hu hls hsl
    exact (h1 hok).1.core

theorem TWeak.checkObjAsserts {o : ObjState V} (h : TWeak opts idx size prog r o.generation gt E0 base s)
    (ctl : Ctl) (total : Bool) (ho : ObjInv r o) (hr : r ≠ [] → prog.objective ≠ []) {extra : Bool} (fuel : ℕ)
    (hfi : ∀ O, ∀ x ∈ prog.iqs, x.lit ≠ ctl.newLit O ∧ x.lit ≠ -ctl.newLit O)
    (hx : extra = true → ∃ E1 base1, TDyn opts idx size prog r o.generation gt E1 base1 s ∧ gt.stuck = false ∧ StepOK V opts ∧
      NewLits prog gt.frames ctl) :
    s.checkObjAsserts extra ctl fuel total o = true := by
  unfold S.checkObjAsserts
  simp only
  have h1 := h.integrate ctl ho hr hfi
  split
  · rfl
  · split
    · refine S.optimizeAsserts_true h1.winv fuel fun he => ?_
      obtain ⟨E1, base1, hd, hst, hq, hn⟩ := hx he
      have hinv := (hd.integrate hst ctl ho hr hq hn).sinv hst
      obtain rfl := equations_eq h1.winv hinv.core
      exact ⟨hinv.core, fun v _ => hinv.good.win v⟩
    · rfl

end

theorem WSys.propagateAsserts {opts : Options} {p : Propagator V} {g : Ghost V} (h : WSys opts p g)
    {Q : Restr V} {ctl : Ctl} {th : ℕ} {lits : List ℤ} {gt : GThr}
    (hm : MayPropagate Q p g ctl th lits gt) {extra : Bool} (fuel : ℕ)
    (hx : extra = true → SysInv opts p g ∧ (Hon.hon → SafeEqs.prop p gt.frames ctl lits)) :
    p.propagateAsserts extra fuel ctl th lits = true := by
  obtain ⟨t, ht, E0, base, hd⟩ := h.thr th _ hm.thr
  unfold Propagator.propagateAsserts
  rw [ht]
  refine hd.solveAsserts hm.dl fuel fun he => ?_
  obtain ⟨hi, hs⟩ := hx he
  obtain ⟨t1, E1, base1, hu⟩ := hi.unpack hm.thr
  have := hu.ht
  rw [ht] at this
  obtain rfl := Option.some.inj this
  refine ⟨E1, base1, hu.dyn, hm.ready, hm.lvl, fun hh => ?_⟩
  rcases hs hh with hs | hs
  · exact Or.inl hs
  · exact Or.inr (hu.dyn.safe hi.inj hi.idxLt hs)

theorem WSys.checkAsserts {opts : Options} {p : Propagator V} {g : Ghost V} (h : WSys opts p g) {ctl : Ctl} {total : Bool} {th : ℕ}
    {gt : GThr} {t : Thr V} (hm : MayCheck p g ctl th gt t) {extra : Bool} (fuel : ℕ)
    (hx : extra = true → SysInv opts p g ∧ StepOK V opts) : p.checkAsserts extra fuel ctl total th = true := by
  obtain ⟨t', ht, E0, base, hd⟩ := h.thr th _ hm.thr
  rw [hm.slv] at ht
  obtain rfl := Option.some.inj ht
  unfold Propagator.checkAsserts
  rw [Bool.and_eq_true]
  constructor
  · unfold Propagator.checkFactsAsserts
    rw [hm.slv]
    simp only
    split
    · rename_i hn
      refine hd.solveAsserts hm.dl fuel fun he => ?_
      obtain ⟨hi, -⟩ := hx he
      obtain ⟨t1, E1, base1, hu⟩ := hi.unpack hm.thr
      have := hu.ht
      rw [hm.slv] at this
      obtain rfl := Option.some.inj this
      have hlv := hm.lvl
      unfold Propagator.checkFrames at hlv
      rw [if_pos hn] at hlv
      exact ⟨E1, base1, hu.dyn, hm.ready, hlv, fun _ => Or.inl hn.1⟩
    · rfl
  · cases hc : p.checkFacts fuel ctl th with
    | none => rfl
    | some q =>
      obtain ⟨p1, ok⟩ := q
      simp only
      cases ok
      · rfl
      · simp only [if_true]
        obtain ⟨t1, h1, h2, E0', base', h3⟩ := h.checkFacts hm.thr hm.dl hm.slv hc
        rw [h1]
        simp only
        have hobj : p1.obj = p.obj := by rw [h2]
        rw [hobj]
        refine (h3.ghost (gt' := { gt with frames := p.checkFrames ctl t gt.frames, stuck := false, checked := false }) rfl rfl).checkObjAsserts ctl total h.obj
          (fun hne => (h.rep (h.stat.alive hm.thr) hne).1) fuel hm.fresh.iqs fun he => ?_
        obtain ⟨hi, hq⟩ := hx he
        obtain ⟨hi1, hprog, -⟩ := hi.checkFacts hm.thr hm.ready hm.dl hm.slv hm.lvl hm.dead hc
        simp only [Bool.not_true] at hi1
        have hthl : th < g.thrs.length := (List.getElem?_eq_some_iff.1 hm.thr).1
        have hg1 : (g.thrs.set th { gt with frames := p.checkFrames ctl t gt.frames, stuck := false, checked := false })[th]? =
          some { gt with frames := p.checkFrames ctl t gt.frames, stuck := false, checked := false } := by rw [List.getElem?_set_self hthl]
        obtain ⟨t2, ht2, hti⟩ := hi1.thr th _ hg1
        rw [h1] at ht2
        obtain rfl := Option.some.inj ht2
        obtain ⟨E1, base1, hd1⟩ := hti.dyn
        have hl : p1.lookup = p.lookup := by rw [h2]; rfl
        have hv : p1.varMap = p.varMap := by rw [h2]
        rw [hl, hv, hprog, hobj] at hd1
        exact ⟨E1, base1, hd1, rfl, hq, hm.fresh.act, hm.fresh.iqs⟩

theorem SysInv.undoAsserts {opts : Options} {p : Propagator V} {g : Ghost V} {th : ℕ} {gt : GThr} {fr : Frame} {frs : List Frame}
    (hgt : g.thrs[th]? = some gt) (hf : gt.frames = fr :: frs) (hl : fr.level ≠ 0) {extra : Bool}
    (hx : extra = true → SysInv opts p g ∧ (¬ Hon.hon → ∀ p', p.undo th = some p' → LimitsRight p' th frs)) : p.undoAsserts extra th = true := by
  unfold Propagator.undoAsserts
  cases ht : p.thrs[th]? with
  | none => rfl
  | some t =>
    refine S.undoAsserts_true fun he => ?_
    obtain ⟨hi, hright⟩ := hx he
    obtain ⟨t1, ht1, hti⟩ := hi.thr th gt hgt
    rw [ht] at ht1
    obtain rfl := Option.some.inj ht1
    obtain ⟨E0, base, hd⟩ := hti.dyn
    exact ⟨E0, frs, (hd.undo hf hl fun hh => (hright hh _ (by unfold Propagator.undo; rw [ht])).of_undo (p' := _) ht (by unfold Propagator.undo; rw [ht])).1.sinv rfl⟩

omit [Hon] in
theorem initThrsAsserts_true {extra : Bool} {envs : ℕ → InitEnv} {opts : Options} {idx : Symbol → Option ℕ} {size : ℕ} {prog : Prog}
    (hinj : IdxInj idx) (hnf : ∀ x ∈ prog.iqs, NF idx size x.lhs) (hobj : NF idx size prog.objective)
    (hb : ∀ x ∈ prog.iqs, x.lhs ≠ [] → Supports V x.rel) (k : ℕ) : ∀ i, initThrsAsserts V extra envs opts idx size prog k i = true := by
  induction k with
  | zero => intro i; rfl
  | succ k ih =>
    intro i
    unfold initThrsAsserts
    rw [S.prepareAsserts_true hinj hnf hobj, Bool.true_and]
    · split
      · exact ih _
      · rfl
    · intro x hx hne
      have := hb x hx hne
      unfold S.boundValAssert
      unfold Supports at this
      cases hr : x.rel <;> simp [hr] at this ⊢ <;> exact this

omit [Hon] in
/-- The assertions of `init`, if strict relations are available or not used. -/
theorem StatInv.initAsserts {opts : Options} {be : Backend} {p : Propagator V} {g : Ghost V} (h : StatInv opts p g) {extra : Bool}
    {mapper : ℤ → ℤ} {atoms : List TAtom} {envs : ℕ → InitEnv} {n : ℕ}
    (hsup : ∀ prog, evaluateTheory be mapper atoms p.prog = .ok prog → ∀ x ∈ prog.iqs, x.lhs ≠ [] → Supports V x.rel) :
    p.initAsserts extra be mapper atoms envs n = true := by
  unfold Propagator.initAsserts
  cases he : evaluateTheory be mapper atoms p.prog with
  | error e => rfl
  | ok prog =>
    simp only
    obtain ⟨auxs, iqs, ha, hq, hpi, -, hnf, -, hond, honz, hov⟩ := theory_sat h.pinv he
    obtain ⟨v1, v2, v3, v4⟩ := gatherProg_spec prog h.vars
    generalize hm : gatherProg (p.varMap, p.varVec) prog = m at v1 v2 v3 v4
    have hiq : ∀ x ∈ prog.iqs, IqNF prog.aux x := by
      intro x hx
      rw [hq] at hx
      rcases List.mem_append.1 hx with hx | hx
      · exact (h.iqnf x hx).mono fun e he => by rw [ha]; exact List.mem_append_left _ he
      · exact hnf x hx
    have known : ∀ y, prog.Mentions y → ∃ j, m.1.lookup y = some j ∧ j < m.1.length := by
      intro y hy
      obtain ⟨j, hj⟩ := List.mem_iff_getElem?.1 (v3 y hy)
      have := (v1.lookup y j).2 hj
      exact ⟨j, this, v1.lt this⟩
    refine initThrsAsserts_true v1.inj ?_ ?_ (hsup prog he) n 0
    · intro x hx
      exact ⟨(hiq x hx).nodup, (hiq x hx).co, fun t ht => known _ (Or.inr ⟨x, hx, t, ht, rfl⟩)⟩
    · exact ⟨hond, fun t ht => (honz t ht).1, fun t ht => known _ (Or.inl ⟨t, ht, rfl⟩)⟩

end Lpx
