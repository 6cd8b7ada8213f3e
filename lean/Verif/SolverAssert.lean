import Verif.SolverUpdate

/-! # `Variable::update`, `update_bound_` and the loop over the literals in `solve` -/

set_option linter.unusedSectionVars false

namespace Lpx
open Finset

variable {V : Type} [LpValue V] [Hon]

/-- The situation in which the bound trail is able to record an equality (see Finding 1): when an equality becomes true
on a level above 0, it does not improve both bounds of its variable, or the variable has no bounds yet, or its lower
bound stems from the same level. -/
def S.SafeB (ctl : Ctl) (s : S V) (bd : Bound V) : Prop :=
  bd.rel = .eq → ctl.dl = 0 ∨ s.tightensUp bd.var bd.value = false ∨ s.tightensLo bd.var bd.value = false ∨
    s.olderBound ctl (s.lower bd.var) = false ∨ (s.lower bd.var = none ∧ s.upper bd.var = none)

namespace S

/-- Facts about the bounds while literals are being asserted; `P` are the bounds asserted so far. -/
structure BState (E0 : (ℕ → V) → Prop) (ctl : Ctl) (fr : Frame) (frs : List Frame) (P : Bound V → Prop) (s : S V) : Prop where
  ctx : Ctx E0 ctl fr frs s
  enf : ∀ bd, P bd → Enf s.bounds s.lower s.upper bd
  pe : ∀ v b bd, (s.upper v = some b ∨ s.lower v = some b) → s.bounds[b]? = some bd → P bd

/-- Only bound pointers and the bound trail change. -/
def BForm (s s' : S V) : Prop := ∃ L U B, s' = { s with lower := L, upper := U, btrail := B }

omit [Hon] in
theorem enf_mono {s s' : S V} (hU : ∀ v x, s.up v = some x → ∃ y, s'.up v = some y ∧ y ≤ x)
    (hL : ∀ v x, s.lo v = some x → ∃ y, s'.lo v = some y ∧ x ≤ y) {bd : Bound V} (h : Enf s.bounds s.lower s.upper bd) :
    Enf s'.bounds s'.lower s'.upper bd := by
  refine ⟨fun hr => ?_, fun hr => ?_⟩
  · obtain ⟨y, h1, h2⟩ := h.1 hr
    obtain ⟨z, h3, h4⟩ := hU _ _ h1
    exact ⟨z, h3, h4.trans h2⟩
  · obtain ⟨y, h1, h2⟩ := h.2 hr
    obtain ⟨z, h3, h4⟩ := hL _ _ h1
    exact ⟨z, h3, h2.trans h4⟩

theorem updateVar_spec {E0 : (ℕ → V) → Prop} {ctl : Ctl} {fr : Frame} {frs : List Frame} {P : Bound V → Prop} {b : ℕ}
    {bd : Bound V} {s : S V} (h : BState E0 ctl fr frs P s) (hb : s.bounds[b]? = some bd) (hlit : bd.lit ∈ fr.lits)
    (hsafe : Hon.hon → SafeB ctl s bd) :
    BForm s (updateVar ctl s b bd).1 ∧ Ctx E0 ctl fr frs (updateVar ctl s b bd).1 ∧
    (updateVar ctl s b bd).2 = (updateVar ctl s b bd).1.loLeUp bd.var ∧
    (∀ v, v ≠ bd.var → (updateVar ctl s b bd).1.upper v = s.upper v ∧ (updateVar ctl s b bd).1.lower v = s.lower v) ∧
    ((updateVar ctl s b bd).2 = true → BState E0 ctl fr frs (fun x => P x ∨ x = bd) (updateVar ctl s b bd).1) := by
  have hmemb : bd ∈ s.bounds := List.mem_of_getElem? hb
  unfold updateVar
  cases hrel : bd.rel with
  | le =>
    simp only
    have hr : bd.rel ≠ .ge := by rw [hrel]; simp
    obtain ⟨hu, he⟩ := updateUpper_spec h.ctx hb hr hlit
    generalize hg : (updateUpper ctl s b bd) = r at *
    obtain ⟨s', ok⟩ := r
    simp only at hu he ⊢
    obtain ⟨U, B, hform⟩ := hu.form
    have hU : ∀ v, v ≠ bd.var → U v = s.upper v := fun v hv => by have := hu.other v hv; rw [hform] at this; exact this
    have hmono := hu.mono
    have henf := hu.enf
    have htight := hu.tight
    have hnot := hu.not
    refine ⟨⟨s.lower, U, B, hform⟩, hu.ctx, he, fun v hv => ⟨hu.other v hv, by rw [hform]⟩, fun _ => ⟨hu.ctx, ?_, ?_⟩⟩
    · rintro x (hx | rfl)
      · exact enf_mono hmono (fun v y hy => ⟨y, by rw [hform]; exact hy, le_rfl⟩) (h.enf x hx)
      · refine ⟨fun _ => henf, fun hr' => absurd hrel hr'⟩
    · intro v c bd' hc hbd'
      rw [show s'.bounds = s.bounds by rw [hform]] at hbd'
      rcases hc with hc | hc
      · by_cases hv : v = bd.var
        · subst hv
          cases ht : s.tightensUp bd.var bd.value
          · rw [hnot ht] at hc; exact Or.inl (h.pe _ c bd' (Or.inl hc) hbd')
          · rw [htight ht] at hc; simp only [Option.some.injEq] at hc; subst hc
            rw [hb] at hbd'; simp only [Option.some.injEq] at hbd'; exact Or.inr hbd'.symm
        · rw [hu.other v hv] at hc; exact Or.inl (h.pe v c bd' (Or.inl hc) hbd')
      · rw [show s'.lower = s.lower by rw [hform]] at hc
        exact Or.inl (h.pe v c bd' (Or.inr hc) hbd')
  | ge =>
    simp only
    have hr : bd.rel ≠ .le := by rw [hrel]; simp
    obtain ⟨hu, he⟩ := updateLower_spec h.ctx hb hr hlit (by
      intro _ _ hup _
      obtain ⟨bd', h1, -, h3, -⟩ := h.ctx.ptr.up _ _ hup
      rw [hb] at h1; simp only [Option.some.injEq] at h1; subst h1
      exact absurd hrel h3)
    generalize hg : (updateLower ctl s b bd) = r at *
    obtain ⟨s', ok⟩ := r
    simp only at hu he ⊢
    obtain ⟨L, B, hform⟩ := hu.form
    refine ⟨⟨L, s.upper, B, hform⟩, hu.ctx, he, fun v hv => ⟨by rw [hform], hu.other v hv⟩, fun _ => ⟨hu.ctx, ?_, ?_⟩⟩
    · rintro x (hx | rfl)
      · exact enf_mono (fun v y hy => ⟨y, by rw [hform]; exact hy, le_rfl⟩) hu.mono (h.enf x hx)
      · refine ⟨fun hr' => absurd hrel hr', fun _ => hu.enf⟩
    · intro v c bd' hc hbd'
      rw [show s'.bounds = s.bounds by rw [hform]] at hbd'
      rcases hc with hc | hc
      · rw [show s'.upper = s.upper by rw [hform]] at hc
        exact Or.inl (h.pe v c bd' (Or.inl hc) hbd')
      · by_cases hv : v = bd.var
        · subst hv
          cases ht : s.tightensLo bd.var bd.value
          · rw [hu.not ht] at hc; exact Or.inl (h.pe _ c bd' (Or.inr hc) hbd')
          · rw [hu.tight ht] at hc; simp only [Option.some.injEq] at hc; subst hc
            rw [hb] at hbd'; simp only [Option.some.injEq] at hbd'; exact Or.inr hbd'.symm
        · rw [hu.other v hv] at hc; exact Or.inl (h.pe v c bd' (Or.inr hc) hbd')
  | eq =>
    simp only
    obtain ⟨hu, he⟩ := updateUpper_spec h.ctx hb (by rw [hrel]; simp) hlit
    generalize hg : (updateUpper ctl s b bd) = r at *
    obtain ⟨s', ok⟩ := r
    simp only at hu he ⊢
    obtain ⟨U, B, hform⟩ := hu.form
    cases hok : ok
    · simp only [Bool.false_eq_true, if_false, false_imp_iff, and_true]
      exact ⟨⟨s.lower, U, B, hform⟩, hu.ctx, by rw [← hok]; exact he, fun v hv => ⟨hu.other v hv, by rw [hform]⟩⟩
    · simp only [if_true]
      have hb' : s'.bounds = s.bounds := by rw [hform]
      have hlow : s'.lower = s.lower := by rw [hform]
      have hold' : ∀ p, s'.olderBound ctl p = s.olderBound ctl p := by intro p; rw [hform]; rfl
      have htl : ∀ v x, s'.tightensLo v x = s.tightensLo v x := by intro v x; rw [hform]; rfl
      obtain ⟨hl, hel⟩ := updateLower_spec hu.ctx (by rw [hb']; exact hb) (by rw [hrel]; simp) hlit (by
        intro ht ho hup hon
        rw [htl] at ht
        rw [hold', hlow] at ho
        rcases hsafe hon hrel with h0 | h0 | h0 | h0 | ⟨h0, h1⟩
        · exact Or.inl h0
        · exfalso
          rw [hu.not h0] at hup
          obtain ⟨y, hy1, hy2⟩ := (h.enf bd (h.pe _ b bd (Or.inl hup) hb)).2 (by rw [hrel]; simp)
          unfold tightensLo at ht
          rw [lo_eq, hy1] at ht
          simp only [decide_eq_true_eq] at ht
          exact absurd ht (not_lt.2 hy2)
        · rw [h0] at ht; simp at ht
        · rw [h0] at ho; simp at ho
        · right
          have htu : s.tightensUp bd.var bd.value = true := by
            unfold tightensUp; rw [up_eq, h1]; rfl
          have hou : s.olderBound ctl (s.upper bd.var) = true := by rw [h1]; rfl
          refine ⟨s.btrail, ?_⟩
          rw [hu.push htu hou, hlow, h0, h1])
      generalize hg2 : (updateLower ctl s' b bd) = r2 at *
      obtain ⟨s2, ok2⟩ := r2
      simp only at hl hel ⊢
      obtain ⟨L, B2, hform2⟩ := hl.form
      have hup2 : s2.upper = s'.upper := by rw [hform2]
      have hb2 : s2.bounds = s.bounds := by rw [hform2]; exact hb'
      have hlo2 : ∀ v x, s.lo v = some x → ∃ y, s2.lo v = some y ∧ x ≤ y := by
        intro v x hvx
        apply hl.mono
        rw [hform]; exact hvx
      have hupm2 : ∀ v x, s.up v = some x → ∃ y, s2.up v = some y ∧ y ≤ x := by
        intro v x hvx
        obtain ⟨y, h1, h2⟩ := hu.mono v x hvx
        exact ⟨y, by rw [hform2]; exact h1, h2⟩
      refine ⟨⟨L, U, B2, by rw [hform2, hform]⟩, hl.ctx, hel, fun v hv => ⟨by rw [hup2]; exact hu.other v hv, by rw [hl.other v hv, hlow]⟩, fun _ => ⟨hl.ctx, ?_, ?_⟩⟩
      · rintro x (hx | rfl)
        · exact enf_mono hupm2 hlo2 (h.enf x hx)
        · refine ⟨fun _ => ?_, fun _ => hl.enf⟩
          obtain ⟨y, h1, h2⟩ := hu.enf
          exact ⟨y, by rw [hb2, hup2, ← hb']; exact h1, h2⟩
      · intro v c bd' hc hbd'
        rw [hb2] at hbd'
        rcases hc with hc | hc
        · rw [hup2] at hc
          by_cases hv : v = bd.var
          · subst hv
            cases ht : s.tightensUp bd.var bd.value
            · rw [hu.not ht] at hc; exact Or.inl (h.pe _ c bd' (Or.inl hc) hbd')
            · rw [hu.tight ht] at hc; simp only [Option.some.injEq] at hc; subst hc
              rw [hb] at hbd'; simp only [Option.some.injEq] at hbd'; exact Or.inr hbd'.symm
          · rw [hu.other v hv] at hc; exact Or.inl (h.pe v c bd' (Or.inl hc) hbd')
        · by_cases hv : v = bd.var
          · subst hv
            cases ht : s'.tightensLo bd.var bd.value
            · rw [hl.not ht, hlow] at hc; exact Or.inl (h.pe _ c bd' (Or.inr hc) hbd')
            · rw [hl.tight ht] at hc; simp only [Option.some.injEq] at hc; subst hc
              rw [hb] at hbd'; simp only [Option.some.injEq] at hbd'; exact Or.inr hbd'.symm
          · rw [hl.other v hv, hlow] at hc; exact Or.inl (h.pe v c bd' (Or.inr hc) hbd')

/-- Invariant while literals are being asserted. -/
structure UInv (E0 : (ℕ → V) → Prop) (ctl : Ctl) (fr : Frame) (frs : List Frame) (P : Bound V → Prop) (s : S V) : Prop where
  core : Core E0 s
  bst : BState E0 ctl fr frs P s
  ub : s.ub = false
  bvar : ∀ bd ∈ s.bounds, bd.var < s.nvars

/-- Invariant after a conflict. -/
structure CInv (E0 : (ℕ → V) → Prop) (frames : List Frame) (s : S V) : Prop where
  struct : Struct s
  eqv : ∀ asg, TabEq s asg ↔ E0 asg
  qa : ∀ v, s.queued v = true → v ∈ s.conflicts
  pq : PQ s
  ob : ObjB s
  chain : Chain E0 s.bounds frames s.view
  ub : s.ub = false
  bvar : ∀ bd ∈ s.bounds, bd.var < s.nvars

/-- A clause whose literals are negations of literals of active bounds. -/
def FromAct (bounds : List (Bound V)) (frames : List Frame) (c : List ℤ) : Prop :=
  ∀ l ∈ c, ∃ bd ∈ bounds, l = -bd.lit ∧ Act frames bd.lit

/-- Fields not changed by asserting bounds. -/
structure Stay (s s' : S V) : Prop where
  opts : s'.opts = s.opts
  bounds : s'.bounds = s.bounds
  nvars : s'.nvars = s.nvars
  vbounds : s'.vbounds = s.vbounds
  offs : s'.offs = s.offs
  n : s'.n = s.n
  m : s'.m = s.m
  obj : s'.obj = s.obj
  props : s'.props = s.props

omit [Hon] in
theorem Stay.refl (s : S V) : Stay s s := by constructor <;> rfl
omit [Hon] in
theorem Stay.trans {a b c : S V} (h : Stay a b) (k : Stay b c) : Stay a c := by
  constructor
  · rw [k.opts, h.opts]
  · rw [k.bounds, h.bounds]
  · rw [k.nvars, h.nvars]
  · rw [k.vbounds, h.vbounds]
  · rw [k.offs, h.offs]
  · rw [k.n, h.n]
  · rw [k.m, h.m]
  · rw [k.obj, h.obj]
  · rw [k.props, h.props]
omit [Hon] in
theorem Keep.stay {s s' : S V} (h : Keep s s') : Stay s s' :=
  ⟨h.opts, h.bounds, h.nvars, h.vbounds, h.offs, h.n, h.m, h.obj, h.props⟩
omit [Hon] in
theorem BForm.stay {s s' : S V} (h : BForm s s') : Stay s s' := by
  obtain ⟨L, U, B, rfl⟩ := h; constructor <;> rfl

theorem BState.keep {E0 : (ℕ → V) → Prop} {ctl : Ctl} {fr : Frame} {frs : List Frame} {P : Bound V → Prop} {s s' : S V}
    (h : BState E0 ctl fr frs P s) (hk : Keep s s') (hv : VStep ctl.dl s s') : BState E0 ctl fr frs P s' := by
  refine ⟨⟨h.ctx.lev, h.ctx.ok, ?_, ?_⟩, ?_, ?_⟩
  · rw [hk.bounds, hk.lower, hk.upper]; exact h.ctx.ptr
  · rw [hk.bounds]; exact Chain.vstep h.ctx.chain hk (by rw [h.ctx.lev]; exact hv)
  · rw [hk.bounds, hk.lower, hk.upper]; exact h.enf
  · rw [hk.bounds, hk.lower, hk.upper]; exact h.pe

omit [Hon] in
theorem ptrOK_of {bounds : List (Bound V)} {frames : List Frame} {s : S V} (h : PtrAct s.bounds frames s.lower s.upper) :
    PtrOK s :=
  ⟨fun v b hb => by obtain ⟨bd, h1, h2, h3, -⟩ := h.up v b hb; exact ⟨bd, h1, h2, h3⟩,
   fun v b hb => by obtain ⟨bd, h1, h2, h3, -⟩ := h.lo v b hb; exact ⟨bd, h1, h2, h3⟩⟩

omit [Hon] in
theorem Struct.bform {s s' : S V} (h : Struct s) (hf : BForm s s') : Struct s' := by
  obtain ⟨L, U, B, rfl⟩ := hf
  exact ⟨h.nv, h.idx_lt, h.ridx_lt, h.ir, h.ri, h.wf, h.shape, h.low⟩

omit [Hon] in
theorem FromBounds.act {frames : List Frame} {s : S V} (h : PtrAct s.bounds frames s.lower s.upper) {c : List ℤ}
    (hc : FromBounds s c) : FromAct s.bounds frames c := by
  intro l hl
  obtain ⟨v, b, bd, h1, h2, h3⟩ := hc l hl
  refine ⟨bd, List.mem_of_getElem? h2, h3, ?_⟩
  rcases h1 with h1 | h1
  · obtain ⟨bd', g1, -, -, g4⟩ := h.up v b h1
    rw [h2] at g1; simp only [Option.some.injEq] at g1; subst g1; exact g4
  · obtain ⟨bd', g1, -, -, g4⟩ := h.lo v b h1
    rw [h2] at g1; simp only [Option.some.injEq] at g1; subst g1; exact g4

theorem updateBound_spec {E0 : (ℕ → V) → Prop} {ctl : Ctl} {fr : Frame} {frs : List Frame} {P : Bound V → Prop} {b : ℕ}
    {bd : Bound V} {s : S V} (h : UInv E0 ctl fr frs P s) (hb : s.bounds[b]? = some bd) (hlit : bd.lit ∈ fr.lits)
    (hsafe : Hon.hon → SafeB ctl s bd) :
    Stay s (updateBound ctl s b bd).1 ∧
    ((updateBound ctl s b bd).2 = true → UInv E0 ctl fr frs (fun x => P x ∨ x = bd) (updateBound ctl s b bd).1 ∧
      (updateBound ctl s b bd).1.out = s.out) ∧
    ((updateBound ctl s b bd).2 = false → CInv E0 (fr :: frs) (updateBound ctl s b bd).1 ∧
      ∃ c, (updateBound ctl s b bd).1.out = s.out ++ [c] ∧ ClauseValid s.bounds E0 c ∧ FromAct s.bounds (fr :: frs) c) := by
  obtain ⟨hf, hctx, hok, hother, hbs⟩ := updateVar_spec h.bst hb hlit hsafe
  unfold updateBound
  simp only
  generalize hg : updateVar ctl s b bd = r at *
  obtain ⟨t, ok⟩ := r
  simp only at hf hctx hok hother hbs ⊢
  have hstay := hf.stay
  have hst : Struct t := h.core.struct.bform hf
  have htab : ∀ asg, TabEq t asg ↔ E0 asg := by
    intro asg; rw [← h.core.eqv]; obtain ⟨L, U, B, rfl⟩ := hf; exact Iff.rfl
  have hqi : QI t := by obtain ⟨L, U, B, rfl⟩ := hf; exact ⟨h.core.qi.qa, h.core.qi.sorted, h.core.qi.lt⟩
  have hpq : PQ t := by obtain ⟨L, U, B, rfl⟩ := hf; exact h.core.pq
  have hob : ObjB t := by obtain ⟨L, U, B, rfl⟩ := hf; exact h.core.ob
  have hub : t.ub = false := by obtain ⟨L, U, B, rfl⟩ := hf; exact h.ub
  have hout : t.out = s.out := by obtain ⟨L, U, B, rfl⟩ := hf; rfl
  have hval : t.value = s.value := by obtain ⟨L, U, B, rfl⟩ := hf; rfl
  have hidx : t.index = s.index := by obtain ⟨L, U, B, rfl⟩ := hf; rfl
  have hcon : t.conflicts = s.conflicts := by obtain ⟨L, U, B, rfl⟩ := hf; rfl
  have hbv : bd.var < t.nvars := by rw [hstay.nvars]; exact h.bvar bd (List.mem_of_getElem? hb)
  have hlo : ∀ v, v ≠ bd.var → t.lo v = s.lo v := fun v hv => by rw [lo_eq, lo_eq, hstay.bounds, (hother v hv).2]
  have hup : ∀ v, v ≠ bd.var → t.up v = s.up v := fun v hv => by rw [up_eq, up_eq, hstay.bounds, (hother v hv).1]
  have hwin : ∀ v, v ≠ bd.var → (t.Win v ↔ s.Win v) := fun v hv => by unfold Win; rw [hlo v hv, hup v hv, hval]
  have hbvar : ∀ bd ∈ t.bounds, bd.var < t.nvars := by rw [hstay.bounds, hstay.nvars]; exact h.bvar
  cases hok' : ok
  · -- conflicting bounds
    simp only [Bool.not_false, if_true]
    rw [hok'] at hok
    have hnot : ¬ ∀ l u, t.lo bd.var = some l → t.up bd.var = some u → l ≤ u := by
      rw [← loLeUp_iff, ← hok]; simp
    push Not at hnot
    obtain ⟨xl, xu, h1, h2, h3⟩ := hnot
    obtain ⟨bl, bdl, l1, l2, l3⟩ := lo_some h1
    obtain ⟨bu, bdu, u1, u2, u3⟩ := up_some h2
    rw [blit_of u1 u2, blit_of l1 l2]
    simp only
    refine ⟨?_, by simp, fun _ => ⟨?_, [-bdu.lit, -bdl.lit], ?_, ?_, ?_⟩⟩
    · obtain ⟨L, U, B, rfl⟩ := hf; constructor <;> rfl
    · exact ⟨⟨hst.nv, hst.idx_lt, hst.ridx_lt, hst.ir, hst.ri, hst.wf, hst.shape, hst.low⟩, htab, hqi.qa, hpq, hob, hctx.chain, hub, hbvar⟩
    · show t.out ++ _ = _; rw [hout]
    · obtain ⟨bdl', g1, g2, g3, -⟩ := hctx.ptr.lo _ _ l1
      rw [l2] at g1; simp only [Option.some.injEq] at g1; subst g1
      obtain ⟨bdu', k1, k2, k3, -⟩ := hctx.ptr.up _ _ u1
      rw [u2] at k1; simp only [Option.some.injEq] at k1; subst k1
      rw [← hstay.bounds]
      refine ⟨fun x => x = bdu ∨ x = bdl, ?_, ?_, fun asg _ hall => ?_, Or.inl ⟨bdu, bdl, fun _ h => h⟩⟩
      · rintro x (rfl | rfl)
        · exact List.mem_of_getElem? u2
        · exact List.mem_of_getElem? l2
      · intro l; simp
      have hl' := (hall bdl (Or.inr rfl)).ge g3
      have hu' := (hall bdu (Or.inl rfl)).le k3
      rw [g2, l3] at hl'
      rw [k2, u3] at hu'
      exact absurd (hl'.trans hu') (not_le.2 h3)
    · rw [← hstay.bounds]
      apply FromBounds.act hctx.ptr
      intro l hl
      simp only [List.mem_cons, List.not_mem_nil, or_false] at hl
      rcases hl with rfl | rfl
      · exact ⟨_, _, _, Or.inl u1, u2, rfl⟩
      · exact ⟨_, _, _, Or.inr l1, l2, rfl⟩
  · simp only [Bool.not_true, Bool.false_eq_true, if_false]
    have hbs' := hbs hok'
    rw [hok'] at hok
    have hlu : ∀ v, v < t.nvars → t.loLeUp v = true := by
      intro v hv
      by_cases hvb : v = bd.var
      · rw [hvb]; exact hok.symm
      · have := h.core.lu v (by rw [← hstay.nvars]; exact hv)
        unfold loLeUp at this ⊢
        rw [hlo v hvb, hup v hvb]; exact this
    have hvalE : TabEq t t.value := by rw [htab, hval, ← h.core.eqv]; exact h.core.val
    have hqb : QB t (fun u => u = bd.var) := by
      intro u hu hne hw
      rw [hcon]
      exact h.core.qb u (by rw [← hstay.nvars]; exact hu) (by simp) (fun hh => hw ((hwin u hne).2 hh))
    have hptr : PtrOK t := ptrOK_of (bounds := t.bounds) hctx.ptr
    have hnbo : ∀ l, l < t.n → t.index l ≠ bd.var → t.Win (t.index l) := by
      intro l hl hne
      rw [hwin _ hne, hidx]; exact h.core.nb l (by rw [← hstay.n]; exact hl)
    by_cases hnbv : t.rindex bd.var < t.n
    · rw [if_pos hnbv]
      have hidxv : t.index (t.rindex bd.var) = bd.var := hst.ir _ hbv
      -- updating a non-basic variable to one of its bounds
      have hupd : ∀ x, t.lo bd.var = some x ∨ t.up bd.var = some x →
          Stay s (t.update ctl.dl (t.rindex bd.var) x) ∧
          UInv E0 ctl fr frs (fun x => P x ∨ x = bd) (t.update ctl.dl (t.rindex bd.var) x) ∧
          (t.update ctl.dl (t.rindex bd.var) x).out = s.out := by
        intro x hx
        have hu := update_spec t hst ctl.dl (t.rindex bd.var) hnbv x
        generalize t.update ctl.dl (t.rindex bd.var) x = t' at *
        have hvx : t'.value bd.var = x := by
          have := hu.shift.nb _ hnbv
          rw [hidxv, if_pos rfl] at this
          rw [this]; abel
        have hwx : t'.Win bd.var := by
          unfold Win
          rw [hu.keep.lo, hu.keep.up, hvx]
          have := (loLeUp_iff t _).1 (hlu bd.var hbv)
          rcases hx with hx | hx
          · exact ⟨fun b' hb' => by rw [hx] at hb'; simp at hb'; exact hb'.symm.le, fun b' hb' => this _ _ hx hb'⟩
          · exact ⟨fun b' hb' => this _ _ hb' hx, fun b' hb' => by rw [hx] at hb'; simp at hb'; exact hb'.le⟩
        have hteq : ∀ asg, TabEq t' asg ↔ TabEq t asg := by
          intro asg; unfold TabEq; rw [hu.keep.n, hu.keep.m, hu.index]; simp only [hu.coef]
        refine ⟨hstay.trans hu.keep.stay, ⟨⟨hu.struct, hu.keep.ptrVar hptr.var, fun asg => by rw [hteq, htab], ?_, ?_, ?_, hu.qi hqi, ?_, hu.pq hpq, hob.keep hu.keep hu.rindex⟩, hbs'.keep hu.keep hu.vstep, ?_, ?_⟩, ?_⟩
        · rw [hteq]; exact hu.shift.tabEq hnbv hvalE
        · intro l hl
          rw [hu.keep.n] at hl
          rw [hu.index]
          by_cases hlv : t.index l = bd.var
          · rw [hlv]; exact hwx
          · rw [win_congr hu.keep]
            · exact hnbo l hl hlv
            · rw [hu.shift.nb l hl, if_neg, add_zero]
              intro h'; apply hlv; rw [h', hidxv]
        · intro v hv; rw [hu.keep.loLeUp]; exact hlu v (by rw [← hu.keep.nvars]; exact hv)
        · refine hu.qb _ hqi ?_ (by rw [hidxv]; exact hwx)
          intro u hu' hne; rw [hidxv] at hne; exact hqb u hu' (by simpa using hne)
        · rw [hu.keep.ub]; exact hub
        · rw [hu.keep.bounds, hu.keep.nvars]; exact hbvar
        · rw [hu.keep.out]; exact hout
      cases hbl : t.belowLo bd.var
      · simp only [Bool.false_eq_true, if_false]
        cases hau : t.aboveUp bd.var
        · simp only [Bool.false_eq_true, if_false]
          have hw : t.Win bd.var := by
            by_contra hw
            have := (hasConflict_iff t bd.var).2 hw
            unfold hasConflict at this
            simp [hbl, hau] at this
          refine ⟨hstay, fun _ => ⟨⟨⟨hst, hptr.var, htab, hvalE, ?_, hlu, hqi, ?_, hpq, hob⟩, hbs', hub, hbvar⟩, hout⟩, by simp⟩
          · intro l hl
            by_cases hlv : t.index l = bd.var
            · rw [hlv]; exact hw
            · exact hnbo l hl hlv
          · intro u hu _ hnw
            apply hqb u hu _ hnw
            rintro rfl; exact hnw hw
        · obtain ⟨x, hx1, -⟩ := (aboveUp_iff t _).1 hau
          simp only [if_true, hx1]
          obtain ⟨h1, h2, h3⟩ := hupd x (Or.inr hx1)
          exact ⟨h1, fun _ => ⟨h2, h3⟩, by simp⟩
      · obtain ⟨x, hx1, -⟩ := (belowLo_iff t _).1 hbl
        simp only [if_true, hx1]
        obtain ⟨h1, h2, h3⟩ := hupd x (Or.inl hx1)
        exact ⟨h1, fun _ => ⟨h2, h3⟩, by simp⟩
    · rw [if_neg hnbv]
      have hrl := hst.ridx_lt _ hbv
      have hidxv : t.index (t.rindex bd.var - t.n + t.n) = bd.var := by
        rw [Nat.sub_add_cancel (by omega)]; exact hst.ir _ hbv
      have hk := enqueue_keep t (t.rindex bd.var - t.n)
      obtain ⟨e1, e2, e3, e4, e5, e6, e7, -⟩ := enqueue_same t (t.rindex bd.var - t.n)
      have hqi' := enqueue_qi hqi (t.rindex bd.var - t.n) (by rw [hidxv]; exact hbv)
      have hpq' := enqueue_pq hpq (i := t.rindex bd.var - t.n) (by have := hst.nv; omega)
      have hmem := enqueue_mem hqi (t.rindex bd.var - t.n)
      have hmono : ∀ {v}, v ∈ t.conflicts → v ∈ (t.enqueue (t.rindex bd.var - t.n)).conflicts := enqueue_mono t _
      rw [hidxv] at hmem
      generalize t.enqueue (t.rindex bd.var - t.n) = t' at *
      have hw' : ∀ v, t'.Win v ↔ t.Win v := fun v => win_congr hk (by rw [e4])
      refine ⟨hstay.trans hk.stay, fun _ => ⟨⟨⟨?_, hk.ptrVar hptr.var, ?_, ?_, ?_, ?_, hqi', ?_, hpq', hob.keep hk e2⟩, hbs'.keep hk (VStep.of_eq e4 e5 e6 hk.nvars), ?_, ?_⟩, ?_⟩, by simp⟩
      · refine ⟨by rw [hk.n, hk.m, hk.nvars]; exact hst.nv, by rw [e1, hk.nvars]; exact hst.idx_lt, by rw [e2, hk.nvars]; exact hst.ridx_lt,
          by rw [e1, e2, hk.nvars]; exact hst.ir, by rw [e1, e2, hk.nvars]; exact hst.ri, by rw [e3]; exact hst.wf, by rw [e3, hk.n, hk.m]; exact hst.shape, by rw [e3]; exact hst.low⟩
      · intro asg; rw [← htab]; unfold TabEq; rw [hk.n, hk.m, e1, e3]
      · have : TabEq t' t.value ↔ TabEq t t.value := by unfold TabEq; rw [hk.n, hk.m, e1, e3]
        rw [e4, this]; exact hvalE
      · intro l hl
        rw [hk.n] at hl
        rw [e1, hw']
        apply hnbo l hl
        intro h'
        rw [← h', hst.ri l (by have := hst.nv; omega)] at hnbv
        exact hnbv hl
      · intro v hv; rw [hk.loLeUp]; exact hlu v (by rw [← hk.nvars]; exact hv)
      · intro u hu _ hnw
        rw [hw'] at hnw
        by_cases hub' : u = bd.var
        · subst hub'; exact hmem hnw
        · exact hmono (hqb u (by rw [← hk.nvars]; exact hu) hub' hnw)
      · rw [hk.ub]; exact hub
      · rw [hk.bounds, hk.nvars]; exact hbvar
      · rw [hk.out]; exact hout

end S
end Lpx
