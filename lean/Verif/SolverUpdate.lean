import Verif.SolverChain

/-! # Asserting bounds: `update_bound_` -/

set_option linter.unusedSectionVars false

namespace Lpx
open Finset

variable {V : Type} [LpValue V] [Hon]

omit [Hon] in
theorem InL.of_none {bounds : List (Bound V)} {lits : List ℤ} : ¬ InL bounds lits none := by
  rintro ⟨b, bd, h, -⟩; simp at h

omit [Hon] in
theorem inL_some {bounds : List (Bound V)} {lits : List ℤ} {b : ℕ} {bd : Bound V} (hb : bounds[b]? = some bd) :
    InL bounds lits (some b) ↔ bd.lit ∈ lits := by
  constructor
  · rintro ⟨b', bd', h1, h2, h3⟩
    simp only [Option.some.injEq] at h1; subst h1
    rw [hb] at h2; simp only [Option.some.injEq] at h2; subst h2; exact h3
  · intro h; exact ⟨b, bd, rfl, hb, h⟩

omit [Hon] in
theorem bvalOf_some {bounds : List (Bound V)} {p : Option ℕ} {x : V} (h : bvalOf bounds p = some x) :
    ∃ b bd, p = some b ∧ bounds[b]? = some bd ∧ bd.value = x := by
  unfold bvalOf at h
  obtain ⟨b, hb, h⟩ := Option.bind_eq_some_iff.1 h
  obtain ⟨bd, hbd, h⟩ := Option.map_eq_some_iff.1 h
  exact ⟨b, bd, hb, hbd, h⟩

omit [Hon] in
theorem bvalOf_of {bounds : List (Bound V)} {b : ℕ} {bd : Bound V} (h : bounds[b]? = some bd) :
    bvalOf bounds (some b) = some bd.value := by unfold bvalOf; simp [h]

namespace S

omit [Hon] in
theorem up_eq (s : S V) (v : ℕ) : s.up v = bvalOf s.bounds (s.upper v) := rfl
omit [Hon] in
theorem lo_eq (s : S V) (v : ℕ) : s.lo v = bvalOf s.bounds (s.lower v) := rfl

omit [Hon] in
/-- The test for older bounds recognizes the literals of the current level. -/
theorem older_iff {ctl : Ctl} {fr : Frame} {frs : List Frame} {s : S V} {p : Option ℕ}
    (hlev : fr.level = ctl.dl) (hlt : ∀ fr' ∈ frs, fr'.level < fr.level) (hok : LvlOK ctl (fr :: frs))
    (hp : ∀ b, p = some b → ∃ bd, s.bounds[b]? = some bd ∧ Act (fr :: frs) bd.lit) :
    s.olderBound ctl p = true ↔ ¬ InL s.bounds fr.lits p := by
  unfold olderBound
  cases p with
  | none => simp [blit, InL.of_none]
  | some b =>
    obtain ⟨bd, h1, fr', h2, h3⟩ := hp b rfl
    rw [blit_of rfl h1, inL_some h1]
    simp only [decide_eq_true_eq]
    have hl := hok fr' h2 _ h3
    rcases List.mem_cons.1 h2 with h | h
    · subst h
      constructor
      · intro h4; omega
      · intro h4; exact absurd h3 h4
    · have := hlt fr' h
      constructor
      · intro h4 h5
        have := hok fr (by simp) _ h5
        omega
      · intro _; omega

/-- Facts about the frames needed when asserting bounds. -/
structure Ctx (E0 : (ℕ → V) → Prop) (ctl : Ctl) (fr : Frame) (frs : List Frame) (s : S V) : Prop where
  lev : fr.level = ctl.dl
  ok : LvlOK ctl (fr :: frs)
  ptr : PtrAct s.bounds (fr :: frs) s.lower s.upper
  chain : Chain E0 s.bounds (fr :: frs) s.view

theorem Ctx.lt {E0 : (ℕ → V) → Prop} {ctl : Ctl} {fr : Frame} {frs : List Frame} {s : S V} (h : Ctx E0 ctl fr frs s) :
    ∀ fr' ∈ frs, fr'.level < fr.level := by
  obtain ⟨o, os, -, -, -, hc⟩ := h.chain
  split at hc
  · rw [hc.1]; simp
  · exact hc.2.2.1

theorem Ctx.trail {E0 : (ℕ → V) → Prop} {ctl : Ctl} {fr : Frame} {frs : List Frame} {s : S V} (h : Ctx E0 ctl fr frs s) :
    s.btrail = [] → ∀ v, s.upper v = none := by
  obtain ⟨o, os, -, -, hk, -⟩ := h.chain
  exact hk

omit [Hon] in
/-- Changes of the limits and of the last entries of the bound trail. -/
theorem _root_.Lpx.View.pop_like {w w' : View V} (h1 : w'.value = w.value) (h2 : w'.level = w.level) (h3 : w'.atrail = w.atrail) (h4 : w'.offs = w.offs)
    {o : Off} {os : List Off} (ho : w.offs = o :: os) (hb : o.bound ≤ w.btrail.length) (hb' : o.bound ≤ w'.btrail.length) :
    w'.pop.Like w.pop := by
  unfold View.pop
  rw [h4, ho]
  refine ⟨by simp only [h1, h3], by simp only [h2, h3], by simp only [h3], rfl, ?_⟩
  simp only [List.length_take]
  omega

omit [Hon] in
theorem markBackEq_length : ∀ t : List (ℕ × BRel × Option ℕ), (markBackEq t).length = t.length
  | [] => rfl
  | [(_, _, _)] => rfl
  | e :: f :: es => by
    show (e :: markBackEq (f :: es)).length = _
    rw [List.length_cons, markBackEq_length (f :: es)]; rfl

omit [Hon] in
theorem segU_le (v : ℕ) (p : Option ℕ) : segU [(v, .le, p)] = [(v, p)] := rfl
omit [Hon] in
theorem segL_le (v : ℕ) (p : Option ℕ) : segL [(v, BRel.le, p)] = [] := rfl
omit [Hon] in
theorem segU_ge (v : ℕ) (p : Option ℕ) : segU [(v, BRel.ge, p)] = [] := rfl
omit [Hon] in
theorem segL_ge (v : ℕ) (p : Option ℕ) : segL [(v, .ge, p)] = [(v, p)] := rfl
omit [Hon] in
theorem segU_eq (v : ℕ) (p : Option ℕ) : segU [(v, .eq, p)] = [(v, p)] := rfl
omit [Hon] in
theorem segL_eq (v : ℕ) (p : Option ℕ) : segL [(v, .eq, p)] = [(v, p)] := rfl

omit [Hon] in
theorem markBackEq_append (t : List (ℕ × BRel × Option ℕ)) (v : ℕ) (r : BRel) (p : Option ℕ) :
    markBackEq (t ++ [(v, r, p)]) = t ++ [(v, .eq, p)] := by
  induction t with
  | nil => rfl
  | cons e es ih =>
    cases h : es ++ [(v, r, p)] with
    | nil => simp at h
    | cons a as =>
      rw [List.cons_append, h]
      show e :: markBackEq (a :: as) = _
      rw [← h, ih]; rfl

omit [Hon] in
theorem markBackEq_ne_nil {t : List (ℕ × BRel × Option ℕ)} (h : t ≠ []) : markBackEq t ≠ [] := by
  cases t with
  | nil => exact absurd rfl h
  | cons e es =>
    cases es with
    | nil => obtain ⟨a, b, c⟩ := e; simp [markBackEq]
    | cons => simp [markBackEq]

/-- Result of `update_upper`. -/
structure UpSpec (E0 : (ℕ → V) → Prop) (ctl : Ctl) (fr : Frame) (frs : List Frame) (b : ℕ) (bd : Bound V)
    (s s' : S V) : Prop where
  form : ∃ U B, s' = { s with upper := U, btrail := B }
  ctx : Ctx E0 ctl fr frs s'
  enf : ∃ y, s'.up bd.var = some y ∧ y ≤ bd.value
  mono : ∀ v x, s.up v = some x → ∃ y, s'.up v = some y ∧ y ≤ x
  other : ∀ v, v ≠ bd.var → s'.upper v = s.upper v
  tight : s.tightensUp bd.var bd.value = true → s'.upper bd.var = some b
  not : s.tightensUp bd.var bd.value = false → s' = s
  push : s.tightensUp bd.var bd.value = true → s.olderBound ctl (s.upper bd.var) = true →
    s'.btrail = s.btrail ++ [(bd.var, .le, s.upper bd.var)]

theorem updateUpper_spec {E0 : (ℕ → V) → Prop} {ctl : Ctl} {fr : Frame} {frs : List Frame} {b : ℕ} {bd : Bound V}
    {s : S V} (hx : Ctx E0 ctl fr frs s) (hb : s.bounds[b]? = some bd) (hrel : bd.rel ≠ .ge) (hlit : bd.lit ∈ fr.lits) :
    UpSpec E0 ctl fr frs b bd s (updateUpper ctl s b bd).1 ∧
    (updateUpper ctl s b bd).2 = (updateUpper ctl s b bd).1.loLeUp bd.var := by
  refine ⟨?_, rfl⟩
  unfold updateUpper
  simp only
  cases ht : s.tightensUp bd.var bd.value
  · simp only [Bool.false_eq_true, if_false]
    have : ∃ y, s.up bd.var = some y ∧ y ≤ bd.value := by
      unfold tightensUp at ht
      cases hu : s.up bd.var with
      | none => rw [hu] at ht; simp at ht
      | some u => rw [hu] at ht; exact ⟨u, rfl, by simpa using ht⟩
    refine ⟨⟨s.upper, s.btrail, rfl⟩, hx, this, fun v x h => ⟨x, h, le_rfl⟩, fun _ _ => rfl, by simp [ht], fun _ => rfl, by simp [ht]⟩
  · simp only [if_true]
    have hold := older_iff hx.lev hx.lt hx.ok (p := s.upper bd.var)
      (fun c hc => by obtain ⟨bd', h1, -, -, h4⟩ := hx.ptr.up _ _ hc; exact ⟨bd', h1, h4⟩)
    set s' : S V := { (if s.olderBound ctl (s.upper bd.var) = true then { s with btrail := s.btrail ++ [(bd.var, .le, s.upper bd.var)] } else s) with
      upper := Function.update (if s.olderBound ctl (s.upper bd.var) = true then { s with btrail := s.btrail ++ [(bd.var, .le, s.upper bd.var)] } else s).upper bd.var (some b) } with hs'
    have hU : s'.upper = Function.update s.upper bd.var (some b) := by rw [hs']; split <;> rfl
    have hB : s'.btrail = if s.olderBound ctl (s.upper bd.var) = true then s.btrail ++ [(bd.var, .le, s.upper bd.var)] else s.btrail := by
      rw [hs']; split <;> rfl
    have hform : s' = { s with upper := s'.upper, btrail := s'.btrail } := by rw [hs']; split <;> rfl
    clear_value s'
    generalize hU' : s'.upper = U at *
    generalize hB' : s'.btrail = B at *
    subst hform
    have hup : ∀ v, v ≠ bd.var → U v = s.upper v := fun v hv => by rw [hU, Function.update_of_ne hv]
    have hupv : U bd.var = some b := by rw [hU, Function.update_self]
    refine ⟨⟨U, B, rfl⟩, ⟨hx.lev, hx.ok, ⟨?_, hx.ptr.lo⟩, ?_⟩, ?_, ?_, hup, fun _ => hupv, ?_, ?_⟩
    · intro v c hc
      show ∃ bd, s.bounds[c]? = some bd ∧ _
      have hc' : U v = some c := hc
      by_cases hv : v = bd.var
      · subst hv; rw [hupv] at hc'; simp only [Option.some.injEq] at hc'; subst hc'
        exact ⟨bd, hb, rfl, hrel, fr, by simp, hlit⟩
      · rw [hup v hv] at hc'; exact hx.ptr.up v c hc'
    · have hBlen : s.btrail.length ≤ B.length := by
        rw [hB]; split
        · simp
        · exact le_rfl
      refine hx.chain.top rfl rfl ?_ (fun _ h1 h2 => ⟨h1, h2⟩) ?_ ?_
      · intro h3
        show B = [] → ∀ v, U v = none
        intro hBn
        exfalso
        rw [hB] at hBn
        split at hBn
        · simp at hBn
        · rename_i ho
          rw [hold] at ho
          obtain ⟨c, bd', h4, -⟩ := not_not.1 ho
          have := h3 hBn bd.var
          rw [show s.view.upper = s.upper from rfl, h4] at this
          simp at this
      · intro _ o os ho hb hJ
        exact ⟨hb.trans hBlen, hJ, View.pop_like rfl rfl rfl rfl ho hb (hb.trans hBlen)⟩
      · intro _ o os ho _ hseg hJ
        have ho' : s.offs = o :: os := ho
        have hlen : o.bound ≤ s.btrail.length := hseg.le
        have hsu : ∀ v, v ∈ (segU (s.btrail.drop o.bound)).map (·.1) ↔ InL s.bounds fr.lits (s.upper v) := hseg.up
        have hsl : ∀ v, v ∈ (segL (s.btrail.drop o.bound)).map (·.1) ↔ InL s.bounds fr.lits (s.lower v) := hseg.lo
        by_cases hol : s.olderBound ctl (s.upper bd.var) = true
        · rw [if_pos hol] at hB
          have hdrop : B.drop o.bound = s.btrail.drop o.bound ++ [(bd.var, .le, s.upper bd.var)] := by
            rw [hB, List.drop_append_of_le_length hlen]
          have hnm : bd.var ∉ (segU (s.btrail.drop o.bound)).map (·.1) := by rw [hsu]; exact hold.1 hol
          refine ⟨⟨?_, ?_, ?_⟩, ?_⟩
          · show o.bound ≤ B.length; rw [hB]; simp; omega
          · intro v
            show v ∈ (segU (B.drop o.bound)).map (·.1) ↔ InL s.bounds fr.lits (U v)
            rw [hdrop, segU_append, segU_le, List.map_append, List.mem_append, hsu]
            by_cases hv : v = bd.var
            · subst hv; rw [hupv]; simp [inL_some hb, hlit]
            · rw [hup v hv]; simp [hv]
          · intro v
            show v ∈ (segL (B.drop o.bound)).map (·.1) ↔ InL s.bounds fr.lits (s.lower v)
            rw [hdrop, segL_append, segL_le, List.append_nil, hsl]
          · unfold View.pop view
            simp only [ho']
            rw [hdrop, segU_append, segL_append, segU_le, segL_le, List.append_nil, hU, rest_push hnm, hB,
              List.take_append_of_le_length hlen]
        · rw [if_neg hol] at hB
          have hm : bd.var ∈ (segU (s.btrail.drop o.bound)).map (·.1) := by rw [hsu]; rw [hold] at hol; exact not_not.1 hol
          subst hB
          refine ⟨⟨hlen, ?_, hsl⟩, ?_⟩
          · intro v
            show v ∈ (segU (s.btrail.drop o.bound)).map (·.1) ↔ InL s.bounds fr.lits (U v)
            by_cases hv : v = bd.var
            · subst hv; rw [hupv, inL_some hb]; exact ⟨fun _ => hlit, fun _ => hm⟩
            · rw [hup v hv]; exact hsu v
          · unfold View.pop view
            simp only [ho']
            rw [hU, rest_update_mem hm]
    · refine ⟨bd.value, ?_, le_rfl⟩
      show bvalOf s.bounds (U bd.var) = _
      rw [hupv]; exact bvalOf_of hb
    · intro v x hvx
      show ∃ y, bvalOf s.bounds (U v) = some y ∧ y ≤ x
      by_cases hv : v = bd.var
      · subst hv
        rw [hupv]
        refine ⟨bd.value, bvalOf_of hb, ?_⟩
        unfold tightensUp at ht; rw [hvx] at ht; simp at ht; exact ht.le
      · rw [hup v hv]; exact ⟨x, hvx, le_rfl⟩
    · simp [ht]
    · intro _ ho; rw [if_pos ho] at hB; exact hB

/-- Result of `update_lower`. -/
structure LoSpec (E0 : (ℕ → V) → Prop) (ctl : Ctl) (fr : Frame) (frs : List Frame) (b : ℕ) (bd : Bound V)
    (s s' : S V) : Prop where
  form : ∃ L B, s' = { s with lower := L, btrail := B }
  ctx : Ctx E0 ctl fr frs s'
  enf : ∃ y, s'.lo bd.var = some y ∧ bd.value ≤ y
  mono : ∀ v x, s.lo v = some x → ∃ y, s'.lo v = some y ∧ x ≤ y
  other : ∀ v, v ≠ bd.var → s'.lower v = s.lower v
  tight : s.tightensLo bd.var bd.value = true → s'.lower bd.var = some b
  not : s.tightensLo bd.var bd.value = false → s' = s

theorem updateLower_spec {E0 : (ℕ → V) → Prop} {ctl : Ctl} {fr : Frame} {frs : List Frame} {b : ℕ} {bd : Bound V}
    {s : S V} (hx : Ctx E0 ctl fr frs s) (hb : s.bounds[b]? = some bd) (hrel : bd.rel ≠ .le) (hlit : bd.lit ∈ fr.lits)
    (hmark : s.tightensLo bd.var bd.value = true → s.olderBound ctl (s.lower bd.var) = true → s.upper bd.var = some b → Hon.hon →
      ctl.dl = 0 ∨ ∃ t, s.btrail = t ++ [(bd.var, .le, s.lower bd.var)]) :
    LoSpec E0 ctl fr frs b bd s (updateLower ctl s b bd).1 ∧
    (updateLower ctl s b bd).2 = (updateLower ctl s b bd).1.loLeUp bd.var := by
  refine ⟨?_, rfl⟩
  unfold updateLower
  simp only
  cases ht : s.tightensLo bd.var bd.value
  · simp only [Bool.false_eq_true, if_false]
    have : ∃ y, s.lo bd.var = some y ∧ bd.value ≤ y := by
      unfold tightensLo at ht
      cases hu : s.lo bd.var with
      | none => rw [hu] at ht; simp at ht
      | some u => rw [hu] at ht; exact ⟨u, rfl, by simpa using ht⟩
    exact ⟨⟨s.lower, s.btrail, rfl⟩, hx, this, fun v x h => ⟨x, h, le_rfl⟩, fun _ _ => rfl, by simp [ht], fun _ => rfl⟩
  · simp only [if_true]
    have hold := older_iff hx.lev hx.lt hx.ok (p := s.lower bd.var)
      (fun c hc => by obtain ⟨bd', h1, -, -, h4⟩ := hx.ptr.lo _ _ hc; exact ⟨bd', h1, h4⟩)
    -- no access to the back of an empty trail
    have hnub : s.olderBound ctl (s.lower bd.var) = true → s.upper bd.var = some b → s.btrail ≠ [] := by
      intro _ h2 h3
      have := hx.trail h3 bd.var
      rw [h2] at this; simp at this
    set s' : S V := { (if s.olderBound ctl (s.lower bd.var) = true then
        (if s.upper bd.var ≠ some b then { s with btrail := s.btrail ++ [(bd.var, .ge, s.lower bd.var)] }
         else if s.btrail = [] then { s with ub := true } else { s with btrail := markBackEq s.btrail }) else s) with
      lower := Function.update (if s.olderBound ctl (s.lower bd.var) = true then
        (if s.upper bd.var ≠ some b then { s with btrail := s.btrail ++ [(bd.var, .ge, s.lower bd.var)] }
         else if s.btrail = [] then { s with ub := true } else { s with btrail := markBackEq s.btrail }) else s).lower bd.var (some b) } with hs'
    have hfacts : s'.lower = Function.update s.lower bd.var (some b) ∧
        s'.btrail = (if s.olderBound ctl (s.lower bd.var) = true then
          (if s.upper bd.var ≠ some b then s.btrail ++ [(bd.var, .ge, s.lower bd.var)] else markBackEq s.btrail) else s.btrail) ∧
        s' = { s with lower := s'.lower, btrail := s'.btrail } := by
      rw [hs']
      by_cases h1 : s.olderBound ctl (s.lower bd.var) = true
      · by_cases h2 : s.upper bd.var ≠ some b
        · simp [h1, h2]
        · have h3 := hnub h1 (not_not.1 h2)
          simp [h1, h2, h3]
      · simp [h1]
    obtain ⟨hL, hB, hform⟩ := hfacts
    clear_value s'
    generalize hL' : s'.lower = L at *
    generalize hB' : s'.btrail = B at *
    subst hform
    have hlo : ∀ v, v ≠ bd.var → L v = s.lower v := fun v hv => by rw [hL, Function.update_of_ne hv]
    have hlov : L bd.var = some b := by rw [hL, Function.update_self]
    refine ⟨⟨L, B, rfl⟩, ⟨hx.lev, hx.ok, ⟨hx.ptr.up, ?_⟩, ?_⟩, ?_, ?_, hlo, fun _ => hlov, ?_⟩
    · intro v c hc
      show ∃ bd, s.bounds[c]? = some bd ∧ _
      have hc' : L v = some c := hc
      by_cases hv : v = bd.var
      · subst hv; rw [hlov] at hc'; simp only [Option.some.injEq] at hc'; subst hc'
        exact ⟨bd, hb, rfl, hrel, fr, by simp, hlit⟩
      · rw [hlo v hv] at hc'; exact hx.ptr.lo v c hc'
    · have hBlen : s.btrail.length ≤ B.length := by
        rw [hB]; split
        · split
          · simp
          · rw [markBackEq_length]
        · exact le_rfl
      refine hx.chain.top rfl rfl ?_ (fun _ h1 h2 => ⟨h1, h2⟩) ?_ ?_
      · intro h3
        show B = [] → ∀ v, s.upper v = none
        intro hBn
        apply h3
        show s.btrail = []
        by_contra hne
        rw [hB] at hBn
        split at hBn
        · split at hBn
          · simp at hBn
          · exact markBackEq_ne_nil hne hBn
        · exact hne hBn
      · intro _ o os ho hb hJ
        exact ⟨hb.trans hBlen, hJ, View.pop_like rfl rfl rfl rfl ho hb (hb.trans hBlen)⟩
      · intro hz o os ho hon hseg hJ
        have ho' : s.offs = o :: os := ho
        have hlen : o.bound ≤ s.btrail.length := hseg.le
        have hsu : ∀ v, v ∈ (segU (s.btrail.drop o.bound)).map (·.1) ↔ InL s.bounds fr.lits (s.upper v) := hseg.up
        have hsl : ∀ v, v ∈ (segL (s.btrail.drop o.bound)).map (·.1) ↔ InL s.bounds fr.lits (s.lower v) := hseg.lo
        by_cases hol : s.olderBound ctl (s.lower bd.var) = true
        · rw [if_pos hol] at hB
          have hnm : bd.var ∉ (segL (s.btrail.drop o.bound)).map (·.1) := by rw [hsl]; exact hold.1 hol
          by_cases hup : s.upper bd.var ≠ some b
          · rw [if_pos hup] at hB
            have hdrop : B.drop o.bound = s.btrail.drop o.bound ++ [(bd.var, .ge, s.lower bd.var)] := by
              rw [hB, List.drop_append_of_le_length hlen]
            refine ⟨⟨?_, ?_, ?_⟩, ?_⟩
            · show o.bound ≤ B.length; rw [hB]; simp; omega
            · intro v
              show v ∈ (segU (B.drop o.bound)).map (·.1) ↔ InL s.bounds fr.lits (s.upper v)
              rw [hdrop, segU_append, segU_ge, List.append_nil, hsu]
            · intro v
              show v ∈ (segL (B.drop o.bound)).map (·.1) ↔ InL s.bounds fr.lits (L v)
              rw [hdrop, segL_append, segL_ge, List.map_append, List.mem_append, hsl]
              by_cases hv : v = bd.var
              · subst hv; rw [hlov]; simp [inL_some hb, hlit]
              · rw [hlo v hv]; simp [hv]
            · unfold View.pop view
              simp only [ho']
              rw [hdrop, segU_append, segL_append, segU_ge, segL_ge, List.append_nil, hL, rest_push hnm, hB,
                List.take_append_of_le_length hlen]
          · rw [if_neg hup] at hB
            have hup' := not_not.1 hup
            rcases hmark ht hol hup' hon with h0 | ⟨t, htr⟩
            · exact absurd (hx.lev.trans h0) hz
            · -- the entry of the upper bound belongs to the current segment
              have hmem : bd.var ∈ (segU (s.btrail.drop o.bound)).map (·.1) := by
                rw [hsu, hup', inL_some hb]; exact hlit
              have hlt : o.bound ≤ t.length := by
                by_contra hgt
                have : s.btrail.drop o.bound = [] := by
                  rw [List.drop_eq_nil_iff, htr]; simp; omega
                rw [this] at hmem; simp [segU] at hmem
              have hd1 : s.btrail.drop o.bound = t.drop o.bound ++ [(bd.var, .le, s.lower bd.var)] := by
                rw [htr, List.drop_append_of_le_length hlt]
              have hd2 : B.drop o.bound = t.drop o.bound ++ [(bd.var, .eq, s.lower bd.var)] := by
                rw [hB, htr, markBackEq_append, List.drop_append_of_le_length hlt]
              have hU2 : segU (B.drop o.bound) = segU (s.btrail.drop o.bound) := by
                rw [hd1, hd2, segU_append, segU_append, segU_le, segU_eq]
              have hL2 : segL (B.drop o.bound) = segL (s.btrail.drop o.bound) ++ [(bd.var, s.lower bd.var)] := by
                rw [hd1, hd2, segL_append, segL_append, segL_le, segL_eq, List.append_nil]
              have ht2 : B.take o.bound = s.btrail.take o.bound := by
                rw [hB, htr, markBackEq_append, List.take_append_of_le_length hlt, List.take_append_of_le_length hlt]
              refine ⟨⟨?_, ?_, ?_⟩, ?_⟩
              · show o.bound ≤ B.length; rw [hB, htr, markBackEq_append]; simp; omega
              · intro v
                show v ∈ (segU (B.drop o.bound)).map (·.1) ↔ InL s.bounds fr.lits (s.upper v)
                rw [hU2, hsu]
              · intro v
                show v ∈ (segL (B.drop o.bound)).map (·.1) ↔ InL s.bounds fr.lits (L v)
                rw [hL2, List.map_append, List.mem_append, hsl]
                by_cases hv : v = bd.var
                · subst hv; rw [hlov]; simp [inL_some hb, hlit]
                · rw [hlo v hv]; simp [hv]
              · unfold View.pop view
                simp only [ho']
                rw [hU2, hL2, hL, rest_push hnm, ht2]
        · rw [if_neg hol] at hB
          have hm : bd.var ∈ (segL (s.btrail.drop o.bound)).map (·.1) := by rw [hsl]; rw [hold] at hol; exact not_not.1 hol
          subst hB
          refine ⟨⟨hlen, hsu, ?_⟩, ?_⟩
          · intro v
            show v ∈ (segL (s.btrail.drop o.bound)).map (·.1) ↔ InL s.bounds fr.lits (L v)
            by_cases hv : v = bd.var
            · subst hv; rw [hlov, inL_some hb]; exact ⟨fun _ => hlit, fun _ => hm⟩
            · rw [hlo v hv]; exact hsl v
          · unfold View.pop view
            simp only [ho']
            rw [hL, rest_update_mem hm]
    · refine ⟨bd.value, ?_, le_rfl⟩
      show bvalOf s.bounds (L bd.var) = _
      rw [hlov]; exact bvalOf_of hb
    · intro v x hvx
      show ∃ y, bvalOf s.bounds (L v) = some y ∧ x ≤ y
      by_cases hv : v = bd.var
      · subst hv
        rw [hlov]
        refine ⟨bd.value, bvalOf_of hb, ?_⟩
        unfold tightensLo at ht; rw [hvx] at ht; simp at ht; exact ht.le
      · rw [hlo v hv]; exact ⟨x, hvx, le_rfl⟩
    · simp [ht]

end S
end Lpx
