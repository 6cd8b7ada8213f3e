import Verif.SolverOptMain
import Verif.Sys

/-! # Which equalities are safe; adding a bound dynamically -/

set_option linter.unusedSectionVars false

namespace Lpx
open Finset

variable {V : Type} [LpValue V] [Hon]

/-- An equation with value `w` does not satisfy the bound with slack. -/
def Tight (w : V) (bd : Bound V) : Prop := (bd.rel = .le → bd.value ≤ w) ∧ (bd.rel = .ge → w ≤ bd.value)

/-- Asserting the bound is safe if it is no equality, or it leaves no active bound of its variable slack, or there already was a bound it
does not leave slack. -/
def SafeEq (bounds : List (Bound V)) (before act : ℤ → Prop) (bd : Bound V) : Prop :=
  bd.rel = .eq → (∀ bd' ∈ bounds, bd'.var = bd.var → act bd'.lit → Tight bd.value bd') ∨
    (∃ bd' ∈ bounds, bd'.var = bd.var ∧ before bd'.lit ∧ Tight bd.value bd')

namespace S

omit [Hon] in
/-- A tight bound that is enforced prevents that both limits change. -/
theorem safe_of_tight {s : S V} {bd bd' : Bound V} (hv : bd'.var = bd.var) (ht : Tight bd.value bd')
    (he : Enf s.bounds s.lower s.upper bd') : s.tightensUp bd.var bd.value = false ∨ s.tightensLo bd.var bd.value = false := by
  have hup : bd'.rel ≠ .ge → bd'.value ≤ bd.value → s.tightensUp bd.var bd.value = false := by
    intro hr hle
    obtain ⟨y, h1, h2⟩ := he.1 hr
    have h3 : s.up bd.var = some y := by rw [← hv]; exact h1
    unfold tightensUp; rw [h3]; exact decide_eq_false (not_lt.2 (h2.trans hle))
  have hlo : bd'.rel ≠ .le → bd.value ≤ bd'.value → s.tightensLo bd.var bd.value = false := by
    intro hr hle
    obtain ⟨y, h1, h2⟩ := he.2 hr
    have h3 : s.lo bd.var = some y := by rw [← hv]; exact h1
    unfold tightensLo; rw [h3]; exact decide_eq_false (not_lt.2 (hle.trans h2))
  cases hr : bd'.rel with
  | le => exact .inl (hup (by rw [hr]; exact fun h => nomatch h) (ht.1 hr))
  | ge => exact .inr (hlo (by rw [hr]; exact fun h => nomatch h) (ht.2 hr))
  | eq =>
    rcases le_total bd'.value bd.value with h | h
    · exact .inl (hup (by rw [hr]; exact fun h => nomatch h) h)
    · exact .inr (hlo (by rw [hr]; exact fun h => nomatch h) h)

theorem safeB_of {E0 : (ℕ → V) → Prop} {ctl : Ctl} {fr : Frame} {frs : List Frame} {P : Bound V → Prop} {s : S V}
    (h : UInv E0 ctl fr frs P s) {before act : ℤ → Prop} (hP : ∀ bd, P bd → act bd.lit) (hB : ∀ bd ∈ s.bounds, before bd.lit → P bd)
    {bd : Bound V} (hs : ctl.dl = 0 ∨ SafeEq s.bounds before act bd) : SafeB ctl s bd := by
  intro hrel
  rcases hs with hs | hs
  · exact Or.inl hs
  right
  have fin : ∀ bd', P bd' → bd'.var = bd.var → Tight bd.value bd' →
      s.tightensUp bd.var bd.value = false ∨ s.tightensLo bd.var bd.value = false :=
    fun bd' hp hv ht => safe_of_tight hv ht (h.bst.enf bd' hp)
  rcases hs hrel with he | ⟨bd', hb', hv, hbf, ht⟩
  · have key : ∀ b, (s.upper bd.var = some b ∨ s.lower bd.var = some b) →
        s.tightensUp bd.var bd.value = false ∨ s.tightensLo bd.var bd.value = false := by
      intro b hb
      obtain ⟨bd', h1, h2⟩ : ∃ bd', s.bounds[b]? = some bd' ∧ bd'.var = bd.var := by
        rcases hb with hb | hb
        · exact h.core.ptr.up _ _ hb
        · exact h.core.ptr.lo _ _ hb
      have hp := h.bst.pe _ b bd' hb h1
      exact fin bd' hp h2 (he bd' (List.mem_of_getElem? h1) h2 (hP _ hp))
    cases hu : s.upper bd.var with
    | some b =>
      rcases key b (.inl hu) with h1 | h1
      · exact .inl h1
      · exact .inr (.inl h1)
    | none =>
      cases hl : s.lower bd.var with
      | some b =>
        rcases key b (.inr hl) with h1 | h1
        · exact .inl h1
        · exact .inr (.inl h1)
      | none => exact Or.inr (Or.inr (Or.inr ⟨rfl, rfl⟩))
  · rcases fin bd' (hB _ hb' hbf) hv ht with h1 | h1
    · exact .inl h1
    · exact .inr (.inl h1)

theorem safeBs_of {E0 : (ℕ → V) → Prop} {ctl : Ctl} {fr : Frame} {frs : List Frame} {before act : ℤ → Prop}
    (L : List (ℕ × Bound V)) : ∀ {P : Bound V → Prop} {s : S V}, UInv E0 ctl fr frs P s → (∀ bd, P bd → act bd.lit) →
    (∀ bd ∈ s.bounds, before bd.lit → P bd) →
    (∀ p ∈ L, s.bounds[p.1]? = some p.2 ∧ p.2.lit ∈ fr.lits ∧ act p.2.lit) →
    (∀ p ∈ L, ctl.dl = 0 ∨ SafeEq s.bounds before act p.2) → SafeBs ctl L s := by
  induction L with
  | nil => intro P s _ _ _ _ _; trivial
  | cons p L ih =>
    intro P s h hP hB hL hs
    obtain ⟨b, bd⟩ := p
    obtain ⟨h1, h2, h3⟩ := hL (b, bd) (by simp)
    have hsb := safeB_of h hP hB (hs (b, bd) (by simp))
    refine ⟨hsb, fun hk => ?_⟩
    obtain ⟨hst, hok, -⟩ := updateBound_spec h h1 h2 (fun _ => hsb)
    obtain ⟨hu, -⟩ := hok hk
    refine ih hu ?_ (fun x hx hb => Or.inl (hB x (by rw [← hst.bounds]; exact hx) hb))
      (fun p hp => by rw [hst.bounds]; exact hL p (by simp [hp]))
      (fun p hp => by rw [hst.bounds]; exact hs p (by simp [hp]))
    rintro x (hx | rfl)
    · exact hP x hx
    · exact h3

theorem safeLits_of {E0 : (ℕ → V) → Prop} {ctl : Ctl} {fr : Frame} {frs : List Frame} {before act : ℤ → Prop}
    (L : List ℤ) : ∀ {P : Bound V → Prop} {s : S V}, UInv E0 ctl fr frs P s → (∀ bd, P bd → act bd.lit) →
    (∀ bd ∈ s.bounds, before bd.lit → P bd) →
    (∀ l ∈ L, l ∈ fr.lits ∧ act l) →
    (∀ bd ∈ s.bounds, bd.lit ∈ L → ctl.dl = 0 ∨ SafeEq s.bounds before act bd) → SafeLits ctl L s := by
  induction L with
  | nil => intro P s _ _ _ _ _; trivial
  | cons l L ih =>
    intro P s h hP hB hL hs
    have hb : ∀ p ∈ s.boundsOf l, s.bounds[p.1]? = some p.2 ∧ p.2.lit = l := fun p hp => mem_boundsOf.1 hp
    have hb' : ∀ p ∈ s.boundsOf l, s.bounds[p.1]? = some p.2 ∧ p.2.lit ∈ fr.lits := fun p hp => by
      obtain ⟨h1, h2⟩ := hb p hp
      exact ⟨h1, by rw [h2]; exact (hL l (by simp)).1⟩
    have hsb := safeBs_of (before := before) (act := act) (s.boundsOf l) h hP hB (fun p hp => by
      obtain ⟨h1, h2⟩ := hb p hp
      exact ⟨h1, by rw [h2]; exact hL l (by simp)⟩) (fun p hp => by
      obtain ⟨h1, h2⟩ := hb p hp
      exact hs p.2 (List.mem_of_getElem? h1) (by rw [h2]; simp))
    refine ⟨hsb, fun hk => ?_⟩
    obtain ⟨hst, hok, -⟩ := updateBounds_spec (s.boundsOf l) h hb' (fun _ => hsb)
    obtain ⟨hu, -⟩ := hok hk
    refine ih hu ?_ (fun x hx hb => Or.inl (hB x (by rw [← hst.bounds]; exact hx) hb)) (fun l hl => hL l (by simp [hl])) (fun bd hbd hl => by
      rw [hst.bounds] at hbd ⊢; exact hs bd hbd (by simp [hl]))
    rintro x (hx | hx)
    · exact hP x hx
    · obtain ⟨p, hp, rfl⟩ := List.mem_map.1 hx
      rw [(hb p hp).2]; exact (hL l (by simp)).2

/-- The condition of `solve_spec` in terms of the bounds. -/
theorem safe_of_eq {E0 : (ℕ → V) → Prop} {frames : List Frame} {s : S V} (h : SInv E0 frames s) (ctl : Ctl)
    (lits : List ℤ) (hdl : ∀ fr ∈ frames, fr.level ≤ ctl.dl) (hlv : LvlOK ctl (nextFrames ctl.dl lits frames))
    (hs : ∀ bd ∈ s.bounds, bd.lit ∈ lits → ctl.dl = 0 ∨ SafeEq s.bounds (Act frames) (Act (nextFrames ctl.dl lits frames)) bd) :
    SafeLits ctl lits (s.pushOff ctl) := by
  obtain ⟨ls, frs, hF, hls, hu⟩ := pushOff_uinv h ctl lits hdl hlv
  obtain ⟨po, hpo⟩ := pushOff_stay ctl s
  have hb : (s.pushOff ctl).bounds = s.bounds := by rw [hpo]
  refine safeLits_of (before := Act frames) (act := Act (nextFrames ctl.dl lits frames)) lits hu ?_ ?_ ?_ ?_
  · rintro bd ⟨-, h2⟩; exact act_nextFrames.2 (Or.inr h2)
  · rw [hb]; exact fun bd hbd ha => ⟨hbd, ha⟩
  · intro l hl; exact ⟨hls l hl, act_nextFrames.2 (Or.inl hl)⟩
  · rw [hb]; exact hs

end S

/-! ### a new bound -/

omit [Hon] in
theorem bvalOf_append {bounds : List (Bound V)} {p : Option ℕ} (hp : ∀ b, p = some b → ∃ bd, bounds[b]? = some bd) (l : List (Bound V)) :
    bvalOf (bounds ++ l) p = bvalOf bounds p := by
  cases p with
  | none => rfl
  | some b =>
    obtain ⟨bd, h⟩ := hp b rfl
    unfold bvalOf
    simp only [Option.bind_some]
    rw [List.getElem?_append_left (List.getElem?_eq_some_iff.1 h).1]

omit [Hon] in
theorem PtrAct.append {bounds : List (Bound V)} {F : List Frame} {lower upper : ℕ → Option ℕ} (h : PtrAct bounds F lower upper)
    (l : List (Bound V)) : PtrAct (bounds ++ l) F lower upper := by
  refine ⟨fun v b hb => ?_, fun v b hb => ?_⟩
  · obtain ⟨bd, h1, h2⟩ := h.up v b hb
    exact ⟨bd, by rw [List.getElem?_append_left (List.getElem?_eq_some_iff.1 h1).1]; exact h1, h2⟩
  · obtain ⟨bd, h1, h2⟩ := h.lo v b hb
    exact ⟨bd, by rw [List.getElem?_append_left (List.getElem?_eq_some_iff.1 h1).1]; exact h1, h2⟩

omit [Hon] in
theorem PtrAct.valU {bounds : List (Bound V)} {F : List Frame} {lower upper : ℕ → Option ℕ} (h : PtrAct bounds F lower upper)
    (v : ℕ) (l : List (Bound V)) : bvalOf (bounds ++ l) (upper v) = bvalOf bounds (upper v) :=
  bvalOf_append (fun b hb => by obtain ⟨bd, h1, -⟩ := h.up v b hb; exact ⟨bd, h1⟩) l
omit [Hon] in
theorem PtrAct.valL {bounds : List (Bound V)} {F : List Frame} {lower upper : ℕ → Option ℕ} (h : PtrAct bounds F lower upper)
    (v : ℕ) (l : List (Bound V)) : bvalOf (bounds ++ l) (lower v) = bvalOf bounds (lower v) :=
  bvalOf_append (fun b hb => by obtain ⟨bd, h1, -⟩ := h.lo v b hb; exact ⟨bd, h1⟩) l

omit [Hon] in
theorem Good.append {E0 : (ℕ → V) → Prop} {bounds : List (Bound V)} {F : List Frame} {w : View V} (h : Good E0 bounds F w)
    {bd : Bound V} (hact : ¬ Act F bd.lit) : Good E0 (bounds ++ [bd]) F w := by
  refine ⟨h.ptr.append _, ?_, h.val, ?_⟩
  · intro x hx hax
    rcases List.mem_append.1 hx with hx | hx
    · have := h.enf x hx hax
      unfold Enf at this ⊢
      rw [h.ptr.valU, h.ptr.valL]; exact this
    · simp only [List.mem_singleton] at hx; subst hx; exact absurd hax hact
  · intro v
    rw [h.ptr.valU, h.ptr.valL]; exact h.win v

omit [Hon] in
theorem BSeg.append {bounds : List (Bound V)} {F : List Frame} {k : ℕ} {lits : List ℤ} {bt : List (ℕ × BRel × Option ℕ)}
    {lower upper : ℕ → Option ℕ} (h : BSeg bounds k lits bt lower upper) (hp : PtrAct bounds F lower upper) (l : List (Bound V)) :
    BSeg (bounds ++ l) k lits bt lower upper := by
  have key : ∀ p : Option ℕ, (∀ b, p = some b → ∃ bd, bounds[b]? = some bd) → (InL (bounds ++ l) lits p ↔ InL bounds lits p) := by
    intro p hp
    constructor
    · rintro ⟨b, bd, h1, h2, h3⟩
      obtain ⟨bd', h4⟩ := hp b h1
      rw [List.getElem?_append_left (List.getElem?_eq_some_iff.1 h4).1] at h2
      exact ⟨b, bd, h1, h2, h3⟩
    · rintro ⟨b, bd, h1, h2, h3⟩
      exact ⟨b, bd, h1, by rw [List.getElem?_append_left (List.getElem?_eq_some_iff.1 h2).1]; exact h2, h3⟩
  refine ⟨h.le, fun v => ?_, fun v => ?_⟩
  · rw [key _ fun b hb => by obtain ⟨bd, h1, -⟩ := hp.up v b hb; exact ⟨bd, h1⟩]; exact h.up v
  · rw [key _ fun b hb => by obtain ⟨bd, h1, -⟩ := hp.lo v b hb; exact ⟨bd, h1⟩]; exact h.lo v

theorem Chain.append {E0 : (ℕ → V) → Prop} {bounds : List (Bound V)} {bd : Bound V} :
    ∀ {F : List Frame} {w : View V}, Chain E0 bounds F w → PtrAct bounds F w.lower w.upper → ¬ Act F bd.lit →
      Chain E0 (bounds ++ [bd]) F w := by
  intro F
  induction F with
  | nil => intro w h _ _; exact h
  | cons fr frs ih =>
    rintro w ⟨o, os, ho, hl, hk, h⟩ hp hact
    refine ⟨o, os, ho, hl, hk, ?_⟩
    split
    · rename_i hz; rw [if_pos hz] at h; exact h
    · rename_i hz
      rw [if_neg hz] at h
      obtain ⟨h1, h2, h3, w1, h6, h7, h4, h5⟩ := h
      have hact' : ¬ Act frs bd.lit := fun ⟨f, h1, h2⟩ => hact ⟨f, by simp [h1], h2⟩
      exact ⟨h1, h2, h3, w1, h6, fun hh => ⟨(h7 hh).1.append hp _, (h7 hh).2⟩, h4.append hact', ih h5 h4.ptr hact'⟩

namespace S

omit [Hon] in
theorem bval_append {s : S V} {p : Option ℕ} (hp : ∀ b, p = some b → ∃ bd, s.bounds[b]? = some bd) (bd : Bound V) :
    ({ s with bounds := s.bounds ++ [bd] } : S V).bval p = s.bval p := bvalOf_append hp [bd]

/-- Adding a bound for a fresh literal keeps the invariant. -/
theorem SInv.addBound {E0 : (ℕ → V) → Prop} {F : List Frame} {s : S V} (h : SInv E0 F s) {bd : Bound V}
    (hact : ¬ Act F bd.lit) (hv : bd.var < s.nvars) (ho : bd.var ≠ s.obj.var) (c : List ℤ) (o : List (List ℤ)) :
    SInv E0 F { s with bounds := s.bounds ++ [bd], clause := c, out := o } := by
  have hc := h.core
  have hpt := h.good.ptr
  have hU : ∀ v, ({ s with bounds := s.bounds ++ [bd], clause := c, out := o } : S V).up v = s.up v := fun v => hpt.valU v _
  have hL : ∀ v, ({ s with bounds := s.bounds ++ [bd], clause := c, out := o } : S V).lo v = s.lo v := fun v => hpt.valL v _
  have hW : ∀ v, ({ s with bounds := s.bounds ++ [bd], clause := c, out := o } : S V).Win v ↔ s.Win v := by
    intro v; unfold Win; rw [hU, hL]
  refine ⟨⟨⟨hc.struct.nv, hc.struct.idx_lt, hc.struct.ridx_lt, hc.struct.ir, hc.struct.ri, hc.struct.wf, hc.struct.shape, hc.struct.low⟩,
    (ptrOK_of (s := { s with bounds := s.bounds ++ [bd], clause := c, out := o }) (bounds := s.bounds ++ [bd]) (hpt.append [bd])).var, hc.eqv, hc.val, ?_, ?_, ⟨hc.qi.qa, hc.qi.sorted, hc.qi.lt⟩, ?_, hc.pq, ?_⟩,
    h.good.append hact, h.chain.append hpt hact, h.ub, ?_, ?_⟩
  · intro l hl; rw [hW]; exact hc.nb l hl
  · intro v hv'; have := hc.lu v hv'; unfold loLeUp at this ⊢; rw [hU, hL]; exact this
  · intro u h1 h2 h3; exact hc.qb u h1 h2 (fun hw => h3 ((hW u).2 hw))
  · intro ha
    obtain ⟨h1, h2, h3⟩ := hc.ob ha
    refine ⟨h1, h2, fun x hx => ?_⟩
    rcases List.mem_append.1 hx with hx | hx
    · exact h3 x hx
    · simp only [List.mem_singleton] at hx; subst hx; exact ho
  · intro x hx
    rcases List.mem_append.1 hx with hx | hx
    · exact h.bvar x hx
    · simp only [List.mem_singleton] at hx; subst hx; exact hv
  · intro v b hb
    obtain ⟨x, h1, h2⟩ := h.vb v b hb
    exact ⟨x, by rw [List.getElem?_append_left (List.getElem?_eq_some_iff.1 h1).1]; exact h1, h2⟩

/-- Changing the generation or the flags of the objective keeps the invariant. -/
theorem SInv.setObj {E0 : (ℕ → V) → Prop} {F : List Frame} {s : S V} (h : SInv E0 F s) {o : Obj}
    (ha : o.active = s.obj.active) (hv : o.var = s.obj.var) : SInv E0 F { s with obj := o } := by
  have hc := h.core
  refine ⟨⟨⟨hc.struct.nv, hc.struct.idx_lt, hc.struct.ridx_lt, hc.struct.ir, hc.struct.ri, hc.struct.wf, hc.struct.shape, hc.struct.low⟩,
    ⟨hc.ptr.up, hc.ptr.lo⟩, hc.eqv, hc.val, hc.nb, hc.lu, ⟨hc.qi.qa, hc.qi.sorted, hc.qi.lt⟩, hc.qb, hc.pq, ?_⟩,
    h.good, h.chain, h.ub, h.bvar, h.vb⟩
  intro h1
  have := hc.ob (by rw [← ha]; exact h1)
  show o.var < _ ∧ _ ≤ s.rindex o.var ∧ ∀ bd ∈ s.bounds, bd.var ≠ o.var
  rw [hv]; exact this

end S
end Lpx
