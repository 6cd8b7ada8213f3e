import Verif.SolverProp

/-! # `solve` and `undo` -/

set_option linter.unusedSectionVars false

namespace Lpx
open Finset

variable {V : Type} [LpValue V] [Hon]

/-- The frames after `solve` with literals `lits` on decision level `dl` (solving.cc:673-676): a new frame if the level is
new, otherwise the literals belong to the last frame. -/
def nextFrames (dl : ℕ) (lits : List ℤ) : List Frame → List Frame
  | [] => [⟨dl, lits⟩]
  | fr :: frs => if fr.level < dl then ⟨dl, lits⟩ :: fr :: frs else ⟨fr.level, fr.lits ++ lits⟩ :: frs

omit [Hon] in
theorem nextFrames_cons (dl : ℕ) (lits : List ℤ) (frames : List Frame) :
    ∃ fr frs, nextFrames dl lits frames = fr :: frs := by
  cases frames with
  | nil => exact ⟨_, _, rfl⟩
  | cons fr frs => rw [nextFrames]; split <;> exact ⟨_, _, rfl⟩

omit [Hon] in
theorem act_nextFrames {dl : ℕ} {lits : List ℤ} {frames : List Frame} {l : ℤ} :
    Act (nextFrames dl lits frames) l ↔ l ∈ lits ∨ Act frames l := by
  unfold Act
  cases frames with
  | nil => simp [nextFrames]
  | cons fr frs =>
    rw [nextFrames]
    split
    · simp
    · simp; tauto

/-! ### views -/

/-- The last offsets belong to higher levels. -/
theorem Chain.sorted {E0 : (ℕ → V) → Prop} {bounds : List (Bound V)} {fr : Frame} {frs : List Frame} {w : View V}
    (h : Chain E0 bounds (fr :: frs) w) : ∀ fr' ∈ frs, fr'.level < fr.level := by
  obtain ⟨o, os, -, -, -, h⟩ := h
  split at h
  · rw [h.1]; simp
  · exact h.2.2.1

/-- With an empty bound trail there are no upper limits. -/
theorem Chain.trail {E0 : (ℕ → V) → Prop} {bounds : List (Bound V)} {frames : List Frame} {w : View V}
    (h : Chain E0 bounds frames w) (hp : PtrAct bounds frames w.lower w.upper) : w.btrail = [] → ∀ v, w.upper v = none := by
  cases frames with
  | nil =>
    intro _ v
    cases hu : w.upper v with
    | none => rfl
    | some b =>
      obtain ⟨bd, -, -, -, fr, hfr, -⟩ := hp.up v b hu
      simp at hfr
  | cons fr frs => obtain ⟨o, os, -, -, hk, -⟩ := h; exact hk

/-- If the bound trail is not trusted, then neither the limits nor the entries of this trail matter. -/
theorem Chain.like (hh : ¬ Hon.hon) {E0 : (ℕ → V) → Prop} {bounds : List (Bound V)} {frames : List Frame} {w w' : View V}
    (h : Chain E0 bounds frames w) (hl : w'.Like w) (hk : w'.btrail = [] → ∀ v, w'.upper v = none) : Chain E0 bounds frames w' := by
  cases frames with
  | nil =>
    obtain ⟨h1, h2, h3, h4⟩ := h
    refine ⟨hl.offs.trans h1, ?_, hl.atrail.trans h3, by rw [hl.level]; exact h4⟩
    have := hl.len
    rw [h2] at this
    exact List.eq_nil_of_length_eq_zero this
  | cons fr frs =>
    obtain ⟨o, os, ho, hlv, -, h⟩ := h
    refine ⟨o, os, hl.offs.trans ho, hlv, hk, ?_⟩
    split
    · rename_i hz
      rw [if_pos hz] at h
      obtain ⟨a1, a2, a3, a4, a5⟩ := h
      exact ⟨a1, a2, a3, hl.atrail.trans a4, by rw [hl.level]; exact a5⟩
    · rename_i hz
      rw [if_neg hz] at h
      obtain ⟨a1, a2, a3, w1, a4, a5, a6, a7⟩ := h
      refine ⟨by rw [hl.len]; exact a1, ?_, a3, w1, a4.trans hl.pop.symm, fun h => absurd h hh, a6, a7⟩
      unfold View.J at a2 ⊢
      rw [hl.atrail, hl.level]; exact a2

omit [Hon] in
theorem restV_nil (f : ℕ → V) : S.restV [] f = f := rfl
omit [Hon] in
theorem restL_nil (f : ℕ → ℕ) : S.restL ([] : List (ℕ × ℕ × V)) f = f := rfl

/-- A new frame. -/
theorem Chain.push {E0 : (ℕ → V) → Prop} {bounds : List (Bound V)} {frames : List Frame} {w : View V} {dl : ℕ}
    (h : Chain E0 bounds frames w) (hg : Good E0 bounds frames w) (hlt : ∀ fr ∈ frames, fr.level < dl) (lits : List ℤ)
    (hl : ∀ l ∈ lits, ¬ Act frames l) :
    Chain E0 bounds (⟨dl, lits⟩ :: frames) { w with offs := ⟨dl, w.btrail.length, w.atrail.length⟩ :: w.offs } := by
  refine ⟨_, _, rfl, rfl, h.trail hg.ptr, ?_⟩
  simp only
  split
  · rename_i hz
    have hnil : frames = [] := by
      cases frames with
      | nil => rfl
      | cons fr frs => have := hlt fr (by simp); omega
    subst hnil
    obtain ⟨h1, h2, h3, h4⟩ := h
    exact ⟨rfl, h1, by rw [h3]; rfl, h3, h4⟩
  · rename_i hz
    have hpop : View.pop { w with offs := ⟨dl, w.btrail.length, w.atrail.length⟩ :: w.offs } = w := by
      unfold View.pop
      simp only [List.drop_length, List.take_length]
      rfl
    have hnot : ∀ p : Option ℕ, (∀ b, p = some b → ∃ bd, bounds[b]? = some bd ∧ Act frames bd.lit) → ¬ InL bounds lits p := by
      rintro p hp ⟨b, bd, h1, h2, h3⟩
      obtain ⟨bd', h4, h5⟩ := hp b h1
      rw [h2] at h4; simp only [Option.some.injEq] at h4; subst h4
      exact hl _ h3 h5
    refine ⟨le_refl _, ⟨le_refl _, ?_⟩, hlt, w, by rw [hpop]; exact View.Like.refl w, fun _ => ⟨⟨le_refl _, ?_, ?_⟩, hpop.symm⟩, hg, h⟩
    rotate_left
    · intro v
      simp only [List.drop_length]
      refine iff_of_false (by simp [segU]) (hnot _ fun b hb => ?_)
      obtain ⟨bd, h1, -, -, h4⟩ := hg.ptr.up v b hb
      exact ⟨bd, h1, h4⟩
    · intro v
      simp only [List.drop_length]
      refine iff_of_false (by simp [segL]) (hnot _ fun b hb => ?_)
      obtain ⟨bd, h1, -, -, h4⟩ := hg.ptr.lo v b hb
      exact ⟨bd, h1, h4⟩
    · intro v
      simp only [List.drop_length]
      refine iff_of_false ?_ (by simp)
      intro hv
      rcases h.level_le v with h0 | ⟨fr, h1, h2, -⟩
      · exact hz (hv.symm.trans h0)
      · have := hlt fr h1; omega

/-- More literals on the last frame. -/
theorem Chain.extend {E0 : (ℕ → V) → Prop} {bounds : List (Bound V)} {fr : Frame} {frs : List Frame} {w : View V}
    (h : Chain E0 bounds (fr :: frs) w) (hp : PtrAct bounds (fr :: frs) w.lower w.upper) (lits : List ℤ)
    (hl : ∀ l ∈ lits, ¬ Act frs l) : Chain E0 bounds (⟨fr.level, fr.lits ++ lits⟩ :: frs) w := by
  refine h.top rfl rfl id (fun _ h1 h2 => ⟨h1, h2⟩) (fun _ o os _ hb hJ => ⟨hb, hJ, View.Like.refl _⟩) ?_
  intro _ o os _ _ hb hJ
  refine ⟨⟨hb.le, fun v => ?_, fun v => ?_⟩, rfl⟩
  · rw [hb.up v]
    constructor
    · rintro ⟨b, bd, h1, h2, h3⟩; exact ⟨b, bd, h1, h2, List.mem_append_left _ h3⟩
    · rintro ⟨b, bd, h1, h2, h3⟩
      refine ⟨b, bd, h1, h2, ?_⟩
      obtain ⟨bd', g1, -, -, fr', g2, g3⟩ := hp.up v b h1
      rw [h2] at g1; simp only [Option.some.injEq] at g1; subst g1
      rcases List.mem_cons.1 g2 with h | h
      · subst h; exact g3
      · rcases List.mem_append.1 h3 with h3 | h3
        · exact h3
        · exact absurd ⟨fr', h, g3⟩ (hl _ h3)
  · rw [hb.lo v]
    constructor
    · rintro ⟨b, bd, h1, h2, h3⟩; exact ⟨b, bd, h1, h2, List.mem_append_left _ h3⟩
    · rintro ⟨b, bd, h1, h2, h3⟩
      refine ⟨b, bd, h1, h2, ?_⟩
      obtain ⟨bd', g1, -, -, fr', g2, g3⟩ := hp.lo v b h1
      rw [h2] at g1; simp only [Option.some.injEq] at g1; subst g1
      rcases List.mem_cons.1 g2 with h | h
      · subst h; exact g3
      · rcases List.mem_append.1 h3 with h3 | h3
        · exact h3
        · exact absurd ⟨fr', h, g3⟩ (hl _ h3)

omit [Hon] in
/-- The bounds of fewer frames are weaker. -/
theorem Good.win_of {E0 : (ℕ → V) → Prop} {bounds : List (Bound V)} {F F' : List Frame} {w : View V} (h : Good E0 bounds F w)
    {lower upper : ℕ → Option ℕ} (hp : PtrAct bounds F' lower upper) (hF : ∀ l, Act F' l → Act F l) (v : ℕ) :
    Within (bvalOf bounds (lower v)) (bvalOf bounds (upper v)) (w.value v) := by
  refine ⟨fun y hy => ?_, fun y hy => ?_⟩
  · obtain ⟨b, bd, h1, h2, h3⟩ := bvalOf_some hy
    obtain ⟨bd', g1, g2, g3, g4⟩ := hp.lo v b h1
    rw [h2] at g1; simp only [Option.some.injEq] at g1; subst g1
    obtain ⟨z, e1, e2⟩ := (h.enf bd (List.mem_of_getElem? h2) (hF _ g4)).2 g3
    rw [g2] at e1
    exact (h3 ▸ e2).trans ((h.win v).1 _ e1)
  · obtain ⟨b, bd, h1, h2, h3⟩ := bvalOf_some hy
    obtain ⟨bd', g1, g2, g3, g4⟩ := hp.up v b h1
    rw [h2] at g1; simp only [Option.some.injEq] at g1; subst g1
    obtain ⟨z, e1, e2⟩ := (h.enf bd (List.mem_of_getElem? h2) (hF _ g4)).1 g3
    rw [g2] at e1
    exact ((h.win v).2 _ e1).trans (h3 ▸ e2)

omit [Hon] in
theorem Good.weaken {E0 : (ℕ → V) → Prop} {bounds : List (Bound V)} {fr : Frame} {frs : List Frame} {w w' : View V}
    (h : Good E0 bounds (fr :: frs) w) (h' : Good E0 bounds frs w') : Good E0 bounds frs { w' with value := w.value } :=
  ⟨h'.ptr, h'.enf, h.val, h.win_of h'.ptr fun l ⟨f, h1, h2⟩ => ⟨f, by simp [h1], h2⟩⟩

/-- The limits belong to the active literals. -/
def RightLimits (bounds : List (Bound V)) (frames : List Frame) (lower upper : ℕ → Option ℕ) : Prop :=
  PtrAct bounds frames lower upper ∧ ∀ bd ∈ bounds, Act frames bd.lit → Enf bounds lower upper bd

omit [Hon] in
/-- Other limits that belong to the same literals. -/
theorem Good.relimit {E0 : (ℕ → V) → Prop} {bounds : List (Bound V)} {F : List Frame} {w w' : View V} (h : Good E0 bounds F w)
    (hv : w'.value = w.value) (hr : RightLimits bounds F w'.lower w'.upper) : Good E0 bounds F w' :=
  ⟨hr.1, hr.2, by rw [hv]; exact h.val, by rw [hv]; exact h.win_of hr.1 fun _ h => h⟩

/-- Keeping the current values forever (`store_sat_assignment`). -/
def View.store (w : View V) : View V :=
  ⟨w.lower, w.upper, w.value, fun _ => 0, w.btrail, [], w.offs.map fun o => { o with asg := 0 }⟩

theorem Chain.store {E0 : (ℕ → V) → Prop} {bounds : List (Bound V)} : ∀ {frames : List Frame} {w : View V},
    Chain E0 bounds frames w → ∀ x, Good E0 bounds frames { w with value := x } →
    Chain E0 bounds frames { w with value := x }.store := by
  intro frames
  induction frames with
  | nil =>
    rintro w ⟨h1, h2, h3, h4⟩ x _
    refine ⟨?_, h2, rfl, fun _ => rfl⟩
    unfold View.store; simp [h1]
  | cons fr frs ih =>
    rintro w ⟨o, os, ho, hl, hk, h⟩ x hg
    refine ⟨{ o with asg := 0 }, os.map fun o => { o with asg := 0 }, ?_, hl, hk, ?_⟩
    · unfold View.store; simp [ho]
    split
    · rename_i hz
      rw [if_pos hz] at h
      obtain ⟨a1, a2, a3, a4, a5⟩ := h
      exact ⟨a1, by rw [a2]; rfl, rfl, rfl, fun _ => rfl⟩
    · rename_i hz
      rw [if_neg hz] at h
      obtain ⟨b1, b2, b3, w1, l1, hb, b4, b5⟩ := h
      have hpop : View.pop (View.store { w with value := x }) = View.store { w.pop with value := x } := by
        unfold View.pop View.store
        simp only [ho, List.map_cons]
        simp [restV_nil, restL_nil]
      have hg' : Good E0 bounds frs { w1 with value := x } := hg.weaken b4
      refine ⟨b1, ⟨Nat.zero_le _, fun v => ?_⟩, b3, View.store { w1 with value := x }, ?_, fun hh => ?_, ?_, ih b5 x hg'⟩
      · refine iff_of_false (fun h => hz h.symm) ?_
        unfold View.store; simp
      · rw [hpop]
        exact ⟨rfl, rfl, rfl, by unfold View.store; simp only [l1.offs], l1.len⟩
      · obtain ⟨c1, c2⟩ := hb hh
        exact ⟨⟨c1.le, c1.up, c1.lo⟩, by rw [hpop, c2]⟩
      · exact ⟨hg'.ptr, hg'.enf, hg'.val, hg'.win⟩

/-- `zeroOffs` resets all offsets. -/
theorem Chain.zeroOffs {E0 : (ℕ → V) → Prop} {bounds : List (Bound V)} : ∀ {frames : List Frame} {w : View V},
    Chain E0 bounds frames w → S.zeroOffs w.offs = w.offs.map (fun o => { o with asg := 0 }) ∧
      ∀ k, w.atrail.length ≤ k → ∀ o ∈ w.offs, o.asg ≤ k := by
  intro frames
  induction frames with
  | nil => rintro w ⟨h1, -⟩; rw [h1]; simp [S.zeroOffs]
  | cons fr frs ih =>
    rintro w ⟨o, os, ho, hl, -, h⟩
    rw [ho]
    split at h
    · obtain ⟨a1, a2, a3, -⟩ := h
      subst a2
      refine ⟨?_, ?_⟩
      · simp [S.zeroOffs, a3]; cases o; simp_all
      · intro k _ o' ho'; simp at ho'; subst ho'; omega
    · obtain ⟨-, hJ, -, w1, l1, -, -, hc⟩ := h
      obtain ⟨i1, i2⟩ := ih hc
      have hpo : w1.offs = os := by rw [l1.offs]; unfold View.pop; rw [ho]
      have hpa : w1.atrail = w.atrail.take o.asg := by rw [l1.atrail]; unfold View.pop; rw [ho]
      rw [hpo] at i1 i2
      have hle : ∀ o' ∈ os, o'.asg ≤ o.asg := by
        apply i2; rw [hpa]; simp
      refine ⟨?_, ?_⟩
      · unfold S.zeroOffs
        by_cases hz : o.asg > 0
        · rw [if_pos hz, i1]; rfl
        · rw [if_neg hz]
          simp only [List.map_cons, List.cons.injEq]
          have h0 : o.asg = 0 := by omega
          refine ⟨by cases o; simp_all, ?_⟩
          symm
          conv_rhs => rw [← List.map_id os]
          apply List.map_congr_left
          intro o' ho'
          have := hle o' ho'
          cases o'; simp_all
      · intro k hk o' ho'
        have h0 := hJ.1
        rcases List.mem_cons.1 ho' with h | h
        · subst h; omega
        · have := hle o' h; omega

namespace S

omit [Hon] in
theorem store_level (at' : List (ℕ × ℕ × V)) (lv : ℕ → ℕ) (v : ℕ) :
    at'.foldl (fun lv (e : ℕ × ℕ × V) => Function.update lv e.2.1 0) lv v =
      if v ∈ at'.map (·.2.1) then 0 else lv v := by
  induction at' generalizing lv with
  | nil => simp
  | cons e es ih =>
    rw [List.foldl_cons, ih]
    by_cases h1 : v ∈ es.map (·.2.1)
    · rw [if_pos h1, if_pos (by simp only [List.map_cons, List.mem_cons]; exact Or.inr h1)]
    · rw [if_neg h1]
      by_cases h2 : v = e.2.1
      · rw [h2, Function.update_self, if_pos (by simp)]
      · rw [Function.update_of_ne h2, if_neg (by simp only [List.map_cons, List.mem_cons, not_or]; exact ⟨h2, h1⟩)]

/-- `store_sat_assignment` on views. -/
theorem storeSat_view {E0 : (ℕ → V) → Prop} {frames : List Frame} {s : S V} (h : Chain E0 s.bounds frames s.view) :
    s.storeSat.view = s.view.store := by
  unfold storeSat view View.store
  simp only [View.mk.injEq, true_and]
  refine ⟨?_, h.zeroOffs.1⟩
  funext v
  rw [store_level]
  split
  · rfl
  · rename_i hv
    rcases h.level_le v with h0 | ⟨fr, -, -, h3⟩
    · exact h0
    · exact absurd h3 hv

/-- Invariant of the solver between callbacks; `frames` are the literals propagated so far. -/
structure SInv (E0 : (ℕ → V) → Prop) (frames : List Frame) (s : S V) : Prop where
  core : Core E0 s
  good : Good E0 s.bounds frames s.view
  chain : Chain E0 s.bounds frames s.view
  ub : s.ub = false
  bvar : ∀ bd ∈ s.bounds, bd.var < s.nvars
  vb : VB s

/-- The bound trail is able to record all asserted equalities (see `SafeB`). -/
def SafeBs (ctl : Ctl) : List (ℕ × Bound V) → S V → Prop
  | [], _ => True
  | (b, bd) :: bs, s => SafeB ctl s bd ∧ ((s.updateBound ctl b bd).2 = true → SafeBs ctl bs (s.updateBound ctl b bd).1)

/-- The same for literals. -/
def SafeLits (ctl : Ctl) : List ℤ → S V → Prop
  | [], _ => True
  | l :: ls, s => SafeBs ctl (s.boundsOf l) s ∧
    ((updateBounds ctl (s.boundsOf l) s).2 = true → SafeLits ctl ls (updateBounds ctl (s.boundsOf l) s).1)

omit [Hon] in
theorem mem_boundsOf {s : S V} {l : ℤ} {b : ℕ} {bd : Bound V} :
    (b, bd) ∈ s.boundsOf l ↔ s.bounds[b]? = some bd ∧ bd.lit = l := by
  unfold boundsOf
  simp only [List.mem_filterMap, (s.order.perm _).mem_iff, List.mem_map, List.mem_filter, decide_eq_true_eq, Prod.exists,
    Option.map_eq_some_iff, Prod.mk.injEq]
  constructor
  · rintro ⟨b', ⟨bd', b'', ⟨h1, h2⟩, h3⟩, bd'', h4, rfl, rfl⟩
    have h5 := List.mem_zipIdx_iff_getElem?.1 h1
    simp only at h3 h5
    subst h3
    rw [h4] at h5
    obtain rfl := Option.some.inj h5
    exact ⟨h4, h2⟩
  · rintro ⟨h1, h2⟩
    exact ⟨b, ⟨bd, b, ⟨List.mem_zipIdx_iff_getElem?.2 h1, h2⟩, rfl⟩, bd, h1, rfl, rfl⟩

theorem UInv.congr {E0 : (ℕ → V) → Prop} {ctl : Ctl} {fr : Frame} {frs : List Frame} {P Q : Bound V → Prop} {s : S V}
    (h : UInv E0 ctl fr frs P s) (hPQ : ∀ bd, P bd ↔ Q bd) : UInv E0 ctl fr frs Q s := by
  have : P = Q := funext fun x => propext (hPQ x)
  rwa [← this]

theorem updateBounds_spec {E0 : (ℕ → V) → Prop} {ctl : Ctl} {fr : Frame} {frs : List Frame} (L : List (ℕ × Bound V)) :
    ∀ {P : Bound V → Prop} {s : S V}, UInv E0 ctl fr frs P s →
    (∀ p ∈ L, s.bounds[p.1]? = some p.2 ∧ p.2.lit ∈ fr.lits) → (Hon.hon → SafeBs ctl L s) →
    Stay s (updateBounds ctl L s).1 ∧
    ((updateBounds ctl L s).2 = true → UInv E0 ctl fr frs (fun x => P x ∨ x ∈ L.map (·.2)) (updateBounds ctl L s).1 ∧
      (updateBounds ctl L s).1.out = s.out) ∧
    ((updateBounds ctl L s).2 = false → CInv E0 (fr :: frs) (updateBounds ctl L s).1 ∧
      ∃ c, (updateBounds ctl L s).1.out = s.out ++ [c] ∧ ClauseValid s.bounds E0 c ∧ FromAct s.bounds (fr :: frs) c) := by
  induction L with
  | nil =>
    intro P s h _ _
    exact ⟨Stay.refl s, fun _ => ⟨h.congr (by simp), rfl⟩, by simp [updateBounds]⟩
  | cons p L ih =>
    intro P s h hL hsafe
    obtain ⟨b, bd⟩ := p
    obtain ⟨h1, h2⟩ := hL (b, bd) (by simp)
    obtain ⟨hst, hok, hko⟩ := updateBound_spec h h1 h2 (fun hh => (hsafe hh).1)
    unfold updateBounds
    simp only
    have hsr := fun hh => (hsafe hh).2
    generalize hg : updateBound ctl s b bd = r at *
    obtain ⟨t, ok⟩ := r
    cases ok
    · simp only [Bool.false_eq_true, if_false]
      exact ⟨hst, by simp, fun _ => hko rfl⟩
    · simp only [if_true]
      obtain ⟨hu, ho⟩ := hok rfl
      simp only at hu ho hst hsr
      obtain ⟨g1, g2, g3⟩ := ih hu (fun p hp => by rw [hst.bounds]; exact hL p (by simp [hp])) (fun hh => hsr hh trivial)
      refine ⟨hst.trans g1, fun hk => ?_, fun hk => ?_⟩
      · obtain ⟨k1, k2⟩ := g2 hk
        refine ⟨k1.congr (fun x => by simp [or_assoc]), k2.trans ho⟩
      · obtain ⟨k1, c, k2, k3, k4⟩ := g3 hk
        rw [hst.bounds] at k3 k4
        rw [ho] at k2
        exact ⟨k1, c, k2, k3, k4⟩

theorem updateLits_spec {E0 : (ℕ → V) → Prop} {ctl : Ctl} {fr : Frame} {frs : List Frame} (L : List ℤ) :
    ∀ {P : Bound V → Prop} {s : S V}, UInv E0 ctl fr frs P s → (∀ l ∈ L, l ∈ fr.lits) → (Hon.hon → SafeLits ctl L s) →
    Stay s (updateLits ctl L s).1 ∧
    ((updateLits ctl L s).2 = true → UInv E0 ctl fr frs (fun x => P x ∨ (x ∈ s.bounds ∧ x.lit ∈ L)) (updateLits ctl L s).1 ∧
      (updateLits ctl L s).1.out = s.out) ∧
    ((updateLits ctl L s).2 = false → CInv E0 (fr :: frs) (updateLits ctl L s).1 ∧
      ∃ c, (updateLits ctl L s).1.out = s.out ++ [c] ∧ ClauseValid s.bounds E0 c ∧ FromAct s.bounds (fr :: frs) c) := by
  induction L with
  | nil =>
    intro P s h _ _
    exact ⟨Stay.refl s, fun _ => ⟨h.congr (by simp), rfl⟩, by simp [updateLits]⟩
  | cons l L ih =>
    intro P s h hL hsafe
    obtain ⟨hst, hok, hko⟩ := updateBounds_spec (s.boundsOf l) h (fun p hp => by
      obtain ⟨b, bd⟩ := p
      obtain ⟨h1, h2⟩ := mem_boundsOf.1 hp
      exact ⟨h1, by rw [h2]; exact hL l (by simp)⟩) (fun hh => (hsafe hh).1)
    unfold updateLits
    simp only
    have hsr := fun hh => (hsafe hh).2
    have hmem : ∀ x, x ∈ (s.boundsOf l).map (·.2) ↔ x ∈ s.bounds ∧ x.lit = l := by
      intro x
      simp only [List.mem_map, Prod.exists, exists_eq_right]
      constructor
      · rintro ⟨b, hb⟩
        obtain ⟨h1, h2⟩ := mem_boundsOf.1 hb
        exact ⟨List.mem_of_getElem? h1, h2⟩
      · rintro ⟨h1, h2⟩
        obtain ⟨b, hb⟩ := List.mem_iff_getElem?.1 h1
        exact ⟨b, mem_boundsOf.2 ⟨hb, h2⟩⟩
    generalize hg : updateBounds ctl (s.boundsOf l) s = r at *
    obtain ⟨t, ok⟩ := r
    cases ok
    · simp only [Bool.false_eq_true, if_false]
      exact ⟨hst, by simp, fun _ => hko rfl⟩
    · simp only [if_true]
      obtain ⟨hu, ho⟩ := hok rfl
      simp only at hu ho hst hsr
      obtain ⟨g1, g2, g3⟩ := ih hu (fun l hl => hL l (by simp [hl])) (fun hh => hsr hh trivial)
      refine ⟨hst.trans g1, fun hk => ?_, fun hk => ?_⟩
      · obtain ⟨k1, k2⟩ := g2 hk
        refine ⟨k1.congr (fun x => ?_), k2.trans ho⟩
        rw [hmem, hst.bounds]
        simp only [List.mem_cons]
        constructor
        · rintro ((h | ⟨h1, h2⟩) | ⟨h1, h2⟩)
          · exact Or.inl h
          · exact Or.inr ⟨h1, Or.inl h2⟩
          · exact Or.inr ⟨h1, Or.inr h2⟩
        · rintro (h | ⟨h1, h2 | h2⟩)
          · exact Or.inl (Or.inl h)
          · exact Or.inl (Or.inr ⟨h1, h2⟩)
          · exact Or.inr ⟨h1, h2⟩
      · obtain ⟨k1, c, k2, k3, k4⟩ := g3 hk
        rw [hst.bounds] at k3 k4
        rw [ho] at k2
        exact ⟨k1, c, k2, k3, k4⟩

omit [Hon] in
theorem pushOff_stay (ctl : Ctl) (s : S V) : ∃ o, s.pushOff ctl = { s with offs := o } := by
  unfold pushOff
  split
  · exact ⟨_, rfl⟩
  · split
    · exact ⟨_, rfl⟩
    · exact ⟨s.offs, rfl⟩

omit [Hon] in
theorem Act.mono {fr fr' : Frame} {frs : List Frame} {l : ℤ} (h : Act (fr :: frs) l) (hl : ∀ l ∈ fr.lits, l ∈ fr'.lits) :
    Act (fr' :: frs) l := by
  obtain ⟨f, h1, h2⟩ := h
  rcases List.mem_cons.1 h1 with h | h
  · subst h; exact ⟨fr', by simp, hl _ h2⟩
  · exact ⟨f, by simp [h], h2⟩

omit [Hon] in
theorem _root_.Lpx.PtrAct.mono {bounds : List (Bound V)} {F F' : List Frame} {lower upper : ℕ → Option ℕ}
    (h : PtrAct bounds F lower upper) (hF : ∀ l, Act F l → Act F' l) : PtrAct bounds F' lower upper := by
  constructor
  · intro v b hb; obtain ⟨bd, h1, h2, h3, h4⟩ := h.up v b hb; exact ⟨bd, h1, h2, h3, hF _ h4⟩
  · intro v b hb; obtain ⟨bd, h1, h2, h3, h4⟩ := h.lo v b hb; exact ⟨bd, h1, h2, h3, hF _ h4⟩

/-- The frames before asserting: the top frame already contains the new literals. -/
theorem pushOff_chain {E0 : (ℕ → V) → Prop} {frames : List Frame} {s : S V} (h : SInv E0 frames s) (ctl : Ctl)
    (lits : List ℤ) (hdl : ∀ fr ∈ frames, fr.level ≤ ctl.dl) (hlv : LvlOK ctl (nextFrames ctl.dl lits frames)) :
    Chain E0 s.bounds (nextFrames ctl.dl lits frames) (s.pushOff ctl).view ∧
      ∃ ls frs, nextFrames ctl.dl lits frames = ⟨ctl.dl, ls⟩ :: frs ∧ ∀ l ∈ lits, l ∈ ls := by
  have hch := h.chain
  cases frames with
  | nil =>
    have ho : s.offs = [] := hch.1
    refine ⟨?_, lits, [], rfl, fun _ h => h⟩
    have := hch.push h.good (dl := ctl.dl) (by simp) lits (by simp [Act])
    have hp : (s.pushOff ctl).view = { s.view with offs := ⟨ctl.dl, s.view.btrail.length, s.view.atrail.length⟩ :: s.view.offs } := by
      unfold pushOff view; rw [ho]
    rw [hp]; exact this
  | cons fr frs =>
    obtain ⟨o, os, ho, hol, -, -⟩ := id hch
    have ho' : s.offs = o :: os := ho
    rw [nextFrames] at hlv ⊢
    by_cases hlt : fr.level < ctl.dl
    · rw [if_pos hlt] at hlv ⊢
      refine ⟨?_, lits, fr :: frs, rfl, fun _ h => h⟩
      have hall : ∀ f ∈ fr :: frs, f.level < ctl.dl := by
        intro f hf
        rcases List.mem_cons.1 hf with h | h
        · subst h; exact hlt
        · exact (hch.sorted f h).trans hlt
      have := hch.push h.good (dl := ctl.dl) hall lits (by
        rintro l hl ⟨f, hf, hlf⟩
        have h1 := hlv ⟨ctl.dl, lits⟩ (by simp) l hl
        have h2 := hlv f (by simp only [List.mem_cons] at hf ⊢; exact Or.inr hf) l hlf
        have := hall f hf
        simp only at h1; omega)
      have hp : (s.pushOff ctl).view = { s.view with offs := ⟨ctl.dl, s.view.btrail.length, s.view.atrail.length⟩ :: s.view.offs } := by
        unfold pushOff view; rw [ho']; simp only; rw [if_pos (by rw [hol]; exact hlt)]
      rw [hp]; exact this
    · rw [if_neg hlt] at hlv ⊢
      have heq : fr.level = ctl.dl := by have := hdl fr (by simp); omega
      refine ⟨?_, fr.lits ++ lits, frs, by rw [heq], fun _ h => List.mem_append_right _ h⟩
      have hp : s.pushOff ctl = s := by
        unfold pushOff; rw [ho']; simp only; rw [if_neg (by rw [hol]; exact hlt)]
      rw [hp]
      apply hch.extend h.good.ptr
      rintro l hl ⟨f, hf, hlf⟩
      have h1 := hlv ⟨fr.level, fr.lits ++ lits⟩ (by simp) l (List.mem_append_right _ hl)
      have h2 := hlv f (by simp [hf]) l hlf
      have := hch.sorted f hf
      simp only at h1; omega

/-- What `solve` never changes. -/
structure Fix (s s' : S V) : Prop where
  opts : s'.opts = s.opts
  bounds : s'.bounds = s.bounds
  nvars : s'.nvars = s.nvars
  vbounds : s'.vbounds = s.vbounds
  n : s'.n = s.n
  m : s'.m = s.m
  obj : s'.obj = s.obj

omit [Hon] in
theorem Fix.refl (s : S V) : Fix s s := by constructor <;> rfl
omit [Hon] in
theorem Fix.trans {a b c : S V} (h : Fix a b) (k : Fix b c) : Fix a c :=
  ⟨k.opts.trans h.opts, k.bounds.trans h.bounds, k.nvars.trans h.nvars, k.vbounds.trans h.vbounds, k.n.trans h.n,
    k.m.trans h.m, k.obj.trans h.obj⟩
omit [Hon] in
theorem Stay.fix {s s' : S V} (h : Stay s s') : Fix s s' := ⟨h.opts, h.bounds, h.nvars, h.vbounds, h.n, h.m, h.obj⟩
omit [Hon] in
theorem PForm.fix {s s' : S V} (h : PForm s s') : Fix s s' := by obtain ⟨_, _, _, _, rfl⟩ := h; constructor <;> rfl

/-- Result of `solve`: a state satisfying the invariant for the new frames, or a conflict. -/
inductive SolveRes (E0 : (ℕ → V) → Prop) (F : List Frame) (ctl : Ctl) (s : S V) : S V × Bool → Prop
  | sat (t : S V) (ok : Bool) : SInv E0 F t → Fix s t → (∃ cs, t.out = s.out ++ cs ∧ (∀ c ∈ cs, ClauseValid s.bounds E0 c) ∧ Units ctl s.bounds F s.out cs) →
      (s.opts.propagateMode = .none → ok = true) → (ok = false → ctl.ok t.out = false) → SolveRes E0 F ctl s (t, ok)
  | unsat (t : S V) (c : List ℤ) : CInv E0 F t → VB t → Fix s t → t.out = s.out ++ [c] → ClauseValid s.bounds E0 c →
      FromAct s.bounds F c → SolveRes E0 F ctl s (t, false)

theorem SInv.pform {E0 : (ℕ → V) → Prop} {F : List Frame} {s s' : S V} (h : SInv E0 F s) (hf : PForm s s') (hq : PQ s') :
    SInv E0 F s' := by
  obtain ⟨_, _, _, _, rfl⟩ := hf
  have hc := h.core
  exact ⟨⟨⟨hc.struct.nv, hc.struct.idx_lt, hc.struct.ridx_lt, hc.struct.ir, hc.struct.ri, hc.struct.wf, hc.struct.shape, hc.struct.low⟩,
    ⟨hc.ptr.up, hc.ptr.lo⟩, hc.eqv, hc.val, hc.nb, hc.lu, ⟨hc.qi.qa, hc.qi.sorted, hc.qi.lt⟩, hc.qb, hq, hc.ob⟩,
    h.good, h.chain, h.ub, h.bvar, h.vb⟩

theorem SInv.store {E0 : (ℕ → V) → Prop} {F : List Frame} {s : S V} (h : SInv E0 F s) : SInv E0 F s.storeSat := by
  have hc := h.core
  have hv := storeSat_view h.chain
  refine ⟨⟨⟨hc.struct.nv, hc.struct.idx_lt, hc.struct.ridx_lt, hc.struct.ir, hc.struct.ri, hc.struct.wf, hc.struct.shape, hc.struct.low⟩,
    ⟨hc.ptr.up, hc.ptr.lo⟩, hc.eqv, hc.val, hc.nb, hc.lu, ⟨hc.qi.qa, hc.qi.sorted, hc.qi.lt⟩, hc.qb, hc.pq, hc.ob⟩,
    ?_, ?_, h.ub, h.bvar, h.vb⟩
  · rw [hv]; exact ⟨h.good.ptr, h.good.enf, h.good.val, h.good.win⟩
  · rw [hv]; exact Chain.store h.chain s.value h.good

omit [Hon] in
theorem propRow_pqueue (ctl : Ctl) (s : S V) (i : ℕ) : (propRow ctl s i).1.pqueue = s.pqueue := by
  have hpb : ∀ (cl : List ℤ) (test : Bound V → Bool) (L : List ℕ) (s : S V), (propBounds ctl cl test L s).1.pqueue = s.pqueue := by
    intro cl test L
    induction L with
    | nil => intro s; rfl
    | cons b bs ih =>
      intro s
      unfold propBounds
      split
      · rfl
      · split
        · simp only; split
          · rw [ih]; rfl
          · rfl
        · exact ih s
  unfold propRow
  simp only
  split
  · rfl
  · split
    · split
      · rw [hpb]
      · split
        · rw [hpb, hpb]
        · rw [hpb]
    · split
      · rfl
      · split
        · rw [hpb]
        · rfl

omit [Hon] in
theorem propQueue_pqueue (ctl : Ctl) (L : List ℕ) : ∀ (s : S V), ∀ i ∈ (propQueue ctl L s).1.pqueue, i ∈ L ∨ i ∈ s.pqueue := by
  induction L with
  | nil => intro s i hi; exact Or.inr hi
  | cons j L ih =>
    intro s i hi
    unfold propQueue at hi
    simp only at hi
    split at hi
    · rcases ih _ i hi with h | h
      · simp [h]
      · rw [propRow_pqueue] at h; simp only at h; simp [h]
    · rw [propRow_pqueue] at hi; simp only at hi; simp [hi]

omit [Hon] in
theorem propRows_pqueue (ctl : Ctl) (L : List ℕ) : ∀ (s : S V), (propRows ctl L s).1.pqueue = s.pqueue := by
  induction L with
  | nil => intro s; rfl
  | cons j L ih =>
    intro s
    unfold propRows
    simp only
    split
    · rw [ih, propRow_pqueue]
    · rw [propRow_pqueue]

omit [Hon] in
theorem propagate_pq (ctl : Ctl) (s : S V) (h : PQ s) : ∀ i ∈ (propagate ctl s).1.pqueue, i < s.m := by
  intro i hi
  unfold propagate at hi
  split at hi
  · exact h i hi
  · rcases propQueue_pqueue ctl _ s i hi with h' | h'
    · exact h i h'
    · exact h i h'
  · rw [propRows_pqueue] at hi; exact h i hi

omit [Hon] in
theorem propBounds_rejected (ctl : Ctl) (cl : List ℤ) (test : Bound V → Bool) (bs : List ℕ) : ∀ s : S V,
    (propBounds ctl cl test bs s).2 = false → ctl.ok (propBounds ctl cl test bs s).1.out = false := by
  induction bs with
  | nil => intro s h; simp [propBounds] at h
  | cons b bs ih =>
    intro s h
    rw [propBounds] at h ⊢
    cases hb : s.bounds[b]? with
    | none => simp [hb] at h
    | some bd =>
      simp only [hb] at h ⊢
      split at h
      · rename_i ht
        rw [if_pos ht]
        split at h
        · rename_i hk; rw [if_pos hk]; exact ih _ h
        · rename_i hk; rw [if_neg hk]; simpa using hk
      · rename_i ht
        rw [if_neg ht]; exact ih _ h

omit [Hon] in
theorem propRow_rejected (ctl : Ctl) (s : S V) (i : ℕ) (h : (propRow ctl s i).2 = false) : ctl.ok (propRow ctl s i).1.out = false := by
  unfold propRow at h ⊢
  generalize ({ s with prop := Function.update s.prop i false } : S V) = s0 at h ⊢
  by_cases h1 : (!s0.rowHasUpper i && !s0.rowHasLower i) = true
  · simp only [if_pos h1] at h; cases h
  · simp only [if_neg h1] at h ⊢
    have key : ∀ r : S V × Bool, (r.2 = false → ctl.ok r.1.out = false) → ∀ f : S V → S V × Bool,
        (∀ t, (f t).2 = false → ctl.ok (f t).1.out = false) →
        (if (!r.2) = true then r else if s0.rowHasLower i = true then f r.1 else r).2 = false →
        ctl.ok (if (!r.2) = true then r else if s0.rowHasLower i = true then f r.1 else r).1.out = false := by
      intro r hr f hf hh
      by_cases h2 : (!r.2) = true
      · rw [if_pos h2]; exact hr (by simpa using h2)
      · rw [if_neg h2] at hh ⊢
        by_cases h3 : s0.rowHasLower i = true
        · rw [if_pos h3] at hh ⊢; exact hf _ hh
        · rw [if_neg h3] at hh ⊢; exact hr hh
    refine key _ ?_ _ (fun t => propBounds_rejected _ _ _ _ t) h
    intro hh
    by_cases hu : s0.rowHasUpper i = true
    · rw [if_pos hu] at hh ⊢; exact propBounds_rejected _ _ _ _ _ hh
    · rw [if_neg hu] at hh; cases hh

omit [Hon] in
theorem propQueue_rejected (ctl : Ctl) (is : List ℕ) : ∀ s : S V,
    (propQueue ctl is s).2 = false → ctl.ok (propQueue ctl is s).1.out = false := by
  induction is with
  | nil => intro s h; simp [propQueue] at h
  | cons i is ih =>
    intro s h
    rw [propQueue] at h ⊢
    split at h
    · rename_i hk; rw [if_pos hk]; exact ih _ h
    · rename_i hk; rw [if_neg hk]; exact propRow_rejected ctl _ i h

omit [Hon] in
theorem propRows_rejected (ctl : Ctl) (is : List ℕ) : ∀ s : S V,
    (propRows ctl is s).2 = false → ctl.ok (propRows ctl is s).1.out = false := by
  induction is with
  | nil => intro s h; simp [propRows] at h
  | cons i is ih =>
    intro s h
    rw [propRows] at h ⊢
    split at h
    · rename_i hk; rw [if_pos hk]; exact ih _ h
    · rename_i hk; rw [if_neg hk]; exact propRow_rejected ctl _ i h

omit [Hon] in
/-- Bound propagation fails only if clingo rejected the last clause. -/
theorem propagate_rejected (ctl : Ctl) (s : S V) (h : (s.propagate ctl).2 = false) : ctl.ok (s.propagate ctl).1.out = false := by
  unfold S.propagate at h ⊢
  split at h
  · simp at h
  · exact propQueue_rejected ctl _ _ h
  · exact propRows_rejected ctl _ _ h

theorem SInv.propagate {E0 : (ℕ → V) → Prop} {F : List Frame} {s : S V} (h : SInv E0 F s) (ctl : Ctl) :
    SInv E0 F (s.propagate ctl).1 ∧ OutOK E0 s (s.propagate ctl).1 ∧
      (s.opts.propagateMode = .none → (s.propagate ctl).2 = true) := by
  have ho := propagate_spec ctl s ⟨h.core.struct, ptrOK_of (bounds := s.bounds) h.good.ptr, h.core.eqv, h.vb⟩ h.core.pq
  refine ⟨h.pform ho.form ?_, ho, ?_⟩
  · intro i hi
    rw [ho.form.fix.m]; exact propagate_pq ctl s h.core.pq i hi
  · intro hm; unfold S.propagate; rw [hm]

theorem pushOff_uinv {E0 : (ℕ → V) → Prop} {frames : List Frame} {s : S V} (h : SInv E0 frames s) (ctl : Ctl)
    (lits : List ℤ) (hdl : ∀ fr ∈ frames, fr.level ≤ ctl.dl) (hlv : LvlOK ctl (nextFrames ctl.dl lits frames)) :
    ∃ ls frs, nextFrames ctl.dl lits frames = ⟨ctl.dl, ls⟩ :: frs ∧ (∀ l ∈ lits, l ∈ ls) ∧
      UInv E0 ctl ⟨ctl.dl, ls⟩ frs (fun bd => bd ∈ s.bounds ∧ Act frames bd.lit) (s.pushOff ctl) := by
  obtain ⟨hch, ls, frs, hF, hls⟩ := pushOff_chain h ctl lits hdl hlv
  have hactF : ∀ l, Act frames l → Act (nextFrames ctl.dl lits frames) l := fun l hl => act_nextFrames.2 (Or.inr hl)
  obtain ⟨po, hpo⟩ := pushOff_stay ctl s
  have hu : UInv E0 ctl ⟨ctl.dl, ls⟩ frs (fun bd => bd ∈ s.bounds ∧ Act frames bd.lit) (s.pushOff ctl) := by
    have hg := h.good
    have hptr := hg.ptr.mono hactF
    rw [hF] at hch hlv hptr
    have hc := h.core
    rw [hpo] at hch ⊢
    refine ⟨⟨⟨hc.struct.nv, hc.struct.idx_lt, hc.struct.ridx_lt, hc.struct.ir, hc.struct.ri, hc.struct.wf, hc.struct.shape, hc.struct.low⟩,
      ⟨hc.ptr.up, hc.ptr.lo⟩, hc.eqv, hc.val, hc.nb, hc.lu, ⟨hc.qi.qa, hc.qi.sorted, hc.qi.lt⟩, hc.qb, hc.pq, hc.ob⟩,
      ⟨⟨rfl, hlv, hptr, hch⟩, fun bd hbd => hg.enf bd hbd.1 hbd.2, ?_⟩, h.ub, h.bvar⟩
    intro v b bd hb hbd
    refine ⟨List.mem_of_getElem? hbd, ?_⟩
    rcases hb with hb | hb
    · obtain ⟨bd', h1, -, -, h4⟩ := hg.ptr.up v b hb
      have hbd' : s.bounds[b]? = some bd := hbd
      have h1' : s.bounds[b]? = some bd' := h1
      rw [hbd'] at h1'; simp only [Option.some.injEq] at h1'; subst h1'; exact h4
    · obtain ⟨bd', h1, -, -, h4⟩ := hg.ptr.lo v b hb
      have hbd' : s.bounds[b]? = some bd := hbd
      have h1' : s.bounds[b]? = some bd' := h1
      rw [hbd'] at h1'; simp only [Option.some.injEq] at h1'; subst h1'; exact h4
  exact ⟨ls, frs, hF, hls, hu⟩

theorem solve_spec {E0 : (ℕ → V) → Prop} {frames : List Frame} {s : S V} (h : SInv E0 frames s) (ctl : Ctl)
    (lits : List ℤ) (hdl : ∀ fr ∈ frames, fr.level ≤ ctl.dl) (hlv : LvlOK ctl (nextFrames ctl.dl lits frames))
    (hsafe : Hon.hon → SafeLits ctl lits (s.pushOff ctl)) {fuel : ℕ} {r : S V × Bool} (hr : solve ctl fuel s lits = some r) :
    SolveRes E0 (nextFrames ctl.dl lits frames) ctl s r := by
  obtain ⟨ls, frs, hF, hls, hu⟩ := pushOff_uinv h ctl lits hdl hlv
  obtain ⟨po, hpo⟩ := pushOff_stay ctl s
  have hpfix : Fix s (s.pushOff ctl) := by rw [hpo]; constructor <;> rfl
  have hpout : (s.pushOff ctl).out = s.out := by rw [hpo]
  obtain ⟨hst, hok, hko⟩ := updateLits_spec lits hu hls hsafe
  unfold solve at hr
  simp only at hr
  generalize hg : updateLits ctl lits (s.pushOff ctl) = q at *
  obtain ⟨t, ok⟩ := q
  have hfix : Fix s t := hpfix.trans hst.fix
  have hvb : ∀ {t' : S V}, Fix s t' → VB t' := by
    intro t' hf v b hb
    rw [hf.vbounds] at hb
    rw [hf.bounds]; exact h.vb v b hb
  cases ok
  · simp only [Bool.false_eq_true, if_false, Option.some.injEq] at hr
    subst hr
    obtain ⟨h1, c, h2, h3, h4⟩ := hko rfl
    rw [hpout] at h2
    rw [hpfix.bounds] at h3 h4
    rw [hF]
    exact SolveRes.unsat t c h1 (hvb hfix) hfix h2 h3 h4
  · simp only [if_true] at hr
    obtain ⟨hu', ho⟩ := hok rfl
    have hout : t.out = s.out := ho.trans hpout
    have hP : ∀ bd, ((bd ∈ s.bounds ∧ Act frames bd.lit) ∨ (bd ∈ (s.pushOff ctl).bounds ∧ bd.lit ∈ lits)) ↔
        (bd ∈ s.bounds ∧ Act (nextFrames ctl.dl lits frames) bd.lit) := by
      intro bd; rw [hpfix.bounds, act_nextFrames]; tauto
    have hres := solveLoop_spec ctl fuel hu'.core (ptrOK_of (bounds := t.bounds) hu'.bst.ctx.ptr) hr
    cases hres with
    | sat t2 hcore hwin hk hv =>
      have hfix2 : Fix s t2 := hfix.trans hk.stay.fix
      have hb2 := hu'.bst.keep hk hv
      have hinv : SInv E0 (nextFrames ctl.dl lits frames) t2 := by
        rw [hF]
        refine ⟨hcore, ⟨hb2.ctx.ptr, ?_, (hcore.eqv _).1 hcore.val, ?_⟩, hb2.ctx.chain, ?_, ?_, hvb hfix2⟩
        · intro bd hbd hact
          apply hb2.enf
          rw [hP, hF]
          rw [hfix2.bounds] at hbd
          exact ⟨hbd, hact⟩
        · intro v
          by_cases hvn : v < t2.nvars
          · exact hwin v hvn
          · refine ⟨fun y hy => ?_, fun y hy => ?_⟩
            · obtain ⟨b, bd, h1, -⟩ := bvalOf_some hy
              obtain ⟨bd, g1, g2, -⟩ := hb2.ctx.ptr.lo v b h1
              have := hu'.bvar bd (by rw [hk.bounds] at g1; exact List.mem_of_getElem? g1)
              rw [g2, ← hk.nvars] at this; exact absurd this hvn
            · obtain ⟨b, bd, h1, -⟩ := bvalOf_some hy
              obtain ⟨bd, g1, g2, -⟩ := hb2.ctx.ptr.up v b h1
              have := hu'.bvar bd (by rw [hk.bounds] at g1; exact List.mem_of_getElem? g1)
              rw [g2, ← hk.nvars] at this; exact absurd this hvn
        · rw [hk.ub]; exact hu'.ub
        · rw [hk.bounds, hk.nvars]; exact hu'.bvar
      have hinv3 : SInv E0 (nextFrames ctl.dl lits frames) (if t2.opts.store = .part then t2.storeSat else t2) := by
        split
        · exact hinv.store
        · exact hinv
      have hfix3 : Fix t2 (if t2.opts.store = .part then t2.storeSat else t2) := by
        split
        · constructor <;> rfl
        · exact Fix.refl t2
      have hout3 : (if t2.opts.store = .part then t2.storeSat else t2).out = t2.out := by split <;> rfl
      obtain ⟨p1, p2, p3⟩ := hinv3.propagate ctl
      obtain ⟨cs, q1, q2⟩ := p2.out
      obtain ⟨-, ds, r1, r2⟩ := propagate_unit ctl _ hinv3.good.ptr hinv3.vb
      obtain rfl : cs = ds := List.append_cancel_left (q1.symm.trans r1)
      have hout4 : (if t2.opts.store = .part then t2.storeSat else t2).out = s.out := by rw [hout3, hk.out, hout]
      rw [hout4, (hfix2.trans hfix3).bounds] at r2
      refine SolveRes.sat _ _ p1 ((hfix2.trans hfix3).trans p2.form.fix) ⟨cs, ?_, ?_, r2⟩ ?_ (propagate_rejected ctl _)
      · exact q1.trans (by rw [hout3, hk.out, hout])
      · rw [← (hfix2.trans hfix3).bounds]; exact q2
      · intro hm; apply p3; rw [hfix3.opts, hfix2.opts]; exact hm
    | unsat t2 h1 h2 hq hpq hob h3 h4 h5 h6 h7 =>
      have hb2 := hu'.bst.keep h4 h5
      have hfix2 : Fix s t2 := hfix.trans h4.stay.fix
      have hfix3 : Fix s (t2.emit t2.clause) := hfix2.trans (by constructor <;> rfl)
      refine SolveRes.unsat _ t2.clause ?_ (hvb hfix3) hfix3 ?_ ?_ ?_
      · rw [hF]
        exact ⟨⟨h1.nv, h1.idx_lt, h1.ridx_lt, h1.ir, h1.ri, h1.wf, h1.shape, h1.low⟩, h3, hq.qa, hpq, hob, hb2.ctx.chain,
          by show t2.ub = false; rw [h4.ub]; exact hu'.ub,
          by show ∀ bd ∈ t2.bounds, bd.var < t2.nvars; rw [h4.bounds, h4.nvars]; exact hu'.bvar⟩
      · show t2.out ++ _ = _; rw [h4.out, hout]
      · rw [← hfix.bounds]; exact h6
      · have := FromBounds.act (frames := nextFrames ctl.dl lits frames) (s := t) (by rw [hF]; exact hu'.bst.ctx.ptr) h7
        rw [hfix.bounds] at this; exact this

/-! ### undo -/

omit [Hon] in
theorem queued_clear (L : List ℕ) (q : ℕ → Bool) (v : ℕ) :
    L.foldl (fun f ii => Function.update f ii false) q v = if v ∈ L then false else q v := by
  induction L generalizing q with
  | nil => simp
  | cons x xs ih =>
    rw [List.foldl_cons, ih]
    by_cases h1 : v ∈ xs
    · simp [h1]
    · rw [if_neg h1]
      by_cases h2 : v = x
      · subst h2; simp
      · rw [Function.update_of_ne h2, if_neg (by simp [h1, h2])]

theorem CInv.of {E0 : (ℕ → V) → Prop} {F : List Frame} {s : S V} (h : SInv E0 F s) : CInv E0 F s :=
  ⟨h.core.struct, h.core.eqv, h.core.qi.qa, h.core.pq, h.core.ob, h.chain, h.ub, h.bvar⟩

omit [Hon] in
theorem undo_bounds (s : S V) : s.undo.bounds = s.bounds := by
  unfold undo
  split
  · rfl
  · simp only; split <;> rfl

/-- Whatever the limits after `undo`: the values satisfy the bounds of the remaining levels. -/
theorem undo_values {E0 : (ℕ → V) → Prop} {fr : Frame} {frs : List Frame} {s : S V} (h : CInv E0 (fr :: frs) s) (hl : fr.level ≠ 0) :
    ∃ w, Good E0 s.bounds frs w ∧ w.value = s.undo.value := by
  obtain ⟨o, os, ho, hol, -, hc⟩ := id h.chain
  rw [if_neg hl] at hc
  obtain ⟨hbl, hJ, -, w1, l1, hon, hg1, hch1⟩ := hc
  have ho' : s.offs = o :: os := ho
  have hbl : o.bound ≤ s.btrail.length := hbl
  have hal : o.asg ≤ s.atrail.length := hJ.1
  refine ⟨w1, hg1, l1.value.trans ?_⟩
  unfold undo
  rw [ho']
  simp only
  rw [if_neg (by simp; omega), undo_fold]
  unfold View.pop view
  simp only [ho']
  rfl

theorem undo_spec {E0 : (ℕ → V) → Prop} {fr : Frame} {frs : List Frame} {s : S V} (h : CInv E0 (fr :: frs) s) (hvb : VB s)
    (hl : fr.level ≠ 0) (hright : ¬ Hon.hon → RightLimits s.bounds frs s.undo.lower s.undo.upper) : SInv E0 frs s.undo ∧ s.undo.view = s.view.pop ∧ Fix s s.undo ∧ s.undo.out = s.out := by
  obtain ⟨o, os, ho, hol, -, hc⟩ := id h.chain
  rw [if_neg hl] at hc
  obtain ⟨hbl, hJ, -, w1, l1, hon, hg1, hch1⟩ := hc
  have ho' : s.offs = o :: os := ho
  have hbl : o.bound ≤ s.btrail.length := hbl
  have hal : o.asg ≤ s.atrail.length := hJ.1
  have hund : s.undo = { s with lower := s.view.pop.lower, upper := s.view.pop.upper, btrail := s.view.pop.btrail, level := s.view.pop.level, value := s.view.pop.value, atrail := s.view.pop.atrail, queued := s.conflicts.foldl (fun f ii => Function.update f ii false) s.queued, conflicts := [], offs := os } := by
    unfold undo
    rw [ho']
    simp only
    rw [if_neg (by simp; omega), undo_fold]
    unfold View.pop view
    simp only [ho']
    rfl
  have hview : s.undo.view = s.view.pop := by
    rw [hund]
    unfold View.pop view
    simp only [ho']
  have hfix : Fix s s.undo := by rw [hund]; constructor <;> rfl
  have hgc : Good E0 s.bounds frs s.view.pop ∧ Chain E0 s.bounds frs s.view.pop := by
    by_cases hh : Hon.hon
    · obtain ⟨-, rfl⟩ := hon hh
      exact ⟨hg1, hch1⟩
    · have hr := hright hh
      have e1 : s.undo.lower = s.view.pop.lower := by rw [← hview]; rfl
      have e2 : s.undo.upper = s.view.pop.upper := by rw [← hview]; rfl
      rw [e1, e2] at hr
      refine ⟨hg1.relimit l1.value.symm hr, hch1.like hh l1.symm fun hb v => ?_⟩
      have hb1 : w1.btrail = [] := by
        have := l1.len
        rw [hb] at this
        exact List.eq_nil_of_length_eq_zero this
      have hno := hch1.trail hg1.ptr hb1
      cases hu : s.view.pop.upper v with
      | none => rfl
      | some b =>
        obtain ⟨bd, h1, h2, h3, h4⟩ := hr.1.up v b hu
        obtain ⟨y, h5, -⟩ := (hg1.enf bd (List.mem_of_getElem? h1) h4).1 h3
        rw [hno] at h5; cases h5
  obtain ⟨hg, hch⟩ := hgc
  have hwin : ∀ v, s.undo.Win v := by
    intro v; rw [hund]; exact hg.win v
  refine ⟨⟨?_, ?_, ?_, by rw [hund]; exact h.ub, by rw [hund]; exact h.bvar, ?_⟩, hview, hfix, by rw [hund]⟩
  · have hst := h.struct
    refine ⟨?_, ?_, ?_, ?_, fun l _ => hwin _, ?_, ?_, fun u _ _ hn => absurd (hwin u) hn, ?_, ?_⟩
    · rw [hund]; exact ⟨hst.nv, hst.idx_lt, hst.ridx_lt, hst.ir, hst.ri, hst.wf, hst.shape, hst.low⟩
    · have := ptrOK_of (bounds := s.bounds) (frames := frs) (s := s.undo) (by rw [hund]; exact hg.ptr)
      exact this.var
    · intro asg; rw [← h.eqv]; rw [hund]; exact Iff.rfl
    · have : TabEq s s.view.pop.value := (h.eqv _).2 hg.val
      rw [hund]; exact this
    · intro v _
      rw [loLeUp_iff]
      intro l u h1 h2
      exact ((hwin v).1 l h1).trans ((hwin v).2 u h2)
    · rw [hund]
      refine ⟨?_, by simp, by simp⟩
      intro v hv
      simp only at hv
      rw [queued_clear] at hv
      split at hv
      · exact absurd hv (by simp)
      · rename_i hn; exact absurd (h.qa v hv) hn
    · intro i hi; rw [hund] at hi ⊢; exact h.pq i hi
    · rw [hund]; exact h.ob
  · rw [hview, hfix.bounds]; exact hg
  · rw [hview, hfix.bounds]; exact hch
  · intro v b hb'; rw [hfix.vbounds] at hb'; rw [hfix.bounds]; exact hvb v b hb'

end S
end Lpx
