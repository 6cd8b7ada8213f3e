import Verif.WeakSolve

/-!
# The sizes of the trails

The trails hold what has to be undone. Their lengths are bounded by the program and the decision levels, not by the length of the search.
-/

set_option linter.unusedSectionVars false

namespace Lpx

/-- The number of bounds with the given literal. -/
def litBounds {V : Type} (bounds : List (Bound V)) (l : ℤ) : ℕ := bounds.countP fun bd => bd.lit == l

/-- The number of bounds asserted by the literals of a frame. -/
def frameBounds {V : Type} (bounds : List (Bound V)) (fr : Frame) : ℕ := (fr.lits.map (litBounds bounds)).sum

theorem litBounds_append {V : Type} (a b : List (Bound V)) (l : ℤ) : litBounds a l ≤ litBounds (a ++ b) l := by
  unfold litBounds; rw [List.countP_append]; omega

theorem sum_map_le {A : Type} (l : List A) {f g : A → ℕ} (h : ∀ a ∈ l, f a ≤ g a) : (l.map f).sum ≤ (l.map g).sum := by
  induction l with
  | nil => simp
  | cons a l ih =>
    simp only [List.map_cons, List.sum_cons]
    have := h a (by simp)
    have := ih fun b hb => h b (by simp [hb])
    omega

theorem frameBounds_append {V : Type} (a b : List (Bound V)) (fr : Frame) : frameBounds a fr ≤ frameBounds (a ++ b) fr :=
  sum_map_le _ fun l _ => litBounds_append a b l

/-- `k` is the length of the trail of bounds, `bs` are the offsets into it, one for each frame. -/
def BL {V : Type} (bounds : List (Bound V)) : List Frame → List ℕ → ℕ → Prop
  | [], bs, k => bs = [] ∧ k = 0
  | fr :: frs, bs, k => ∃ b bs', bs = b :: bs' ∧ k ≤ b + 2 * frameBounds bounds fr ∧ BL bounds frs bs' b

theorem BL.length {V : Type} {bounds : List (Bound V)} : ∀ {frames : List Frame} {bs : List ℕ} {k : ℕ}, BL bounds frames bs k →
    bs.length = frames.length ∧ k ≤ 2 * (frames.map (frameBounds bounds)).sum := by
  intro frames
  induction frames with
  | nil => rintro bs k ⟨rfl, rfl⟩; simp
  | cons fr frs ih =>
    rintro bs k ⟨b, bs', rfl, h1, h2⟩
    obtain ⟨i1, i2⟩ := ih h2
    simp only [List.length_cons, List.map_cons, List.sum_cons]
    omega

theorem BL.append {V : Type} {bounds : List (Bound V)} (cs : List (Bound V)) : ∀ {frames : List Frame} {bs : List ℕ} {k : ℕ},
    BL bounds frames bs k → BL (bounds ++ cs) frames bs k := by
  intro frames
  induction frames with
  | nil => exact fun h => h
  | cons fr frs ih =>
    rintro bs k ⟨b, bs', h0, h1, h2⟩
    have := frameBounds_append bounds cs fr
    exact ⟨b, bs', h0, by omega, ih h2⟩

namespace S
variable {V : Type} [LpValue V]

theorem Keep.foldl {A : Type} (f : S V → A → S V) (hf : ∀ s a, Keep s (f s a)) (l : List A) : ∀ s, Keep s (l.foldl f s) := by
  induction l with
  | nil => exact fun s => Keep.refl s
  | cons a l ih => exact fun s => (hf s a).trans (ih _)

theorem update_keep (s : S V) (lvl j : ℕ) (v : V) : Keep s (s.update lvl j v) := by
  unfold S.update
  refine Keep.trans ?_ (setValue_keep _ _ _ _ _)
  refine Keep.trans (Keep.foldl (fun (s' : S V) (e : ℕ × ℤ × ℤ) =>
    (s'.setValue lvl (s'.index (e.1 + s'.n)) (mulDiv (v - s'.value (s.index j)) e.2.1 e.2.2) true).enqueue e.1) ?_ (s.tab.colEntries j) s)
    (by constructor <;> rfl)
  exact fun s' e => (setValue_keep _ _ _ _ _).trans (enqueue_keep _ _)

/-! ### `solve` adds at most two entries for each bound -/

theorem updateUpper_btrail (ctl : Ctl) (s : S V) (b : ℕ) (bd : Bound V) : (updateUpper ctl s b bd).1.btrail.length ≤ s.btrail.length + 1 ∧
    (updateUpper ctl s b bd).1.offs = s.offs ∧ (updateUpper ctl s b bd).1.bounds = s.bounds := by
  unfold updateUpper
  dsimp only
  split
  · split <;> simp
  · simp

theorem updateLower_btrail (ctl : Ctl) (s : S V) (b : ℕ) (bd : Bound V) : (updateLower ctl s b bd).1.btrail.length ≤ s.btrail.length + 1 ∧
    (updateLower ctl s b bd).1.offs = s.offs ∧ (updateLower ctl s b bd).1.bounds = s.bounds := by
  unfold updateLower
  dsimp only
  split
  · split
    · split
      · simp
      · split <;> simp [markBackEq_length]
    · simp
  · simp

theorem updateVar_btrail (ctl : Ctl) (s : S V) (b : ℕ) (bd : Bound V) : (updateVar ctl s b bd).1.btrail.length ≤ s.btrail.length + 2 ∧
    (updateVar ctl s b bd).1.offs = s.offs ∧ (updateVar ctl s b bd).1.bounds = s.bounds := by
  obtain ⟨h1, h2, h3⟩ := updateUpper_btrail ctl s b bd
  unfold updateVar
  split
  · exact ⟨by omega, h2, h3⟩
  · obtain ⟨k1, k2, k3⟩ := updateLower_btrail ctl s b bd
    exact ⟨by omega, k2, k3⟩
  · dsimp only
    split
    · obtain ⟨k1, k2, k3⟩ := updateLower_btrail ctl (updateUpper ctl s b bd).1 b bd
      exact ⟨by omega, k2.trans h2, k3.trans h3⟩
    · exact ⟨by omega, h2, h3⟩

theorem updateBound_btrail (ctl : Ctl) (s : S V) (b : ℕ) (bd : Bound V) : (updateBound ctl s b bd).1.btrail.length ≤ s.btrail.length + 2 ∧
    (updateBound ctl s b bd).1.offs = s.offs ∧ (updateBound ctl s b bd).1.bounds = s.bounds := by
  have h0 := updateVar_btrail ctl s b bd
  unfold updateBound
  dsimp only
  generalize updateVar ctl s b bd = r at h0
  have key : ∀ t : S V, Keep r.1 t → t.btrail.length ≤ s.btrail.length + 2 ∧ t.offs = s.offs ∧ t.bounds = s.bounds := by
    intro t hk; rw [hk.btrail, hk.offs, hk.bounds]; exact h0
  split
  · split <;> exact h0
  · split
    · split
      · split
        · exact key _ (update_keep _ _ _ _)
        · exact h0
      · split
        · split
          · exact key _ (update_keep _ _ _ _)
          · exact h0
        · exact h0
    · exact key _ (enqueue_keep _ _)

theorem updateBounds_btrail (ctl : Ctl) (bs : List (ℕ × Bound V)) : ∀ s : S V,
    (updateBounds ctl bs s).1.btrail.length ≤ s.btrail.length + 2 * bs.length ∧
    (updateBounds ctl bs s).1.offs = s.offs ∧ (updateBounds ctl bs s).1.bounds = s.bounds := by
  induction bs with
  | nil => exact fun s => ⟨le_refl _, rfl, rfl⟩
  | cons b bs ih =>
    intro s
    rw [updateBounds]
    obtain ⟨h1, h2, h3⟩ := updateBound_btrail ctl s b.1 b.2
    simp only [List.length_cons]
    split
    · obtain ⟨k1, k2, k3⟩ := ih (updateBound ctl s b.1 b.2).1
      exact ⟨by omega, k2.trans h2, k3.trans h3⟩
    · exact ⟨by omega, h2, h3⟩

theorem zipIdx_filter_length (l : ℤ) (bs : List (Bound V)) : ∀ k, ((bs.zipIdx k).filter fun p => p.1.lit = l).length = litBounds bs l := by
  unfold litBounds
  induction bs with
  | nil => intro k; rfl
  | cons b bs ih =>
    intro k
    rw [List.zipIdx_cons, List.filter_cons, List.countP_cons]
    by_cases h : b.lit = l
    · simp [h, ih (k + 1)]
    · simp [h, ih (k + 1)]

theorem boundsOf_length (s : S V) (l : ℤ) : (s.boundsOf l).length ≤ litBounds s.bounds l := by
  unfold boundsOf
  refine (List.length_filterMap_le _ _).trans ?_
  rw [(s.order.perm _).length_eq, List.length_map, zipIdx_filter_length]

theorem updateLits_btrail (ctl : Ctl) (lits : List ℤ) : ∀ s : S V,
    (updateLits ctl lits s).1.btrail.length ≤ s.btrail.length + 2 * (lits.map (litBounds s.bounds)).sum ∧
    (updateLits ctl lits s).1.offs = s.offs ∧ (updateLits ctl lits s).1.bounds = s.bounds := by
  induction lits with
  | nil => exact fun s => ⟨le_refl _, rfl, rfl⟩
  | cons l ls ih =>
    intro s
    rw [updateLits]
    obtain ⟨h1, h2, h3⟩ := updateBounds_btrail ctl (s.boundsOf l) s
    have h0 := boundsOf_length s l
    simp only [List.map_cons, List.sum_cons]
    split
    · obtain ⟨k1, k2, k3⟩ := ih (updateBounds ctl (s.boundsOf l) s).1
      rw [h3] at k1
      exact ⟨by omega, k2.trans h2, k3.trans h3⟩
    · exact ⟨by omega, h2, h3⟩

theorem zeroOffs_bound (os : List Off) : (zeroOffs os).map (·.bound) = os.map (·.bound) := by
  induction os with
  | nil => rfl
  | cons o os ih =>
    rw [zeroOffs]
    split
    · simp [ih]
    · rfl

/-- Operations that leave the trail of bounds alone. -/
structure BKeep (s t : S V) : Prop where
  btrail : t.btrail = s.btrail
  offs : t.offs.map (·.bound) = s.offs.map (·.bound)
  bounds : t.bounds = s.bounds

theorem BKeep.trans {a b c : S V} (h : BKeep a b) (k : BKeep b c) : BKeep a c :=
  ⟨k.btrail.trans h.btrail, k.offs.trans h.offs, k.bounds.trans h.bounds⟩

theorem Keep.bkeep {s t : S V} (h : Keep s t) : BKeep s t := ⟨h.btrail, by rw [h.offs], h.bounds⟩

theorem storeSat_bkeep (s : S V) : BKeep s s.storeSat := ⟨rfl, zeroOffs_bound _, rfl⟩

theorem propagate_bkeep (ctl : Ctl) (s : S V) : BKeep s (s.propagate ctl).1 := by
  obtain ⟨_, _, _, _, _, h⟩ := propagate_form ctl s
  rw [h]; exact ⟨rfl, rfl, rfl⟩

theorem solveLoop_bkeep {E0 : (ℕ → V) → Prop} {L : List ℕ} {ctl : Ctl} (hdl : L.headD 0 = ctl.dl) (fuel : ℕ) : ∀ {s : S V},
    WInv E0 L s → ∀ {r}, solveLoop ctl fuel s = some r → BKeep s r.1 := by
  induction fuel with
  | zero => intro s _ r h; simp [solveLoop] at h
  | succ fuel ih =>
    intro s hw r h
    rw [solveLoop] at h
    simp only at h
    obtain ⟨h1, h2, h3⟩ := select_weak hw
    cases hr : s.select.2 with
    | sat =>
      rw [hr] at h
      simp only [Option.some.injEq] at h
      subst h
      split
      · exact (h2.bkeep.trans (storeSat_bkeep _)).trans (propagate_bkeep ctl _)
      · exact h2.bkeep.trans (propagate_bkeep ctl _)
    | unsat =>
      rw [hr] at h
      simp only [Option.some.injEq] at h
      subst h
      exact h2.bkeep.trans ⟨rfl, rfl, rfl⟩
    | unknown i j v =>
      rw [hr] at h
      simp only at h
      obtain ⟨k1, k2⟩ := h3 i j v hr
      obtain ⟨p1, p2⟩ := h1.pivot k1 v k2
      rw [hdl] at p1 p2
      exact (h2.bkeep.trans p2.bkeep).trans (ih p1 h)

/-- `solve` with the literals of its frame. -/
theorem solve_bl {E0 : (ℕ → V) → Prop} {frames : List Frame} {s : S V} (h : WInv E0 (frames.map (·.level)) s) {ctl : Ctl}
    (hdl : ∀ fr ∈ frames, fr.level ≤ ctl.dl) (hb : BL s.bounds frames (s.offs.map (·.bound)) s.btrail.length)
    {fuel : ℕ} {lits : List ℤ} {r : S V × Bool} (hr : solve ctl fuel s lits = some r) :
    BL r.1.bounds (nextFrames ctl.dl lits frames) (r.1.offs.map (·.bound)) r.1.btrail.length := by
  have hdl' : ∀ l ∈ frames.map (·.level), l ≤ ctl.dl := by
    intro l hl
    obtain ⟨fr, hfr, rfl⟩ := List.mem_map.1 hl
    exact hdl fr hfr
  obtain ⟨h1, -⟩ := h.pushOff hdl'
  have hd := nextLevels_head hdl'
  obtain ⟨k1, -⟩ := updateLits_weak hd lits h1
  obtain ⟨b1, b2, b3⟩ := updateLits_btrail ctl lits (s.pushOff ctl)
  have hpb : (s.pushOff ctl).bounds = s.bounds ∧ (s.pushOff ctl).btrail = s.btrail := by
    unfold pushOff; split
    · exact ⟨rfl, rfl⟩
    · split <;> exact ⟨rfl, rfl⟩
  -- the frames before the loop
  have hu : ∀ t : S V, t.bounds = s.bounds → t.offs = (s.pushOff ctl).offs →
      t.btrail.length ≤ s.btrail.length + 2 * (lits.map (litBounds s.bounds)).sum →
      BL t.bounds (nextFrames ctl.dl lits frames) (t.offs.map (·.bound)) t.btrail.length := by
    intro t e1 e2 e3
    rw [e1, e2]
    have hlev := h.chain
    cases frames with
    | nil =>
      have ho : s.offs = [] := hlev.1
      obtain ⟨-, hk⟩ := hb
      rw [show s.pushOff ctl = { s with offs := [⟨ctl.dl, s.btrail.length, s.atrail.length⟩] } by unfold pushOff; rw [ho]]
      exact ⟨s.btrail.length, [], rfl, e3, rfl, hk⟩
    | cons fr frs =>
      obtain ⟨o, os, ho, hol, -⟩ := id hlev
      have ho' : s.offs = o :: os := ho
      rw [nextFrames]
      by_cases hlt : fr.level < ctl.dl
      · rw [if_pos hlt, show s.pushOff ctl = { s with offs := ⟨ctl.dl, s.btrail.length, s.atrail.length⟩ :: s.offs } by
          unfold pushOff; rw [ho']; simp only; rw [if_pos (by rw [hol]; exact hlt)]]
        exact ⟨s.btrail.length, s.offs.map (·.bound), rfl, e3, hb⟩
      · rw [if_neg hlt, show s.pushOff ctl = s by
          unfold pushOff; rw [ho']; simp only; rw [if_neg (by rw [hol]; exact hlt)]]
        obtain ⟨b, bs, q1, q2, q3⟩ := hb
        refine ⟨b, bs, q1, ?_, q3⟩
        have : frameBounds s.bounds ⟨fr.level, fr.lits ++ lits⟩ = frameBounds s.bounds fr + (lits.map (litBounds s.bounds)).sum := by
          unfold frameBounds; simp
        omega
  rw [hpb.1, hpb.2] at b1
  rw [hpb.1] at b3
  have hx := hu _ b3 b2 b1
  unfold solve at hr
  simp only at hr
  split at hr
  · have q := solveLoop_bkeep hd fuel k1 hr
    rw [q.bounds, q.offs, q.btrail]; exact hx
  · simp only [Option.some.injEq] at hr
    subst hr
    exact hx

theorem undo_bl {E0 : (ℕ → V) → Prop} {fr : Frame} {frs : List Frame} {s : S V} (h : WInv E0 ((fr :: frs).map (·.level)) s) (hl : fr.level ≠ 0)
    (hb : BL s.bounds (fr :: frs) (s.offs.map (·.bound)) s.btrail.length) :
    BL s.undo.bounds frs (s.undo.offs.map (·.bound)) s.undo.btrail.length := by
  obtain ⟨o, os, ho, hol, hc⟩ := id h.chain
  rw [if_neg hl] at hc
  have ho' : s.offs = o :: os := ho
  have hbl : o.bound ≤ s.btrail.length := h.offb.2 o (by rw [ho']; simp)
  have hal : o.asg ≤ s.atrail.length := hc.1.1.1
  obtain ⟨b, bs, q1, -, q3⟩ := hb
  rw [ho'] at q1
  obtain ⟨rfl, rfl⟩ := List.cons.inj q1
  unfold S.undo
  rw [ho']
  simp only
  rw [if_neg (by simp; omega)]
  simp only [List.length_take, Nat.min_eq_left hbl]
  exact q3

/-! ### the trail of assignments -/

theorem _root_.Lpx.WChain.length {E0 : (ℕ → V) → Prop} {n : ℕ} : ∀ {L : List ℕ} {w : AView V}, WChain E0 L w → (∀ e ∈ w.atrail, e.2.1 < n) →
    w.atrail.length ≤ n * L.countP (· ≠ 0) := by
  intro L
  induction L with
  | nil => rintro w ⟨-, h, -⟩ -; rw [h]; simp
  | cons l ls ih =>
    rintro w ⟨o, os, ho, hl, h⟩ hn
    split at h
    · rw [h.2.2.2.1]; simp
    · rename_i hz
      obtain ⟨⟨⟨h1, h2⟩, -⟩, -, -, hc⟩ := h
      have hpa : w.pop.atrail = w.atrail.take o.asg := by unfold AView.pop; rw [ho]
      have hi := ih hc (by rw [hpa]; exact fun e he => hn e (List.mem_of_mem_take he))
      rw [hpa, List.length_take, Nat.min_eq_left h1] at hi
      have hseg : (w.atrail.drop o.asg).length ≤ n := by
        have hsub : (w.atrail.drop o.asg).map (·.2.1) ⊆ List.range n := by
          intro v hv
          obtain ⟨e, he, rfl⟩ := List.mem_map.1 hv
          exact List.mem_range.2 (hn e (List.mem_of_mem_drop he))
        have := (List.subperm_of_subset h2 hsub).length_le
        simpa using this
      rw [List.length_drop] at hseg
      rw [List.countP_cons_of_pos (by simpa using hz), Nat.mul_add, Nat.mul_one]
      omega

/-! ### the tableau keeps its size -/

/-- The number of rows stays the same. -/
structure NR (s t : S V) : Prop where
  nrows : t.tab.nrows = s.tab.nrows
  m : t.m = s.m

theorem NR.refl (s : S V) : NR s s := ⟨rfl, rfl⟩
theorem NR.trans {a b c : S V} (h : NR a b) (k : NR b c) : NR a c := ⟨k.nrows.trans h.nrows, k.m.trans h.m⟩

theorem NR.foldl {A : Type} (f : S V → A → S V) (hf : ∀ s a, NR s (f s a)) (l : List A) : ∀ s, NR s (l.foldl f s) := by
  induction l with
  | nil => exact fun s => NR.refl s
  | cons a l ih => exact fun s => (hf s a).trans (ih _)

theorem nr_setValue (s : S V) (lvl v : ℕ) (x : V) (add : Bool) : NR s (s.setValue lvl v x add) := by
  unfold setValue
  split <;> exact ⟨rfl, rfl⟩

theorem nr_enqueue (s : S V) (i : ℕ) : NR s (s.enqueue i) := by
  unfold enqueue
  dsimp only
  split <;> split <;> exact ⟨rfl, rfl⟩

theorem nr_update (s : S V) (lvl j : ℕ) (v : V) : NR s (s.update lvl j v) := by
  unfold S.update
  refine NR.trans ?_ (nr_setValue _ _ _ _ _)
  refine NR.trans (NR.foldl (fun (s' : S V) (e : ℕ × ℤ × ℤ) =>
    (s'.setValue lvl (s'.index (e.1 + s'.n)) (mulDiv (v - s'.value (s.index j)) e.2.1 e.2.2) true).enqueue e.1) ?_ (s.tab.colEntries j) s) ⟨rfl, rfl⟩
  exact fun s' e => (nr_setValue _ _ _ _ _).trans (nr_enqueue _ _)

theorem nr_pivot (s : S V) (lvl i j : ℕ) (v : V) : NR s (s.pivot lvl i j v) := by
  unfold S.pivot
  split
  · exact ⟨rfl, rfl⟩
  · rename_i a _
    dsimp only
    split
    · exact ⟨rfl, rfl⟩
    · refine NR.trans ?_ (b := S.enqueue _ i) ⟨rfl, rfl⟩
      refine NR.trans ?_ (nr_enqueue _ _)
      refine NR.trans (((nr_setValue s lvl _ v false).trans (nr_setValue _ lvl _ _ true)).trans (NR.foldl _ ?_ _ _)) ⟨rfl, rfl⟩
      intro s' e
      split
      · exact (nr_setValue _ _ _ _ _).trans (nr_enqueue _ _)
      · exact NR.refl _

theorem nr_select (l : List ℕ) : ∀ s : S V, NR s (selectLoop l s).1 := by
  induction l with
  | nil => exact fun s => ⟨rfl, rfl⟩
  | cons ii rest ih =>
    intro s
    rw [selectLoop]
    dsimp only
    have h0 : NR s ({ s with queued := Function.update s.queued ii false } : S V) := ⟨rfl, rfl⟩
    split
    · exact h0.trans (ih _)
    · split
      · exact h0.trans (ih _)
      · split
        · exact ⟨rfl, rfl⟩
        · exact ⟨rfl, rfl⟩

theorem nr_storeSat (s : S V) : NR s s.storeSat := ⟨rfl, rfl⟩

theorem nr_optStep (s : S V) : (∀ t, s.optStep = .inl t → NR s t) ∧ (∀ t, s.optStep = .inr t → NR s t) := by
  unfold optStep
  split
  · refine ⟨?_, ?_⟩ <;> intro t h <;> cases h
    exact ⟨rfl, rfl⟩
  · dsimp only
    split
    · refine ⟨?_, ?_⟩ <;> intro t h <;> cases h
      exact ⟨rfl, rfl⟩
    · generalize hs0 : ({ s with tab := s.tab.compactCol (s.rindex (s.selectEnter (s.rindex s.obj.var - s.n)).1) } : S V) = s0
      have h0 : NR s s0 := by subst hs0; exact ⟨rfl, rfl⟩
      split
      · refine ⟨?_, ?_⟩ <;> intro t h <;> cases h
        exact (NR.trans h0 (nr_pivot _ _ _ _ _))
      · split
        · refine ⟨?_, ?_⟩ <;> intro t h <;> cases h
          exact ⟨rfl, rfl⟩
        · refine ⟨?_, ?_⟩ <;> intro t h <;> cases h
          exact h0.trans (nr_update _ _ _ _)

theorem nr_optLoop (fuel : ℕ) : ∀ s t : S V, optLoop fuel s = some t → NR s t := by
  induction fuel with
  | zero => intro s t h; cases h
  | succ k ih =>
    intro s t h
    rw [optLoop] at h
    cases ho : s.optStep with
    | inl u => rw [ho] at h; obtain rfl := Option.some.inj h; exact ((nr_optStep s).1 _ ho)
    | inr u =>
      rw [ho] at h
      exact ((nr_optStep s).2 u ho).trans (ih _ _ h)

theorem nr_optimize {fuel : ℕ} {s t : S V} (h : s.optimize fuel = some t) : NR s t := by
  unfold optimize at h
  split at h
  · exact nr_optLoop _ _ _ h
  · cases h; exact (NR.refl _)

theorem nr_updateUpper (ctl : Ctl) (s : S V) (b : ℕ) (bd : Bound V) : NR s (updateUpper ctl s b bd).1 := by
  unfold updateUpper
  dsimp only
  split
  · split <;> exact ⟨rfl, rfl⟩
  · exact ⟨rfl, rfl⟩

theorem nr_updateLower (ctl : Ctl) (s : S V) (b : ℕ) (bd : Bound V) : NR s (updateLower ctl s b bd).1 := by
  unfold updateLower
  dsimp only
  split
  · split
    · split
      · exact ⟨rfl, rfl⟩
      · split <;> exact ⟨rfl, rfl⟩
    · exact ⟨rfl, rfl⟩
  · exact ⟨rfl, rfl⟩

theorem nr_updateVar (ctl : Ctl) (s : S V) (b : ℕ) (bd : Bound V) : NR s (updateVar ctl s b bd).1 := by
  unfold updateVar
  split
  · exact nr_updateUpper _ _ _ _
  · exact nr_updateLower _ _ _ _
  · dsimp only
    split
    · exact (nr_updateUpper _ _ _ _).trans (nr_updateLower _ _ _ _)
    · exact nr_updateUpper _ _ _ _

theorem nr_pushOff (ctl : Ctl) (s : S V) : NR s (s.pushOff ctl) := by
  unfold pushOff
  split
  · exact ⟨rfl, rfl⟩
  · split <;> exact ⟨rfl, rfl⟩

theorem nr_undo (s : S V) : NR s s.undo := by
  unfold undo
  split
  · exact ⟨rfl, rfl⟩
  · split <;> exact ⟨rfl, rfl⟩

theorem nr_updateBound (ctl : Ctl) (s : S V) (b : ℕ) (bd : Bound V) : NR s (updateBound ctl s b bd).1 := by
  unfold updateBound
  dsimp only
  have h0 := nr_updateVar ctl s b bd
  generalize updateVar ctl s b bd = r at h0
  split
  · split <;> exact h0.trans ⟨rfl, rfl⟩
  · split
    · split
      · split
        · exact h0.trans (nr_update _ _ _ _)
        · exact h0
      · split
        · split
          · exact h0.trans (nr_update _ _ _ _)
          · exact h0
        · exact h0
    · exact h0.trans (nr_enqueue _ _)

theorem nr_updateBounds (ctl : Ctl) (bs : List (ℕ × Bound V)) : ∀ s : S V, NR s (updateBounds ctl bs s).1 := by
  induction bs with
  | nil => exact fun s => NR.refl s
  | cons b bs ih =>
    intro s
    rw [updateBounds]
    have h1 := nr_updateBound ctl s b.1 b.2
    split
    · exact h1.trans (ih _)
    · exact h1

theorem nr_updateLits (ctl : Ctl) (ls : List ℤ) : ∀ s : S V, NR s (updateLits ctl ls s).1 := by
  induction ls with
  | nil => exact fun s => NR.refl s
  | cons l ls ih =>
    intro s
    rw [updateLits]
    have h1 := nr_updateBounds ctl (s.boundsOf l) s
    split
    · exact h1.trans (ih _)
    · exact h1

theorem nr_propagate (ctl : Ctl) (s : S V) : NR s (s.propagate ctl).1 := by
  obtain ⟨_, _, _, _, _, h⟩ := propagate_form ctl s
  rw [h]; exact ⟨rfl, rfl⟩

theorem nr_solveLoop (ctl : Ctl) (fuel : ℕ) : ∀ (s : S V) (r : S V × Bool), solveLoop ctl fuel s = some r → NR s r.1 := by
  induction fuel with
  | zero => intro s r h; cases h
  | succ k ih =>
    intro s r h
    rw [solveLoop] at h
    have hq := nr_select s.conflicts s
    change NR s s.select.1 at hq
    generalize s.select = sel at h hq
    obtain ⟨t, x⟩ := sel
    dsimp only at h hq
    cases x with
    | sat =>
      dsimp only at h
      obtain rfl := Option.some.inj h
      split
      · exact (hq.trans (nr_storeSat t)).trans (nr_propagate ctl _)
      · exact hq.trans (nr_propagate ctl _)
    | unsat => obtain rfl := Option.some.inj h; exact hq.trans ⟨rfl, rfl⟩
    | unknown i j v => exact (hq.trans (nr_pivot t ctl.dl i j v)).trans (ih _ _ h)

theorem nr_solve {ctl : Ctl} {fuel : ℕ} {s : S V} {lits : List ℤ} {r : S V × Bool} (h : s.solve ctl fuel lits = some r) : NR s r.1 := by
  unfold S.solve at h
  have hg := (nr_pushOff ctl s).trans (nr_updateLits ctl lits (s.pushOff ctl))
  dsimp only at h
  split at h
  · exact hg.trans (nr_solveLoop ctl fuel _ _ h)
  · obtain rfl := Option.some.inj h; exact hg

end S
end Lpx
