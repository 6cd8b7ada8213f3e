import Verif.Quiet

/-!
# The counters of the statistics

How the functions of the solver change the numbers of pivots and of propagated bounds, compared to the clauses added. No invariant is needed.
-/

set_option linter.unusedSectionVars false

namespace Lpx
namespace S
variable {V : Type} [LpValue V]

/-- At most `k` pivots have been counted. -/
structure Piv (k a b : ℕ) : Prop where
  low : a ≤ b
  high : b ≤ a + k

theorem Piv.refl (k a : ℕ) : Piv k a a := ⟨le_rfl, by omega⟩
theorem Piv.trans {j k a b c : ℕ} (h : Piv j a b) (h' : Piv k b c) : Piv (j + k) a c :=
  ⟨h.low.trans h'.low, by have := h.high; have := h'.high; omega⟩
theorem Piv.mono {j k a b : ℕ} (h : Piv j a b) (hk : j ≤ k) : Piv k a b := ⟨h.low, by have := h.high; omega⟩

/-- No clause added, no bound propagated, and at most `k` pivots. -/
structure Moves (k : ℕ) (s t : S V) : Prop where
  out : t.out = s.out
  bounds : t.bounds = s.bounds
  props : t.props = s.props
  pivots : Piv k s.pivots t.pivots

/-- No clause added, no bound propagated, and no pivot. -/
abbrev Calm (s t : S V) : Prop := Moves 0 s t

theorem Calm.refl (s : S V) : Calm s s := ⟨rfl, rfl, rfl, Piv.refl _ _⟩
theorem Moves.trans {j k : ℕ} {a b c : S V} (h : Moves j a b) (h' : Moves k b c) : Moves (j + k) a c :=
  ⟨h'.out.trans h.out, h'.bounds.trans h.bounds, h'.props.trans h.props, h.pivots.trans h'.pivots⟩
theorem Calm.trans {a b c : S V} (h : Calm a b) (k : Calm b c) : Calm a c := Moves.trans h k
theorem Moves.mono {j k : ℕ} {a b : S V} (h : Moves j a b) (hk : j ≤ k) : Moves k a b := ⟨h.out, h.bounds, h.props, h.pivots.mono hk⟩

theorem Calm.foldl {A : Type} (f : S V → A → S V) (hf : ∀ s a, Calm s (f s a)) (l : List A) : ∀ s, Calm s (l.foldl f s) := by
  induction l with
  | nil => exact fun s => Calm.refl s
  | cons a l ih => exact fun s => (hf s a).trans (ih _)

theorem calm_setValue (s : S V) (lvl v : ℕ) (x : V) (add : Bool) : Calm s (s.setValue lvl v x add) := by
  unfold setValue
  split <;> exact ⟨rfl, rfl, rfl, Piv.refl _ _⟩

theorem calm_enqueue (s : S V) (i : ℕ) : Calm s (s.enqueue i) := by
  unfold enqueue
  dsimp only
  split <;> split <;> exact ⟨rfl, rfl, rfl, Piv.refl _ _⟩

theorem calm_update (s : S V) (lvl j : ℕ) (v : V) : Calm s (s.update lvl j v) := by
  unfold S.update
  refine Calm.trans ?_ (calm_setValue _ _ _ _ _)
  refine Calm.trans (Calm.foldl (fun (s' : S V) (e : ℕ × ℤ × ℤ) =>
    (s'.setValue lvl (s'.index (e.1 + s'.n)) (mulDiv (v - s'.value (s.index j)) e.2.1 e.2.2) true).enqueue e.1) ?_ (s.tab.colEntries j) s) ⟨rfl, rfl, rfl, Piv.refl _ _⟩
  exact fun s' e => (calm_setValue _ _ _ _ _).trans (calm_enqueue _ _)

theorem moves_pivot (s : S V) (lvl i j : ℕ) (v : V) : Moves 1 s (s.pivot lvl i j v) := by
  unfold S.pivot
  split
  · exact ⟨rfl, rfl, rfl, Piv.refl _ _⟩
  · rename_i a _
    dsimp only
    split
    · exact ⟨rfl, rfl, rfl, Piv.refl _ _⟩
    · refine Moves.trans (j := 0) (k := 1) ?_ (b := S.enqueue _ i) ⟨rfl, rfl, rfl, ⟨Nat.le_succ _, le_rfl⟩⟩
      refine Calm.trans ?_ (calm_enqueue _ _)
      refine Calm.trans (((calm_setValue s lvl _ v false).trans (calm_setValue _ lvl _ _ true)).trans (Calm.foldl _ ?_ _ _)) ⟨rfl, rfl, rfl, Piv.refl _ _⟩
      intro s' e
      split
      · exact (calm_setValue _ _ _ _ _).trans (calm_enqueue _ _)
      · exact Calm.refl _

theorem calm_select (l : List ℕ) : ∀ s : S V, Calm s (selectLoop l s).1 := by
  induction l with
  | nil => exact fun s => ⟨rfl, rfl, rfl, Piv.refl _ _⟩
  | cons ii rest ih =>
    intro s
    rw [selectLoop]
    dsimp only
    have h0 : Calm s ({ s with queued := Function.update s.queued ii false } : S V) := ⟨rfl, rfl, rfl, Piv.refl _ _⟩
    split
    · exact h0.trans (ih _)
    · split
      · exact h0.trans (ih _)
      · split
        · exact ⟨rfl, rfl, rfl, Piv.refl _ _⟩
        · exact ⟨rfl, rfl, rfl, Piv.refl _ _⟩

theorem calm_storeSat (s : S V) : Calm s s.storeSat := ⟨rfl, rfl, rfl, Piv.refl _ _⟩

theorem moves_optStep (s : S V) : (∀ t, s.optStep = .inl t → Calm s t) ∧ (∀ t, s.optStep = .inr t → Moves 1 s t) := by
  unfold optStep
  split
  · refine ⟨?_, ?_⟩ <;> intro t h <;> cases h
    exact ⟨rfl, rfl, rfl, Piv.refl _ _⟩
  · dsimp only
    split
    · refine ⟨?_, ?_⟩ <;> intro t h <;> cases h
      exact ⟨rfl, rfl, rfl, Piv.refl _ _⟩
    · generalize hs0 : ({ s with tab := s.tab.compactCol (s.rindex (s.selectEnter (s.rindex s.obj.var - s.n)).1) } : S V) = s0
      have h0 : Calm s s0 := by subst hs0; exact ⟨rfl, rfl, rfl, Piv.refl _ _⟩
      split
      · refine ⟨?_, ?_⟩ <;> intro t h <;> cases h
        exact (Moves.trans h0 (moves_pivot _ _ _ _ _)).mono le_rfl
      · split
        · refine ⟨?_, ?_⟩ <;> intro t h <;> cases h
          exact ⟨rfl, rfl, rfl, Piv.refl _ _⟩
        · refine ⟨?_, ?_⟩ <;> intro t h <;> cases h
          exact Moves.mono (h0.trans (calm_update _ _ _ _)) (Nat.zero_le _)

theorem moves_optLoop (fuel : ℕ) : ∀ s t : S V, optLoop fuel s = some t → Moves (fuel - 1) s t := by
  induction fuel with
  | zero => intro s t h; cases h
  | succ k ih =>
    intro s t h
    rw [optLoop] at h
    cases ho : s.optStep with
    | inl u => rw [ho] at h; obtain rfl := Option.some.inj h; exact ((moves_optStep s).1 _ ho).mono (Nat.zero_le _)
    | inr u =>
      rw [ho] at h
      refine (((moves_optStep s).2 u ho).trans (ih _ _ h)).mono ?_
      cases k with
      | zero => cases h
      | succ k => simp only [Nat.add_sub_cancel]; omega

theorem moves_optimize {fuel : ℕ} {s t : S V} (h : s.optimize fuel = some t) : Moves (fuel - 1) s t := by
  unfold optimize at h
  split at h
  · exact moves_optLoop _ _ _ h
  · cases h; exact (Calm.refl _).mono (Nat.zero_le _)

theorem calm_updateUpper (ctl : Ctl) (s : S V) (b : ℕ) (bd : Bound V) : Calm s (updateUpper ctl s b bd).1 := by
  unfold updateUpper
  dsimp only
  split
  · split <;> exact ⟨rfl, rfl, rfl, Piv.refl _ _⟩
  · exact ⟨rfl, rfl, rfl, Piv.refl _ _⟩

theorem calm_updateLower (ctl : Ctl) (s : S V) (b : ℕ) (bd : Bound V) : Calm s (updateLower ctl s b bd).1 := by
  unfold updateLower
  dsimp only
  split
  · split
    · split
      · exact ⟨rfl, rfl, rfl, Piv.refl _ _⟩
      · split <;> exact ⟨rfl, rfl, rfl, Piv.refl _ _⟩
    · exact ⟨rfl, rfl, rfl, Piv.refl _ _⟩
  · exact ⟨rfl, rfl, rfl, Piv.refl _ _⟩

theorem calm_updateVar (ctl : Ctl) (s : S V) (b : ℕ) (bd : Bound V) : Calm s (updateVar ctl s b bd).1 := by
  unfold updateVar
  split
  · exact calm_updateUpper _ _ _ _
  · exact calm_updateLower _ _ _ _
  · dsimp only
    split
    · exact (calm_updateUpper _ _ _ _).trans (calm_updateLower _ _ _ _)
    · exact calm_updateUpper _ _ _ _

theorem calm_pushOff (ctl : Ctl) (s : S V) : Calm s (s.pushOff ctl) := by
  unfold pushOff
  split
  · exact ⟨rfl, rfl, rfl, Piv.refl _ _⟩
  · split <;> exact ⟨rfl, rfl, rfl, Piv.refl _ _⟩

theorem calm_undo (s : S V) : Calm s s.undo := by
  unfold undo
  split
  · exact ⟨rfl, rfl, rfl, Piv.refl _ _⟩
  · split <;> exact ⟨rfl, rfl, rfl, Piv.refl _ _⟩

/-- Nothing counted, and at most one clause added, which is a conflict. -/
structure Upd (s : S V) (r : S V × Bool) : Prop where
  bounds : r.1.bounds = s.bounds
  props : r.1.props = s.props
  pivots : Piv 0 s.pivots r.1.pivots
  out : r.1.out = s.out ∨ r.2 = false ∧ ∃ c, r.1.out = s.out ++ [c]

theorem Calm.upd {s t : S V} (h : Calm s t) (b : Bool) : Upd s (t, b) := ⟨h.bounds, h.props, h.pivots, .inl h.out⟩
theorem Upd.before {s t : S V} {r : S V × Bool} (h : Calm s t) (k : Upd t r) : Upd s r :=
  ⟨k.bounds.trans h.bounds, k.props.trans h.props, h.pivots.trans k.pivots, by rw [← h.out]; exact k.out⟩
theorem Upd.calm {s : S V} {r : S V × Bool} (h : Upd s r) (hr : r.2 = true) : Calm s r.1 :=
  ⟨h.out.resolve_right fun x => by rw [hr] at x; exact absurd x.1 (by simp), h.bounds, h.props, h.pivots⟩

theorem upd_updateBound (ctl : Ctl) (s : S V) (b : ℕ) (bd : Bound V) : Upd s (updateBound ctl s b bd) := by
  unfold updateBound
  dsimp only
  have h0 := calm_updateVar ctl s b bd
  generalize updateVar ctl s b bd = r at h0
  split
  · split
    · exact Upd.before h0 ⟨rfl, rfl, Piv.refl _ _, .inr ⟨rfl, _, rfl⟩⟩
    · exact Upd.before h0 ⟨rfl, rfl, Piv.refl _ _, .inl rfl⟩
  · split
    · split
      · split
        · exact (h0.trans (calm_update _ _ _ _)).upd _
        · exact h0.upd _
      · split
        · split
          · exact (h0.trans (calm_update _ _ _ _)).upd _
          · exact h0.upd _
        · exact h0.upd _
    · exact (h0.trans (calm_enqueue _ _)).upd _

theorem upd_updateBounds (ctl : Ctl) (bs : List (ℕ × Bound V)) : ∀ s : S V, Upd s (updateBounds ctl bs s) := by
  induction bs with
  | nil => exact fun s => (Calm.refl s).upd _
  | cons b bs ih =>
    intro s
    rw [updateBounds]
    have h1 := upd_updateBound ctl s b.1 b.2
    split
    · rename_i hk; exact (ih _).before (h1.calm hk)
    · exact h1

theorem upd_updateLits (ctl : Ctl) (ls : List ℤ) : ∀ s : S V, Upd s (updateLits ctl ls s) := by
  induction ls with
  | nil => exact fun s => (Calm.refl s).upd _
  | cons l ls ih =>
    intro s
    rw [updateLits]
    have h1 := upd_updateBounds ctl (s.boundsOf l) s
    split
    · rename_i hk; exact (ih _).before (h1.calm hk)
    · exact h1

/-- Each clause added is counted. -/
structure Cnt (s t : S V) : Prop where
  bounds : t.bounds = s.bounds
  pivots : Piv 0 s.pivots t.pivots
  out : ∃ cs, t.out = s.out ++ cs ∧ t.props = s.props + cs.length

theorem Calm.cnt {s t : S V} (h : Calm s t) : Cnt s t := ⟨h.bounds, h.pivots, [], by simp [h.out], by simp [h.props]⟩
theorem Cnt.trans {a b c : S V} (h : Cnt a b) (k : Cnt b c) : Cnt a c := by
  obtain ⟨x, hx, hx'⟩ := h.out
  obtain ⟨y, hy, hy'⟩ := k.out
  exact ⟨k.bounds.trans h.bounds, h.pivots.trans k.pivots, x ++ y, by rw [hy, hx, List.append_assoc], by rw [hy', hx', List.length_append, add_assoc]⟩
theorem Cnt.refl (s : S V) : Cnt s s := (Calm.refl s).cnt

theorem cnt_propBounds (ctl : Ctl) (cl : List ℤ) (test : Bound V → Bool) (bs : List ℕ) : ∀ s : S V, Cnt s (propBounds ctl cl test bs s).1 := by
  induction bs with
  | nil => exact fun s => Cnt.refl _
  | cons b bs ih =>
    intro s
    rw [propBounds]
    cases hb : s.bounds[b]? with
    | none => exact Calm.cnt ⟨rfl, rfl, rfl, Piv.refl _ _⟩
    | some bd =>
      dsimp only
      split
      · have h1 : Cnt s ({ s.emit (cl ++ [-bd.lit]) with props := (s.emit (cl ++ [-bd.lit])).props + 1 } : S V) := ⟨rfl, Piv.refl _ _, _, rfl, rfl⟩
        split
        · exact h1.trans (ih _)
        · exact h1
      · exact ih s

theorem cnt_propRow (ctl : Ctl) (s : S V) (i : ℕ) : Cnt s (propRow ctl s i).1 := by
  unfold propRow
  generalize hs0 : ({ s with prop := Function.update s.prop i false } : S V) = s0
  have h0 : Cnt s s0 := by subst hs0; exact Calm.cnt ⟨rfl, rfl, rfl, Piv.refl _ _⟩
  dsimp only
  split
  · exact h0
  · generalize hr : (if s0.rowHasUpper i = true then propBounds ctl _ _ _ s0 else (s0, true)) = r
    have h1 : Cnt s r.1 := by
      subst hr
      split
      · exact h0.trans (cnt_propBounds ctl _ _ _ s0)
      · exact h0
    split
    · exact h1
    · split
      · exact h1.trans (cnt_propBounds ctl _ _ _ r.1)
      · exact h1

theorem cnt_propQueue (ctl : Ctl) (is : List ℕ) : ∀ s : S V, Cnt s (propQueue ctl is s).1 := by
  induction is with
  | nil => exact fun s => Cnt.refl _
  | cons i is ih =>
    intro s
    rw [propQueue]
    have h0 : Cnt s { s with pqueue := is } := Calm.cnt ⟨rfl, rfl, rfl, Piv.refl _ _⟩
    have h1 := h0.trans (cnt_propRow ctl { s with pqueue := is } i)
    split
    · exact h1.trans (ih _)
    · exact h1

theorem cnt_propRows (ctl : Ctl) (is : List ℕ) : ∀ s : S V, Cnt s (propRows ctl is s).1 := by
  induction is with
  | nil => exact fun s => Cnt.refl _
  | cons i is ih =>
    intro s
    rw [propRows]
    have h1 := cnt_propRow ctl s i
    split
    · exact h1.trans (ih _)
    · exact h1

theorem cnt_propagate (ctl : Ctl) (s : S V) : Cnt s (s.propagate ctl).1 := by
  unfold S.propagate
  split
  · exact Cnt.refl _
  · exact cnt_propQueue _ _ _
  · exact cnt_propRows _ _ _

/-- The effect of `solve` on the counters: each clause is counted, unless it is a conflict, and there are at most `k` pivots. -/
structure SolveCnt (k : ℕ) (s : S V) (r : S V × Bool) : Prop where
  bounds : r.1.bounds = s.bounds
  pivots : Piv k s.pivots r.1.pivots
  out : ∃ cs, r.1.out = s.out ++ cs ∧ (r.1.props = s.props + cs.length ∨ r.1.props = s.props ∧ cs.length = 1 ∧ r.2 = false)

theorem SolveCnt.before {i j : ℕ} {s t : S V} {r : S V × Bool} (k : SolveCnt i t r) (h : Moves j s t) : SolveCnt (j + i) s r :=
  ⟨k.bounds.trans h.bounds, h.pivots.trans k.pivots, by rw [← h.out, ← h.props]; exact k.out⟩
theorem SolveCnt.mono {i j : ℕ} {s : S V} {r : S V × Bool} (k : SolveCnt i s r) (h : i ≤ j) : SolveCnt j s r :=
  ⟨k.bounds, k.pivots.mono h, k.out⟩
theorem Cnt.solve {s t : S V} (h : Cnt s t) (b : Bool) : SolveCnt 0 s (t, b) :=
  ⟨h.bounds, h.pivots, let ⟨cs, h1, h2⟩ := h.out; ⟨cs, h1, .inl h2⟩⟩
theorem Upd.solve {s : S V} {r : S V × Bool} (h : Upd s r) : SolveCnt 0 s r := by
  refine ⟨h.bounds, h.pivots, ?_⟩
  rcases h.out with h1 | ⟨h1, c, h2⟩
  · exact ⟨[], by simp [h1], .inl (by simp [h.props])⟩
  · exact ⟨[c], h2, .inr ⟨h.props, rfl, h1⟩⟩

theorem cnt_solveLoop (ctl : Ctl) (fuel : ℕ) : ∀ (s : S V) (r : S V × Bool), solveLoop ctl fuel s = some r → SolveCnt (fuel - 1) s r := by
  induction fuel with
  | zero => intro s r h; cases h
  | succ k ih =>
    intro s r h
    rw [solveLoop] at h
    have hq := calm_select s.conflicts s
    change Calm s s.select.1 at hq
    generalize s.select = sel at h hq
    obtain ⟨t, x⟩ := sel
    dsimp only at h hq
    cases x with
    | sat =>
      dsimp only at h
      obtain rfl := Option.some.inj h
      have h1 : Calm s (if t.opts.store = .part then t.storeSat else t) := by
        split
        · exact hq.trans (calm_storeSat t)
        · exact hq
      exact (((cnt_propagate ctl _).solve _).before h1).mono (by omega)
    | unsat =>
      obtain rfl := Option.some.inj h
      exact (SolveCnt.before (i := 0) (t := t) ⟨rfl, Piv.refl _ _, _, rfl, .inr ⟨rfl, rfl, rfl⟩⟩ hq).mono (by omega)
    | unknown i j v =>
      refine ((ih _ _ h).before (Moves.trans hq (moves_pivot t ctl.dl i j v))).mono ?_
      cases k with
      | zero => cases h
      | succ k => simp only [Nat.add_sub_cancel]; omega

theorem cnt_solve {ctl : Ctl} {fuel : ℕ} {s : S V} {lits : List ℤ} {r : S V × Bool} (h : s.solve ctl fuel lits = some r) : SolveCnt (fuel - 1) s r := by
  unfold S.solve at h
  have h1 := (upd_updateLits ctl lits (s.pushOff ctl)).before (calm_pushOff ctl s)
  dsimp only at h
  split at h
  · rename_i hk
    exact ((cnt_solveLoop ctl fuel _ _ h).before (h1.calm hk)).mono (by omega)
  · obtain rfl := Option.some.inj h
    exact h1.solve.mono (Nat.zero_le _)

/-- The effect of adding objective cuts: each clause added goes with a new bound for a new literal. -/
structure CutCnt (k : ℕ) (ctl : Ctl) (s t : S V) : Prop where
  pivots : Piv k s.pivots t.pivots
  props : t.props = s.props
  out : ∃ cs, t.out = s.out ++ cs ∧ ∃ bs, t.bounds = s.bounds ++ bs ∧ cs = bs.map (fun b => [b.lit]) ∧ ∀ b ∈ bs, ∃ O, b.lit = ctl.newLit O

theorem Moves.cut {k : ℕ} {ctl : Ctl} {s t : S V} (h : Moves k s t) : CutCnt k ctl s t :=
  ⟨h.pivots, h.props, [], by simp [h.out], [], by simp [h.bounds], rfl, by simp⟩
theorem CutCnt.mono {i j : ℕ} {ctl : Ctl} {a b : S V} (h : CutCnt i ctl a b) (hij : i ≤ j) : CutCnt j ctl a b :=
  ⟨h.pivots.mono hij, h.props, h.out⟩
theorem CutCnt.trans {i j : ℕ} {ctl : Ctl} {a b c : S V} (h : CutCnt i ctl a b) (k : CutCnt j ctl b c) : CutCnt (i + j) ctl a c := by
  obtain ⟨x, hx, x', hx', hx2, hx3⟩ := h.out
  obtain ⟨y, hy, y', hy', hy2, hy3⟩ := k.out
  refine ⟨h.pivots.trans k.pivots, k.props.trans h.props, x ++ y, by rw [hy, hx, List.append_assoc], x' ++ y', by rw [hy', hx', List.append_assoc], by simp [hx2, hy2], ?_⟩
  intro z hz
  rcases List.mem_append.1 hz with hz | hz
  · exact hx3 z hz
  · exact hy3 z hz

theorem cut_assertBound (ctl : Ctl) (s : S V) (x : V) : CutCnt 0 ctl s (s.assertBound ctl x).1 :=
  ⟨Piv.refl _ _, rfl, _, rfl, _, rfl, rfl, fun b hb => by rw [List.mem_singleton] at hb; subst hb; exact ⟨_, rfl⟩⟩

theorem cut_discardBounded (ctl : Ctl) (s : S V) : CutCnt 0 ctl s (s.discardBounded ctl).1 := by
  unfold discardBounded
  split
  · exact Moves.cut (Calm.refl _)
  · exact cut_assertBound _ _ _

section
variable {V : Type} [LpFull V]

theorem cut_integrate (ctl : Ctl) (o : ObjState V) (s : S V) : CutCnt 0 ctl s (s.integrate ctl o).1 := by
  unfold integrate
  split
  · exact Moves.cut (Calm.refl _)
  · dsimp only
    split
    · exact Moves.cut ⟨rfl, rfl, rfl, Piv.refl _ _⟩
    · split
      · exact Moves.cut ⟨rfl, rfl, rfl, Piv.refl _ _⟩
      · split
        · exact Moves.cut ⟨rfl, rfl, rfl, Piv.refl _ _⟩
        · refine CutCnt.trans (i := 0) ?_ (cut_assertBound ctl _ _)
          exact Moves.cut ⟨rfl, rfl, rfl, Piv.refl _ _⟩

theorem cut_checkTotal {ctl : Ctl} {fuel : ℕ} {s : S V} {r : S V × Bool} (h : s.checkTotal ctl fuel = some r) : CutCnt (fuel - 1) ctl s r.1 := by
  unfold checkTotal at h
  cases ho : s.optimize fuel with
  | none => rw [ho] at h; cases h
  | some t =>
    rw [ho] at h
    dsimp only at h
    obtain rfl := Option.some.inj h
    refine (CutCnt.trans (i := fuel - 1) (Moves.cut ?_) (cut_discardBounded ctl _)).mono (by omega)
    split
    · exact moves_optimize ho
    · exact (Moves.trans (moves_optimize ho) (calm_storeSat t)).mono (by omega)

theorem cut_checkObj {ctl : Ctl} {fuel : ℕ} {total : Bool} {o : ObjState V} {s : S V} {r : S V × Bool} (h : s.checkObj ctl fuel total o = some r) :
    CutCnt (fuel - 1) ctl s r.1 := by
  unfold checkObj at h
  have h1 := cut_integrate ctl o s
  dsimp only at h
  split at h
  · obtain rfl := Option.some.inj h; exact h1.mono (Nat.zero_le _)
  · split at h
    · exact (h1.trans (cut_checkTotal h)).mono (by omega)
    · obtain rfl := Option.some.inj h; exact h1.mono (Nat.zero_le _)

end

/-! ### preparation -/

/-- The counters are the same. -/
def Same (s t : S V) : Prop := t.pivots = s.pivots ∧ t.props = s.props

theorem Same.refl (s : S V) : Same s s := ⟨rfl, rfl⟩
theorem Same.trans {a b c : S V} (h : Same a b) (k : Same b c) : Same a c := ⟨k.1.trans h.1, k.2.trans h.2⟩

theorem same_enqueue (s : S V) (i : ℕ) : Same s (s.enqueue i) := by
  unfold enqueue
  dsimp only
  split <;> split <;> exact ⟨rfl, rfl⟩

variable {Sym : Type}

theorem same_prepIneq (env : InitEnv) (idx : Sym → Option ℕ) (master : Bool) (s : S V) (x : Ineq Sym) : Same s (prepIneq env idx master s x).1 := by
  unfold prepIneq
  split
  · exact Same.refl _
  · split
    · exact ⟨rfl, rfl⟩
    · split
      · exact ⟨rfl, rfl⟩
      · split
        · exact ⟨rfl, rfl⟩
        · exact ⟨rfl, rfl⟩
    · split
      · exact ⟨rfl, rfl⟩
      · exact ⟨rfl, rfl⟩
    · exact ⟨rfl, rfl⟩

theorem same_prepIneqs (env : InitEnv) (idx : Sym → Option ℕ) (master : Bool) (xs : List (Ineq Sym)) :
    ∀ s : S V, Same s (prepIneqs env idx master xs s).1 := by
  induction xs with
  | nil => exact fun s => Same.refl _
  | cons x xs ih =>
    intro s
    rw [prepIneqs]
    have h1 := same_prepIneq env idx master s x
    split
    · exact h1.trans (ih _)
    · exact h1

theorem same_prepObjective (idx : Sym → Option ℕ) (o : List (Term Sym)) (s : S V) : Same s (prepObjective idx o s) := by
  unfold prepObjective
  split
  · exact ⟨rfl, rfl⟩
  · split
    · exact ⟨rfl, rfl⟩
    · dsimp only
      split <;> exact ⟨rfl, rfl⟩

theorem same_confInner (env : InitEnv) (ba : Bound V) (bs : List ℕ) : ∀ s : S V, Same s (confInner env ba bs s).1 := by
  induction bs with
  | nil => exact fun s => Same.refl _
  | cons b bs ih =>
    intro s
    rw [confInner]
    cases hb : s.bounds[b]? with
    | none => exact ⟨rfl, rfl⟩
    | some bb =>
      dsimp only
      split
      · split
        · exact Same.trans ⟨rfl, rfl⟩ (ih _)
        · exact ⟨rfl, rfl⟩
      · exact ih s

theorem same_confVar (env : InitEnv) (as : List ℕ) : ∀ s : S V, Same s (confVar env as s).1 := by
  induction as with
  | nil => exact fun s => Same.refl _
  | cons a as ih =>
    intro s
    rw [confVar]
    cases ha : s.bounds[a]? with
    | none => exact ⟨rfl, rfl⟩
    | some ba =>
      have h1 := same_confInner env ba as s
      dsimp only
      split
      · exact h1.trans (ih _)
      · exact h1

theorem same_confVars (env : InitEnv) (vs : List ℕ) : ∀ s : S V, Same s (confVars env vs s).1 := by
  induction vs with
  | nil => exact fun s => Same.refl _
  | cons v vs ih =>
    intro s
    rw [confVars]
    have h1 := same_confVar env (s.vbounds v) s
    split
    · exact h1.trans (ih _)
    · exact h1

theorem foldl_same (l : List ℕ) : ∀ s : S V, Same s (l.foldl (fun s i => s.enqueue i) s) := by
  induction l with
  | nil => exact fun s => Same.refl _
  | cons i l ih => exact fun s => (same_enqueue s i).trans (ih _)

/-- A new solver has counted nothing. -/
theorem prepare_counters (env : InitEnv) (opts : Options) (idx : Sym → Option ℕ) (size : ℕ) (ineqs : List (Ineq Sym))
    (objective : List (Term Sym)) (master : Bool) :
    (prepare (V := V) env opts idx size ineqs objective master).1.pivots = 0 ∧ (prepare (V := V) env opts idx size ineqs objective master).1.props = 0 := by
  suffices h : Same (initS opts size env.order : S V) (prepare env opts idx size ineqs objective master).1 from h
  unfold prepare
  have h1 := same_prepIneqs env idx master ineqs (initS opts size env.order : S V)
  dsimp only
  split
  · exact h1
  · have h2 := (h1.trans (same_prepObjective idx objective _)).trans
      (foldl_same (List.range (prepObjective idx objective (prepIneqs env idx master ineqs (initS opts size env.order : S V)).1).m) _)
    split
    · exact h2.trans (Same.trans ⟨rfl, rfl⟩ (same_confVars env _ _))
    · exact h2.trans ⟨rfl, rfl⟩

end S
end Lpx
