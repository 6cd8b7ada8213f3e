import Verif.Sys

/-!
# What the parts of a callback leave alone

Values, the tableau and the queues change all the time. The clauses added, the bounds and the trail of bounds are touched by few functions only.
The lemmas hold for arbitrary states, no invariant is needed.
-/

set_option linter.unusedSectionVars false

namespace Lpx
namespace S
variable {V : Type} [LpValue V]

/-- Only values, the tableau and the queues changed. -/
structure Quiet (s t : S V) : Prop where
  out : t.out = s.out
  bounds : t.bounds = s.bounds
  lower : t.lower = s.lower
  upper : t.upper = s.upper
  btrail : t.btrail = s.btrail
  offs : t.offs.map (fun o => (o.level, o.bound)) = s.offs.map (fun o => (o.level, o.bound))

theorem Quiet.refl (s : S V) : Quiet s s := ⟨rfl, rfl, rfl, rfl, rfl, rfl⟩
theorem Quiet.trans {a b c : S V} (h : Quiet a b) (k : Quiet b c) : Quiet a c :=
  ⟨k.out.trans h.out, k.bounds.trans h.bounds, k.lower.trans h.lower, k.upper.trans h.upper, k.btrail.trans h.btrail, k.offs.trans h.offs⟩

theorem Quiet.foldl {A : Type} (f : S V → A → S V) (hf : ∀ s a, Quiet s (f s a)) (l : List A) : ∀ s, Quiet s (l.foldl f s) := by
  induction l with
  | nil => exact fun s => Quiet.refl s
  | cons a l ih => exact fun s => (hf s a).trans (ih _)

theorem quiet_setValue (s : S V) (lvl v : ℕ) (x : V) (add : Bool) : Quiet s (s.setValue lvl v x add) := by
  unfold setValue
  split <;> exact ⟨rfl, rfl, rfl, rfl, rfl, rfl⟩

theorem quiet_enqueue (s : S V) (i : ℕ) : Quiet s (s.enqueue i) := by
  unfold enqueue
  dsimp only
  split <;> split <;> exact ⟨rfl, rfl, rfl, rfl, rfl, rfl⟩

theorem quiet_update (s : S V) (lvl j : ℕ) (v : V) : Quiet s (s.update lvl j v) := by
  unfold S.update
  refine Quiet.trans ?_ (quiet_setValue _ _ _ _ _)
  refine Quiet.trans (Quiet.foldl (fun (s' : S V) (e : ℕ × ℤ × ℤ) =>
    (s'.setValue lvl (s'.index (e.1 + s'.n)) (mulDiv (v - s'.value (s.index j)) e.2.1 e.2.2) true).enqueue e.1) ?_ (s.tab.colEntries j) s) ⟨rfl, rfl, rfl, rfl, rfl, rfl⟩
  exact fun s' e => (quiet_setValue _ _ _ _ _).trans (quiet_enqueue _ _)

theorem quiet_pivot (s : S V) (lvl i j : ℕ) (v : V) : Quiet s (s.pivot lvl i j v) := by
  unfold S.pivot
  split
  · exact ⟨rfl, rfl, rfl, rfl, rfl, rfl⟩
  · rename_i a _
    dsimp only
    split
    · exact ⟨rfl, rfl, rfl, rfl, rfl, rfl⟩
    · refine Quiet.trans ?_ (b := S.enqueue _ i) ⟨rfl, rfl, rfl, rfl, rfl, rfl⟩
      refine Quiet.trans ?_ (quiet_enqueue _ _)
      refine Quiet.trans (((quiet_setValue s lvl _ v false).trans (quiet_setValue _ lvl _ _ true)).trans (Quiet.foldl _ ?_ _ _)) ⟨rfl, rfl, rfl, rfl, rfl, rfl⟩
      intro s' e
      split
      · exact (quiet_setValue _ _ _ _ _).trans (quiet_enqueue _ _)
      · exact Quiet.refl _

theorem quiet_select (l : List ℕ) : ∀ s : S V, Quiet s (selectLoop l s).1 := by
  induction l with
  | nil => exact fun s => ⟨rfl, rfl, rfl, rfl, rfl, rfl⟩
  | cons ii rest ih =>
    intro s
    rw [selectLoop]
    dsimp only
    have h0 : Quiet s ({ s with queued := Function.update s.queued ii false } : S V) := ⟨rfl, rfl, rfl, rfl, rfl, rfl⟩
    split
    · exact h0.trans (ih _)
    · split
      · exact h0.trans (ih _)
      · split
        · exact ⟨rfl, rfl, rfl, rfl, rfl, rfl⟩
        · exact ⟨rfl, rfl, rfl, rfl, rfl, rfl⟩

theorem zeroOffs_map (l : List Off) : (zeroOffs l).map (fun o => (o.level, o.bound)) = l.map (fun o => (o.level, o.bound)) := by
  induction l with
  | nil => rfl
  | cons o l ih =>
    rw [zeroOffs]
    split
    · simp [ih]
    · rfl

theorem quiet_storeSat (s : S V) : Quiet s s.storeSat := ⟨rfl, rfl, rfl, rfl, rfl, zeroOffs_map _⟩

theorem quiet_optStep (s : S V) : (∀ t, s.optStep = .inl t → Quiet s t) ∧ (∀ t, s.optStep = .inr t → Quiet s t) := by
  unfold optStep
  split
  · refine ⟨?_, ?_⟩ <;> intro t h <;> cases h
    exact ⟨rfl, rfl, rfl, rfl, rfl, rfl⟩
  · dsimp only
    split
    · refine ⟨?_, ?_⟩ <;> intro t h <;> cases h
      exact ⟨rfl, rfl, rfl, rfl, rfl, rfl⟩
    · generalize hs0 : ({ s with tab := s.tab.compactCol (s.rindex (s.selectEnter (s.rindex s.obj.var - s.n)).1) } : S V) = s0
      have h0 : Quiet s s0 := by subst hs0; exact ⟨rfl, rfl, rfl, rfl, rfl, rfl⟩
      split
      · refine ⟨?_, ?_⟩ <;> intro t h <;> cases h
        exact h0.trans (quiet_pivot _ _ _ _ _)
      · split
        · refine ⟨?_, ?_⟩ <;> intro t h <;> cases h
          exact ⟨rfl, rfl, rfl, rfl, rfl, rfl⟩
        · refine ⟨?_, ?_⟩ <;> intro t h <;> cases h
          exact h0.trans (quiet_update _ _ _ _)

theorem quiet_optLoop (fuel : ℕ) : ∀ s t : S V, optLoop fuel s = some t → Quiet s t := by
  induction fuel with
  | zero => intro s t h; cases h
  | succ k ih =>
    intro s t h
    rw [optLoop] at h
    cases ho : s.optStep with
    | inl u => rw [ho] at h; obtain rfl := Option.some.inj h; exact (quiet_optStep s).1 _ ho
    | inr u => rw [ho] at h; exact ((quiet_optStep s).2 u ho).trans (ih _ _ h)

theorem quiet_optimize {fuel : ℕ} {s t : S V} (h : s.optimize fuel = some t) : Quiet s t := by
  unfold optimize at h
  split at h
  · exact quiet_optLoop _ _ _ h
  · cases h; exact Quiet.refl _

/-! ### clauses -/

/-- From `out` to `out'`: every clause that was followed by another one had been accepted, and if the result is `true`, then the last one as
well. -/
def Stops (ok : List (List ℤ) → Bool) (out out' : List (List ℤ)) (r : Bool) : Prop :=
  ∃ cs, out' = out ++ cs ∧ (∀ k, 0 < k → k < cs.length → ok (out ++ cs.take k) = true) ∧ (r = true → cs ≠ [] → ok out' = true)

variable {ok : List (List ℤ) → Bool}

theorem Stops.refl (out : List (List ℤ)) (r : Bool) : Stops ok out out r := ⟨[], by simp, fun k h1 h2 => by simp at h2, fun _ h => absurd rfl h⟩

theorem Stops.eq {a b : List (List ℤ)} {r : Bool} (h : b = a) : Stops ok a b r := by subst h; exact Stops.refl _ _

theorem Stops.one (out : List (List ℤ)) (c : List ℤ) : Stops ok out (out ++ [c]) (ok (out ++ [c])) :=
  ⟨[c], rfl, fun k h1 h2 => by simp at h2; omega, fun h _ => h⟩

theorem Stops.weaken {a b : List (List ℤ)} {r : Bool} (h : Stops ok a b r) : Stops ok a b false := by
  obtain ⟨cs, h1, h2, _⟩ := h
  exact ⟨cs, h1, h2, fun h => by cases h⟩

theorem Stops.trans {a b c : List (List ℤ)} {r : Bool} (h : Stops ok a b true) (k : Stops ok b c r) : Stops ok a c r := by
  obtain ⟨cs, rfl, h2, h3⟩ := h
  obtain ⟨ds, rfl, k2, k3⟩ := k
  refine ⟨cs ++ ds, by simp, ?_, ?_⟩
  · intro i hi0 hi
    rcases Nat.lt_trichotomy i cs.length with hl | hl | hl
    · rw [List.take_append_of_le_length hl.le]; exact h2 i hi0 hl
    · rw [List.take_append_of_le_length hl.le, hl, List.take_length]
      exact h3 rfl (by intro h; simp [h] at hl; omega)
    · have e : (cs ++ ds).take i = cs ++ ds.take (i - cs.length) := by rw [List.take_append, List.take_of_length_le hl.le]
      rw [e, ← List.append_assoc]
      exact k2 _ (by omega) (by simp at hi; omega)
  · intro hr hne
    by_cases hd : ds = []
    · subst hd
      simp only [List.append_nil] at hne ⊢
      exact h3 rfl hne
    · exact k3 hr hd

/-- A result of a function on states. -/
def StopsR (ok : List (List ℤ) → Bool) (s : S V) (r : S V × Bool) : Prop := Stops ok s.out r.1.out r.2

theorem StopsR.next {s t : S V} {r r' : S V × Bool} (h : StopsR ok s r) (hr : r.2 = true) (k : StopsR ok t r') (ht : t.out = r.1.out) : StopsR ok s r' := by
  unfold StopsR at *
  rw [hr] at h; rw [ht] at k
  exact h.trans k

theorem StopsR.before {s t : S V} {r : S V × Bool} (h : StopsR ok t r) (ht : t.out = s.out) : StopsR ok s r := by
  unfold StopsR at *
  rw [← ht]; exact h

theorem stops_propBounds (ctl : Ctl) (cl : List ℤ) (test : Bound V → Bool) (bs : List ℕ) : ∀ s : S V, StopsR ctl.ok s (propBounds ctl cl test bs s) := by
  induction bs with
  | nil => exact fun s => Stops.refl _ _
  | cons b bs ih =>
    intro s
    rw [propBounds]
    cases hb : s.bounds[b]? with
    | none => exact Stops.refl _ _
    | some bd =>
      dsimp only
      split
      · have h1 : StopsR ctl.ok s ((s.emit (cl ++ [-bd.lit]), ctl.ok (s.emit (cl ++ [-bd.lit])).out)) := Stops.one _ _
        split
        · rename_i hk
          exact h1.next hk (ih _) rfl
        · exact Stops.weaken h1
      · exact ih s

theorem stops_propRow (ctl : Ctl) (s : S V) (i : ℕ) : StopsR ctl.ok s (propRow ctl s i) := by
  unfold propRow
  generalize hs0 : ({ s with prop := Function.update s.prop i false } : S V) = s0
  have h0 : s0.out = s.out := by subst hs0; rfl
  dsimp only
  split
  · exact Stops.eq h0
  · generalize hr : (if s0.rowHasUpper i = true then propBounds ctl _ _ _ s0 else (s0, true)) = r
    have h1 : StopsR ctl.ok s r := by
      subst hr
      split
      · exact (stops_propBounds ctl _ _ _ s0).before h0
      · exact Stops.eq h0
    split
    · exact h1
    · rename_i hr2
      split
      · exact h1.next (by simpa using hr2) (stops_propBounds ctl _ _ _ r.1) rfl
      · exact h1

theorem stops_propQueue (ctl : Ctl) (is : List ℕ) : ∀ s : S V, StopsR ctl.ok s (propQueue ctl is s) := by
  induction is with
  | nil => exact fun s => Stops.refl _ _
  | cons i is ih =>
    intro s
    rw [propQueue]
    have h1 : StopsR ctl.ok s (propRow ctl { s with pqueue := is } i) := (stops_propRow ctl { s with pqueue := is } i).before rfl
    split
    · rename_i hk; exact h1.next hk (ih _) rfl
    · exact h1

theorem stops_propRows (ctl : Ctl) (is : List ℕ) : ∀ s : S V, StopsR ctl.ok s (propRows ctl is s) := by
  induction is with
  | nil => exact fun s => Stops.refl _ _
  | cons i is ih =>
    intro s
    rw [propRows]
    have h1 := stops_propRow ctl s i
    split
    · rename_i hk; exact h1.next hk (ih _) rfl
    · exact h1

theorem stops_propagate (ctl : Ctl) (s : S V) : StopsR ctl.ok s (s.propagate ctl) := by
  unfold S.propagate
  split
  · exact Stops.refl _ _
  · exact stops_propQueue _ _ _
  · exact stops_propRows _ _ _

theorem stops_solveLoop (ctl : Ctl) (fuel : ℕ) : ∀ (s : S V) (r : S V × Bool), solveLoop ctl fuel s = some r → StopsR ctl.ok s r := by
  induction fuel with
  | zero => intro s r h; cases h
  | succ k ih =>
    intro s r h
    rw [solveLoop] at h
    have hq := quiet_select s.conflicts s
    change Quiet s s.select.1 at hq
    generalize s.select = sel at h hq
    obtain ⟨t, x⟩ := sel
    dsimp only at h hq
    cases x with
    | sat =>
      dsimp only at h
      obtain rfl := Option.some.inj h
      refine (stops_propagate ctl _).before ?_
      split
      · exact (quiet_storeSat t).out.trans hq.out
      · exact hq.out
    | unsat =>
      obtain rfl := Option.some.inj h
      refine StopsR.before (t := t) ?_ hq.out
      exact Stops.weaken (Stops.one _ _)
    | unknown i j v =>
      exact (ih _ _ h).before ((quiet_pivot t ctl.dl i j v).out.trans hq.out)

theorem updateUpper_out (ctl : Ctl) (s : S V) (b : ℕ) (bd : Bound V) : (updateUpper ctl s b bd).1.out = s.out := by
  unfold updateUpper
  dsimp only
  split
  · split <;> rfl
  · rfl

theorem updateLower_out (ctl : Ctl) (s : S V) (b : ℕ) (bd : Bound V) : (updateLower ctl s b bd).1.out = s.out := by
  unfold updateLower
  dsimp only
  split
  · split
    · split
      · rfl
      · split <;> rfl
    · rfl
  · rfl

theorem updateVar_out (ctl : Ctl) (s : S V) (b : ℕ) (bd : Bound V) : (updateVar ctl s b bd).1.out = s.out := by
  unfold updateVar
  split
  · exact updateUpper_out _ _ _ _
  · exact updateLower_out _ _ _ _
  · dsimp only
    split
    · exact (updateLower_out _ _ _ _).trans (updateUpper_out _ _ _ _)
    · exact updateUpper_out _ _ _ _

theorem stops_updateBound (ctl : Ctl) (s : S V) (b : ℕ) (bd : Bound V) : StopsR ctl.ok s (updateBound ctl s b bd) := by
  unfold updateBound
  dsimp only
  have h0 := updateVar_out ctl s b bd
  generalize updateVar ctl s b bd = r at h0
  split
  · split
    · exact StopsR.before (t := r.1) (Stops.weaken (Stops.one _ _)) h0
    · exact Stops.eq h0
  · split
    · split
      · split
        · exact Stops.eq ((quiet_update _ _ _ _).out.trans h0)
        · exact Stops.eq h0
      · split
        · split
          · exact Stops.eq ((quiet_update _ _ _ _).out.trans h0)
          · exact Stops.eq h0
        · exact Stops.eq h0
    · exact Stops.eq ((quiet_enqueue _ _).out.trans h0)

theorem stops_updateBounds (ctl : Ctl) (bs : List (ℕ × Bound V)) : ∀ s : S V, StopsR ctl.ok s (updateBounds ctl bs s) := by
  induction bs with
  | nil => exact fun s => Stops.refl _ _
  | cons b bs ih =>
    intro s
    rw [updateBounds]
    have h1 := stops_updateBound ctl s b.1 b.2
    split
    · rename_i hk; exact h1.next hk (ih _) rfl
    · exact h1

theorem stops_updateLits (ctl : Ctl) (ls : List ℤ) : ∀ s : S V, StopsR ctl.ok s (updateLits ctl ls s) := by
  induction ls with
  | nil => exact fun s => Stops.refl _ _
  | cons l ls ih =>
    intro s
    rw [updateLits]
    have h1 := stops_updateBounds ctl (s.boundsOf l) s
    split
    · rename_i hk; exact h1.next hk (ih _) rfl
    · exact h1

theorem pushOff_out (ctl : Ctl) (s : S V) : (s.pushOff ctl).out = s.out := by
  unfold pushOff
  split
  · rfl
  · split <;> rfl

theorem stops_solve {ctl : Ctl} {fuel : ℕ} {s : S V} {lits : List ℤ} {r : S V × Bool} (h : s.solve ctl fuel lits = some r) : StopsR ctl.ok s r := by
  unfold S.solve at h
  have h1 := (stops_updateLits ctl lits (s.pushOff ctl)).before (pushOff_out ctl s)
  dsimp only at h
  split at h
  · rename_i hk
    exact h1.next hk (stops_solveLoop ctl fuel _ _ h) rfl
  · obtain rfl := Option.some.inj h
    exact h1

theorem stops_assertBound (ctl : Ctl) (s : S V) (x : V) : StopsR ctl.ok s (s.assertBound ctl x) := Stops.one _ _

theorem stops_discardBounded (ctl : Ctl) (s : S V) : StopsR ctl.ok s (s.discardBounded ctl) := by
  unfold discardBounded
  split
  · exact Stops.refl _ _
  · exact stops_assertBound _ _ _

section
variable {V : Type} [LpFull V]

theorem stops_integrate (ctl : Ctl) (o : ObjState V) (s : S V) : StopsR ctl.ok s (s.integrate ctl o) := by
  unfold integrate
  split
  · exact Stops.refl _ _
  · dsimp only
    split
    · exact Stops.refl _ _
    · split
      · exact Stops.refl _ _
      · split
        · exact Stops.refl _ _
        · exact StopsR.before (stops_assertBound ctl _ _) rfl

theorem stops_checkTotal {ctl : Ctl} {fuel : ℕ} {s : S V} {r : S V × Bool} (h : s.checkTotal ctl fuel = some r) : StopsR ctl.ok s r := by
  unfold checkTotal at h
  cases ho : s.optimize fuel with
  | none => rw [ho] at h; cases h
  | some t =>
    rw [ho] at h
    dsimp only at h
    obtain rfl := Option.some.inj h
    refine (stops_discardBounded ctl _).before ?_
    split
    · exact (quiet_optimize ho).out
    · exact (quiet_storeSat t).out.trans (quiet_optimize ho).out

theorem stops_checkObj {ctl : Ctl} {fuel : ℕ} {total : Bool} {o : ObjState V} {s : S V} {r : S V × Bool} (h : s.checkObj ctl fuel total o = some r) :
    StopsR ctl.ok s r := by
  unfold checkObj at h
  have h1 := stops_integrate ctl o s
  dsimp only at h
  split at h
  · obtain rfl := Option.some.inj h; exact h1
  · rename_i hk
    split at h
    · exact h1.next (by simpa using hk) (stops_checkTotal h) rfl
    · obtain rfl := Option.some.inj h; exact h1

end

/-! ### bounds -/

/-- Bounds, limits and the trail of limits are the same. -/
structure Held (s t : S V) : Prop where
  bounds : t.bounds = s.bounds
  lower : t.lower = s.lower
  upper : t.upper = s.upper
  btrail : t.btrail = s.btrail
  offs : t.offs.map (fun o => (o.level, o.bound)) = s.offs.map (fun o => (o.level, o.bound))

theorem Held.refl (s : S V) : Held s s := ⟨rfl, rfl, rfl, rfl, rfl⟩
theorem Held.trans {a b c : S V} (h : Held a b) (k : Held b c) : Held a c :=
  ⟨k.bounds.trans h.bounds, k.lower.trans h.lower, k.upper.trans h.upper, k.btrail.trans h.btrail, k.offs.trans h.offs⟩
theorem Quiet.held {s t : S V} (h : Quiet s t) : Held s t := ⟨h.bounds, h.lower, h.upper, h.btrail, h.offs⟩

theorem held_propBounds (ctl : Ctl) (cl : List ℤ) (test : Bound V → Bool) (bs : List ℕ) : ∀ s : S V, Held s (propBounds ctl cl test bs s).1 := by
  induction bs with
  | nil => exact fun s => Held.refl _
  | cons b bs ih =>
    intro s
    rw [propBounds]
    cases hb : s.bounds[b]? with
    | none => exact ⟨rfl, rfl, rfl, rfl, rfl⟩
    | some bd =>
      dsimp only
      split
      · split
        · refine Held.trans ?_ (ih _)
          exact ⟨rfl, rfl, rfl, rfl, rfl⟩
        · exact ⟨rfl, rfl, rfl, rfl, rfl⟩
      · exact ih s

theorem held_propRow (ctl : Ctl) (s : S V) (i : ℕ) : Held s (propRow ctl s i).1 := by
  unfold propRow
  generalize hs0 : ({ s with prop := Function.update s.prop i false } : S V) = s0
  have h0 : Held s s0 := by subst hs0; exact ⟨rfl, rfl, rfl, rfl, rfl⟩
  dsimp only
  split
  · exact h0
  · generalize hr : (if s0.rowHasUpper i = true then propBounds ctl _ _ _ s0 else (s0, true)) = r
    have h1 : Held s r.1 := by
      subst hr
      split
      · exact h0.trans (held_propBounds ctl _ _ _ s0)
      · exact h0
    split
    · exact h1
    · split
      · exact h1.trans (held_propBounds ctl _ _ _ r.1)
      · exact h1

theorem held_propQueue (ctl : Ctl) (is : List ℕ) : ∀ s : S V, Held s (propQueue ctl is s).1 := by
  induction is with
  | nil => exact fun s => Held.refl _
  | cons i is ih =>
    intro s
    rw [propQueue]
    have h1 : Held s (propRow ctl { s with pqueue := is } i).1 := by
      refine Held.trans ?_ (held_propRow ctl { s with pqueue := is } i)
      exact ⟨rfl, rfl, rfl, rfl, rfl⟩
    split
    · exact h1.trans (ih _)
    · exact h1

theorem held_propRows (ctl : Ctl) (is : List ℕ) : ∀ s : S V, Held s (propRows ctl is s).1 := by
  induction is with
  | nil => exact fun s => Held.refl _
  | cons i is ih =>
    intro s
    rw [propRows]
    have h1 := held_propRow ctl s i
    split
    · exact h1.trans (ih _)
    · exact h1

theorem held_propagate (ctl : Ctl) (s : S V) : Held s (s.propagate ctl).1 := by
  unfold S.propagate
  split
  · exact Held.refl _
  · exact held_propQueue _ _ _
  · exact held_propRows _ _ _

theorem held_solveLoop (ctl : Ctl) (fuel : ℕ) : ∀ (s : S V) (r : S V × Bool), solveLoop ctl fuel s = some r → Held s r.1 := by
  induction fuel with
  | zero => intro s r h; cases h
  | succ k ih =>
    intro s r h
    rw [solveLoop] at h
    have hq := (quiet_select s.conflicts s).held
    change Held s s.select.1 at hq
    generalize s.select = sel at h hq
    obtain ⟨t, x⟩ := sel
    dsimp only at h hq
    cases x with
    | sat =>
      dsimp only at h
      obtain rfl := Option.some.inj h
      refine hq.trans (Held.trans ?_ (held_propagate ctl _))
      split
      · exact (quiet_storeSat t).held
      · exact Held.refl _
    | unsat =>
      obtain rfl := Option.some.inj h
      exact hq.trans ⟨rfl, rfl, rfl, rfl, rfl⟩
    | unknown i j v => exact (hq.trans (quiet_pivot t ctl.dl i j v).held).trans (ih _ _ h)

/-! ### `prepare` -/

variable {Sym : Type}

theorem stops_prepIneq (env : InitEnv) (idx : Sym → Option ℕ) (master : Bool) (s : S V) (x : Ineq Sym) : StopsR env.ok s (prepIneq env idx master s x) := by
  unfold prepIneq
  split
  · exact Stops.refl _ _
  · split
    · exact Stops.refl _ _
    · split
      · exact Stops.refl _ _
      · split
        · exact Stops.one _ _
        · exact Stops.refl _ _
    · split
      · exact Stops.refl _ _
      · exact Stops.refl _ _
    · exact Stops.refl _ _

theorem stops_prepIneqs (env : InitEnv) (idx : Sym → Option ℕ) (master : Bool) (xs : List (Ineq Sym)) :
    ∀ s : S V, StopsR env.ok s (prepIneqs env idx master xs s) := by
  induction xs with
  | nil => exact fun s => Stops.refl _ _
  | cons x xs ih =>
    intro s
    rw [prepIneqs]
    have h1 := stops_prepIneq env idx master s x
    split
    · rename_i hk; exact h1.next hk (ih _) rfl
    · exact h1

theorem prepObjective_out' (idx : Sym → Option ℕ) (o : List (Term Sym)) (s : S V) : (prepObjective idx o s).out = s.out := by
  unfold prepObjective
  split
  · rfl
  · split
    · rfl
    · dsimp only
      split <;> rfl

theorem stops_confInner (env : InitEnv) (ba : Bound V) (bs : List ℕ) : ∀ s : S V, StopsR env.ok s (confInner env ba bs s) := by
  induction bs with
  | nil => exact fun s => Stops.refl _ _
  | cons b bs ih =>
    intro s
    rw [confInner]
    cases hb : s.bounds[b]? with
    | none => exact Stops.refl _ _
    | some bb =>
      dsimp only
      split
      · have h1 : StopsR env.ok s (({ s with clause := [-ba.lit, -bb.lit], out := s.out ++ [[-ba.lit, -bb.lit]] } : S V), env.ok (s.out ++ [[-ba.lit, -bb.lit]])) :=
          Stops.one _ _
        split
        · rename_i hk; exact h1.next hk (ih _) rfl
        · exact Stops.weaken h1
      · exact ih s

theorem stops_confVar (env : InitEnv) (as : List ℕ) : ∀ s : S V, StopsR env.ok s (confVar env as s) := by
  induction as with
  | nil => exact fun s => Stops.refl _ _
  | cons a as ih =>
    intro s
    rw [confVar]
    cases ha : s.bounds[a]? with
    | none => exact Stops.refl _ _
    | some ba =>
      have h1 := stops_confInner env ba as s
      dsimp only
      split
      · rename_i hk; exact h1.next hk (ih _) rfl
      · exact h1

theorem stops_confVars (env : InitEnv) (vs : List ℕ) : ∀ s : S V, StopsR env.ok s (confVars env vs s) := by
  induction vs with
  | nil => exact fun s => Stops.refl _ _
  | cons v vs ih =>
    intro s
    rw [confVars]
    have h1 := stops_confVar env (s.vbounds v) s
    split
    · rename_i hk; exact h1.next hk (ih _) rfl
    · exact h1

theorem stops_prepare (env : InitEnv) (opts : Options) (idx : Sym → Option ℕ) (size : ℕ) (ineqs : List (Ineq Sym))
    (objective : List (Term Sym)) (master : Bool) :
    StopsR env.ok (initS opts size env.order : S V) (prepare env opts idx size ineqs objective master) := by
  unfold prepare
  have h1 := stops_prepIneqs env idx master ineqs (initS opts size env.order : S V)
  dsimp only
  split
  · exact h1
  · rename_i hk
    have hk : (prepIneqs env idx master ineqs (initS opts size env.order : S V)).2 = true := by simpa using hk
    have h2 : (fillBounds ((List.range (prepObjective idx objective (prepIneqs env idx master ineqs (initS opts size env.order : S V)).1).m).foldl
        (fun s i => s.enqueue i) (prepObjective idx objective (prepIneqs env idx master ineqs (initS opts size env.order : S V)).1))).out =
        (prepIneqs env idx master ineqs (initS opts size env.order : S V)).1.out :=
      (Quiet.foldl _ (fun s i => quiet_enqueue s i) _ _).out.trans (prepObjective_out' _ _ _)
    split
    · exact h1.next hk (stops_confVars env _ _) h2
    · exact h1.next hk (Stops.refl _ _) h2

end S
end Lpx
