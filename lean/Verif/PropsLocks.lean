import Verif.Locks

/-!
# The shared objective at the level of memory accesses (C72)

`Reach sm s`: the threads execute the methods access by access, in any order the mutex permits; `s.hist` is the sequence of calls and
returns (with their results). `AReach a`: the specification, in which each call has its whole effect at a single moment between call and
return; the effect is given by the functions `ObjState.update` and `ObjState.read`, which `Sys` and `Conc` use for single steps.
-/

set_option linter.unusedSectionVars false

namespace Lpx.Props

open Lpx.Locks

variable {V : Type} [LpValue V] {sm : Bool}

/-- C72: overlapping calls behave as if each had its effect at a single moment between call and return, for all threads the same one; and every such
behavior is possible. This holds for both kinds of mutexes. -/
theorem C72_atomic_calls (sm : Bool) (H : List (Event V)) :
    (∃ s : State V, Locks.Reach sm s ∧ s.hist = H) ↔ ∃ a : Atomic V, AReach a ∧ a.hist = H := by
  constructor
  · rintro ⟨s, hr, rfl⟩
    obtain ⟨a, ha, hs⟩ := hr.sim
    exact ⟨a, ha, hs.hist⟩
  · rintro ⟨a, ha, rfl⟩
    exact ⟨_, ha.impl, rfl⟩

/-- C72: when no call is in progress, the members have the values of the specification after the same calls. -/
theorem C72_quiescent {s : State V} (hr : Locks.Reach sm s) (hi : ∀ th, s.pc th = .idle) :
    ∃ a : Atomic V, AReach a ∧ a.hist = s.hist ∧ (∀ th, a.pc th = .idle) ∧ s.mem = a.obj := by
  obtain ⟨a, ha, hs⟩ := hr.sim
  refine ⟨a, ha, hs.hist, fun th => ?_, hs.mem fun th => ?_⟩
  · have := hs.rel th; rw [hi th] at this; exact this
  · rw [hi th]; exact id

/-- C72: there are no data races on the members. -/
theorem C72_no_race {s : State V} (hr : Locks.Reach sm s) : ¬ s.Race := by
  rintro ⟨th, th', f, w, hne, h1, h2⟩
  have hu : (s.pc th).InU := by
    revert h1; cases s.pc th <;> intro h1 <;> first | trivial | (simp [Pc.access] at h1)
  have := hr.lockInv.alone (Ne.symm hne) hu
  revert h2 this
  cases s.pc th' <;> intro h2 this <;> first | exact this.1 trivial | exact this.2 trivial | (simp [Pc.access] at h2)

/-- C72: no deadlock. As long as a thread is in a call, this thread or the one that holds the lock can get closer to its return. -/
theorem C72_no_deadlock {s : State V} (hr : Locks.Reach sm s) {th : ℕ} (hp : s.pc th ≠ .idle) :
    CanGo sm s th ∨ ∃ th', (s.excl = some th' ∨ s.shared th') ∧ CanGo sm s th' := hr.progress hp

/-- Where values come from, in the specification. -/
structure Origin (a : Atomic V) : Prop where
  obj : a.obj.generation ≠ 0 → ∃ th, Event.call th (.update (a.obj.value, a.obj.bounded)) ∈ a.hist
  called : ∀ th x, a.pc th = .called (.update x) → Event.call th (.update x) ∈ a.hist
  done : ∀ th x g, a.pc th = .done (.val (some x) g) → g ≠ 0 → ∃ th', Event.call th' (.update x) ∈ a.hist
  ret : ∀ th x g, Event.ret th (.val (some x) g) ∈ a.hist → g ≠ 0 → ∃ th', Event.call th' (.update x) ∈ a.hist

theorem origin {a : Atomic V} (h : AReach a) : Origin a := by
  induction h with
  | start => exact ⟨fun h => (h rfl).elim, fun _ _ h => (by cases h), fun _ _ _ h => (by cases h), fun _ _ _ h => (by cases h)⟩
  | @step a a' _ hs ih =>
    cases hs with
    | reset hi =>
      refine ⟨fun h => (h rfl).elim, fun th x h => ?_, fun th x g h => ?_, fun th x g h hg => ?_⟩
      · have := (hi th).symm.trans h; cases this
      · have := (hi th).symm.trans h; cases this
      · have h : Event.ret th (.val (some x) g) ∈ a.hist := by simpa using h
        obtain ⟨th', h'⟩ := ih.ret th x g h hg
        exact ⟨th', List.mem_append_left _ h'⟩
    | call th0 c hp =>
      refine ⟨fun h => ?_, fun th x h => ?_, fun th x g h hg => ?_, fun th x g h hg => ?_⟩
      · obtain ⟨th', h'⟩ := ih.obj h
        exact ⟨th', List.mem_append_left _ h'⟩
      · by_cases e : th = th0
        · subst e
          have h := (upd_self _ _ _).symm.trans h
          cases h
          exact List.mem_append_right _ (List.mem_singleton.2 rfl)
        · exact List.mem_append_left _ (ih.called th x ((upd_ne _ _ e).symm.trans h))
      · by_cases e : th = th0
        · subst e
          have h := (upd_self _ _ _).symm.trans h
          cases h
        · obtain ⟨th', h'⟩ := ih.done th x g ((upd_ne _ _ e).symm.trans h) hg
          exact ⟨th', List.mem_append_left _ h'⟩
      · have h : Event.ret th (.val (some x) g) ∈ a.hist := by simpa using h
        obtain ⟨th', h'⟩ := ih.ret th x g h hg
        exact ⟨th', List.mem_append_left _ h'⟩
    | @effect th0 c hp =>
      refine ⟨fun h => ?_, fun th x h => ?_, fun th x g h hg => ?_, ih.ret⟩
      · cases c with
        | update x =>
          change (a.obj.update x).generation ≠ 0 at h
          change ∃ th, Event.call th (.update ((a.obj.update x).value, (a.obj.update x).bounded)) ∈ a.hist
          by_cases hb : (a.obj.bounded && (!x.2 || decide (a.obj.generation = 0) || decide (a.obj.value < x.1))) = true
          · unfold ObjState.update
            rw [if_pos hb]
            exact ⟨th0, ih.called th0 x hp⟩
          · unfold ObjState.update at h ⊢
            rw [if_neg hb] at h ⊢
            exact ih.obj h
        | value g => exact ih.obj h
      · by_cases e : th = th0
        · subst e
          have h := (upd_self _ _ _).symm.trans h
          cases h
        · exact ih.called th x ((upd_ne _ _ e).symm.trans h)
      · by_cases e : th = th0
        · subst e
          have h := (upd_self _ _ _).symm.trans h
          cases c with
          | update y => cases h
          | value g0 =>
            change APc.done (.val (a.obj.read g0).1 (a.obj.read g0).2) = _ at h
            unfold ObjState.read at h
            split at h
            · injection h with h; injection h with h1 h2
              subst h2
              obtain rfl := Option.some.inj h1
              exact ih.obj hg
            · injection h with h; injection h with h1 h2
              cases h1
        · exact ih.done th x g ((upd_ne _ _ e).symm.trans h) hg
    | @ret th0 r hp =>
      refine ⟨fun h => ?_, fun th x h => ?_, fun th x g h hg => ?_, fun th x g h hg => ?_⟩
      · obtain ⟨th', h'⟩ := ih.obj h
        exact ⟨th', List.mem_append_left _ h'⟩
      · by_cases e : th = th0
        · subst e
          have h := (upd_self _ _ _).symm.trans h
          cases h
        · exact List.mem_append_left _ (ih.called th x ((upd_ne _ _ e).symm.trans h))
      · by_cases e : th = th0
        · subst e
          have h := (upd_self _ _ _).symm.trans h
          cases h
        · obtain ⟨th', h'⟩ := ih.done th x g ((upd_ne _ _ e).symm.trans h) hg
          exact ⟨th', List.mem_append_left _ h'⟩
      · rcases List.mem_append.1 h with h | h
        · obtain ⟨th', h'⟩ := ih.ret th x g h hg
          exact ⟨th', List.mem_append_left _ h'⟩
        · have h := List.mem_singleton.1 h
          injection h with h1 h2
          subst h1 h2
          obtain ⟨th', h'⟩ := ih.done _ x g hp hg
          exact ⟨th', List.mem_append_left _ h'⟩

/-- C72: a value that is returned has been passed to `update` as a whole by some thread (generation 0 is that of a new object). -/
theorem C72_no_torn_values {s : State V} (hr : Locks.Reach sm s) {th : ℕ} {x : V × Bool} {g : ℕ}
    (h : Event.ret th (.val (some x) g) ∈ s.hist) (hg : g ≠ 0) : ∃ th', Event.call th' (.update x) ∈ s.hist := by
  obtain ⟨a, ha, hs⟩ := hr.sim
  rw [← hs.hist] at h ⊢
  exact (origin ha).ret th x g h hg

/-- Two threads: thread 1 wants to read while thread 0 is in the middle of writing 5, for the moment there is a 3 in memory. -/
example : ∃ s : State ℚ, Locks.Reach true s ∧ s.mem = ⟨3, 1, true⟩ ∧ s.pc 0 = .writeV (5, false) ∧ s.pc 1 = .lockS 0 ∧
    s.hist = [.call 0 (.update (5, false)), .call 1 (.value 0)] := by
  refine ⟨_, .step (.step (.step (.step (.step (.step (.step .start (.callU 0 (5, false) rfl)) (.callS 1 0 rfl)) (.lockU 0 rfl rfl fun _ => id))
    (.readB 0 rfl)) (.incR 0 rfl)) (.incW 0 rfl)) (.partV 0 3 rfl), rfl, rfl, rfl, rfl⟩

/-- Thread 1 reads the value 5 written by thread 0, whose call returns later. -/
example : ∃ s : State ℚ, Locks.Reach false s ∧
    s.hist = [.call 0 (.update (5, true)), .call 1 (.value 0), .ret 1 (.val (some (5, true)) 1), .ret 0 .unit] := by
  refine (C72_atomic_calls false _).2 ⟨_, .step (.step (.step (.step (.step (.step .start (.call 0 (.update (5, true)) rfl)) (.call 1 (.value 0) rfl))
    (.effect 0 rfl)) (.effect 1 rfl)) (.ret 1 rfl)) (.ret 0 rfl), rfl⟩

/-- Not all sequences of calls and returns are possible: thread 1 does not get a value that nobody reported. -/
example : ¬ ∃ s : State ℚ, Locks.Reach true s ∧
    s.hist = [.call 0 (.update (5, true)), .call 1 (.value 0), .ret 1 (.val (some (3, true)) 1)] := by
  rintro ⟨s, hr, h⟩
  obtain ⟨th', hm⟩ := C72_no_torn_values hr (th := 1) (x := (3, true)) (g := 1) (by rw [h]; simp) one_ne_zero
  rw [h] at hm
  simp at hm

end Lpx.Props
