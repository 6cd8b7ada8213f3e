import Verif.Sys

/-!
# The shared objective at the level of memory accesses

`Sys` and `Conc` treat the methods of `ObjectiveState` as single steps, because they run under a lock. Here they are sequences of accesses to
the members, of which any number of threads may be at different points, and the lock is an ordinary part of the state. The assignment to
`value_`, a number of arbitrary size, is not a single access: until it is finished, `value_` has arbitrary values.

Environment: a `std::shared_mutex` (or `std::mutex`, which is only ever locked exclusively) and clingo, which calls `init` and thus `reset` when no
thread is running.
-/

set_option linter.unusedSectionVars false

namespace Lpx.Locks

variable {V : Type}

/-- solving.hh:56-58 A call of a method. -/
inductive Call (V : Type)
  | update (x : V × Bool)
  | value (generation : ℕ)

/-- What a call returns: nothing, or the result of `value` and the new value of its argument. solving.hh:53-69. -/
inductive Res (V : Type)
  | unit
  | val (r : Option (V × Bool)) (generation : ℕ)

/-- What a user of the class can see. solving.hh:53-69. -/
inductive Event (V : Type)
  | reset
  | call (th : ℕ) (c : Call V)
  | ret (th : ℕ) (r : Res V)

/-- The point a thread is at. solving.cc:34-65. -/
inductive Pc (V : Type)
  | idle
  /-- solving.cc:41-45 before the lock -/
  | lockU (x : V × Bool)
  /-- solving.cc:46 before `bounded_` is read -/
  | readB (x : V × Bool)
  /-- solving.cc:46 before `generation_` is read -/
  | readG (x : V × Bool)
  /-- solving.cc:46 before `value_` is read -/
  | readV (x : V × Bool)
  /-- solving.cc:47 before `generation_` is read -/
  | incR (x : V × Bool)
  /-- solving.cc:47 before `generation_` is written -/
  | incW (x : V × Bool) (r : ℕ)
  /-- solving.cc:48 while `value_` is written -/
  | writeV (x : V × Bool)
  /-- solving.cc:49 before `bounded_` is written -/
  | writeB (x : V × Bool)
  /-- solving.cc:51 before the lock is released -/
  | unlockU
  /-- solving.cc:55-59 before the lock -/
  | lockS (g : ℕ)
  /-- solving.cc:60 before `generation_` is read -/
  | cmpG (g : ℕ)
  /-- solving.cc:61 before `generation_` is read -/
  | loadG
  /-- solving.cc:62 before `value_` is read -/
  | loadV (g : ℕ)
  /-- solving.cc:62 before `bounded_` is read -/
  | loadB (g : ℕ) (v : V)
  /-- solving.cc:62, 64 before the lock is released -/
  | unlockS (r : Option (V × Bool)) (g : ℕ)
  /-- after the lock has been released, before the function returns -/
  | leave (r : Res V)

/-- The members of `ObjectiveState` (solving.hh:61-68), the points the threads are at and the calls and returns so far. The mutex is held exclusively by
one thread or shared by the threads given. -/
structure State (V : Type) where
  mem : ObjState V
  excl : Option ℕ
  shared : ℕ → Prop
  pc : ℕ → Pc V
  hist : List (Event V)

/-- The thread is somewhere else. Not part of the code. -/
def State.goto (s : State V) (th : ℕ) (pc : Pc V) : State V := { s with pc := Function.update s.pc th pc }

/-- An event. Not part of the code. -/
def State.log (s : State V) (e : Event V) : State V := { s with hist := s.hist ++ [e] }

/-- solving.hh:66-68 a new object. -/
def State.start [LpValue V] : State V := ⟨ObjState.init, none, fun _ => False, fun _ => .idle, []⟩

/-- solving.cc:34-65 One step of one thread. `sm` says whether there is a `std::shared_mutex` (`CLINGOLPX_NO_SHARED_MUTEX` is not defined). -/
inductive Step [LpValue V] (sm : Bool) (s : State V) : State V → Prop
  /-- solving.cc:34-38 `reset`, called when no thread is running -/
  | reset : (∀ th, s.pc th = .idle) → Step sm s (({ s with mem := ObjState.init } : State V).log .reset)
  /-- solving.cc:40 -/
  | callU (th : ℕ) (x : V × Bool) : s.pc th = .idle → Step sm s ((s.goto th (.lockU x)).log (.call th (.update x)))
  /-- solving.cc:42, 44 -/
  | lockU (th : ℕ) {x : V × Bool} : s.pc th = .lockU x → s.excl = none → (∀ th', ¬ s.shared th') →
      Step sm s (({ s with excl := some th } : State V).goto th (.readB x))
  /-- solving.cc:46 `bounded_ && ` -/
  | readB (th : ℕ) {x : V × Bool} : s.pc th = .readB x →
      Step sm s (s.goto th (if !s.mem.bounded then .unlockU else if !x.2 then .incR x else .readG x))
  /-- solving.cc:46 `generation_ == 0` -/
  | readG (th : ℕ) {x : V × Bool} : s.pc th = .readG x →
      Step sm s (s.goto th (if s.mem.generation = 0 then .incR x else .readV x))
  /-- solving.cc:46 `value.first > value_` -/
  | readV (th : ℕ) {x : V × Bool} : s.pc th = .readV x →
      Step sm s (s.goto th (if x.1 > s.mem.value then .incR x else .unlockU))
  /-- solving.cc:47 -/
  | incR (th : ℕ) {x : V × Bool} : s.pc th = .incR x → Step sm s (s.goto th (.incW x s.mem.generation))
  /-- solving.cc:47 -/
  | incW (th : ℕ) {x : V × Bool} {r : ℕ} : s.pc th = .incW x r →
      Step sm s (({ s with mem := { s.mem with generation := r + 1 } } : State V).goto th (.writeV x))
  /-- solving.cc:48 the assignment is under way -/
  | partV (th : ℕ) {x : V × Bool} (junk : V) : s.pc th = .writeV x →
      Step sm s { s with mem := { s.mem with value := junk } }
  /-- solving.cc:48 -/
  | writeV (th : ℕ) {x : V × Bool} : s.pc th = .writeV x →
      Step sm s (({ s with mem := { s.mem with value := x.1 } } : State V).goto th (.writeB x))
  /-- solving.cc:49 -/
  | writeB (th : ℕ) {x : V × Bool} : s.pc th = .writeB x →
      Step sm s (({ s with mem := { s.mem with bounded := x.2 } } : State V).goto th .unlockU)
  /-- solving.cc:51 -/
  | unlockU (th : ℕ) : s.pc th = .unlockU →
      Step sm s (({ s with excl := none } : State V).goto th (.leave .unit))
  /-- solving.cc:54 -/
  | callS (th : ℕ) (g : ℕ) : s.pc th = .idle → Step sm s ((s.goto th (.lockS g)).log (.call th (.value g)))
  /-- solving.cc:56 -/
  | lockS (th : ℕ) {g : ℕ} : sm = true → s.pc th = .lockS g → s.excl = none →
      Step sm s (({ s with shared := Function.update s.shared th True } : State V).goto th (.cmpG g))
  /-- solving.cc:58 -/
  | lockX (th : ℕ) {g : ℕ} : sm = false → s.pc th = .lockS g → s.excl = none → (∀ th', ¬ s.shared th') →
      Step sm s (({ s with excl := some th } : State V).goto th (.cmpG g))
  /-- solving.cc:60 -/
  | cmpG (th : ℕ) {g : ℕ} : s.pc th = .cmpG g →
      Step sm s (s.goto th (if g ≠ s.mem.generation then .loadG else .unlockS none g))
  /-- solving.cc:61 -/
  | loadG (th : ℕ) : s.pc th = .loadG → Step sm s (s.goto th (.loadV s.mem.generation))
  /-- solving.cc:62 -/
  | loadV (th : ℕ) {g : ℕ} : s.pc th = .loadV g → Step sm s (s.goto th (.loadB g s.mem.value))
  /-- solving.cc:62 -/
  | loadB (th : ℕ) {g : ℕ} {v : V} : s.pc th = .loadB g v → Step sm s (s.goto th (.unlockS (some (v, s.mem.bounded)) g))
  /-- solving.cc:62, 64 -/
  | unlockS (th : ℕ) {r : Option (V × Bool)} {g : ℕ} : sm = true → s.pc th = .unlockS r g →
      Step sm s (({ s with shared := Function.update s.shared th False } : State V).goto th (.leave (.val r g)))
  /-- solving.cc:62, 64 -/
  | unlockX (th : ℕ) {r : Option (V × Bool)} {g : ℕ} : sm = false → s.pc th = .unlockS r g →
      Step sm s (({ s with excl := none } : State V).goto th (.leave (.val r g)))
  /-- solving.cc:51, 62, 64 -/
  | leave (th : ℕ) {r : Res V} : s.pc th = .leave r → Step sm s ((s.goto th .idle).log (.ret th r))

/-- The states that can be reached. Executions of solving.cc:34-65. -/
inductive Reach [LpValue V] (sm : Bool) : State V → Prop
  | start : Reach sm State.start
  | step {s s' : State V} : Reach sm s → Step sm s s' → Reach sm s'

/-! ### Specification: the same methods as single steps -/

/-- The effect of a call on the object as a single step, by the functions used in `Sys` and `Conc`. Specification of solving.cc:34-65. -/
def Call.run [LpValue V] : Call V → ObjState V → ObjState V × Res V
  | .update x, o => (o.update x, .unit)
  | .value g, o => (o, .val (o.read g).1 (o.read g).2)

/-- Where a call is. Specification. -/
inductive APc (V : Type)
  | idle
  | called (c : Call V)
  | done (r : Res V)

/-- The object and the calls. Specification. -/
structure Atomic (V : Type) where
  obj : ObjState V
  pc : ℕ → APc V
  hist : List (Event V)

/-- At some point between call and return, the call has its effect. Specification. -/
inductive AStep [LpValue V] (a : Atomic V) : Atomic V → Prop
  | reset : (∀ th, a.pc th = .idle) → AStep a { a with obj := ObjState.init, hist := a.hist ++ [.reset] }
  | call (th : ℕ) (c : Call V) : a.pc th = .idle →
      AStep a { a with pc := Function.update a.pc th (.called c), hist := a.hist ++ [.call th c] }
  | effect (th : ℕ) {c : Call V} : a.pc th = .called c →
      AStep a { a with obj := (c.run a.obj).1, pc := Function.update a.pc th (.done (c.run a.obj).2) }
  | ret (th : ℕ) {r : Res V} : a.pc th = .done r →
      AStep a { a with pc := Function.update a.pc th .idle, hist := a.hist ++ [.ret th r] }

/-- The states of the specification. -/
inductive AReach [LpValue V] : Atomic V → Prop
  | start : AReach ⟨ObjState.init, fun _ => .idle, []⟩
  | step {a a' : Atomic V} : AReach a → AStep a a' → AReach a'

/-! ### Data races -/

/-- The members. solving.hh:65-67. -/
inductive Field
  | value | generation | bounded

/-- The access a thread is about to make: the member and whether it is written. Specification of data races. -/
def Pc.access : Pc V → Option (Field × Bool)
  | .readB _ => some (.bounded, false)
  | .readG _ => some (.generation, false)
  | .readV _ => some (.value, false)
  | .incR _ => some (.generation, false)
  | .incW _ _ => some (.generation, true)
  | .writeV _ => some (.value, true)
  | .writeB _ => some (.bounded, true)
  | .cmpG _ => some (.generation, false)
  | .loadG => some (.generation, false)
  | .loadV _ => some (.value, false)
  | .loadB _ _ => some (.bounded, false)
  | _ => none

/-- Two threads are about to access the same member and one of them writes. Specification of data races. -/
def State.Race (s : State V) : Prop :=
  ∃ th th' f w, th ≠ th' ∧ (s.pc th).access = some (f, true) ∧ (s.pc th').access = some (f, w)

/-! ### The lock -/

/-- Between lock and unlock in `update`. Proof helper for solving.cc:34-65. -/
def Pc.InU : Pc V → Prop
  | .readB _ | .readG _ | .readV _ | .incR _ | .incW _ _ | .writeV _ | .writeB _ | .unlockU => True
  | _ => False

/-- Between lock and unlock in `value`. Proof helper for solving.cc:34-65. -/
def Pc.InS : Pc V → Prop
  | .cmpG _ | .loadG | .loadV _ | .loadB _ _ | .unlockS _ _ => True
  | _ => False

/-- The lock is held by the threads in critical sections. Invariant of solving.cc:34-65. -/
structure LockInv (sm : Bool) (s : State V) : Prop where
  u : ∀ th, (s.pc th).InU → s.excl = some th
  sh : ∀ th, (s.pc th).InS → if sm = true then s.shared th else s.excl = some th
  one : s.excl ≠ none → ∀ th, ¬ s.shared th
  held : ∀ th, s.excl = some th → (s.pc th).InU ∨ (sm = false ∧ (s.pc th).InS)
  heldS : ∀ th, s.shared th → sm = true ∧ (s.pc th).InS

variable [LpValue V] {sm : Bool}

theorem upd_self {α : Type} (f : ℕ → α) (th : ℕ) (x : α) : Function.update f th x th = x := by simp

theorem upd_ne {α : Type} (f : ℕ → α) {th th' : ℕ} (x : α) (h : th' ≠ th) : Function.update f th x th' = f th' := by
  simp [Function.update, h]

/-- Steps that keep the lock. -/
theorem LockInv.keep {s s' : State V} (h : LockInv sm s) (he : s'.excl = s.excl) (hs : s'.shared = s.shared) (th : ℕ) {pc : Pc V}
    (hpc : s'.pc = Function.update s.pc th pc) (hu : pc.InU ↔ (s.pc th).InU) (hv : pc.InS ↔ (s.pc th).InS) : LockInv sm s' := by
  have key : ∀ th', ((s'.pc th').InU ↔ (s.pc th').InU) ∧ ((s'.pc th').InS ↔ (s.pc th').InS) := by
    intro th'
    rw [hpc]
    by_cases e : th' = th
    · subst e; rw [upd_self]; exact ⟨hu, hv⟩
    · rw [upd_ne _ _ e]; exact ⟨Iff.rfl, Iff.rfl⟩
  refine ⟨fun t ht => ?_, fun t ht => ?_, ?_, fun t ht => ?_, fun t ht => ?_⟩
  · rw [he]; exact h.u t ((key t).1.1 ht)
  · rw [he, hs]; exact h.sh t ((key t).2.1 ht)
  · rw [he, hs]; exact h.one
  · rw [he] at ht; rw [(key t).1, (key t).2]; exact h.held t ht
  · rw [hs] at ht; rw [(key t).2]; exact h.heldS t ht

/-- Acquiring the lock exclusively. -/
theorem LockInv.acquire {s s' : State V} (h : LockInv sm s) (hn : s.excl = none) (hno : ∀ th, ¬ s.shared th) (th : ℕ) {pc : Pc V}
    (he : s'.excl = some th) (hs : s'.shared = s.shared) (hpc : s'.pc = Function.update s.pc th pc)
    (hin : pc.InU ∧ ¬ pc.InS ∨ sm = false ∧ pc.InS ∧ ¬ pc.InU) : LockInv sm s' := by
  have out : ∀ th', ¬ (s.pc th').InU ∧ ¬ (s.pc th').InS := by
    intro th'
    refine ⟨fun hu => ?_, fun hu => ?_⟩
    · have := h.u th' hu; rw [hn] at this; cases this
    · have := h.sh th' hu
      cases sm
      · simp [hn] at this
      · exact hno th' (by simpa using this)
  have key : ∀ th', th' ≠ th → s'.pc th' = s.pc th' := fun th' e => by rw [hpc, upd_ne _ _ e]
  have self : s'.pc th = pc := by rw [hpc, upd_self]
  refine ⟨fun t ht => ?_, fun t ht => ?_, fun _ => hs ▸ hno, fun t ht => ?_, fun t ht => ?_⟩
  · by_cases e : t = th
    · rw [e]; exact he
    · rw [key t e] at ht; exact ((out t).1 ht).elim
  · by_cases e : t = th
    · subst e
      rw [self] at ht
      rcases hin with ⟨-, h2⟩ | ⟨h1, -⟩
      · exact (h2 ht).elim
      · simp [h1, he]
    · rw [key t e] at ht; exact ((out t).2 ht).elim
  · rw [he] at ht
    obtain rfl := Option.some.inj ht
    rw [self]
    rcases hin with ⟨h1, -⟩ | ⟨h1, h2, -⟩
    · exact Or.inl h1
    · exact Or.inr ⟨h1, h2⟩
  · rw [hs] at ht; exact (hno t ht).elim

/-- Releasing the lock held exclusively. -/
theorem LockInv.release {s s' : State V} (h : LockInv sm s) (th : ℕ) (hx : s.excl = some th) {pc : Pc V}
    (he : s'.excl = none) (hs : s'.shared = s.shared) (hpc : s'.pc = Function.update s.pc th pc)
    (hin : ¬ pc.InU ∧ ¬ pc.InS) : LockInv sm s' := by
  have hno := h.one (by rw [hx]; exact Option.some_ne_none _)
  have key : ∀ th', th' ≠ th → s'.pc th' = s.pc th' := fun th' e => by rw [hpc, upd_ne _ _ e]
  have self : s'.pc th = pc := by rw [hpc, upd_self]
  have out : ∀ th', ¬ (s'.pc th').InU ∧ ¬ (s'.pc th').InS := by
    intro th'
    by_cases e : th' = th
    · rw [e, self]; exact hin
    · rw [key th' e]
      refine ⟨fun hu => ?_, fun hu => ?_⟩
      · have := h.u th' hu; rw [hx] at this; exact e (Option.some.inj this).symm
      · have := h.sh th' hu
        cases sm
        · simp [hx] at this; exact e this.symm
        · exact hno th' (by simpa using this)
  refine ⟨fun t ht => ((out t).1 ht).elim, fun t ht => ((out t).2 ht).elim, fun hne => (hne he).elim, fun t ht => ?_, fun t ht => ?_⟩
  · rw [he] at ht; cases ht
  · rw [hs] at ht; exact (hno t ht).elim

/-- Acquiring or releasing the lock shared with others. -/
theorem LockInv.share {s s' : State V} (h : LockInv sm s) (hm : sm = true) (hn : s.excl = none) (th : ℕ) (b : Prop) {pc : Pc V}
    (he : s'.excl = s.excl) (hs : s'.shared = Function.update s.shared th b) (hpc : s'.pc = Function.update s.pc th pc)
    (hu : ¬ pc.InU) (hb : pc.InS → b) (hb' : b → pc.InS) : LockInv sm s' := by
  have key : ∀ th', th' ≠ th → s'.pc th' = s.pc th' ∧ s'.shared th' = s.shared th' := fun th' e => by
    rw [hpc, hs, upd_ne _ _ e, upd_ne _ _ e]; exact ⟨rfl, rfl⟩
  have self : s'.pc th = pc ∧ s'.shared th = b := by rw [hpc, hs, upd_self, upd_self]; exact ⟨rfl, rfl⟩
  refine ⟨fun t ht => ?_, fun t ht => ?_, fun hne => (hne (he.trans hn)).elim, fun t ht => ?_, fun t ht => ⟨hm, ?_⟩⟩
  · by_cases e : t = th
    · subst e; rw [self.1] at ht; exact (hu ht).elim
    · rw [(key t e).1] at ht
      have := h.u t ht; rw [hn] at this; cases this
  · rw [if_pos hm]
    by_cases e : t = th
    · subst e; rw [self.1] at ht; rw [self.2]; exact hb ht
    · rw [(key t e).1] at ht
      have := h.sh t ht; rw [if_pos hm] at this
      rw [(key t e).2]; exact this
  · rw [he, hn] at ht; cases ht
  · by_cases e : t = th
    · subst e; rw [self.2] at ht; rw [self.1]; exact hb' ht
    · rw [(key t e).2] at ht; rw [(key t e).1]; exact (h.heldS t ht).2

/-- The lock is held exactly by the threads in critical sections. -/
theorem Step.lockInv {s s' : State V} (h : LockInv sm s) (hs : Step sm s s') : LockInv sm s' := by
  cases hs with
  | reset hi => exact ⟨h.u, h.sh, h.one, h.held, h.heldS⟩
  | callU th x hp => exact h.keep rfl rfl th (pc := .lockU x) rfl (by rw [hp]; exact Iff.rfl) (by rw [hp]; exact Iff.rfl)
  | lockU th hp hn hno => exact h.acquire hn hno th (pc := .readB _) rfl rfl rfl (Or.inl ⟨trivial, id⟩)
  | readB th hp =>
    refine h.keep rfl rfl th rfl ?_ ?_ <;> rw [hp] <;> (repeat' split) <;> exact Iff.rfl
  | readG th hp => refine h.keep rfl rfl th rfl ?_ ?_ <;> rw [hp] <;> split <;> exact Iff.rfl
  | readV th hp => refine h.keep rfl rfl th rfl ?_ ?_ <;> rw [hp] <;> split <;> exact Iff.rfl
  | incR th hp => refine h.keep rfl rfl th rfl ?_ ?_ <;> rw [hp] <;> exact Iff.rfl
  | incW th hp => refine h.keep rfl rfl th (pc := .writeV _) rfl ?_ ?_ <;> rw [hp] <;> exact Iff.rfl
  | partV th j hp => exact ⟨h.u, h.sh, h.one, h.held, h.heldS⟩
  | writeV th hp => refine h.keep rfl rfl th (pc := .writeB _) rfl ?_ ?_ <;> rw [hp] <;> exact Iff.rfl
  | writeB th hp => refine h.keep rfl rfl th (pc := .unlockU) rfl ?_ ?_ <;> rw [hp] <;> exact Iff.rfl
  | unlockU th hp => exact h.release th (h.u th (by rw [hp]; trivial)) (pc := .leave .unit) rfl rfl rfl ⟨id, id⟩
  | callS th g hp => exact h.keep rfl rfl th (pc := .lockS g) rfl (by rw [hp]; exact Iff.rfl) (by rw [hp]; exact Iff.rfl)
  | @lockS th g hm hp hn => exact h.share hm hn th True (pc := .cmpG g) rfl rfl rfl id (fun _ => trivial) (fun _ => trivial)
  | lockX th hm hp hn hno => exact h.acquire hn hno th (pc := .cmpG _) rfl rfl rfl (Or.inr ⟨hm, trivial, id⟩)
  | cmpG th hp => refine h.keep rfl rfl th rfl ?_ ?_ <;> rw [hp] <;> split <;> exact Iff.rfl
  | loadG th hp => refine h.keep rfl rfl th rfl ?_ ?_ <;> rw [hp] <;> exact Iff.rfl
  | loadV th hp => refine h.keep rfl rfl th rfl ?_ ?_ <;> rw [hp] <;> exact Iff.rfl
  | loadB th hp => refine h.keep rfl rfl th rfl ?_ ?_ <;> rw [hp] <;> exact Iff.rfl
  | @unlockS th r g hm hp =>
    have hin := h.sh th (by rw [hp]; trivial)
    rw [if_pos hm] at hin
    have hn : s.excl = none := by
      by_contra hne; exact h.one hne th hin
    exact h.share hm hn th False (pc := .leave _) rfl rfl rfl id id False.elim
  | unlockX th hm hp =>
    have hin := h.sh th (by rw [hp]; trivial)
    subst hm
    exact h.release th (by simpa using hin) (pc := .leave _) rfl rfl rfl ⟨id, id⟩
  | leave th hp => exact h.keep rfl rfl th (pc := .idle) rfl (by rw [hp]; exact Iff.rfl) (by rw [hp]; exact Iff.rfl)

theorem Reach.lockInv {s : State V} (h : Reach sm s) : LockInv sm s := by
  induction h with
  | start => exact ⟨fun _ h => h.elim, fun _ h => h.elim, fun h => (h rfl).elim, (fun _ h => by cases h), fun _ h => h.elim⟩
  | step _ hs ih => exact hs.lockInv ih

/-- While a thread is in `update`, no other thread is in a critical section. -/
theorem LockInv.alone {s : State V} (h : LockInv sm s) {th th' : ℕ} (hne : th' ≠ th) (hu : (s.pc th).InU) :
    ¬ (s.pc th').InU ∧ ¬ (s.pc th').InS := by
  have hx := h.u th hu
  have hno := h.one (by rw [hx]; exact Option.some_ne_none _)
  refine ⟨fun h1 => ?_, fun h1 => ?_⟩
  · have := h.u th' h1; rw [hx] at this; exact hne (Option.some.inj this).symm
  · have := h.sh th' h1
    cases sm
    · simp [hx] at this; exact hne this.symm
    · exact hno th' (by simpa using this)

/-! ### Simulation -/

/-- The condition in solving.cc:46. -/
def Better (o : ObjState V) (x : V × Bool) : Prop := (o.bounded && (!x.2 || decide (o.generation = 0) || decide (o.value < x.1))) = true

/-- How the point of a thread is related to that of the specification. -/
def Rel (m o : ObjState V) : Pc V → APc V → Prop
  | .idle, a => a = .idle
  | .lockU x, a => a = .called (.update x)
  | .readB x, a => a = .called (.update x) ∧ m = o
  | .readG x, a => a = .called (.update x) ∧ m = o ∧ m.bounded = true ∧ x.2 = true
  | .readV x, a => a = .called (.update x) ∧ m = o ∧ m.bounded = true ∧ x.2 = true ∧ m.generation ≠ 0
  | .incR x, a => a = .called (.update x) ∧ m = o ∧ Better o x
  | .incW x r, a => a = .called (.update x) ∧ m = o ∧ Better o x ∧ r = o.generation
  | .writeV x, a => a = .called (.update x) ∧ Better o x ∧ m.generation = o.generation + 1
  | .writeB x, a => a = .called (.update x) ∧ Better o x ∧ m.generation = o.generation + 1 ∧ m.value = x.1
  | .unlockU, a => a = .done .unit ∧ m = o
  | .lockS g, a => a = .called (.value g)
  | .cmpG g, a => a = .called (.value g) ∧ m = o
  | .loadG, a => a = .done (.val (some (o.value, o.bounded)) o.generation) ∧ m = o
  | .loadV g, a => a = .done (.val (some (o.value, o.bounded)) o.generation) ∧ m = o ∧ g = o.generation
  | .loadB g v, a => a = .done (.val (some (o.value, o.bounded)) o.generation) ∧ m = o ∧ g = o.generation ∧ v = o.value
  | .unlockS r g, a => a = .done (.val r g) ∧ m = o
  | .leave r, a => a = .done r

/-- Outside of critical sections, the members do not matter. -/
theorem Rel.out {m o m' o' : ObjState V} {pc : Pc V} {a : APc V} (h : Rel m o pc a) (h1 : ¬ pc.InU) (h2 : ¬ pc.InS) : Rel m' o' pc a := by
  cases pc <;> first | exact h | exact (h1 trivial).elim | exact (h2 trivial).elim

/-- The threads in the middle of an update. Proof helper for solving.cc:34-65. -/
def Pc.Writing : Pc V → Prop
  | .writeV _ | .writeB _ => True
  | _ => False

/-- The simulation relation. Relates solving.cc:34-65 and the specification. -/
structure Sim (s : State V) (a : Atomic V) : Prop where
  hist : a.hist = s.hist
  rel : ∀ th, Rel s.mem a.obj (s.pc th) (a.pc th)
  mem : (∀ th, ¬ (s.pc th).Writing) → s.mem = a.obj

/-- The specification does nothing. -/
theorem Sim.stay {s s' : State V} {a : Atomic V} (h : Sim s a) (th : ℕ) {pc : Pc V}
    (hh : s'.hist = s.hist) (hm : s'.mem = s.mem) (hpc : s'.pc = Function.update s.pc th pc)
    (hr : Rel s.mem a.obj pc (a.pc th)) (hw : pc.Writing ↔ (s.pc th).Writing) : Sim s' a := by
  refine ⟨by rw [hh, h.hist], fun t => ?_, fun hno => ?_⟩
  · rw [hm, hpc]
    by_cases e : t = th
    · subst e; rw [upd_self]; exact hr
    · rw [upd_ne _ _ e]; exact h.rel t
  · rw [hm]
    refine h.mem fun t ht => hno t ?_
    rw [hpc]
    by_cases e : t = th
    · subst e; rw [upd_self]; exact hw.2 ht
    · rw [upd_ne _ _ e]; exact ht

/-- The specification takes a step and the members stay the same. -/
theorem Sim.move {s s' : State V} {a a' : Atomic V} (h : Sim s a) (th : ℕ) {pc : Pc V} {apc : APc V}
    (hh : a'.hist = s'.hist) (hm : s'.mem = s.mem) (ho : a'.obj = a.obj) (hpc : s'.pc = Function.update s.pc th pc)
    (hapc : a'.pc = Function.update a.pc th apc)
    (hr : Rel s.mem a.obj pc apc) (hw : pc.Writing ↔ (s.pc th).Writing) : Sim s' a' := by
  refine ⟨hh, fun t => ?_, fun hno => ?_⟩
  · rw [hm, ho, hpc, hapc]
    by_cases e : t = th
    · subst e; rw [upd_self, upd_self]; exact hr
    · rw [upd_ne _ _ e, upd_ne _ _ e]; exact h.rel t
  · rw [hm, ho]
    refine h.mem fun t ht => hno t ?_
    rw [hpc]
    by_cases e : t = th
    · subst e; rw [upd_self]; exact hw.2 ht
    · rw [upd_ne _ _ e]; exact ht

/-- A step of a thread in `update` that changes the members. -/
theorem Sim.write {s s' : State V} {a a' : Atomic V} (hl : LockInv sm s) (h : Sim s a) (th : ℕ) {pc : Pc V} {apc : APc V}
    (hu : (s.pc th).InU)
    (hh : a'.hist = s'.hist) (hpc : s'.pc = Function.update s.pc th pc)
    (hapc : a'.pc = Function.update a.pc th apc)
    (hr : Rel s'.mem a'.obj pc apc) (hw : ¬ pc.Writing → s'.mem = a'.obj) : Sim s' a' := by
  refine ⟨hh, fun t => ?_, fun hno => hw ?_⟩
  · rw [hpc, hapc]
    by_cases e : t = th
    · subst e; rw [upd_self, upd_self]; exact hr
    · rw [upd_ne _ _ e, upd_ne _ _ e]
      have := hl.alone e hu
      exact (h.rel t).out this.1 this.2
  · have := hno th; rwa [hpc, upd_self] at this

theorem upd_same {α : Type} (f : ℕ → α) (th : ℕ) : f = Function.update f th (f th) := (Function.update_eq_self th f).symm

/-- Every step is simulated by at most one step of the specification. -/
theorem Step.sim {s s' : State V} {a : Atomic V} (hl : LockInv sm s) (h : Sim s a) (hs : Step sm s s') :
    Sim s' a ∨ ∃ a', AStep a a' ∧ Sim s' a' := by
  have free : s.excl = none → s.mem = a.obj := by
    intro hn
    refine h.mem fun t ht => ?_
    have : (s.pc t).InU := by
      revert ht; cases s.pc t <;> intro ht <;> first | trivial | exact ht.elim
    have := hl.u t this
    rw [hn] at this; cases this
  cases hs with
  | reset hi =>
    refine Or.inr ⟨_, .reset fun th => ?_, ?_, fun th => ?_, fun _ => rfl⟩
    · have := h.rel th; rw [hi th] at this; exact this
    · change a.hist ++ _ = s.hist ++ _; rw [h.hist]
    · have := h.rel th; rw [hi th] at this
      change Rel _ _ (s.pc th) _
      rw [hi th]; exact this
  | callU th x hp =>
    have hr := h.rel th; rw [hp] at hr
    refine Or.inr ⟨_, .call th (.update x) hr, h.move th (pc := .lockU x) (apc := .called (.update x)) ?_ rfl rfl rfl rfl rfl ?_⟩
    · change a.hist ++ _ = s.hist ++ _; rw [h.hist]
    · rw [hp]; exact Iff.rfl
  | lockU th hp hn hno =>
    have hr := h.rel th; rw [hp] at hr
    exact Or.inl (h.stay th (pc := .readB _) rfl rfl rfl ⟨hr, free hn⟩ (by rw [hp]; exact Iff.rfl))
  | @readB th x hp =>
    have hr := h.rel th; rw [hp] at hr
    obtain ⟨hr, hm⟩ := hr
    by_cases hb : s.mem.bounded = true
    · by_cases hx : x.2 = true
      · refine Or.inl (h.stay th (pc := .readG x) rfl rfl ?_ ⟨hr, hm, hb, hx⟩ (by rw [hp]; exact Iff.rfl))
        simp [State.goto, hb, hx]
      · refine Or.inl (h.stay th (pc := .incR x) rfl rfl ?_ ⟨hr, hm, ?_⟩ (by rw [hp]; exact Iff.rfl))
        · simp [State.goto, hb, hx]
        · rw [hm] at hb; unfold Better; simp [hb, hx]
    · refine Or.inr ⟨_, .effect th hr, ?_⟩
      have hup : a.obj.update x = a.obj := by
        rw [hm] at hb; unfold ObjState.update; simp [hb]
      refine h.move th (pc := .unlockU) (apc := .done .unit) h.hist rfl hup ?_ rfl ⟨rfl, hm⟩ (by rw [hp]; exact Iff.rfl)
      simp [State.goto, hb]
  | @readG th x hp =>
    have hr := h.rel th; rw [hp] at hr
    obtain ⟨hr, hm, hb, hx⟩ := hr
    by_cases hg : s.mem.generation = 0
    · refine Or.inl (h.stay th (pc := .incR x) rfl rfl ?_ ⟨hr, hm, ?_⟩ (by rw [hp]; exact Iff.rfl))
      · simp [State.goto, hg]
      · rw [hm] at hb hg; unfold Better; simp [hb, hg]
    · refine Or.inl (h.stay th (pc := .readV x) rfl rfl ?_ ⟨hr, hm, hb, hx, hg⟩ (by rw [hp]; exact Iff.rfl))
      simp [State.goto, hg]
  | @readV th x hp =>
    have hr := h.rel th; rw [hp] at hr
    obtain ⟨hr, hm, hb, hx, hg⟩ := hr
    by_cases hv : x.1 > s.mem.value
    · refine Or.inl (h.stay th (pc := .incR x) rfl rfl ?_ ⟨hr, hm, ?_⟩ (by rw [hp]; exact Iff.rfl))
      · simp [State.goto, hv]
      · have hv' : a.obj.value < x.1 := by rw [← hm]; exact hv
        rw [hm] at hb; unfold Better; simp [hb, hv']
    · refine Or.inr ⟨_, .effect th hr, ?_⟩
      have hup : a.obj.update x = a.obj := by
        have hv' : ¬ a.obj.value < x.1 := by rw [← hm]; exact hv
        rw [hm] at hb hg; unfold ObjState.update; simp [hx, hg, hv']
      refine h.move th (pc := .unlockU) (apc := .done .unit) h.hist rfl hup ?_ rfl ⟨rfl, hm⟩ (by rw [hp]; exact Iff.rfl)
      simp [State.goto, hv]
  | @incR th x hp =>
    have hr := h.rel th; rw [hp] at hr
    obtain ⟨hr, hm, hb⟩ := hr
    exact Or.inl (h.stay th (pc := .incW x s.mem.generation) rfl rfl rfl ⟨hr, hm, hb, by rw [hm]⟩ (by rw [hp]; exact Iff.rfl))
  | @incW th x r hp =>
    have hr := h.rel th; rw [hp] at hr
    obtain ⟨hr, hm, hb, hrg⟩ := hr
    refine Or.inl (h.write hl th (pc := .writeV x) (by rw [hp]; trivial) h.hist rfl (upd_same _ th) ⟨hr, hb, ?_⟩ fun hn => (hn trivial).elim)
    change r + 1 = _; rw [hrg]
  | @partV th x j hp =>
    have hr := h.rel th; rw [hp] at hr
    obtain ⟨hr, hb, hg⟩ := hr
    exact Or.inl (h.write hl th (pc := .writeV x) (by rw [hp]; trivial) h.hist (by rw [← hp]; exact upd_same _ th) (upd_same _ th) ⟨hr, hb, hg⟩
      fun hn => (hn trivial).elim)
  | @writeV th x hp =>
    have hr := h.rel th; rw [hp] at hr
    obtain ⟨hr, hb, hg⟩ := hr
    exact Or.inl (h.write hl th (pc := .writeB x) (by rw [hp]; trivial) h.hist rfl (upd_same _ th) ⟨hr, hb, hg, rfl⟩ fun hn => (hn trivial).elim)
  | @writeB th x hp =>
    have hr := h.rel th; rw [hp] at hr
    obtain ⟨hr, hb, hg, hv⟩ := hr
    have hup : a.obj.update x = ⟨s.mem.value, s.mem.generation, x.2⟩ := by
      unfold Better at hb; unfold ObjState.update; rw [if_pos hb, hg, hv]
    refine Or.inr ⟨_, .effect th hr, h.write hl th (pc := .unlockU) (apc := .done .unit) (by rw [hp]; trivial) h.hist rfl rfl ⟨rfl, ?_⟩ fun _ => ?_⟩
    · exact hup.symm
    · exact hup.symm
  | unlockU th hp =>
    have hr := h.rel th; rw [hp] at hr
    exact Or.inl (h.stay th (pc := .leave _) rfl rfl rfl hr.1 (by rw [hp]; exact Iff.rfl))
  | callS th g hp =>
    have hr := h.rel th; rw [hp] at hr
    refine Or.inr ⟨_, .call th (.value g) hr, h.move th (pc := .lockS g) (apc := .called (.value g)) ?_ rfl rfl rfl rfl rfl ?_⟩
    · change a.hist ++ _ = s.hist ++ _; rw [h.hist]
    · rw [hp]; exact Iff.rfl
  | lockS th hm hp hn =>
    have hr := h.rel th; rw [hp] at hr
    exact Or.inl (h.stay th (pc := .cmpG _) rfl rfl rfl ⟨hr, free hn⟩ (by rw [hp]; exact Iff.rfl))
  | lockX th hm hp hn hno =>
    have hr := h.rel th; rw [hp] at hr
    exact Or.inl (h.stay th (pc := .cmpG _) rfl rfl rfl ⟨hr, free hn⟩ (by rw [hp]; exact Iff.rfl))
  | @cmpG th g hp =>
    have hr := h.rel th; rw [hp] at hr
    obtain ⟨hr, hm⟩ := hr
    refine Or.inr ⟨_, .effect th hr, ?_⟩
    by_cases hg : g ≠ s.mem.generation
    · have hrd : (Call.run (.value g) a.obj).2 = .val (some (a.obj.value, a.obj.bounded)) a.obj.generation := by
        rw [hm] at hg
        unfold Call.run ObjState.read; simp [hg]
      refine h.move th (pc := .loadG) (apc := .done (Call.run (.value g) a.obj).2) h.hist rfl rfl ?_ rfl ?_ (by rw [hp]; exact Iff.rfl)
      · simp [State.goto, hg]
      · rw [hrd]; exact ⟨rfl, hm⟩
    · have hrd : (Call.run (.value g) a.obj).2 = .val none g := by
        rw [hm] at hg
        unfold Call.run ObjState.read; simp [hg]
      refine h.move th (pc := .unlockS none g) (apc := .done (Call.run (.value g) a.obj).2) h.hist rfl rfl ?_ rfl ?_ (by rw [hp]; exact Iff.rfl)
      · simp [State.goto, hg]
      · rw [hrd]; exact ⟨rfl, hm⟩
  | loadG th hp =>
    have hr := h.rel th; rw [hp] at hr
    exact Or.inl (h.stay th (pc := .loadV _) rfl rfl rfl ⟨hr.1, hr.2, by rw [hr.2]⟩ (by rw [hp]; exact Iff.rfl))
  | loadV th hp =>
    have hr := h.rel th; rw [hp] at hr
    exact Or.inl (h.stay th (pc := .loadB _ _) rfl rfl rfl ⟨hr.1, hr.2.1, hr.2.2, by rw [hr.2.1]⟩ (by rw [hp]; exact Iff.rfl))
  | @loadB th g v hp =>
    have hr := h.rel th; rw [hp] at hr
    obtain ⟨hr, hm, hg, hv⟩ := hr
    refine Or.inl (h.stay th (pc := .unlockS (some (v, s.mem.bounded)) g) rfl rfl rfl ⟨?_, hm⟩ (by rw [hp]; exact Iff.rfl))
    rw [hr, hg, hv, hm]
  | unlockS th hm hp =>
    have hr := h.rel th; rw [hp] at hr
    exact Or.inl (h.stay th (pc := .leave _) rfl rfl rfl hr.1 (by rw [hp]; exact Iff.rfl))
  | unlockX th hm hp =>
    have hr := h.rel th; rw [hp] at hr
    exact Or.inl (h.stay th (pc := .leave _) rfl rfl rfl hr.1 (by rw [hp]; exact Iff.rfl))
  | leave th hp =>
    have hr := h.rel th; rw [hp] at hr
    refine Or.inr ⟨_, .ret th hr, h.move th (pc := .idle) (apc := .idle) ?_ rfl rfl rfl rfl rfl ?_⟩
    · change a.hist ++ _ = s.hist ++ _; rw [h.hist]
    · rw [hp]; exact Iff.rfl

theorem Reach.sim {s : State V} (h : Reach sm s) : ∃ a, AReach a ∧ Sim s a := by
  induction h with
  | start => exact ⟨_, .start, rfl, fun _ => rfl, fun _ => rfl⟩
  | step hr hs ih =>
    obtain ⟨a, ha, hsim⟩ := ih
    rcases hs.sim hr.lockInv hsim with h | ⟨a', hst, h⟩
    · exact ⟨a, ha, h⟩
    · exact ⟨a', ha.step hst, h⟩

/-! ### The converse -/

/-- A thread in the middle of a call of the specification. -/
def back : APc V → Pc V
  | .idle => .idle
  | .called (.update x) => .lockU x
  | .called (.value g) => .lockS g
  | .done r => .leave r

theorem Reach.next {s s' t : State V} (h : Reach sm s) (hs : Step sm s s') (e : s' = t) : Reach sm t := e ▸ h.step hs

/-- A critical section in `update` can be run without interruption. -/
theorem Reach.runU {m : ObjState V} {f : ℕ → Pc V} {H : List (Event V)} {th : ℕ} {x : V × Bool}
    (h : Reach sm ⟨m, none, fun _ => False, f, H⟩) (hp : f th = .lockU x) :
    Reach sm ⟨m.update x, none, fun _ => False, Function.update f th (.leave .unit), H⟩ := by
  have h1 : Reach sm ⟨m, some th, fun _ => False, Function.update f th (.readB x), H⟩ := h.step (.lockU th hp rfl fun _ => id)
  have fin : ∀ m', Reach sm ⟨m', some th, fun _ => False, Function.update f th .unlockU, H⟩ →
      Reach sm ⟨m', none, fun _ => False, Function.update f th (.leave .unit), H⟩ := by
    intro m' h
    refine h.next (.unlockU th (upd_self _ _ _)) ?_
    simp [State.goto, Function.update_idem]
  have wr : Reach sm ⟨m, some th, fun _ => False, Function.update f th (.incR x), H⟩ →
      Reach sm ⟨⟨x.1, m.generation + 1, x.2⟩, some th, fun _ => False, Function.update f th .unlockU, H⟩ := by
    intro h
    have h2 : Reach sm ⟨m, some th, fun _ => False, Function.update f th (.incW x m.generation), H⟩ := by
      refine h.next (.incR th (upd_self _ _ _)) ?_
      simp [State.goto, Function.update_idem]
    have h3 : Reach sm ⟨⟨m.value, m.generation + 1, m.bounded⟩, some th, fun _ => False, Function.update f th (.writeV x), H⟩ := by
      refine h2.next (.incW th (upd_self _ _ _)) ?_
      simp [State.goto, Function.update_idem]
    have h4 : Reach sm ⟨⟨x.1, m.generation + 1, m.bounded⟩, some th, fun _ => False, Function.update f th (.writeB x), H⟩ := by
      refine h3.next (.writeV th (upd_self _ _ _)) ?_
      simp [State.goto, Function.update_idem]
    refine h4.next (.writeB th (upd_self _ _ _)) ?_
    simp [State.goto, Function.update_idem]
  by_cases hb : m.bounded = true
  · by_cases hx : x.2 = true
    · have h2 : Reach sm ⟨m, some th, fun _ => False, Function.update f th (.readG x), H⟩ := by
        refine h1.next (.readB th (upd_self _ _ _)) ?_
        simp [State.goto, Function.update_idem, hb, hx]
      by_cases hg : m.generation = 0
      · have h3 : Reach sm ⟨m, some th, fun _ => False, Function.update f th (.incR x), H⟩ := by
          refine h2.next (.readG th (upd_self _ _ _)) ?_
          simp [State.goto, Function.update_idem, hg]
        rw [show m.update x = ⟨x.1, m.generation + 1, x.2⟩ by unfold ObjState.update; simp [hb, hg]]
        exact fin _ (wr h3)
      · have h3 : Reach sm ⟨m, some th, fun _ => False, Function.update f th (.readV x), H⟩ := by
          refine h2.next (.readG th (upd_self _ _ _)) ?_
          simp [State.goto, Function.update_idem, hg]
        by_cases hv : m.value < x.1
        · have h4 : Reach sm ⟨m, some th, fun _ => False, Function.update f th (.incR x), H⟩ := by
            refine h3.next (.readV th (upd_self _ _ _)) ?_
            simp [State.goto, Function.update_idem, hv]
          rw [show m.update x = ⟨x.1, m.generation + 1, x.2⟩ by unfold ObjState.update; simp [hb, hv]]
          exact fin _ (wr h4)
        · rw [show m.update x = m by unfold ObjState.update; simp [hx, hg, hv]]
          refine fin _ (h3.next (.readV th (upd_self _ _ _)) ?_)
          simp [State.goto, Function.update_idem, hv]
    · have h3 : Reach sm ⟨m, some th, fun _ => False, Function.update f th (.incR x), H⟩ := by
        refine h1.next (.readB th (upd_self _ _ _)) ?_
        simp [State.goto, Function.update_idem, hb, hx]
      rw [show m.update x = ⟨x.1, m.generation + 1, x.2⟩ by unfold ObjState.update; simp [hb, hx]]
      exact fin _ (wr h3)
  · rw [show m.update x = m by unfold ObjState.update; simp [hb]]
    refine fin _ (h1.next (.readB th (upd_self _ _ _)) ?_)
    simp [State.goto, Function.update_idem, hb]

/-- A critical section in `value` can be run without interruption. -/
theorem Reach.runS {m : ObjState V} {f : ℕ → Pc V} {H : List (Event V)} {th : ℕ} {g : ℕ}
    (h : Reach sm ⟨m, none, fun _ => False, f, H⟩) (hp : f th = .lockS g) :
    Reach sm ⟨m, none, fun _ => False, Function.update f th (.leave (.val (m.read g).1 (m.read g).2)), H⟩ := by
  obtain ⟨e, sh, h1, fin⟩ : ∃ e sh, Reach sm ⟨m, e, sh, Function.update f th (.cmpG g), H⟩ ∧
      ∀ r g', Reach sm ⟨m, e, sh, Function.update f th (.unlockS r g'), H⟩ →
        Reach sm ⟨m, none, fun _ => False, Function.update f th (.leave (.val r g')), H⟩ := by
    cases sm
    · refine ⟨some th, fun _ => False, h.step (.lockX th rfl hp rfl fun _ => id), fun r g' h => ?_⟩
      refine h.next (.unlockX th rfl (upd_self _ _ _)) ?_
      simp [State.goto, Function.update_idem]
    · refine ⟨none, Function.update (fun _ => False) th True, h.step (.lockS th rfl hp rfl), fun r g' h => ?_⟩
      refine h.next (.unlockS th rfl (upd_self _ _ _)) ?_
      simp only [State.goto, Function.update_idem]
      rw [show Function.update (fun _ => False) th False = (fun _ : ℕ => False) from Function.update_eq_self th (fun _ : ℕ => False)]
  by_cases hg : g = m.generation
  · rw [show m.read g = (none, g) by unfold ObjState.read; simp [hg]]
    refine fin _ _ (h1.next (.cmpG th (upd_self _ _ _)) ?_)
    simp [State.goto, Function.update_idem, hg]
  · have h2 : Reach sm ⟨m, e, sh, Function.update f th .loadG, H⟩ := by
      refine h1.next (.cmpG th (upd_self _ _ _)) ?_
      simp [State.goto, Function.update_idem, hg]
    have h3 : Reach sm ⟨m, e, sh, Function.update f th (.loadV m.generation), H⟩ := by
      refine h2.next (.loadG th (upd_self _ _ _)) ?_
      simp [State.goto, Function.update_idem]
    have h4 : Reach sm ⟨m, e, sh, Function.update f th (.loadB m.generation m.value), H⟩ := by
      refine h3.next (.loadV th (upd_self _ _ _)) ?_
      simp [State.goto, Function.update_idem]
    rw [show m.read g = (some (m.value, m.bounded), m.generation) by unfold ObjState.read; simp [hg]]
    refine fin _ _ (h4.next (.loadB th (upd_self _ _ _)) ?_)
    simp [State.goto, Function.update_idem]

theorem back_upd (f : ℕ → APc V) (th : ℕ) (x : APc V) :
    (fun t => back (Function.update f th x t)) = Function.update (fun t => back (f t)) th (back x) := by
  funext t
  by_cases e : t = th
  · subst e; rw [upd_self, upd_self]
  · rw [upd_ne _ _ e, upd_ne _ _ e]

/-- What the specification allows can happen. -/
theorem AReach.impl {a : Atomic V} (h : AReach a) : Reach sm ⟨a.obj, none, fun _ => False, fun th => back (a.pc th), a.hist⟩ := by
  induction h with
  | start => exact .start
  | @step a a' _ hs ih =>
    cases hs with
    | reset hi => exact ih.next (.reset fun th => by simp only [hi th]; rfl) rfl
    | call th c hp =>
      have hb : back (a.pc th) = .idle := by rw [hp]; rfl
      dsimp only
      rw [back_upd]
      cases c with
      | update x => exact ih.next (.callU th x hb) rfl
      | value g => exact ih.next (.callS th g hb) rfl
    | @effect th c hp =>
      dsimp only
      rw [back_upd]
      cases c with
      | update x => exact ih.runU (by rw [hp]; rfl)
      | value g => exact ih.runS (by rw [hp]; rfl)
    | @ret th r hp =>
      have hb : back (a.pc th) = .leave r := by rw [hp]; rfl
      dsimp only
      rw [back_upd]
      exact ih.next (.leave th hb) rfl

/-! ### No deadlock -/

/-- How many steps of the thread are left at most until it returns (the pieces of the assignment to `value_` count as one). Proof helper for solving.cc:34-65. -/
def Pc.left : Pc V → ℕ
  | .idle => 0
  | .leave _ => 1
  | .unlockU => 2
  | .writeB _ => 3
  | .writeV _ => 4
  | .incW _ _ => 5
  | .incR _ => 6
  | .readV _ => 7
  | .readG _ => 8
  | .readB _ => 9
  | .lockU _ => 10
  | .unlockS _ _ => 2
  | .loadB _ _ => 3
  | .loadV _ => 4
  | .loadG => 5
  | .cmpG _ => 6
  | .lockS _ => 7

/-- The thread can take a step that brings it closer to its return. Specification of deadlocks. -/
def CanGo (sm : Bool) (s : State V) (th : ℕ) : Prop :=
  ∃ s' pc, Step sm s s' ∧ s'.pc = Function.update s.pc th pc ∧ pc.left < (s.pc th).left

theorem canGo {s s' : State V} {th : ℕ} {pc : Pc V} (hs : Step sm s s') (hpc : s'.pc = Function.update s.pc th pc)
    (hl : pc.left < (s.pc th).left) : CanGo sm s th := ⟨s', pc, hs, hpc, hl⟩

/-- A thread can go on if it does not wait for the lock. -/
theorem go {s : State V} {th : ℕ} (hp : s.pc th ≠ .idle)
    (hu : ∀ x, s.pc th = .lockU x → s.excl = none ∧ ∀ th', ¬ s.shared th')
    (hv : ∀ g, s.pc th = .lockS g → s.excl = none ∧ (sm = false → ∀ th', ¬ s.shared th')) : CanGo sm s th := by
  generalize hpc : s.pc th = pc at hp hu hv
  cases pc with
  | idle => exact (hp rfl).elim
  | lockU x => exact canGo (.lockU th hpc (hu x rfl).1 (hu x rfl).2) rfl (by rw [hpc]; simp [Pc.left])
  | readB x =>
    refine canGo (.readB th hpc) rfl ?_
    rw [hpc]; (repeat' split) <;> simp [Pc.left]
  | readG x => refine canGo (.readG th hpc) rfl ?_; rw [hpc]; split <;> simp [Pc.left]
  | readV x => refine canGo (.readV th hpc) rfl ?_; rw [hpc]; split <;> simp [Pc.left]
  | incR x => exact canGo (.incR th hpc) rfl (by rw [hpc]; simp [Pc.left])
  | incW x r => exact canGo (.incW th hpc) (pc := .writeV x) rfl (by rw [hpc]; simp [Pc.left])
  | writeV x => exact canGo (.writeV th hpc) (pc := .writeB x) rfl (by rw [hpc]; simp [Pc.left])
  | writeB x => exact canGo (.writeB th hpc) (pc := .unlockU) rfl (by rw [hpc]; simp [Pc.left])
  | unlockU => exact canGo (.unlockU th hpc) (pc := .leave .unit) rfl (by rw [hpc]; simp [Pc.left])
  | lockS g =>
    cases sm with
    | true => exact canGo (.lockS th rfl hpc (hv g rfl).1) (pc := .cmpG g) rfl (by rw [hpc]; simp [Pc.left])
    | false => exact canGo (.lockX th rfl hpc (hv g rfl).1 ((hv g rfl).2 rfl)) (pc := .cmpG g) rfl (by rw [hpc]; simp [Pc.left])
  | cmpG g => refine canGo (.cmpG th hpc) rfl ?_; rw [hpc]; split <;> simp [Pc.left]
  | loadG => exact canGo (.loadG th hpc) rfl (by rw [hpc]; simp [Pc.left])
  | loadV g => exact canGo (.loadV th hpc) rfl (by rw [hpc]; simp [Pc.left])
  | loadB g v => exact canGo (.loadB th hpc) rfl (by rw [hpc]; simp [Pc.left])
  | unlockS r g =>
    cases sm with
    | true => exact canGo (.unlockS th rfl hpc) (pc := .leave (.val r g)) rfl (by rw [hpc]; simp [Pc.left])
    | false => exact canGo (.unlockX th rfl hpc) (pc := .leave (.val r g)) rfl (by rw [hpc]; simp [Pc.left])
  | leave r => exact canGo (.leave th hpc) (pc := .idle) rfl (by rw [hpc]; simp [Pc.left])

/-- A thread in a critical section can go on. -/
theorem goIn {s : State V} {th : ℕ} (h : (s.pc th).InU ∨ (s.pc th).InS) : CanGo sm s th := by
  refine go (fun e => ?_) (fun x e => ?_) (fun x e => ?_) <;> rw [e] at h <;> rcases h with h | h <;> exact h.elim

/-- A thread that is in a call can go on, or another thread holds the lock and can go on. -/
theorem Reach.progress {s : State V} (h : Reach sm s) {th : ℕ} (hp : s.pc th ≠ .idle) :
    CanGo sm s th ∨ ∃ th', (s.excl = some th' ∨ s.shared th') ∧ CanGo sm s th' := by
  by_cases hx : s.excl = none
  · by_cases hs : ∃ th', s.shared th'
    · obtain ⟨th', ht⟩ := hs
      exact Or.inr ⟨th', Or.inr ht, goIn (Or.inr (h.lockInv.heldS th' ht).2)⟩
    · have hs : ∀ th', ¬ s.shared th' := fun t ht => hs ⟨t, ht⟩
      exact Or.inl (go hp (fun _ _ => ⟨hx, hs⟩) fun _ _ => ⟨hx, fun _ => hs⟩)
  · obtain ⟨th', ht⟩ := Option.ne_none_iff_exists'.1 hx
    refine Or.inr ⟨th', Or.inl ht, goIn ?_⟩
    rcases h.lockInv.held th' ht with h | h
    · exact Or.inl h
    · exact Or.inr h.2

end Lpx.Locks
