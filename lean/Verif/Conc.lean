import Verif.SysStat

/-!
# Concurrent callbacks

In `Sys` and `SysSpec` callbacks are atomic. Here they are not: each thread of clingo may be inside a callback, and a callback is a sequence of
steps, each of which is either local to the thread (it accesses the thread's own element of `slvs_` and data that does not change while
solving) or a single access to data shared by the threads. Shared are `objective_state_`, whose functions run under a lock, and `facts_`, which has
no lock. `facts_` is a `std::vector`, so we also keep track of its buffer.

Not modelled: the C++ memory model below the level of these steps (torn or reordered accesses).
-/

set_option linter.unusedSectionVars false

namespace Lpx

variable {V : Type}

/-- Where a thread is in a callback. solving.cc:1111-1169. -/
inductive Pc (V : Type)
  /-- not in a callback -/
  | idle
  /-- solving.cc:1155 at the start of `propagate` -/
  | prop0 (ctl : Ctl) (lits : List ℤ)
  /-- solving.cc:1161-1162 after `facts_` has been extended -/
  | prop1 (ctl : Ctl) (lits : List ℤ)
  /-- solving.cc:1125 at the start of `check` (`frames` is what clingo knows about the thread when the call is finished) -/
  | check0 (ctl : Ctl) (total : Bool) (frames : List Frame)
  /-- solving.cc:1128 in `check`, while `solve` uses a pointer into the buffer `buf` of `facts_` -/
  | checkF (ctl : Ctl) (total : Bool) (frames : List Frame) (buf : ℕ)
  /-- solving.cc:1135 in `check`, before the shared objective is read -/
  | check1 (ctl : Ctl) (total : Bool) (frames : List Frame)
  /-- solving.cc:645 in `check`, after the shared objective has been read -/
  | check2 (ctl : Ctl) (total : Bool) (frames : List Frame) (o : ObjState V)
  /-- solving.cc:1121 in `on_model`, before the shared objective is updated with the value given -/
  | model1 (x : Option (V × Bool))

/-- A state with callbacks in progress. `g` is what clingo knows about callbacks that have been finished. solving.cc:1046-1169. -/
structure Conf (V : Type) where
  p : Propagator V
  g : Ghost V
  pc : ℕ → Pc V
  /-- the number of the buffer of `facts_` -/
  buf : ℕ
  /-- the capacity of `facts_` -/
  cap : ℕ
  /-- a thread used a pointer into a buffer of `facts_` that had been freed (the behavior is undefined) -/
  stale : Bool

/-- solving.hh:276 The start. -/
def Conf.start [LpValue V] (opts : Options) : Conf V := ⟨Propagator.fresh opts, {}, fun _ => .idle, 0, 0, false⟩

/-- solving.cc:1159 `facts_.insert` allocates a new buffer. -/
def Conf.realloc (c : Conf V) (lits : List ℤ) : Prop := c.cap < c.p.facts.length + lits.length

instance (c : Conf V) (lits : List ℤ) : Decidable (c.realloc lits) := by unfold Conf.realloc; infer_instance

/-- solving.cc:1157-1160 `facts_.insert(facts_.end(), changes.begin(), changes.end())`; `grow` computes the capacity of a new buffer. -/
def Conf.append (grow : ℕ → ℕ → ℕ) (c : Conf V) (lits : List ℤ) : Conf V :=
  { c with
    p := { c.p with facts := c.p.facts ++ lits }
    g := { c.g with tops := c.g.tops ++ lits }
    buf := if c.realloc lits then c.buf + 1 else c.buf
    cap := if c.realloc lits then grow c.p.facts.length lits.length else c.cap }

/-- The thread is somewhere else. Not part of the code. -/
def Conf.goto (c : Conf V) (th : ℕ) (pc : Pc V) : Conf V := { c with pc := Function.update c.pc th pc }

/-- solving.cc:1126-1127, 1161 The solver of the thread and what clingo knows about the thread. -/
def Conf.upd [LpValue V] (c : Conf V) (th : ℕ) (t : Thr V) (gt : GThr) : Conf V :=
  { c with p := c.p.setThr th t, g := { c.g with thrs := c.g.thrs.set th gt } }

/-- solving.cc:1117-1121 the update of the shared objective if there is a value. -/
def ObjState.report [LpValue V] (o : ObjState V) : Option (V × Bool) → ObjState V
  | none => o
  | some v => o.update v

/-- solving.cc:1111-1169 One step of one thread, or `init`, which clingo calls when no thread is running and which may throw an exception. `I` may restrict the calls of `init`. -/
inductive CStep [LpFull V] (be : Backend) (grow : ℕ → ℕ → ℕ) (I : Propagator V → ℕ → Prop)
    (Q : Restr V) (c : Conf V) : Conf V → Prop
  | init (mapper : ℤ → ℤ) (atoms : List TAtom) (envs : ℕ → InitEnv) (n : ℕ) {p' : Propagator V} {ok : Bool} :
      (∀ th, c.pc th = .idle) → I c.p n →
      c.p.init be mapper atoms envs n = .ok (p', ok) →
      CStep be grow I Q c { c with
        p := p'
        g := { thrs := if ok then p'.thrs.zipIdx.map (fun t => ⟨[], false, fun l => ∃ O, O <+: t.1.slv.out ∧ (envs t.2).isFalse O l = true, false⟩) else [],
               reported := [], tops := c.g.tops, oldTops := c.g.tops, step := c.g.step + 1 } }
  | fail (mapper : ℤ → ℤ) (atoms : List TAtom) (envs : ℕ → InitEnv) (n : ℕ) {er : Err} :
      (∀ th, c.pc th = .idle) →
      c.p.init be mapper atoms envs n = .error er → er ≠ .abort →
      CStep be grow I Q c { c with
        p := c.p.initFail be mapper atoms
        g := { thrs := [], reported := c.g.reported, tops := c.g.tops, oldTops := c.g.tops, step := c.g.step + 1, failed := true } }
  | propagate (ctl : Ctl) (th : ℕ) (lits : List ℤ) {gt : GThr} :
      c.pc th = .idle → MayPropagate Q c.p c.g ctl th lits gt →
      CStep be grow I Q c (c.goto th (.prop0 ctl lits))
  | append (th : ℕ) {ctl : Ctl} {lits : List ℤ} :
      c.pc th = .prop0 ctl lits →
      CStep be grow I Q c ((if ctl.dl = 0 ∧ th = 0 then c.append grow lits else c).goto th (.prop1 ctl lits))
  | solve (fuel : ℕ) (th : ℕ) {ctl : Ctl} {lits : List ℤ} {t : Thr V} {gt : GThr} {r : S V × Bool} :
      c.pc th = .prop1 ctl lits → c.p.thrs[th]? = some t → c.g.thrs[th]? = some gt →
      t.slv.solve ctl fuel lits = some r →
      CStep be grow I Q c ((c.upd th { t with slv := r.1 } { gt with frames := nextFrames ctl.dl lits gt.frames, stuck := !r.2, checked := false }).goto th .idle)
  | check (ctl : Ctl) (total : Bool) (th : ℕ) {gt : GThr} {t : Thr V} :
      c.pc th = .idle → MayCheck c.p c.g ctl th gt t →
      CStep be grow I Q c (c.goto th (.check0 ctl total (c.p.checkFrames ctl t gt.frames)))
  | noFacts (th : ℕ) {ctl : Ctl} {total : Bool} {F : List Frame} {t : Thr V} :
      c.pc th = .check0 ctl total F → c.p.thrs[th]? = some t → ¬ c.p.needFacts ctl t →
      CStep be grow I Q c (c.goto th (.check1 ctl total F))
  | span (th : ℕ) {ctl : Ctl} {total : Bool} {F : List Frame} {t : Thr V} :
      c.pc th = .check0 ctl total F → c.p.thrs[th]? = some t → c.p.needFacts ctl t →
      CStep be grow I Q c (c.goto th (.checkF ctl total F c.buf))
  | facts (fuel : ℕ) (th : ℕ) {ctl : Ctl} {total : Bool} {F : List Frame} {t : Thr V} {r : S V × Bool} :
      c.pc th = .checkF ctl total F c.buf → c.p.thrs[th]? = some t →
      t.slv.solve ctl fuel (c.p.factSpan t) = some r → r.2 = true →
      CStep be grow I Q c (({ c with p := c.p.setThr th ⟨c.p.factsOffset, r.1⟩ } : Conf V).goto th (.check1 ctl total F))
  | factsConflict (fuel : ℕ) (th : ℕ) {ctl : Ctl} {total : Bool} {F : List Frame} {t : Thr V} {gt : GThr} {r : S V × Bool} :
      c.pc th = .checkF ctl total F c.buf → c.p.thrs[th]? = some t → c.g.thrs[th]? = some gt →
      t.slv.solve ctl fuel (c.p.factSpan t) = some r → r.2 = false →
      CStep be grow I Q c ((c.upd th ⟨c.p.factsOffset, r.1⟩ { gt with frames := F, stuck := true, checked := false }).goto th .idle)
  | dangling (th : ℕ) {ctl : Ctl} {total : Bool} {F : List Frame} {b : ℕ} {c' : Conf V} :
      c.pc th = .checkF ctl total F b → b ≠ c.buf → c'.stale = true →
      CStep be grow I Q c c'
  | readObj (th : ℕ) {ctl : Ctl} {total : Bool} {F : List Frame} :
      c.pc th = .check1 ctl total F →
      CStep be grow I Q c (c.goto th (.check2 ctl total F c.p.obj))
  | finish (fuel : ℕ) (th : ℕ) {ctl : Ctl} {total : Bool} {F : List Frame} {o : ObjState V} {t : Thr V} {gt : GThr} {r : S V × Bool} :
      c.pc th = .check2 ctl total F o → c.p.thrs[th]? = some t → c.g.thrs[th]? = some gt →
      t.slv.checkObj ctl fuel total o = some r →
      CStep be grow I Q c ((c.upd th { t with slv := r.1 } { gt with frames := F, stuck := false, checked := total && r.2 }).goto th .idle)
  | undo (th : ℕ) {gt : GThr} {fr : Frame} {frs : List Frame} {t : Thr V} :
      c.pc th = .idle → c.g.thrs[th]? = some gt → gt.frames = fr :: frs → fr.level ≠ 0 → c.p.thrs[th]? = some t →
      Q.undo (c.p.setThr th { t with slv := t.slv.undo }) th frs →
      CStep be grow I Q c (c.upd th { t with slv := t.slv.undo } { gt with frames := frs, stuck := false, checked := false })
  | model (th : ℕ) {gt : GThr} {t : Thr V} :
      c.pc th = .idle → c.g.thrs[th]? = some gt → gt.stuck = false → c.p.thrs[th]? = some t →
      CStep be grow I Q c (c.goto th (.model1 (if c.p.opts.globalObjective.isNone then none else t.slv.getObjective)))
  | report (th : ℕ) {x : Option (V × Bool)} :
      c.pc th = .model1 x →
      CStep be grow I Q c (({ c with
        p := { c.p with obj := c.p.obj.report x }
        g := { c.g with reported := c.g.reported ++ x.toList } } : Conf V).goto th .idle)

/-- States that can be reached with concurrent callbacks. Executions of solving.cc:1046-1169. -/
inductive CReach [LpFull V] (be : Backend) (opts : Options) (grow : ℕ → ℕ → ℕ) (I : Propagator V → ℕ → Prop)
    (Q : Restr V) : Conf V → Prop
  | start : CReach be opts grow I Q (Conf.start opts)
  | step {c c' : Conf V} : CReach be opts grow I Q c → CStep be grow I Q c c' → CReach be opts grow I Q c'

/-- No restriction on `init`. Not part of the code. -/
def AnyInit (_ : Propagator V) (_ : ℕ) : Prop := True

/-- The computation a thread is in never ends. Specification. -/
def Diverges [LpFull V] (c : Conf V) (th : ℕ) : Prop :=
  match c.pc th with
  | .prop1 ctl lits => ∃ t, c.p.thrs[th]? = some t ∧ ∀ fuel, t.slv.solve ctl fuel lits = none
  | .check2 ctl total _ o => ∃ t, c.p.thrs[th]? = some t ∧ ∀ fuel, t.slv.checkObj ctl fuel total o = none
  | _ => False

end Lpx
