import Verif.SolverMain
import Verif.Sys

/-!
# Histories of callbacks

`Reach` describes the states a propagator can get into: clingo calls `init`, `propagate`, `check`, `undo` and the
application reports models, in any order and interleaving of threads that respects clingo's protocol:

* literals are propagated on the current decision level, which is never smaller than that of earlier literals that have
  not been undone; clingo's level of a propagated literal is the level on which it was propagated;
* a level is undone at most once, level 0 never; after a conflict the next call for that thread is `undo`;
* literals that are false when a thread is prepared do not become true later in the same step;
* literals that were true on level 0 in earlier steps are true on level 0;
* literals created with `add_literal` are new;
* if `init` throws an exception because a program is rejected, the application may catch it and go on with another call of `init`.

The record `Ghost` contains what clingo and the application know about the history.
-/

namespace Lpx
variable {V : Type}

/-- The history of a thread since the last `init`. -/
structure GThr where
  /-- literals propagated and not undone, by level; the last level first -/
  frames : List Frame
  /-- a callback reported a conflict that has not been undone yet -/
  stuck : Bool
  /-- literals that were false when the thread was prepared -/
  dead : ℤ → Prop
  /-- the last callback of the thread was a `check` of a total assignment that was not rejected -/
  checked : Bool := false

/-- What is known about the history of all threads. -/
structure Ghost (V : Type) where
  thrs : List GThr := []
  /-- objective values of the models of this step (if the objective is global), with the flag telling if it is bounded -/
  reported : List (V × Bool) := []
  /-- literals that became true on level 0 in thread 0, in all steps -/
  tops : List ℤ := []
  /-- literals that became true on level 0 in thread 0, in earlier steps -/
  oldTops : List ℤ := []
  /-- number of calls of `init`, including those that threw an exception -/
  step : ℕ := 0
  /-- the last call of `init` has thrown an exception -/
  failed : Bool := false

/-- `add_literal` returns a literal that is not in use. -/
structure Fresh (p : Propagator V) (ctl : Ctl) (frames : List Frame) : Prop where
  act : ∀ O, ¬ Act frames (ctl.newLit O)
  iqs : ∀ O, ∀ x ∈ p.prog.iqs, x.lit ≠ ctl.newLit O ∧ x.lit ≠ -ctl.newLit O

/-- The literals asserted by `check` from earlier steps. -/
def Propagator.pendingFacts [LpValue V] (p : Propagator V) (ctl : Ctl) (t : Thr V) : List ℤ :=
  if p.needFacts ctl t then p.factSpan t else []

/-- The frames of a thread after `check` (facts of earlier steps may be asserted on level 0). -/
def Propagator.checkFrames [LpValue V] (p : Propagator V) (ctl : Ctl) (t : Thr V) (frames : List Frame) : List Frame :=
  if p.needFacts ctl t then nextFrames ctl.dl (p.factSpan t) frames else frames

/-- The first part of `check` succeeds. -/
def Propagator.factsOk [LpValue V] (fuel : ℕ) (ctl : Ctl) (th : ℕ) (p : Propagator V) : Bool :=
  match p.checkFacts fuel ctl th with
  | some r => r.2
  | none => true

/-- What `getObjective` reports for a thread. -/
def Propagator.objectiveOf [LpValue V] (p : Propagator V) (th : ℕ) : List (V × Bool) :=
  match p.thrs[th]? with
  | some t => t.slv.getObjective.toList
  | none => []

/-- A restriction of the histories that are considered: which literals may be propagated in which state, and what has to hold for a thread
after one of its levels has been undone. -/
structure Restr (V : Type) where
  prop : Propagator V → List Frame → Ctl → List ℤ → Prop
  undo : Propagator V → ℕ → List Frame → Prop

/-- Clingo may call `propagate`; `Q` may restrict the literals. -/
structure MayPropagate (Q : Restr V) (p : Propagator V) (g : Ghost V) (ctl : Ctl) (th : ℕ)
    (lits : List ℤ) (gt : GThr) : Prop where
  thr : g.thrs[th]? = some gt
  ready : gt.stuck = false
  dl : ∀ fr ∈ gt.frames, fr.level ≤ ctl.dl
  lvl : LvlOK ctl (nextFrames ctl.dl lits gt.frames)
  dead : ∀ l ∈ lits, ¬ gt.dead l
  restr : Q.prop p gt.frames ctl lits

/-- Clingo may call `check`. -/
structure MayCheck [LpValue V] (p : Propagator V) (g : Ghost V) (ctl : Ctl) (th : ℕ) (gt : GThr) (t : Thr V) : Prop where
  thr : g.thrs[th]? = some gt
  ready : gt.stuck = false
  dl : ∀ fr ∈ gt.frames, fr.level ≤ ctl.dl
  slv : p.thrs[th]? = some t
  lvl : LvlOK ctl (p.checkFrames ctl t gt.frames)
  dead : ∀ l ∈ p.pendingFacts ctl t, ¬ gt.dead l
  fresh : Fresh p ctl (p.checkFrames ctl t gt.frames)

/-- One callback. `Q` may restrict the literals propagated and the states after backtracking. -/
inductive Step [LpFull V] (be : Backend) (Q : Restr V) (p : Propagator V) (g : Ghost V) :
    Propagator V → Ghost V → Prop
  | init (mapper : ℤ → ℤ) (atoms : List TAtom) (envs : ℕ → InitEnv) (n : ℕ) {p' : Propagator V} {ok : Bool} :
      p.init be mapper atoms envs n = .ok (p', ok) →
      Step be Q p g p' { thrs := if ok then p'.thrs.zipIdx.map (fun t => ⟨[], false, fun l => ∃ O, O <+: t.1.slv.out ∧ (envs t.2).isFalse O l = true, false⟩) else [],
                         reported := [], tops := g.tops, oldTops := g.tops, step := g.step + 1 }
  | fail (mapper : ℤ → ℤ) (atoms : List TAtom) (envs : ℕ → InitEnv) (n : ℕ) {er : Err} :
      p.init be mapper atoms envs n = .error er → er ≠ .abort →
      Step be Q p g (p.initFail be mapper atoms) { thrs := [], reported := g.reported, tops := g.tops, oldTops := g.tops, step := g.step + 1, failed := true }
  | propagate (fuel : ℕ) (ctl : Ctl) (th : ℕ) (lits : List ℤ) {gt : GThr} {p' : Propagator V} {ok : Bool} :
      MayPropagate Q p g ctl th lits gt →
      p.propagate fuel ctl th lits = some (p', ok) →
      Step be Q p g p' { g with thrs := g.thrs.set th { gt with frames := nextFrames ctl.dl lits gt.frames, stuck := !ok, checked := false },
                                tops := if ctl.dl = 0 ∧ th = 0 then g.tops ++ lits else g.tops }
  | check (fuel : ℕ) (ctl : Ctl) (total : Bool) (th : ℕ) {gt : GThr} {t : Thr V} {p' : Propagator V} {ok : Bool} :
      MayCheck p g ctl th gt t →
      p.check fuel ctl total th = some (p', ok) →
      Step be Q p g p' { g with thrs := g.thrs.set th { gt with frames := p.checkFrames ctl t gt.frames, stuck := !p.factsOk fuel ctl th, checked := total && ok } }
  | undo (th : ℕ) {gt : GThr} {fr : Frame} {frs : List Frame} {p' : Propagator V} :
      g.thrs[th]? = some gt → gt.frames = fr :: frs → fr.level ≠ 0 →
      p.undo th = some p' → Q.undo p' th frs →
      Step be Q p g p' { g with thrs := g.thrs.set th { gt with frames := frs, stuck := false, checked := false } }
  | model (th : ℕ) {gt : GThr} {p' : Propagator V} :
      g.thrs[th]? = some gt → gt.stuck = false →
      p.onModel th = some p' →
      Step be Q p g p' { g with reported := g.reported ++ (if p.opts.globalObjective.isSome then p.objectiveOf th else []) }

/-- Reachable states. -/
inductive Reach [LpFull V] (be : Backend) (opts : Options) (Q : Restr V) :
    Propagator V → Ghost V → Prop
  | start : Reach be opts Q (Propagator.fresh opts) {}
  | step {p p' : Propagator V} {g g' : Ghost V} : Reach be opts Q p g → Step be Q p g p' g' → Reach be opts Q p' g'

/-- States that can be reached from a state. -/
inductive Later [LpFull V] (be : Backend) (Q : Restr V) (p : Propagator V) (g : Ghost V) :
    Propagator V → Ghost V → Prop
  | refl : Later be Q p g p g
  | step {p1 p2 : Propagator V} {g1 g2 : Ghost V} : Later be Q p g p1 g1 → Step be Q p1 g1 p2 g2 → Later be Q p g p2 g2

/-- States that can be reached from a state within the same solving step (no `init`). -/
inductive LaterInStep [LpFull V] (be : Backend) (Q : Restr V) (p : Propagator V) (g : Ghost V) :
    Propagator V → Ghost V → Prop
  | refl : LaterInStep be Q p g p g
  | step {p1 p2 : Propagator V} {g1 g2 : Ghost V} : LaterInStep be Q p g p1 g1 → Step be Q p1 g1 p2 g2 → g2.step = g1.step →
      LaterInStep be Q p g p2 g2

/-! ### restrictions used in partial theorems -/

/-- A constraint over the single variable `y`. -/
def OnVar (x : Ineq Symbol) (y : Symbol) : Prop := ∃ a, x.lhs = [⟨a, y⟩]

/-- The values satisfy the inequality and it still holds after small changes of the values. -/
def HasSlack (g : Symbol → ℚ) (x : Ineq Symbol) : Prop :=
  match x.rel with
  | .le | .lt => evalTerms g x.lhs < x.rhs
  | .ge | .gt => x.rhs < evalTerms g x.lhs
  | .eq => False

/-- The equation `x` leaves the inequality `x'` slack. -/
def Loose (x x' : Ineq Symbol) : Prop := ∃ g, x.holds g ∧ HasSlack g x'

/-- An equation over a single variable is harmless if it leaves no active inequality over this variable alone slack, or if there was already
a constraint over this variable alone that it does not leave slack (an equation, or an inequality it contradicts or satisfies with equality). -/
def EqSafe (iqs : List (Ineq Symbol)) (before act : ℤ → Prop) (x : Ineq Symbol) : Prop :=
  x.rel = .eq → ∀ y, OnVar x y →
    (∀ x' ∈ iqs, OnVar x' y → act x'.lit → ¬ Loose x x') ∨ (∃ x' ∈ iqs, OnVar x' y ∧ before x'.lit ∧ ¬ Loose x x')

/-- Above level 0 only harmless equations become true (see Finding 1 in DESIGN.md). -/
def SafeEqs : Restr V where
  prop p frames ctl lits :=
    ctl.dl = 0 ∨ ∀ x ∈ p.prog.iqs, x.lit ∈ lits → EqSafe p.prog.iqs (Act frames) (Act (nextFrames ctl.dl lits frames)) x
  undo _ _ _ := True

/-- The limits of a thread are right: every limit in force is stated by a constraint over that variable whose literal is true, and is at least
as tight as the limits stated by all constraints whose literals are true. -/
def LimitsRight [LpValue V] (p : Propagator V) (th : ℕ) (frames : List Frame) : Prop :=
  ∀ t, p.thrs[th]? = some t →
    (∀ v b, t.slv.upper v = some b → ∃ bd, t.slv.bounds[b]? = some bd ∧ bd.var = v ∧ bd.rel ≠ .ge ∧ Act frames bd.lit) ∧
    (∀ v b, t.slv.lower v = some b → ∃ bd, t.slv.bounds[b]? = some bd ∧ bd.var = v ∧ bd.rel ≠ .le ∧ Act frames bd.lit) ∧
    ∀ bd ∈ t.slv.bounds, Act frames bd.lit →
      (bd.rel ≠ .ge → ∃ y, t.slv.up bd.var = some y ∧ y ≤ bd.value) ∧ (bd.rel ≠ .le → ∃ y, t.slv.lo bd.var = some y ∧ bd.value ≤ y)

/-- Whenever a level was undone, the limits were right afterwards: nothing is assumed about the literals propagated, and the defect of Finding 1
in DESIGN.md has not shown yet. -/
def Intact [LpValue V] : Restr V where
  prop _ _ _ _ := True
  undo := LimitsRight

/-- No restriction. -/
def AnyLits : Restr V where
  prop _ _ _ _ := True
  undo _ _ _ := True

/-! ### meaning of states -/

/-- The value reported for a variable of the program in a thread (`lookup_symbol` and `get_value`). -/
def Propagator.valueOf [LpValue V] (p : Propagator V) (th : ℕ) (y : Symbol) : V :=
  (((p.apiLookup y).bind fun i => p.apiValue th i)).getD 0

/-- A rational solution of all constraints whose literals satisfy `act`. -/
def Solves (iqs : List (Ineq Symbol)) (act : ℤ → Prop) (g : Symbol → ℚ) : Prop := ∀ x ∈ iqs, act x.lit → x.holds g

/-- The constraints with at least one variable. -/
def withVars (iqs : List (Ineq Symbol)) : List (Ineq Symbol) := iqs.filter fun x => !x.lhs.isEmpty

/-- The objective reaches the values of all cuts whose literals satisfy `act`. -/
def MeetsCuts [LpValue V] (cuts : List (ℤ × V)) (act : ℤ → Prop) (objective : List (Term Symbol)) (g : Symbol → ℚ) : Prop :=
  ∀ c ∈ cuts, act c.1 → c.2 ≤ LpValue.ofRat (evalTerms g objective)

/-- The clauses added by a thread since the last `init` (including those added by `init`). -/
def Propagator.clausesOf [LpValue V] (p : Propagator V) (th : ℕ) : List (List ℤ) :=
  match p.thrs[th]? with
  | some t => t.slv.out
  | none => []

/-- The objective cuts of a thread: literals that do not belong to constraints of the program, with the value that the
objective has to reach if the literal is true. -/
def Propagator.cutsOf [LpValue V] (p : Propagator V) (th : ℕ) : List (ℤ × V) :=
  match p.thrs[th]? with
  | some t => (t.slv.bounds.filter fun bd => !(p.prog.iqs.any fun x => decide (x.lit = bd.lit))).map fun bd => (bd.lit, bd.value)
  | none => []

end Lpx
