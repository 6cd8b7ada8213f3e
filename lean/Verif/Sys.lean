import Verif.Prepare
import Verif.Parsing
import Verif.Sem

/-!
# Model of the propagator (solving.cc:22-66, 619-663, 1046-1197; clingo-lpx.cc:127-203)

`Propagator V` is `Propagator<Value>`; each function models one callback or API function. Callbacks are atomic here (`Conc` and C54 justify this).
An exception thrown in a callback after `init` is recorded in the flag `ub` of the solver.
-/

set_option linter.unusedSectionVars false

namespace Lpx

/-- solving.cc:22-30 Value types with the conversion of the step of `--objective=global,step`. -/
class LpFull (V : Type) extends LpSem V where
  /-- solving.cc:22-30 `as_value`; `none` is the exception of `as_rational` -/
  asValue : RatQ → Option V

instance : LpFull Rat where asValue a := a.asRational
instance : LpFull RatQ where asValue a := some a

variable {V : Type}

/-! ### ObjectiveState -/

/-- solving.hh:53-69 `ObjectiveState` (each method runs under a lock). -/
structure ObjState (V : Type) where
  value : V
  generation : Nat
  bounded : Bool

namespace ObjState
variable [LpValue V]

/-- solving.cc:34-38 `reset`. -/
def init : ObjState V := ⟨0, 0, true⟩

/-- solving.cc:40-51 `update`. -/
def update (o : ObjState V) (x : V × Bool) : ObjState V :=
  if o.bounded && (!x.2 || decide (o.generation = 0) || decide (o.value < x.1)) then ⟨x.1, o.generation + 1, x.2⟩ else o

/-- solving.cc:53-65 `value`: the result and the new value of the argument `generation`. -/
def read (o : ObjState V) (generation : Nat) : Option (V × Bool) × Nat :=
  if generation ≠ o.generation then (some (o.value, o.bounded), o.generation) else (none, generation)

end ObjState

/-! ### integrate_objective -/

namespace S
variable [LpFull V]

/-- solving.cc:631-654 `integrate_objective`. -/
def integrate (ctl : Ctl) (o : ObjState V) (s : S V) : S V × Bool :=
  match s.opts.globalObjective with
  | none => (s, true)
  | some q =>
    let r := o.read s.obj.generation
    let s := { s with obj := { s.obj with generation := r.2 } }
    match r.1 with
    | none => (s, true)
    | some (x, b) =>
      if !b then ({ s with obj := { s.obj with discardBounded := true } }, true)
      else
        match LpFull.asValue q with
        | none => ({ s with ub := true }, false)
        | some d => s.assertBound ctl (x + d)

/-- solving.cc:1139-1151 `check` for a total assignment, after the objective has been integrated. -/
def checkTotal (ctl : Ctl) (fuel : Nat) (s : S V) : Option (S V × Bool) :=
  match s.optimize fuel with
  | none => none
  | some s =>
    let s := if s.opts.store = .no then s else s.storeSat
    some (s.discardBounded ctl)

/-- solving.cc:1135-1152 `check` after the facts have been asserted. -/
def checkObj (ctl : Ctl) (fuel : Nat) (total : Bool) (o : ObjState V) (s : S V) : Option (S V × Bool) :=
  let r := s.integrate ctl o
  if !r.2 then some r
  else if total then r.1.checkTotal ctl fuel
  else some r

end S

/-! ### Propagator -/

/-- solving.hh:309 An element of `slvs_`: the number of facts asserted and the solver. -/
structure Thr (V : Type) where
  offset : Nat
  slv : S V

/-- solving.hh:271-308 the data members of `Propagator<Value>`. `aux_map_`, `iqs_` and `objective_` are in `prog`. The
hash map `var_map_` is a list of pairs. -/
structure Propagator (V : Type) where
  opts : Options := {}
  prog : Prog := {}
  varMap : List (Symbol × Nat) := []
  varVec : List Symbol := []
  factsOffset : Nat := 0
  facts : List Int := []
  thrs : List (Thr V) := []
  obj : ObjState V
  /-- literals watched so far (effect on clingo) -/
  watches : List Int := []
  /-- the check mode `Both` has been requested (effect on clingo) -/
  checkBoth : Bool := false

/-- solving.cc:1056-1062 one term in `gather_vars`. -/
def gatherVar (m : List (Symbol × Nat) × List Symbol) (t : Term Symbol) : List (Symbol × Nat) × List Symbol :=
  match m.1.lookup t.var with
  | some _ => m
  | none => (m.1 ++ [(t.var, m.1.length)], m.2 ++ [t.var])

/-- solving.cc:1056-1062 `gather_vars`. -/
def gatherVars (m : List (Symbol × Nat) × List Symbol) (ts : List (Term Symbol)) : List (Symbol × Nat) × List Symbol :=
  ts.foldl gatherVar m

/-- solving.cc:1063-1067 all variables of a program. -/
def gatherProg (m : List (Symbol × Nat) × List Symbol) (p : Prog) : List (Symbol × Nat) × List Symbol :=
  p.iqs.foldl (fun m x => gatherVars m x.lhs) (gatherVars m p.objective)

section
variable [LpValue V]

/-- solving.cc:1071-1078 the loop creating the solvers; `k` threads remain, the next one is `i`. -/
def initThrs (envs : Nat → InitEnv) (opts : Options) (idx : Symbol → Option Nat) (size : Nat) (p : Prog) :
    (k i : Nat) → List (Thr V) × Bool
  | 0, _ => ([], true)
  | k + 1, i =>
    let r := S.prepare (envs i) opts idx size p.iqs p.objective (i == 0)
    if r.2 then
      let rs := initThrs envs opts idx size p k (i + 1)
      (⟨0, r.1⟩ :: rs.1, rs.2)
    else ([⟨0, r.1⟩], false)

end

namespace Propagator

/-- solving.hh:276 A freshly constructed propagator. -/
def fresh [LpValue V] (opts : Options) : Propagator V := { opts := opts, obj := ObjState.init }

/-- solving.cc:1171-1176 `lookup_symbol` (index starting at 0). -/
def lookup (p : Propagator V) (x : Symbol) : Option Nat := p.varMap.lookup x

section
variable [LpValue V]

/-- solving.cc:1046-1079 `init`. The Boolean tells whether all threads have been prepared. -/
def init (be : Backend) (mapper : Int → Int) (atoms : List TAtom) (envs : Nat → InitEnv) (nthreads : Nat)
    (p : Propagator V) : Except Err (Propagator V × Bool) :=
  let factsOffset := p.facts.length
  let checkBoth := p.checkBoth || decide (factsOffset > 0) || p.opts.globalObjective.isSome
  match evaluateTheory be mapper atoms p.prog with
  | .error e => .error e
  | .ok prog =>
    let m := gatherProg (p.varMap, p.varVec) prog
    let r := initThrs envs p.opts (fun x => m.1.lookup x) m.1.length prog nthreads 0
    .ok ({ p with
            prog := prog, varMap := m.1, varVec := m.2, factsOffset := factsOffset, thrs := r.1, obj := ObjState.init,
            watches := p.watches ++ prog.iqs.map Ineq.lit, checkBoth := checkBoth }, r.2)

/-- solving.cc:1046-1054 The propagator after `evaluate_theory` has thrown an exception in `init`: the facts are counted, the check mode is set, and the
data filled by `evaluate_theory` keeps what has been added so far. The variables, the solvers and the objective state are those of the last step. -/
def initFail (be : Backend) (mapper : Int → Int) (atoms : List TAtom) (p : Propagator V) : Propagator V :=
  { p with
      prog := evaluateLeft be mapper atoms p.prog, factsOffset := p.facts.length,
      checkBoth := p.checkBoth || decide (p.facts.length > 0) || p.opts.globalObjective.isSome }

/-- solving.cc:1126, 1161 (a reference to an element of `slvs_`) Replace the solver of a thread. -/
def setThr (p : Propagator V) (th : Nat) (t : Thr V) : Propagator V := { p with thrs := p.thrs.set th t }

/-- solving.cc:1155-1163 `propagate`; the result is `none` if the fuel does not suffice or the thread does not exist. -/
def propagate (fuel : Nat) (ctl : Ctl) (th : Nat) (lits : List Int) (p : Propagator V) : Option (Propagator V × Bool) :=
  let p := if ctl.dl = 0 ∧ th = 0 then { p with facts := p.facts ++ lits } else p
  match p.thrs[th]? with
  | none => none
  | some t =>
    match t.slv.solve ctl fuel lits with
    | none => none
    | some r => some (p.setThr th { t with slv := r.1 }, r.2)

/-- solving.cc:1166-1169 `undo`. -/
def undo (th : Nat) (p : Propagator V) : Option (Propagator V) :=
  match p.thrs[th]? with
  | none => none
  | some t => some (p.setThr th { t with slv := t.slv.undo })

/-- solving.cc:1127 the condition for asserting facts of earlier steps. -/
def needFacts (p : Propagator V) (ctl : Ctl) (t : Thr V) : Prop := ctl.dl = 0 ∧ t.offset < p.factsOffset

instance (p : Propagator V) (ctl : Ctl) (t : Thr V) : Decidable (p.needFacts ctl t) := by
  unfold needFacts; infer_instance

/-- solving.cc:1128: the span starting at `offset` with `facts_offset_` elements. -/
def factSpan (p : Propagator V) (t : Thr V) : List Int := (p.facts.drop t.offset).take p.factsOffset

/-- solving.cc:1126-1134 the first part of `check`. -/
def checkFacts (fuel : Nat) (ctl : Ctl) (th : Nat) (p : Propagator V) : Option (Propagator V × Bool) :=
  match p.thrs[th]? with
  | none => none
  | some t =>
    if p.needFacts ctl t then
      match t.slv.solve ctl fuel (p.factSpan t) with
      | none => none
      | some r => some (p.setThr th ⟨p.factsOffset, r.1⟩, r.2)
    else some (p, true)

/-- solving.cc:1112-1122 `on_model`. -/
def onModel (th : Nat) (p : Propagator V) : Option (Propagator V) :=
  match p.thrs[th]? with
  | none => none
  | some t =>
    if p.opts.globalObjective.isNone then some p
    else
      match t.slv.getObjective with
      | none => some p
      | some x => some { p with obj := p.obj.update x }

/-- solving.cc:1107-1110 `decide`. -/
def decideLit (th : Nat) (lit : Int) (p : Propagator V) : Option Int := (p.thrs[th]?).map fun t => t.slv.adjust lit

/-- solving.cc:1090-1104 `on_statistics`: step and accumulated values of (pivots, propagated bounds). -/
def onStatistics (p : Propagator V) (step accu : Nat × Nat) : (Nat × Nat) × (Nat × Nat) :=
  p.thrs.foldl (fun st t =>
    ((t.slv.pivots, t.slv.props), (st.2.1 + t.slv.pivots, st.2.2 + t.slv.props))) (step, accu)

end

section
variable [LpFull V]

/-- solving.cc:1135-1152 the second part of `check`. -/
def checkObj (fuel : Nat) (ctl : Ctl) (total : Bool) (th : Nat) (p : Propagator V) : Option (Propagator V × Bool) :=
  match p.thrs[th]? with
  | none => none
  | some t =>
    match t.slv.checkObj ctl fuel total p.obj with
    | none => none
    | some r => some (p.setThr th { t with slv := r.1 }, r.2)

/-- solving.cc:1124-1152 `check`. The Boolean tells whether the end of the function was reached. -/
def check (fuel : Nat) (ctl : Ctl) (total : Bool) (th : Nat) (p : Propagator V) : Option (Propagator V × Bool) :=
  match p.checkFacts fuel ctl th with
  | none => none
  | some r => if r.2 then r.1.checkObj fuel ctl total th else some r

end

/-! ### the C interface (clingo-lpx.cc) -/

/-- clingo-lpx.cc:140-146 `lookup_symbol` (`none`: returns false). -/
def apiLookup (p : Propagator V) (x : Symbol) : Option Nat := (p.lookup x).map (· + 1)
/-- clingo-lpx.cc:148 `get_symbol`; `none` is an access out of bounds. -/
def apiSymbol (p : Propagator V) (i : Nat) : Option Symbol := p.varVec[i - 1]?
/-- clingo-lpx.cc:150-152, solving.cc:1180-1183 `has_value`. -/
def apiHasValue (p : Propagator V) (i : Nat) : Bool := decide (0 < i) && decide (i - 1 < p.varVec.length)
/-- clingo-lpx.cc:154-159, solving.cc:1185-1187 `get_value` before printing. -/
def apiValue (p : Propagator V) (th i : Nat) : Option V := (p.thrs[th]?).map fun t => t.slv.value (i - 1)

/-- clingo-lpx.cc:166 The symbol is a number (`type() == SymbolType::Number`). -/
def isNumSym : Symbol → Bool
  | .num _ => true
  | _ => false

/-- clingo-lpx.cc:161-169 `next`: the loop; `fuel` bounds the number of remaining symbols. -/
def apiNextLoop (p : Propagator V) : Nat → Nat → Nat × Bool
  | 0, cur => (cur, false)
  | fuel + 1, cur =>
    if cur < p.varVec.length then
      let cur := cur + 1
      match p.varVec[cur - 1]? with
      | some s => if isNumSym s then apiNextLoop p fuel cur else (cur, true)
      | none => (cur, false)
    else (cur, false)

/-- clingo-lpx.cc:161-169 `next`. The loop runs at most once per variable. -/
def apiNext (p : Propagator V) (cur : Nat) : Nat × Bool := apiNextLoop p (p.varVec.length + 1) cur

/-- clingo-lpx.cc:171-191 the loop `for (size_t i = 0; next(thread_id, &i);)` visiting all values. -/
def apiIterate (p : Propagator V) : Nat → Nat → List Nat
  | 0, _ => []
  | fuel + 1, cur =>
    let r := p.apiNext cur
    if r.2 then r.1 :: apiIterate p fuel r.1 else []

/-- clingo-lpx.cc:172-175: all indices visited. -/
def apiIndices (p : Propagator V) : List Nat := p.apiIterate (p.varVec.length + 1) 0

/-- clingo-lpx.cc:171-182 the symbols `__lpx(symbol, value)` added to a model by `extend_model`, before printing the values. -/
def apiModel (p : Propagator V) (th : Nat) : List (Option Symbol × Option V) :=
  p.apiIndices.map fun i => (p.apiSymbol i, p.apiValue th i)

end Propagator
end Lpx
