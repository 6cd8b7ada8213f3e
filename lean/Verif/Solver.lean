import Verif.Tableau
import Verif.Problem

/-!
# Model of the simplex solver (solving.hh, solving.cc)

One `S V` is one `Solver<Value>`. `std::vector<Variable>` is modelled field by field as functions from the variable
index. A `Bound const *` is an index into the append-only list `bounds`, so pointer identity is preserved.
Undefined behaviour sets the sticky flag `ub`.
-/

namespace Lpx

/-- solving.hh:82-86 `BoundRelation`. -/
inductive BRel where
  | le | ge | eq
deriving DecidableEq, Repr

/-- solving.hh:91-101 `struct Bound`. -/
structure Bound (V : Type) where
  value : V
  var : Nat
  lit : Int
  rel : BRel

/-- solving.hh:26-30 `SelectionHeuristic` -/
inductive Select where | none | matching | conflict
deriving DecidableEq, Repr
/-- solving.hh:20-24 `StoreSATAssignments` -/
inductive Store where | no | part | total
deriving DecidableEq, Repr
/-- solving.hh:32-36 `PropagateMode` -/
inductive PMode where | none | changed | full
deriving DecidableEq, Repr

/-- solving.hh:38-44 `struct Options`. -/
structure Options where
  select : Select := .none
  store : Store := .no
  globalObjective : Option RatQ := none
  propagateMode : PMode := .none
  propagateConflicts : Bool := false
deriving DecidableEq, Repr

/-- solving.hh:142-146 `TrailOffset`. -/
structure Off where
  level : Nat
  bound : Nat
  asg : Nat
deriving DecidableEq, Repr

/-- solving.hh:151-165 `Objective`. -/
structure Obj where
  var : Nat := 0
  boundVar : Nat := 0
  generation : Nat := 0
  active : Bool := false
  discardBounded : Bool := false
  bounded : Bool := true
deriving DecidableEq, Repr

/-- The order in which the elements of `bounds_`, a `std::unordered_multimap` (solving.hh:247), are visited: an arbitrary
permutation of the elements asked for, given by their positions in insertion order. The C++ standard leaves this order
open. -/
structure Order where
  f : List Nat → List Nat := id
  perm : ∀ l, (f l).Perm l := by exact fun l => List.Perm.refl l

/-- solving.hh:72-294 the data members of `Solver<Value>`. -/
structure S (V : Type) where
  opts : Options := {}
  /-- `bounds_` (insertion order; see `order` for the order in which its elements are visited) -/
  bounds : List (Bound V) := []
  /-- the order in which iterators over `bounds_` visit its elements (chosen by the standard library) -/
  order : Order := {}
  /-- `variables_.size()` -/
  nvars : Nat := 0
  lower : Nat → Option Nat := fun _ => none
  upper : Nat → Option Nat := fun _ => none
  value : Nat → V
  index : Nat → Nat := id
  rindex : Nat → Nat := id
  level : Nat → Nat := fun _ => 0
  vbounds : Nat → List Nat := fun _ => []
  queued : Nat → Bool := fun _ => false
  prop : Nat → Bool := fun _ => false
  /-- `bound_trail_` -/
  btrail : List (Nat × BRel × Option Nat) := []
  /-- `assignment_trail_` -/
  atrail : List (Nat × Nat × V) := []
  /-- `trail_offset_`, last element first -/
  offs : List Off := []
  tab : Tableau := Tableau.empty
  /-- `conflicts_`, a min-heap given as its sorted list of elements -/
  conflicts : List Nat := []
  /-- `conflict_clause_` -/
  clause : List Int := []
  /-- `propagate_queue_` -/
  pqueue : List Nat := []
  pivots : Nat := 0
  props : Nat := 0
  /-- `n_non_basic_` -/
  n : Nat := 0
  /-- `n_basic_` -/
  m : Nat := 0
  obj : Obj := {}
  /-- all clauses passed to clingo so far (not in the code; records the effects on the environment) -/
  out : List (List Int) := []
  /-- undefined behaviour happened -/
  ub : Bool := false

/-- The environment of a callback: clingo's assignment and its answers, which may depend on the clauses added so far.
`Clingo::Assignment::level`, `decision_level`, `is_false` and the results of `add_clause(..) && propagate()`. -/
structure Ctl where
  dl : Nat
  lvl : Int → Nat
  isFalse : List (List Int) → Int → Bool
  ok : List (List Int) → Bool
  /-- `add_literal()` -/
  newLit : List (List Int) → Int

namespace S
variable {V : Type} [LpValue V]

/-- solving.hh:117-119 Dereferencing a bound pointer: the value. -/
def bval (s : S V) (b : Option Nat) : Option V := b.bind fun i => (s.bounds[i]?).map Bound.value
/-- solving.hh:94, 125-127 Dereferencing a bound pointer: the literal. -/
def blit (s : S V) (b : Option Nat) : Option Int := b.bind fun i => (s.bounds[i]?).map Bound.lit
/-- solving.hh:113-119 `has_lower`/`lower` in one: `none` if there is no lower bound. -/
def lo (s : S V) (v : Nat) : Option V := s.bval (s.lower v)
/-- solving.hh:115-121 `has_upper`/`upper`. -/
def up (s : S V) (v : Nat) : Option V := s.bval (s.upper v)

/-- solving.cc:237 etc.: `has_lower() && value < lower()`. -/
def belowLo (s : S V) (v : Nat) : Bool := match s.lo v with | none => false | some b => decide (s.value v < b)
/-- solving.cc:237, 610, 983 `has_upper() && value > upper()`. -/
def aboveUp (s : S V) (v : Nat) : Bool := match s.up v with | none => false | some b => decide (b < s.value v)
/-- solving.cc:997 `has_upper() && value >= upper()`. -/
def atUp (s : S V) (v : Nat) : Bool := match s.up v with | none => false | some b => decide (b ≤ s.value v)
/-- solving.cc:997 `has_lower() && value <= lower()`. -/
def atLo (s : S V) (v : Nat) : Bool := match s.lo v with | none => false | some b => decide (s.value v ≤ b)

/-- solving.cc:236-238 `has_conflict`. -/
def hasConflict (s : S V) (v : Nat) : Bool := s.belowLo v || s.aboveUp v

/-- `lower() <= upper()` where missing bounds count as satisfied
(`!has_lower() || lower() <= upper()`, solving.cc:187,203). -/
def loLeUp (s : S V) (v : Nat) : Bool :=
  match s.lo v, s.up v with
  | some l, some u => decide (l ≤ u)
  | _, _ => true

/-- solving.cc:182, 193 `ass.level(bound->lit) < ass.decision_level()` or no bound. -/
def olderBound (s : S V) (ctl : Ctl) (b : Option Nat) : Bool :=
  match s.blit b with
  | none => true
  | some l => decide (ctl.lvl l < ctl.dl)

/-- solving.cc:181 `!has_upper() || bound.value < upper()`. -/
def tightensUp (s : S V) (v : Nat) (x : V) : Bool := match s.up v with | none => true | some u => decide (x < u)
/-- solving.cc:192 `!has_lower() || bound.value > lower()`. -/
def tightensLo (s : S V) (v : Nat) (x : V) : Bool := match s.lo v with | none => true | some l => decide (l < x)

/-- solving.cc:179-188 `Variable::update_upper` for bound number `b`. -/
def updateUpper (ctl : Ctl) (s : S V) (b : Nat) (bd : Bound V) : S V × Bool :=
  let v := bd.var
  let s :=
    if s.tightensUp v bd.value then
      let s := if s.olderBound ctl (s.upper v) then { s with btrail := s.btrail ++ [(v, .le, s.upper v)] } else s
      { s with upper := Function.update s.upper v (some b) }
    else s
  (s, s.loLeUp v)

/-- `std::get<1>(s.bound_trail_.back()) = Equal` (solving.cc:198). -/
def markBackEq : List (Nat × BRel × Option Nat) → List (Nat × BRel × Option Nat)
  | [] => []
  | [(v, _, p)] => [(v, .eq, p)]
  | e :: es => e :: markBackEq es

/-- solving.cc:190-204 `Variable::update_lower`. -/
def updateLower (ctl : Ctl) (s : S V) (b : Nat) (bd : Bound V) : S V × Bool :=
  let v := bd.var
  let s :=
    if s.tightensLo v bd.value then
      let s :=
        if s.olderBound ctl (s.lower v) then
          if s.upper v ≠ some b then { s with btrail := s.btrail ++ [(v, .ge, s.lower v)] }
          else if s.btrail = [] then { s with ub := true }
          else { s with btrail := markBackEq s.btrail }
        else s
      { s with lower := Function.update s.lower v (some b) }
    else s
  (s, s.loLeUp v)

/-- solving.cc:206-220 `Variable::update`. -/
def updateVar (ctl : Ctl) (s : S V) (b : Nat) (bd : Bound V) : S V × Bool :=
  match bd.rel with
  | .le => updateUpper ctl s b bd
  | .ge => updateLower ctl s b bd
  | .eq =>
    let r := updateUpper ctl s b bd
    if r.2 then updateLower ctl r.1 b bd else r

/-- solving.cc:222-234 `Variable::set_value`. -/
def setValue (s : S V) (lvl v : Nat) (x : V) (add : Bool) : S V :=
  let s :=
    if lvl ≠ s.level v then
      { s with atrail := s.atrail ++ [(s.level v, v, s.value v)], level := Function.update s.level v lvl }
    else s
  { s with value := Function.update s.value v (if add then s.value v + x else x) }

/-- solving.cc:259 `conflicts_.emplace(ii)`: insertion into the sorted list. -/
def heapInsert (ii : Nat) : List Nat → List Nat
  | [] => [ii]
  | x :: xs => if ii ≤ x then ii :: x :: xs else x :: heapInsert ii xs

/-- solving.cc:254-267 `enqueue_`. -/
def enqueue (s : S V) (i : Nat) : S V :=
  let ii := s.index (i + s.n)
  let s :=
    if !s.queued ii && s.hasConflict ii then
      { s with conflicts := heapInsert ii s.conflicts, queued := Function.update s.queued ii true }
    else s
  if s.opts.propagateMode = .changed && !s.prop i then
    { s with prop := Function.update s.prop i true, pqueue := s.pqueue ++ [i] }
  else s

/-- solving.cc:920-927 `update_`. -/
def update (s : S V) (lvl j : Nat) (v : V) : S V :=
  let xj := s.index j
  let s := (s.tab.colEntries j).foldl (fun s (e : Nat × Int × Int) =>
    let s := s.setValue lvl (s.index (e.1 + s.n)) (mulDiv (v - s.value xj) e.2.1 e.2.2) true
    s.enqueue e.1) s
  let s := { s with tab := s.tab.compactCol j }
  s.setValue lvl xj v false

/-- solving.cc:929-963 `pivot_`. Missing cell, zero cell or indices out of range are undefined behaviour. -/
def pivot (s : S V) (lvl i j : Nat) (v : V) : S V :=
  match Tableau.findCell (s.tab.rows i).cells j with
  | none => { s with ub := true }
  | some a =>
    let d := (s.tab.rows i).den
    if a = 0 || decide (s.m ≤ i) || decide (s.n ≤ j) then { s with ub := true }
    else
      let xi := s.index (i + s.n)
      let xj := s.index j
      let vj := divMul (v - s.value xi) a d
      let s := s.setValue lvl xi v false
      let s := s.setValue lvl xj vj true
      let s := (s.tab.colEntries j).foldl (fun s (e : Nat × Int × Int) =>
        if e.1 ≠ i then
          let s := s.setValue lvl (s.index (e.1 + s.n)) (mulDiv vj e.2.1 e.2.2) true
          s.enqueue e.1
        else s) s
      let s := { s with tab := s.tab.compactCol j }
      -- solving.cc:952-953
      let ri := s.rindex xi
      let rj := s.rindex xj
      let s := { s with rindex := Function.update (Function.update s.rindex xi rj) xj ri }
      let ii := s.index (i + s.n)
      let jj := s.index j
      let s := { s with index := Function.update (Function.update s.index (i + s.n) jj) j ii }
      let s := s.enqueue i
      { s with tab := s.tab.pivot i j, pivots := s.pivots + 1 }

/-- State of the row scan in `select_` (solving.cc:986-1007). -/
structure SelSt (V : Type) where
  kk : Nat
  clause : List Int
  ret : Option (Nat × Nat × V)

/-- solving.cc:987-1007 the callback of `select_` for one entry of row `i`;
`upper = (lower == ((a_ij > 0) == (d_i > 0)))`. -/
def selectEntry (s : S V) (i : Nat) (lower : Bool) (bnd : V) (st : SelSt V) (e : Nat × Int × Int) : SelSt V :=
  let jj := s.index e.1
  if st.kk < jj then st
  else
    let upper : Bool := lower == (decide (e.2.1 > 0) == decide (e.2.2 > 0))
    if (if upper then s.atUp jj else s.atLo jj) then
      { st with clause := st.clause ++ [-((s.blit (if upper then s.upper jj else s.lower jj)).getD 0)] }
    else { st with kk := jj, ret := some (i, e.1, bnd) }

/-- solving.cc:966-1044 Result of `select_`. -/
inductive Sel (V : Type) where
  | sat
  | unsat
  | unknown (i j : Nat) (v : V)

/-- solving.cc:970-1014 the loop of `select_` over the heap. -/
def selectLoop : List Nat → S V → S V × Sel V
  | [], s => ({ s with conflicts := [] }, .sat)
  | ii :: rest, s =>
    let i := s.rindex ii
    let s := { s with queued := Function.update s.queued ii false }
    if i < s.n then selectLoop rest s
    else
      let i := i - s.n
      let lower := s.belowLo ii
      match (if lower then s.lo ii else if s.aboveUp ii then s.up ii else none) with
      | none => selectLoop rest s
      | some bnd =>
        let c0 := -((s.blit (if lower then s.lower ii else s.upper ii)).getD 0)
        let st := (s.tab.rowEntries i).foldl (selectEntry s i lower bnd) { kk := s.nvars, clause := [c0], ret := none }
        let s := { s with conflicts := ii :: rest, clause := st.clause }
        match st.ret with
        | none => (s, .unsat)
        | some (i, j, v) => (s, .unknown i j v)

/-- solving.cc:965-1019 `select_`. -/
def select (s : S V) : S V × Sel V := selectLoop s.conflicts s

/-- solving.cc:604, 628, 701, 775 `ctl.add_clause(c)`: recorded as output. -/
def emit (s : S V) (c : List Int) : S V := { s with out := s.out ++ [c] }

/-- solving.cc:597-617 `update_bound_` for bound number `b`. -/
def updateBound (ctl : Ctl) (s : S V) (b : Nat) (bd : Bound V) : S V × Bool :=
  let x := bd.var
  let r := s.updateVar ctl b bd
  let s := r.1
  if !r.2 then
    match s.blit (s.upper x), s.blit (s.lower x) with
    | some u, some l =>
      let c := [-u, -l]
      (({ s with clause := c }).emit c, false)
    | _, _ => ({ s with ub := true }, false)
  else if s.rindex x < s.n then
    if s.belowLo x then
      (match s.lo x with | some l => s.update ctl.dl (s.rindex x) l | none => s, true)
    else if s.aboveUp x then
      (match s.up x with | some u => s.update ctl.dl (s.rindex x) u | none => s, true)
    else (s, true)
  else (s.enqueue (s.rindex x - s.n), true)

/-- `bounds_.find(lit)` and the iterators that follow (solving.cc:679, 867, 874): the bounds with literal `lit`, in the
unspecified order of the hash table. -/
def boundsOf (s : S V) (lit : Int) : List (Nat × Bound V) :=
  (s.order.f ((s.bounds.zipIdx.filter fun p => p.1.lit = lit).map fun p => p.2)).filterMap fun b =>
    (s.bounds[b]?).map fun bd => (b, bd)

/-- solving.cc:678-686 the loops over literals and bounds in `solve`. -/
def updateBounds (ctl : Ctl) : List (Nat × Bound V) → S V → S V × Bool
  | [], s => (s, true)
  | (b, bd) :: bs, s =>
    let r := s.updateBound ctl b bd
    if r.2 then updateBounds ctl bs r.1 else r

/-- solving.cc:678-686 the loop over the literals in `solve`. -/
def updateLits (ctl : Ctl) : List Int → S V → S V × Bool
  | [], s => (s, true)
  | l :: ls, s =>
    let r := updateBounds ctl (s.boundsOf l) s
    if r.2 then updateLits ctl ls r.1 else r

/-- solving.cc:587-593 resetting the offsets in `store_sat_assignment` (last element first). -/
def zeroOffs : List Off → List Off
  | [] => []
  | o :: os => if o.asg > 0 then { o with asg := 0 } :: zeroOffs os else o :: os

/-- solving.cc:583-595 `store_sat_assignment`. -/
def storeSat (s : S V) : S V :=
  { s with
    level := s.atrail.foldl (fun lv (e : Nat × Nat × V) => Function.update lv e.2.1 0) s.level
    offs := zeroOffs s.offs
    atrail := [] }

/-- `Value{0}` reset to `nullopt` by a missing bound in the first scan (solving.cc:731-743). -/
def rowHasLower (s : S V) (i : Nat) : Bool :=
  (s.tab.rowEntries i).all fun e =>
    if (decide (e.2.1 > 0) == decide (e.2.2 > 0)) then (s.lo (s.index e.1)).isSome else (s.up (s.index e.1)).isSome
/-- solving.cc:734-743 whether the row provides an upper bound. -/
def rowHasUpper (s : S V) (i : Nat) : Bool :=
  (s.tab.rowEntries i).all fun e =>
    if (decide (e.2.1 > 0) == decide (e.2.2 > 0)) then (s.up (s.index e.1)).isSome else (s.lo (s.index e.1)).isSome

/-- solving.cc:747-771 the bound of a row and the clause explaining it; `useUp e` tells which bound of the non-basic
variable is used. -/
def rowBound (s : S V) (i : Nat) (useUp : Bool → Bool) : V × List Int :=
  (s.tab.rowEntries i).foldl (fun acc (e : Nat × Int × Int) =>
    let jj := s.index e.1
    let p := if useUp (decide (e.2.1 > 0) == decide (e.2.2 > 0)) then s.upper jj else s.lower jj
    match s.bval p, s.blit p with
    | some x, some l => (acc.1 + mulDiv x e.2.1 e.2.2, acc.2 ++ [-l])
    | _, _ => acc) (0, [])

/-- solving.cc:773-799: propagate to the bounds of the basic variable. -/
def propBounds (ctl : Ctl) (clause : List Int) (test : Bound V → Bool) : List Nat → S V → S V × Bool
  | [], s => (s, true)
  | b :: bs, s =>
    match s.bounds[b]? with
    | none => ({ s with ub := true }, true)
    | some bd =>
      if test bd && !ctl.isFalse s.out bd.lit then
        let s := s.emit (clause ++ [-bd.lit])
        let r := ctl.ok s.out
        let s := { s with props := s.props + 1 }
        if r then propBounds ctl clause test bs s else (s, false)
      else propBounds ctl clause test bs s

/-- solving.cc:729-802 `propagate_row`. -/
def propRow (ctl : Ctl) (s : S V) (i : Nat) : S V × Bool :=
  let s := { s with prop := Function.update s.prop i false }
  let hl := s.rowHasLower i
  let hu := s.rowHasUpper i
  if !hu && !hl then (s, true)
  else
    let lo := s.rowBound i (fun pos => !pos)
    let up := s.rowBound i (fun pos => pos)
    let bs := s.vbounds (s.index (i + s.n))
    let r := if hu then
        propBounds ctl up.2 (fun bd => decide (bd.rel ≠ .le) && decide (up.1 < bd.value)) bs s
      else (s, true)
    if !r.2 then r
    else if hl then
      propBounds ctl lo.2 (fun bd => decide (bd.rel ≠ .ge) && decide (bd.value < lo.1)) bs r.1
    else r

/-- solving.cc:804-810 the rows in the queue. -/
def propQueue (ctl : Ctl) : List Nat → S V → S V × Bool
  | [], s => (s, true)
  | i :: is, s =>
    let r := { s with pqueue := is }.propRow ctl i
    if r.2 then propQueue ctl is r.1 else r

/-- solving.cc:812-816 all rows. -/
def propRows (ctl : Ctl) : List Nat → S V → S V × Bool
  | [], s => (s, true)
  | i :: is, s =>
    let r := s.propRow ctl i
    if r.2 then propRows ctl is r.1 else r

/-- solving.cc:712-819 `propagate_`. -/
def propagate (ctl : Ctl) (s : S V) : S V × Bool :=
  match s.opts.propagateMode with
  | .none => (s, true)
  | .changed => propQueue ctl s.pqueue s
  | .full => propRows ctl (List.range s.m) s

/-- solving.cc:692-709 the loop of `solve`; `none` means that the fuel did not suffice. -/
def solveLoop (ctl : Ctl) : Nat → S V → Option (S V × Bool)
  | 0, _ => none
  | fuel + 1, s =>
    let r := s.select
    let s := r.1
    match r.2 with
    | .sat =>
      let s := if s.opts.store = .part then s.storeSat else s
      some (s.propagate ctl)
    | .unsat => some (s.emit s.clause, false)
    | .unknown i j v => solveLoop ctl fuel (s.pivot ctl.dl i j v)

/-- solving.cc:673-676: a new trail offset. -/
def pushOff (ctl : Ctl) (s : S V) : S V :=
  match s.offs with
  | [] => { s with offs := [⟨ctl.dl, s.btrail.length, s.atrail.length⟩] }
  | o :: _ =>
    if o.level < ctl.dl then { s with offs := ⟨ctl.dl, s.btrail.length, s.atrail.length⟩ :: s.offs } else s

/-- solving.cc:665-710 `solve`. -/
def solve (ctl : Ctl) (fuel : Nat) (s : S V) (lits : List Int) : Option (S V × Bool) :=
  let r := updateLits ctl lits (s.pushOff ctl)
  if r.2 then solveLoop ctl fuel r.1 else some r

/-- solving.cc:827-843: undo one bound trail entry. -/
def undoBound (b : (Nat → Option Nat) × (Nat → Option Nat)) (e : Nat × BRel × Option Nat) :
    (Nat → Option Nat) × (Nat → Option Nat) :=
  match e.2.1 with
  | .le => (b.1, Function.update b.2 e.1 e.2.2)
  | .ge => (Function.update b.1 e.1 e.2.2, b.2)
  | .eq => (Function.update b.1 e.1 e.2.2, Function.update b.2 e.1 e.2.2)

/-- solving.cc:821-866 `undo`. Popping from an empty stack or offsets beyond the trails are undefined behaviour. -/
def undo (s : S V) : S V :=
  match s.offs with
  | [] => { s with ub := true }
  | o :: os =>
    if s.btrail.length < o.bound || s.atrail.length < o.asg then { s with ub := true }
    else
      let b := (s.btrail.drop o.bound).foldl undoBound (s.lower, s.upper)
      let seg := s.atrail.drop o.asg
      { s with
        lower := b.1
        upper := b.2
        btrail := s.btrail.take o.bound
        level := seg.foldl (fun f (e : Nat × Nat × V) => Function.update f e.2.1 e.1) s.level
        value := seg.foldl (fun f (e : Nat × Nat × V) => Function.update f e.2.1 e.2.2) s.value
        atrail := s.atrail.take o.asg
        queued := s.conflicts.foldl (fun f ii => Function.update f ii false) s.queued
        conflicts := []
        offs := os }

/-! ### optimize -/

/-- solving.cc:513-524 the entering variable: smallest variable that can improve the objective, with the sign. -/
def enterEntry (s : S V) (acc : Nat × Bool) (e : Nat × Int × Int) : Nat × Bool :=
  let jj := s.index e.1
  if jj < acc.1 then
    let pos := decide (e.2.1 > 0) == decide (e.2.2 > 0)
    if (if pos then !s.atUp jj else !s.atLo jj) then (jj, pos) else acc
  else acc

/-- solving.cc:510-524. -/
def selectEnter (s : S V) (z : Nat) : Nat × Bool :=
  (s.tab.rowEntries z).foldl (enterEntry s) (s.nvars, false)

/-- solving.cc:533-539: the leaving candidate: `ll`, its bound and the resulting value of the entering variable. -/
structure Leave (V : Type) where
  ll : Nat
  bnd : V
  ve : V

/-- solving.cc:541-561 the callback for row `i` of column `e`. -/
def leaveEntry (s : S V) (ee : Nat) (pos : Bool) (acc : Option (Leave V)) (e : Nat × Int × Int) : Option (Leave V) :=
  let ii := s.index (e.1 + s.n)
  let posi := decide (e.2.1 > 0) == decide (e.2.2 > 0)
  let increase := posi == pos
  match (if increase then s.up ii else s.lo ii) with
  | none => acc
  | some vi =>
    let v := s.value ee + divMul (vi - s.value ii) e.2.1 e.2.2
    let skip : Bool :=
      if pos then (match s.up ee with | none => false | some u => decide (u ≤ v))
      else (match s.lo ee with | none => false | some l => decide (v ≤ l))
    if skip then acc
    else
      match acc with
      | none => some ⟨ii, vi, v⟩
      | some c =>
        if (if pos then decide (v < c.ve) else decide (c.ve < v)) || (decide (ii < c.ll) && decide (v = c.ve)) then
          some ⟨ii, vi, v⟩
        else acc

/-- solving.cc:541-561. -/
def selectLeave (s : S V) (ee : Nat) (pos : Bool) : Option (Leave V) :=
  (s.tab.colEntries (s.rindex ee)).foldl (leaveEntry s ee pos) none

/-- solving.cc:564: the level of the last trail offset, 0 without offsets. -/
def topLevel (s : S V) : Nat := match s.offs with | [] => 0 | o :: _ => o.level

/-- solving.cc:506-580 one iteration of `optimize`: `inl` is the final state, `inr` the next state. -/
def optStep (s : S V) : S V ⊕ S V :=
  if s.rindex s.obj.var < s.n then .inl { s with ub := true }
  else
    let z := s.rindex s.obj.var - s.n
    let en := s.selectEnter z
    if en.1 = s.nvars then .inl { s with obj := { s.obj with bounded := true } }
    else
      let ee := en.1
      let e := s.rindex ee
      let lv := s.selectLeave ee en.2
      -- `update_col` compacts the column
      let s := { s with tab := s.tab.compactCol e }
      let level := s.topLevel
      match lv with
      | some c => .inr (s.pivot level (s.rindex c.ll - s.n) e c.bnd)
      | none =>
        match (if en.2 then s.up ee else s.lo ee) with
        | none => .inl { s with obj := { s.obj with bounded := false } }
        | some b => .inr (s.update level e b)

/-- solving.cc:506-580 the loop of `optimize`. -/
def optLoop : Nat → S V → Option (S V)
  | 0, _ => none
  | fuel + 1, s =>
    match s.optStep with
    | .inl s => some s
    | .inr s => optLoop fuel s

/-- solving.cc:446-581 `optimize`. -/
def optimize (fuel : Nat) (s : S V) : Option (S V) :=
  if s.obj.active then optLoop fuel s else some s

/-! ### objective bounds, heuristic -/

/-- solving.cc:619-629 `assert_bound_`. -/
def assertBound (ctl : Ctl) (s : S V) (x : V) : S V × Bool :=
  let lit := ctl.newLit s.out
  let s := { s with bounds := s.bounds ++ [({ value := x, var := s.obj.boundVar, lit := lit, rel := .ge } : Bound V)], clause := [lit] }
  let s := s.emit [lit]
  (s, ctl.ok s.out)

/-- solving.cc:656-663 `discard_bounded`. -/
def discardBounded (ctl : Ctl) (s : S V) : S V × Bool :=
  if !s.obj.active || s.opts.globalObjective.isNone || !s.obj.bounded || !s.obj.discardBounded then (s, true)
  else s.assertBound ctl (s.value s.obj.var + LpValue.ofRat 1)

/-- solving.cc:149-162 `Bound::compare`. -/
def _root_.Lpx.Bound.compare (b : Bound V) (x : V) : Bool :=
  match b.rel with
  | .eq => decide (x = b.value)
  | .le => decide (x ≤ b.value)
  | .ge => decide (b.value ≤ x)

/-- solving.cc:164-177 `Bound::conflicts`. -/
def _root_.Lpx.Bound.conflicts (a b : Bound V) : Bool :=
  match a.rel with
  | .eq =>
    match b.rel with
    | .eq => decide (a.value ≠ b.value)
    | .le => decide (b.value < a.value)
    | .ge => decide (a.value < b.value)
  | .le => decide (b.rel ≠ .le) && decide (a.value < b.value)
  | .ge => decide (b.rel ≠ .ge) && decide (b.value < a.value)

/-- solving.cc:1021-1044 `adjust`. -/
def adjust (s : S V) (lit : Int) : Int :=
  if s.opts.select = .none then lit
  else if (s.boundsOf lit).any fun p => p.2.compare (s.value p.2.var) == decide (s.opts.select = .conflict) then -lit
  else if (s.boundsOf (-lit)).any fun p => p.2.compare (s.value p.2.var) == decide (s.opts.select = .matching) then -lit
  else lit

/-- solving.cc:271-276 `get_objective`. -/
def getObjective (s : S V) : Option (V × Bool) :=
  if s.obj.active then some (s.value s.obj.var, s.obj.bounded) else none

end S
end Lpx
