import Verif.Sys

/-!
# Model of the assertions (`assert`, `assert_extra`)

The functions ending in `Asserts` walk through the modelled code in the same order and return the conjunction of all
assertions evaluated on the way: `false` means that a build with assertions aborts. The parameter `extra` tells if the
macro `CLINGOLPX_CROSSCHECK` is defined, which enables `assert_extra` (util.hh:7-11).

The assertion `lit == lit_a` (solving.cc:681) compares the key found in `bounds_` with the key searched for. Range
assertions of `basic_`, `non_basic_` and `enqueue_` (solving.cc:245, 250, 255) are evaluated at each call of these
functions. Assertions on pointers (`v != nullptr`, solving.cc:705) hold by construction here because the model returns
the value together with the state `Unknown`.
-/

namespace Lpx

/-- util.hh:7-11 `assert_extra`. -/
def assertExtra (extra b : Bool) : Bool := !extra || b

namespace Tableau

/-- tableau.cc:106-145 the assertions (lines 111 and 120) in the merge loop for one row. -/
def mergeAsserts (j : Nat) : List Cell → List Cell → Bool
  | [], [] => true
  | c :: cs, [] => decide (c.col ≠ j) && mergeAsserts j cs []
  | [], e :: es => decide (e.col ≠ j) && mergeAsserts j [] es
  | c :: cs, e :: es =>
    if c.col < e.col then decide (c.col ≠ j) && mergeAsserts j cs (e :: es)
    else if e.col < c.col then decide (e.col ≠ j) && mergeAsserts j (c :: cs) es
    else mergeAsserts j cs es
termination_by cs es => cs.length + es.length

/-- tableau.cc:103-150: the assertions evaluated for row `k` of column `j`. -/
def pivotStepAsserts (i j : Nat) (st : PivotSt) (k : Nat) : Bool :=
  match findCell (st.rows k).cells j with
  | none => true
  | some _ => if k = i then true else mergeAsserts j (st.rows i).cells (st.rows k).cells

/-- tableau.cc:103-150: the assertions evaluated in the loop over column `j`. -/
def pivotLoopAsserts (i j : Nat) (aij di : Int) : List Nat → PivotSt → Bool
  | [], _ => true
  | k :: ks, st => pivotStepAsserts i j st k && pivotLoopAsserts i j aij di ks (pivotStep i j aij di st k)

/-- tableau.cc:84-183 the assertions of `Tableau::pivot`. -/
def pivotAsserts (t : Tableau) (i j : Nat) : Bool :=
  pivotLoopAsserts i j ((findCell (t.rows i).cells j).getD 0) (t.rows i).den (t.cols j)
    { rows := Function.update t.rows i { t.rows i with cells := negRow j (t.rows i).cells }
      cols := t.cols, sizes := fun _ => 0, kept := [] }

end Tableau

namespace S
variable {V : Type} [LpValue V]

/-! ### crosschecks -/

/-- solving.cc:872-874: the value of row `i` computed from the non-basic variables. -/
def rowValue (s : S V) (i : Nat) : V :=
  (s.tab.rowEntries i).foldl (fun v (e : Nat × Int × Int) => v + mulDiv (s.value (s.index e.1)) e.2.1 e.2.2) 0

/-- solving.cc:250 `j < n_non_basic_` for all `non_basic_(j)` in a loop over row `i`. -/
def rowOk (s : S V) (i : Nat) : Bool := (s.tab.rowEntries i).all fun e => decide (e.1 < s.n)
/-- solving.cc:245, 255 `i < n_basic_` for all `basic_(i)` and `enqueue_(i)` in a loop over column `j`. -/
def colOk (s : S V) (j : Nat) : Bool := (s.tab.colEntries j).all fun e => decide (e.1 < s.m)

/-- solving.cc:870-880 `check_tableau_` (with the range assertions of `non_basic_`). -/
def checkTableau (s : S V) : Bool :=
  (List.range s.m).all fun i => s.rowOk i && decide (s.rowValue i = s.value (s.index (i + s.n)))

/-- solving.cc:882-893 `check_basic_`. -/
def checkBasic (s : S V) : Bool :=
  (List.range s.m).all fun i =>
    let xi := s.index (i + s.n)
    !(s.belowLo xi && !s.queued xi) && !(s.aboveUp xi && !s.queued xi)

/-- solving.cc:895-906 `check_non_basic_`. -/
def checkNonBasic (s : S V) : Bool :=
  (List.range s.n).all fun j => !s.belowLo (s.index j) && !s.aboveUp (s.index j)

/-- solving.cc:908-918 `check_solution_`. -/
def checkSolution (s : S V) : Bool :=
  (List.range s.nvars).all (fun v => !s.belowLo v && !s.aboveUp v) && s.checkTableau && s.checkBasic

/-! ### update and pivot -/

/-- solving.cc:920-927 the assertions of `update_`. -/
def updateAsserts (s : S V) (j : Nat) : Bool := decide (j < s.n) && s.colOk j

/-- solving.cc:930-948 `pivot_` up to the assertion in line 949. -/
def pivotMid (s : S V) (lvl i j : Nat) (v : V) : S V :=
  let a := (Tableau.findCell (s.tab.rows i).cells j).getD 0
  let d := (s.tab.rows i).den
  let xi := s.index (i + s.n)
  let xj := s.index j
  let vj := divMul (v - s.value xi) a d
  let s := s.setValue lvl xi v false
  let s := s.setValue lvl xj vj true
  let s := (s.tab.colEntries j).foldl (fun s (e : Nat × Int × Int) =>
    if e.1 ≠ i then
      let s := s.setValue lvl (s.index (e.1 + s.n)) (mulDiv vj e.2.1 e.2.2) true
      s.enqueue e.1
    else s) s
  { s with tab := s.tab.compactCol j }

/-- solving.cc:952-959 `pivot_` after the assertion in line 949; `xi` and `xj` are the variables of row `i` and column
`j` before the pivot. -/
def pivotEnd (s : S V) (i j xi xj : Nat) : S V :=
  let ri := s.rindex xi
  let rj := s.rindex xj
  let s := { s with rindex := Function.update (Function.update s.rindex xi rj) xj ri }
  let ii := s.index (i + s.n)
  let jj := s.index j
  let s := { s with index := Function.update (Function.update s.index (i + s.n) jj) j ii }
  let s := s.enqueue i
  { s with tab := s.tab.pivot i j, pivots := s.pivots + 1 }

/-- The two parts make up `pivot_`. -/
theorem pivot_parts (s : S V) (lvl i j : Nat) (v : V) {a : Int} (ha : Tableau.findCell (s.tab.rows i).cells j = some a)
    (h0 : a ≠ 0) (hi : i < s.m) (hj : j < s.n) :
    s.pivot lvl i j v = (s.pivotMid lvl i j v).pivotEnd i j (s.index (i + s.n)) (s.index j) := by
  have h1 : ¬ s.m ≤ i := by omega
  have h2 : ¬ s.n ≤ j := by omega
  unfold pivot pivotMid pivotEnd
  simp only [ha, h0, h1, h2, decide_false, Bool.or_false, Option.getD_some, Bool.false_eq_true, if_false]

/-- solving.cc:929-963 the assertions of `pivot_` (lines 933, 949, 960-962, the ranges and those of the tableau). -/
def pivotAsserts (extra : Bool) (s : S V) (lvl i j : Nat) (v : V) : Bool :=
  decide ((Tableau.findCell (s.tab.rows i).cells j).getD 0 ≠ 0) && decide (i < s.m) && decide (j < s.n) && s.colOk j &&
  assertExtra extra (s.pivotMid lvl i j v).checkTableau && (s.pivotMid lvl i j v).tab.pivotAsserts i j &&
  assertExtra extra (s.pivot lvl i j v).checkTableau && assertExtra extra (s.pivot lvl i j v).checkBasic &&
  assertExtra extra (s.pivot lvl i j v).checkNonBasic

/-! ### select -/

/-- solving.cc:970-1016 the assertions of `select_`: line 974 for each variable taken from the queue and line 1016. -/
def selectLoopAsserts (extra : Bool) : List Nat → S V → Bool
  | [], s => assertExtra extra ({ s with conflicts := [] }).checkSolution
  | ii :: rest, s =>
    decide (ii = s.index (s.rindex ii)) &&
    (let s := { s with queued := Function.update s.queued ii false }
     if s.rindex ii < s.n then selectLoopAsserts extra rest s
     else if s.belowLo ii || s.aboveUp ii then true
     else selectLoopAsserts extra rest s)

/-- solving.cc:965-1019 the assertions of `select_`. -/
def selectAsserts (extra : Bool) (s : S V) : Bool := selectLoopAsserts extra s.conflicts s

/-! ### solve -/

/-- solving.cc:597-617 the assertions of `update_bound_`. -/
def updateBoundAsserts (ctl : Ctl) (s : S V) (b : Nat) (bd : Bound V) : Bool :=
  let x := bd.var
  let r := s.updateVar ctl b bd
  let s := r.1
  if !r.2 then true
  else if s.rindex x < s.n then
    if s.belowLo x || s.aboveUp x then s.updateAsserts (s.rindex x) else true
  else decide (s.rindex x - s.n < s.m)

/-- solving.cc:679-685 the assertions for the bounds of literal `lit`. -/
def updateBoundsAsserts (ctl : Ctl) (lit : Int) : List (Nat × Bound V) → S V → Bool
  | [], _ => true
  | (b, bd) :: bs, s =>
    decide (lit = bd.lit) && s.updateBoundAsserts ctl b bd &&
    (let r := s.updateBound ctl b bd
     if r.2 then updateBoundsAsserts ctl lit bs r.1 else true)

/-- solving.cc:678-686 the assertions for all literals. -/
def updateLitsAsserts (ctl : Ctl) : List Int → S V → Bool
  | [], _ => true
  | l :: ls, s =>
    updateBoundsAsserts ctl l (s.boundsOf l) s &&
    (let r := updateBounds ctl (s.boundsOf l) s
     if r.2 then updateLitsAsserts ctl ls r.1 else true)

/-- solving.cc:729-802 the assertions of `propagate_row`. -/
def propRowAsserts (s : S V) (i : Nat) : Bool :=
  s.rowOk i && (if !s.rowHasUpper i && !s.rowHasLower i then true else decide (i < s.m))

/-- solving.cc:804-810 the rows in the queue. -/
def propQueueAsserts (ctl : Ctl) : List Nat → S V → Bool
  | [], _ => true
  | i :: is, s =>
    { s with pqueue := is }.propRowAsserts i &&
    (let r := { s with pqueue := is }.propRow ctl i
     if r.2 then propQueueAsserts ctl is r.1 else true)

/-- solving.cc:812-816 all rows. -/
def propRowsAsserts (ctl : Ctl) : List Nat → S V → Bool
  | [], _ => true
  | i :: is, s =>
    s.propRowAsserts i &&
    (let r := s.propRow ctl i
     if r.2 then propRowsAsserts ctl is r.1 else true)

/-- solving.cc:712-819 the assertions of `propagate_`. -/
def propagateAsserts (ctl : Ctl) (s : S V) : Bool :=
  match s.opts.propagateMode with
  | .none => true
  | .changed => propQueueAsserts ctl s.pqueue s
  | .full => propRowsAsserts ctl (List.range s.m) s

/-- solving.cc:692-709 the assertions of the first `fuel` iterations of the loop of `solve`. -/
def solveLoopAsserts (extra : Bool) (ctl : Ctl) : Nat → S V → Bool
  | 0, _ => true
  | fuel + 1, s =>
    s.selectAsserts extra &&
    (let r := s.select
     let s := r.1
     match r.2 with
     | .sat => (if s.opts.store = .part then s.storeSat else s).propagateAsserts ctl
     | .unsat => true
     | .unknown i j v => s.pivotAsserts extra ctl.dl i j v && solveLoopAsserts extra ctl fuel (s.pivot ctl.dl i j v))

/-- solving.cc:665-710 the assertions of `solve`. -/
def solveAsserts (extra : Bool) (ctl : Ctl) (fuel : Nat) (s : S V) (lits : List Int) : Bool :=
  updateLitsAsserts ctl lits (s.pushOff ctl) &&
  (let r := updateLits ctl lits (s.pushOff ctl)
   if r.2 then
     assertExtra extra r.1.checkTableau && assertExtra extra r.1.checkBasic && assertExtra extra r.1.checkNonBasic &&
     solveLoopAsserts extra ctl fuel r.1
   else true)

/-- solving.cc:821-866 the assertion of `undo` (line 862). -/
def undoAsserts (extra : Bool) (s : S V) : Bool := assertExtra extra s.undo.checkSolution

/-! ### optimize -/

/-- solving.cc:541-561 the assertions in the loop selecting the leaving variable: the range and line 549. -/
def leaveAsserts (s : S V) (pos : Bool) (e : Nat × Int × Int) : Bool :=
  decide (e.1 < s.m) &&
  (let ii := s.index (e.1 + s.n)
   match (if (decide (e.2.1 > 0) == decide (e.2.2 > 0)) == pos then s.up ii else s.lo ii) with
   | none => true
   | some _ => decide (e.1 = s.rindex ii - s.n))

/-- solving.cc:506-580 the assertions of one iteration of `optimize` (none once the index in line 508 is out of range, which is undefined
behaviour). -/
def optStepAsserts (extra : Bool) (s : S V) : Bool :=
  if s.rindex s.obj.var < s.n then true
  else
  let z := s.rindex s.obj.var - s.n
  let en := s.selectEnter z
  if en.1 = s.nvars then assertExtra extra s.checkSolution
  else
    let ee := en.1
    let e := s.rindex ee
    decide (ee = s.index e) && (s.tab.colEntries e).all (s.leaveAsserts en.2) &&
    (let lv := s.selectLeave ee en.2
     let s := { s with tab := s.tab.compactCol e }
     let level := s.topLevel
     match lv with
     | some c => s.pivotAsserts extra level (s.rindex c.ll - s.n) e c.bnd
     | none =>
       match (if en.2 then s.up ee else s.lo ee) with
       | none => assertExtra extra s.checkSolution
       | some _ => s.updateAsserts e)

/-- solving.cc:506-580 the loop of `optimize`. -/
def optLoopAsserts (extra : Bool) : Nat → S V → Bool
  | 0, _ => true
  | fuel + 1, s =>
    s.optStepAsserts extra &&
    (match s.optStep with
     | .inl _ => true
     | .inr s => optLoopAsserts extra fuel s)

/-- solving.cc:446-581 the assertions of `optimize` (lines 447 and 505 and those of the loop). -/
def optimizeAsserts (extra : Bool) (fuel : Nat) (s : S V) : Bool :=
  if s.obj.active then decide (s.n ≤ s.rindex s.obj.var) && assertExtra extra s.checkSolution && optLoopAsserts extra fuel s else true

/-! ### prepare -/

/-- solving.cc:88 the assertion in `bound_val`: only in the instance for rational numbers, where `strict` is not
available. -/
def boundValAssert (strict : Bool) : Relation → Bool
  | .lt | .gt => strict
  | _ => true

variable {Sym : Type}

/-- solving.cc:119-143 the assertions of `get_non_basic` (line 121) for one row. -/
def addRowAsserts (idx : Sym → Option Nat) (ts : List (Term Sym)) : Bool := ts.all fun t => (idx t.var).isSome

/-- solving.cc:285-347 the assertions for one inequality (none after the division by zero in line 336, which is undefined behaviour). -/
def prepIneqAsserts (strict : Bool) (env : InitEnv) (idx : Sym → Option Nat) (s : S V) (x : Ineq Sym) : Bool :=
  if env.isFalse s.out x.lit then true
  else addRowAsserts idx x.lhs &&
    (match x.lhs with
     | [] => true
     | [t] => decide (t.co = 0) || boundValAssert strict x.rel
     | _ => boundValAssert strict x.rel)

/-- solving.cc:285-347 the loop over the inequalities in `prepare`. -/
def prepIneqsAsserts (strict : Bool) (env : InitEnv) (idx : Sym → Option Nat) (master : Bool) : List (Ineq Sym) → S V → Bool
  | [], _ => true
  | x :: xs, s =>
    s.prepIneqAsserts strict env idx x &&
    (let r := prepIneq env idx master s x
     if r.2 then prepIneqsAsserts strict env idx master xs r.1 else true)

/-- solving.cc:366-375: the range assertion of `enqueue_` and the crosschecks. -/
def prepEndAsserts (extra : Bool) (s : S V) : Bool :=
  (List.range s.m).all (fun i => decide (i < s.m)) &&
  (let s := ((List.range s.m).foldl (fun s i => s.enqueue i) s).fillBounds
   assertExtra extra s.checkTableau && assertExtra extra s.checkBasic && assertExtra extra s.checkNonBasic)

/-- solving.cc:278-400 the assertions of `prepare`. -/
def prepareAsserts (V : Type) [LpValue V] (extra strict : Bool) (env : InitEnv) (opts : Options) (idx : Sym → Option Nat)
    (size : Nat) (ineqs : List (Ineq Sym)) (objective : List (Term Sym)) (master : Bool) : Bool :=
  prepIneqsAsserts strict env idx master ineqs (initS opts size env.order : S V) &&
  (let r := prepIneqs env idx master ineqs (initS opts size env.order : S V)
   if !r.2 then true else addRowAsserts idx objective && (prepObjective idx objective r.1).prepEndAsserts extra)

end S

/-! ### the callbacks -/

section
variable {V : Type} [LpFull V]

/-- solving.cc:1135-1152 the assertions in the second part of `check`. -/
def S.checkObjAsserts (extra : Bool) (ctl : Ctl) (fuel : Nat) (total : Bool) (o : ObjState V) (s : S V) : Bool :=
  let r := s.integrate ctl o
  if !r.2 then true else if total then r.1.optimizeAsserts extra fuel else true

/-- solving.cc:1071-1078 the assertions in the loop preparing the solvers. The assertion in line 88 is only compiled in
the instance for rational numbers, where strict relations are not available. -/
def initThrsAsserts (V : Type) [LpFull V] (extra : Bool) (envs : Nat → InitEnv) (opts : Options) (idx : Symbol → Option Nat) (size : Nat)
    (p : Prog) : (k i : Nat) → Bool
  | 0, _ => true
  | k + 1, i =>
    S.prepareAsserts V extra (LpSem.strict V) (envs i) opts idx size p.iqs p.objective (i == 0) &&
    (if (S.prepare (V := V) (envs i) opts idx size p.iqs p.objective (i == 0)).2 then initThrsAsserts V extra envs opts idx size p k (i + 1)
     else true)

namespace Propagator

/-- solving.cc:1046-1079 the assertions of `init`. -/
def initAsserts (extra : Bool) (be : Backend) (mapper : Int → Int) (atoms : List TAtom) (envs : Nat → InitEnv) (nthreads : Nat)
    (p : Propagator V) : Bool :=
  match evaluateTheory be mapper atoms p.prog with
  | .error _ => true
  | .ok prog =>
    let m := gatherProg (p.varMap, p.varVec) prog
    initThrsAsserts V extra envs p.opts (fun x => m.1.lookup x) m.1.length prog nthreads 0

/-- solving.cc:1155-1163 the assertions of `propagate` (in the first `fuel` iterations of the loop in `solve`). -/
def propagateAsserts (extra : Bool) (fuel : Nat) (ctl : Ctl) (th : Nat) (lits : List Int) (p : Propagator V) : Bool :=
  match p.thrs[th]? with
  | none => true
  | some t => t.slv.solveAsserts extra ctl fuel lits

/-- solving.cc:1126-1134 the assertions in the first part of `check`. -/
def checkFactsAsserts (extra : Bool) (fuel : Nat) (ctl : Ctl) (th : Nat) (p : Propagator V) : Bool :=
  match p.thrs[th]? with
  | none => true
  | some t => if p.needFacts ctl t then t.slv.solveAsserts extra ctl fuel (p.factSpan t) else true

/-- solving.cc:1124-1152 the assertions of `check` (in the first `fuel` iterations of the loops). -/
def checkAsserts (extra : Bool) (fuel : Nat) (ctl : Ctl) (total : Bool) (th : Nat) (p : Propagator V) : Bool :=
  p.checkFactsAsserts extra fuel ctl th &&
  (match p.checkFacts fuel ctl th with
   | none => true
   | some (p, ok) =>
     if ok then
       match p.thrs[th]? with
       | none => true
       | some t => t.slv.checkObjAsserts extra ctl fuel total p.obj
     else true)

/-- solving.cc:1166-1169 the assertion of `undo`. -/
def undoAsserts (extra : Bool) (th : Nat) (p : Propagator V) : Bool :=
  match p.thrs[th]? with
  | none => true
  | some t => t.slv.undoAsserts extra

end Propagator
end
end Lpx
