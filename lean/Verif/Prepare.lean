import Verif.Solver

/-!
# Model of `Solver::prepare` (solving.cc:109-147, 278-400)

The symbol map is a function `idx : Sym → Option Nat` with its size. The environment answers `is_false` and the results
of `add_clause`/`propagate` depending on the clauses added so far.
-/

namespace Lpx

/-- `Clingo::PropagateInit` as far as `prepare` uses it. Environment of solving.cc:278-400. -/
structure InitEnv where
  isFalse : List (List Int) → Int → Bool
  /-- result of `add_clause` (and `propagate`) after the given clauses were added -/
  ok : List (List Int) → Bool
  /-- the order in which the hash table of the new solver is visited (not part of `PropagateInit`) -/
  order : Order := {}

/-- solving.cc:67-82 `bound_rel`. -/
def boundRel : Relation → BRel
  | .lt | .le => .le
  | .gt | .ge => .ge
  | .eq => .eq

/-- solving.cc:84-107 `bound_val`; for `Rational` (where `eps = 0`) it is the identity and strict relations are
excluded by an assertion. -/
def boundVal {V : Type} [LpValue V] (x : Rat) : Relation → V
  | .lt => LpValue.ofRat x - LpValue.eps
  | .gt => LpValue.ofRat x + LpValue.eps
  | _ => LpValue.ofRat x

/-- On epsilon numbers this is literally `RationalQ{x, -1}`, `RationalQ{x, 1}` and `RationalQ{x}`. -/
theorem boundVal_ratq (x : Rat) (r : Relation) :
    (boundVal x r : RatQ) = ⟨x, match r with | .lt => -1 | .gt => 1 | _ => 0⟩ := by
  cases r <;> ext <;> simp [boundVal, LpValue.ofRat, LpValue.eps]

/-- solving.cc:294-330: the test that adds the clause `{-x.lit}` for a constraint without variables. -/
def constTest : Relation → Rat → Bool
  | .lt, r => decide (0 ≤ r)
  | .le, r => decide (0 < r)
  | .gt, r => decide (r ≤ 0)
  | .ge, r => decide (r < 0)
  | .eq, r => decide (r ≠ 0)

namespace S
variable {V : Type} [LpValue V]

/-- solving.cc:110-117 constructor of `Prepare`: `size` non-basic variables with value 0; `index` and `reverse_index`
are the identity. -/
def initS (opts : Options) (size : Nat) (o : Order := {}) : S V := { opts := opts, order := o, nvars := size, n := size, value := fun _ => 0 }

/-- solving.cc:125-131 `add_basic` (the new variable keeps `index = reverse_index = position`, the default). -/
def addBasic (s : S V) : S V := { s with nvars := s.nvars + 1, m := s.m + 1 }

variable {Sym : Type}

/-- solving.cc:119-123, 133-143 `get_non_basic` and `add_row`; an unknown symbol is undefined behaviour. -/
def addRow (idx : Sym → Option Nat) : List (Term Sym) → Option (List (Nat × Rat))
  | [] => some []
  | t :: ts =>
    match idx t.var, addRow idx ts with
    | some j, some r => some ((j, t.co) :: r)
    | _, _ => none

/-- solving.cc:343-345, 355-357: `tableau_.set(i, j, v)` for all entries of a row. -/
def setRow (t : Tableau) (i : Nat) (row : List (Nat × Rat)) : Tableau :=
  row.foldl (fun t (e : Nat × Rat) => t.set i e.1 e.2) t

/-- solving.cc:339-345, 353-359: a new basic variable defined by `row` (its index is `variables_.size() - 1`). -/
def newRow (s : S V) (row : List (Nat × Rat)) : S V :=
  let i := s.m
  let s := s.addBasic
  { s with tab := setRow s.tab i row }

/-- solving.cc:285-347: one inequality. -/
def prepIneq (env : InitEnv) (idx : Sym → Option Nat) (master : Bool) (s : S V) (x : Ineq Sym) : S V × Bool :=
  if env.isFalse s.out x.lit then (s, true)
  else
    match addRow idx x.lhs with
    | none => ({ s with ub := true }, false)
    | some [] =>
      if !master then (s, true)
      else if constTest x.rel x.rhs then
        let s := { s with out := s.out ++ [[-x.lit]] }
        (s, env.ok s.out)
      else (s, true)
    | some [(j, v)] =>
      if v = 0 then ({ s with ub := true }, false) else
      let rel := if v < 0 then x.rel.invert else x.rel
      let b : Bound V := { value := boundVal (x.rhs / v) rel, var := s.index j, lit := x.lit, rel := boundRel rel }
      ({ s with bounds := s.bounds ++ [b] }, true)
    | some row =>
      let s := s.newRow row
      let b : Bound V := { value := boundVal x.rhs x.rel, var := s.nvars - 1, lit := x.lit, rel := boundRel x.rel }
      ({ s with bounds := s.bounds ++ [b] }, true)

/-- solving.cc:285-347 the loop over the inequalities in `prepare`. -/
def prepIneqs (env : InitEnv) (idx : Sym → Option Nat) (master : Bool) : List (Ineq Sym) → S V → S V × Bool
  | [], s => (s, true)
  | x :: xs, s =>
    let r := prepIneq env idx master s x
    if r.2 then prepIneqs env idx master xs r.1 else r

/-- solving.cc:349-364: the rows for the objective. -/
def prepObjective (idx : Sym → Option Nat) (objective : List (Term Sym)) (s : S V) : S V :=
  if objective.isEmpty then s
  else
    match addRow idx objective with
    | none => { s with ub := true }
    | some row =>
      let s := { s with obj := { s.obj with active := true } }
      let s := if s.opts.globalObjective.isSome then
          let s := s.newRow row
          { s with obj := { s.obj with boundVar := s.nvars - 1 } }
        else s
      let s := s.newRow row
      { s with obj := { s.obj with var := s.nvars - 1 } }

/-- solving.cc:370-372: collect the bounds of each variable, in the order of the hash table. -/
def fillBounds (s : S V) : S V :=
  let vb := ((s.order.f (List.range s.bounds.length)).filterMap fun b => (s.bounds[b]?).map fun bd => (bd, b)).foldl
    (fun f (p : Bound V × Nat) => Function.update f p.1.var (f p.1.var ++ [p.2])) s.vbounds
  { s with vbounds := vb }

/-- solving.cc:384-395 the inner loop over the bounds after `ba`. -/
def confInner (env : InitEnv) (ba : Bound V) : List Nat → S V → S V × Bool
  | [], s => (s, true)
  | b :: bs, s =>
    match s.bounds[b]? with
    | none => ({ s with ub := true }, false)
    | some bb =>
      if decide (ba.lit ≠ -bb.lit) && !env.isFalse s.out bb.lit && ba.conflicts bb then
        let c := [-ba.lit, -bb.lit]
        let s := { s with clause := c, out := s.out ++ [c] }
        if env.ok s.out then confInner env ba bs s else (s, false)
      else confInner env ba bs s

/-- solving.cc:382-396 the loop over the bounds of one variable. -/
def confVar (env : InitEnv) : List Nat → S V → S V × Bool
  | [], s => (s, true)
  | a :: as, s =>
    match s.bounds[a]? with
    | none => ({ s with ub := true }, false)
    | some ba =>
      let r := confInner env ba as s
      if r.2 then confVar env as r.1 else r

/-- solving.cc:380-398 the loop over the variables. -/
def confVars (env : InitEnv) : List Nat → S V → S V × Bool
  | [], s => (s, true)
  | v :: vs, s =>
    let r := confVar env (s.vbounds v) s
    if r.2 then confVars env vs r.1 else r

/-- solving.cc:278-400 `prepare` on a fresh solver. -/
def prepare (env : InitEnv) (opts : Options) (idx : Sym → Option Nat) (size : Nat) (ineqs : List (Ineq Sym))
    (objective : List (Term Sym)) (master : Bool) : S V × Bool :=
  let r := prepIneqs env idx master ineqs (initS opts size env.order)
  if !r.2 then r
  else
    let s := prepObjective idx objective r.1
    let s := (List.range s.m).foldl (fun s i => s.enqueue i) s
    let s := s.fillBounds
    if s.opts.propagateConflicts && master then confVars env (List.range s.nvars) s else (s, true)

end S
end Lpx
