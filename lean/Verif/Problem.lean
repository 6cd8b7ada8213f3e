import Verif.Num

/-! # Model of problem.hh / problem.cc -/

namespace Lpx

/-- problem.hh:7-13 `enum class Relation`. -/
inductive Relation where
  | le | ge | eq | lt | gt
deriving DecidableEq, Repr

/-- problem.cc:3-23 `invert`. -/
def Relation.invert : Relation → Relation
  | .le => .ge
  | .ge => .le
  | .eq => .eq
  | .lt => .gt
  | .gt => .lt

/-- The arithmetic meaning of a relation (specification). -/
def Relation.holds {α : Type} [LT α] [LE α] : Relation → α → α → Prop
  | .le, a, b => a ≤ b
  | .ge, a, b => b ≤ a
  | .eq, a, b => a = b
  | .lt, a, b => a < b
  | .gt, a, b => b < a

/-- problem.hh:19-22 `struct Term`. -/
structure Term (Sym : Type) where
  co : Rat
  var : Sym
deriving DecidableEq, Repr

/-- problem.hh:26-31 `struct Inequality`. -/
structure Ineq (Sym : Type) where
  lhs : List (Term Sym)
  rhs : Rat
  rel : Relation
  lit : Int
deriving DecidableEq, Repr

/-- Value of a list of terms under a valuation (specification). -/
def evalTerms {Sym : Type} (asg : Sym → Rat) (ts : List (Term Sym)) : Rat :=
  (ts.map fun t => t.co * asg t.var).sum

/-- Meaning of an inequality under a valuation (specification). -/
def Ineq.holds {Sym : Type} (asg : Sym → Rat) (x : Ineq Sym) : Prop :=
  x.rel.holds (evalTerms asg x.lhs) x.rhs

end Lpx
