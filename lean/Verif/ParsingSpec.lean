import Mathlib.Tactic.Tauto
import Verif.Decimal

/-!
# Specification of theory terms and atoms

What terms, elements and atoms mean arithmetically. Nothing here refers to the parser (parsing.cc) modelled in
`Parsing.lean`, except for its data types and `unquote` (escape sequences in strings).
-/

namespace Lpx

/-- The arithmetic operators of the theory grammar. -/
def ArithOp (name : List Char) (arity : ℕ) : Prop :=
  (arity = 2 ∧ name ∈ [['+'], ['-'], ['*'], ['/']]) ∨ (arity = 1 ∧ name ∈ [['-'], ['+']])

/-- Function symbols that are evaluated rather than kept as part of a symbol. -/
def Evaluated (name : List Char) (arity : ℕ) : Prop :=
  (arity = 2 ∧ name ∈ [['+'], ['-'], ['*'], ['/'], ['.', '.']]) ∨ (arity = 1 ∧ name = ['-'])

/-- A quoted string. -/
def Quoted (name : List Char) : Prop := ∃ s, name = '"' :: (s ++ ['"'])

mutual
/-- `Denotes ns t v`: the ground term `t` denotes the number or symbol `v`; `ns` tells if strings can be numbers. -/
inductive Denotes : Bool → TTerm → Val → Prop
  | number (ns n) : Denotes ns (.number n) (.rat n)
  | decimal (name q) : Decimal name q → Denotes true (.symbol name) (.rat q)
  | string (ns s) : (ns = true → ¬ ∃ q, Decimal ('"' :: (s ++ ['"'])) q) →
      Denotes ns (.symbol ('"' :: (s ++ ['"']))) (.sym (.str (unquote s)))
  | const (ns name) : ¬ Quoted name → Denotes ns (.symbol name) (.sym (.fn name [] true))
  | add (ns a b x y) : Denotes ns a (.rat x) → Denotes ns b (.rat y) → Denotes ns (.func ['+'] [a, b]) (.rat (x + y))
  | sub (ns a b x y) : Denotes ns a (.rat x) → Denotes ns b (.rat y) → Denotes ns (.func ['-'] [a, b]) (.rat (x - y))
  | mul (ns a b x y) : Denotes ns a (.rat x) → Denotes ns b (.rat y) → Denotes ns (.func ['*'] [a, b]) (.rat (x * y))
  | div (ns a b x y) : Denotes ns a (.rat x) → Denotes ns b (.rat y) → y ≠ 0 →
      Denotes ns (.func ['/'] [a, b]) (.rat (x / y))
  | neg (ns a x) : Denotes ns a (.rat x) → Denotes ns (.func ['-'] [a]) (.rat (-x))
  | cneg (ns a name args pos) : name ≠ [] → Denotes ns a (.sym (.fn name args pos)) →
      Denotes ns (.func ['-'] [a]) (.sym (.fn name args !pos))
  | func (ns name args ss) : ¬ Evaluated name args.length → DenotesArgs args ss →
      Denotes ns (.func name args) (.sym (.fn name ss true))
  | tuple (ns args ss) : DenotesArgs args ss → Denotes ns (.tuple args) (.sym (.fn [] ss true))
/-- Arguments of functions and tuples: symbols, and integers that fit into 32 bits. -/
inductive DenotesArgs : List TTerm → List Symbol → Prop
  | nil : DenotesArgs [] []
  | num (t ts) (n : ℤ) (ss) : Denotes false t (.rat n) → -2 ^ 31 ≤ n → n < 2 ^ 31 → DenotesArgs ts ss →
      DenotesArgs (t :: ts) (.num n :: ss)
  | sym (t ts s ss) : Denotes false t (.sym s) → DenotesArgs ts ss → DenotesArgs (t :: ts) (s :: ss)
end

/-- Terms read as a variable in a sum: no arithmetic operator on top and not a number. -/
def IsVarTerm : TTerm → Prop
  | .symbol name => ¬ ∃ q, Decimal name q
  | .func name args => ¬ ArithOp name args.length
  | .tuple _ => True
  | _ => False

/-- `Means g t x`: under the valuation `g` of the variables, the arithmetic value of the term `t` is `x`. -/
inductive Means (g : Symbol → ℚ) : TTerm → ℚ → Prop
  | number (n : ℤ) : Means g (.number n) n
  | decimal (name q) : Decimal name q → Means g (.symbol name) q
  | var (t s) : IsVarTerm t → Denotes false t (.sym s) → Means g t (g s)
  | add (a b x y) : Means g a x → Means g b y → Means g (.func ['+'] [a, b]) (x + y)
  | sub (a b x y) : Means g a x → Means g b y → Means g (.func ['-'] [a, b]) (x - y)
  | mul (a b x y) : Means g a x → Means g b y → Means g (.func ['*'] [a, b]) (x * y)
  | div (a b x y) : Means g a x → Means g b y → y ≠ 0 → Means g (.func ['/'] [a, b]) (x / y)
  | neg (a x) : Means g a x → Means g (.func ['-'] [a]) (-x)
  | pos (a x) : Means g a x → Means g (.func ['+'] [a]) x

/-- The term contains a variable. -/
inductive HasVar : TTerm → Prop
  | var (t) : IsVarTerm t → HasVar t
  | arg (name args a) : ArithOp name args.length → a ∈ args → HasVar a → HasVar (.func name args)

/-- Linear terms: no product of two terms with variables, only divisions by non-zero numbers. -/
inductive Linear : TTerm → Prop
  | number (n) : Linear (.number n)
  | decimal (name q) : Decimal name q → Linear (.symbol name)
  | var (t s) : IsVarTerm t → Denotes false t (.sym s) → Linear t
  | add (a b) : Linear a → Linear b → Linear (.func ['+'] [a, b])
  | sub (a b) : Linear a → Linear b → Linear (.func ['-'] [a, b])
  | mul (a b) : Linear a → Linear b → ¬ (HasVar a ∧ HasVar b) → Linear (.func ['*'] [a, b])
  | div (a b q) : Linear a → Denotes true b (.rat q) → q ≠ 0 → Linear (.func ['/'] [a, b])
  | neg (a) : Linear a → Linear (.func ['-'] [a])
  | pos (a) : Linear a → Linear (.func ['+'] [a])

/-- The linear term has a summand without variables. -/
inductive ConstSummand : TTerm → Prop
  | number (n) : ConstSummand (.number n)
  | decimal (name q) : Decimal name q → ConstSummand (.symbol name)
  | addl (a b) : ConstSummand a → ConstSummand (.func ['+'] [a, b])
  | addr (a b) : ConstSummand b → ConstSummand (.func ['+'] [a, b])
  | subl (a b) : ConstSummand a → ConstSummand (.func ['-'] [a, b])
  | subr (a b) : ConstSummand b → ConstSummand (.func ['-'] [a, b])
  | mul (a b) : ConstSummand a → ConstSummand b → ConstSummand (.func ['*'] [a, b])
  | div (a b) : ConstSummand a → ConstSummand (.func ['/'] [a, b])
  | neg (a) : ConstSummand a → ConstSummand (.func ['-'] [a])
  | pos (a) : ConstSummand a → ConstSummand (.func ['+'] [a])

/-- `Sub s t`: `s` is a subterm of `t`. -/
inductive Sub (s : TTerm) : TTerm → Prop
  | refl : Sub s s
  | func (name args a) : a ∈ args → Sub s a → Sub s (.func name args)
  | tuple (args a) : a ∈ args → Sub s a → Sub s (.tuple args)
  | list (args a) : a ∈ args → Sub s a → Sub s (.list args)
  | set (args a) : a ∈ args → Sub s a → Sub s (.set args)

/-- The term contains a division by an expression that is zero. -/
def DivByZero (t : TTerm) : Prop := ∃ a b, Sub (.func ['/'] [a, b]) t ∧ Denotes true b (.rat 0)

/-! ### atoms -/

/-- A value as a number, given the variables. -/
def Val.num (g : Symbol → ℚ) : Val → ℚ
  | .rat q => q
  | .sym s => g s

/-- The relations of the guards. -/
def relTable : List (String × Relation) := [("<=", .le), (">=", .ge), ("=", .eq), (">", .gt), ("<", .lt)]

/-- The atom is named `name`. -/
def Named (a : TAtom) (name : String) : Prop := a.term = .symbol name.toList ∨ a.term = .func name.toList []

/-- The value an element contributes: the value of its term if its condition holds and zero otherwise.
`tr` tells which solver literals are true, `mapper` maps program literals to solver literals. -/
def ElemVal (mapper : ℤ → ℤ) (tr : ℤ → Prop) (g : Symbol → ℚ) (e : Elem) (x : ℚ) : Prop :=
  ∃ t y, e.tuple = [t] ∧ Means g t y ∧ (((e.cond = [] ∨ tr (mapper e.condId)) ∧ x = y) ∨
    (¬ (e.cond = [] ∨ tr (mapper e.condId)) ∧ x = 0))

/-- The arithmetic reading of `&sum`, `&diff` and `&dom` atoms. -/
inductive AtomHolds (mapper : ℤ → ℤ) (tr : ℤ → Prop) (g : Symbol → ℚ) (a : TAtom) : Prop
  | sum (op t rel xs y) (hn : Named a "sum") (hg : a.guard = some (op, t)) (hr : (op, rel) ∈ relTable)
      (hx : List.Forall₂ (ElemVal mapper tr g) a.elements xs) (hy : Means g t y) (h : rel.holds xs.sum y)
  | diff (op t rel e l r v w y) (hn : Named a "diff") (hg : a.guard = some (op, t)) (hr : (op, rel) ∈ relTable)
      (he : a.elements = [e]) (ht : e.tuple = [.func ['-'] [l, r]]) (hv : Denotes true l v) (hw : Denotes true r w)
      (hy : Means g t y) (h : rel.holds (v.num g - w.num g) y)
  | dom (op t e l u lo hi s) (hn : Named a "dom") (hg : a.guard = some (op, t)) (he : a.elements = [e])
      (ht : e.tuple = [.func ['.', '.'] [l, u]]) (hl : Denotes true l (.rat lo)) (hu : Denotes true u (.rat hi))
      (hs : Denotes false t (.sym s)) (h : lo ≤ g s ∧ g s ≤ hi)

/-- The atoms that are constraints. -/
def IsConstraint (a : TAtom) : Prop := Named a "sum" ∨ Named a "diff" ∨ Named a "dom"

/-- The atoms that are read by the parser. -/
def IsTheoryAtom (a : TAtom) : Prop := IsConstraint a ∨ Named a "minimize" ∨ Named a "maximize"

/-- No conditional element of the atom has a constant summand. -/
def NoCondConst (a : TAtom) : Prop := ∀ e ∈ a.elements, e.cond ≠ [] → ∀ t ∈ e.tuple, ¬ ConstSummand t

/-- The constant parts of the conditional elements are zero. -/
def CondConstZero (a : TAtom) : Prop := ∀ e ∈ a.elements, e.cond ≠ [] → ∀ t ∈ e.tuple, ∀ d, Means (fun _ => 0) t d → d = 0

/-- `ObjVal .. as x`: the sum of the maximised minus the sum of the minimised elements of the atoms is `x`. -/
inductive ObjVal (mapper : ℤ → ℤ) (tr : ℤ → Prop) (g : Symbol → ℚ) : List TAtom → ℚ → Prop
  | nil : ObjVal mapper tr g [] 0
  | max (a as xs y) : Named a "maximize" → List.Forall₂ (ElemVal mapper tr g) a.elements xs → ObjVal mapper tr g as y →
      ObjVal mapper tr g (a :: as) (xs.sum + y)
  | min (a as xs y) : Named a "minimize" → List.Forall₂ (ElemVal mapper tr g) a.elements xs → ObjVal mapper tr g as y →
      ObjVal mapper tr g (a :: as) (-xs.sum + y)
  | other (a as y) : ¬ Named a "maximize" → ¬ Named a "minimize" → ObjVal mapper tr g as y → ObjVal mapper tr g (a :: as) y

/-- A total truth assignment to literals. -/
def Total (tr : ℤ → Prop) : Prop := ∀ l, l ≠ 0 → (tr (-l) ↔ ¬ tr l)

/-- Symbols a user can name as variables; auxiliary variables are numbers. -/
def UserSym (s : Symbol) : Prop := ∀ n, s ≠ .num n

end Lpx
