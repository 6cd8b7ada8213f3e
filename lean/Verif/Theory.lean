import Verif.Parsing

/-!
# Model of the theory definitions (parsing.hh:7-55)

The tables `THEORY` and `THEORY_Q` are passed to clingo as text; here they are data. What clingo does with them is the environment: the checks
of theory atoms and the operator precedence parser of clingo 5 (libgringo, `TheoryAtomDef`, `TheoryTermDef`, `TheoryParser`), written down below so that
the effect of the tables can be stated.
-/

namespace Lpx

/-- An operator of a theory term definition. The associativity of unary operators is not used. parsing.hh:7-55. -/
structure OpDef where
  name : List Char
  prio : Nat
  unary : Bool
  left : Bool := true
deriving DecidableEq, Repr

/-- parsing.hh:9-15, 34-40 `sum_term`. -/
def sumTerm : List OpDef :=
  [⟨['+'], 1, false, true⟩, ⟨['-'], 1, false, true⟩, ⟨['*'], 2, false, true⟩, ⟨['/'], 2, false, true⟩, ⟨['-'], 3, true, true⟩]

/-- parsing.hh:16-23, 41-48 `dom_term`. -/
def domTerm : List OpDef :=
  [⟨['.', '.'], 0, false, true⟩, ⟨['+'], 1, false, true⟩, ⟨['-'], 1, false, true⟩, ⟨['*'], 2, false, true⟩, ⟨['/'], 2, false, true⟩,
    ⟨['-'], 3, true, true⟩]

/-- A theory atom definition; the arity of all atoms is zero. `guard` lists the relations and the term definition of the guard. parsing.hh:7-55. -/
structure AtomDef where
  name : List Char
  elems : List OpDef
  guard : Option (List String × List OpDef)
  directive : Bool

/-- clingo-lpx.cc:352-361 `clingolpx_register`: strict mode selects the value type and one of the theories. parsing.hh:24-28 (`THEORY`, `strict = false`) and parsing.hh:49-53 (`THEORY_Q`, `strict = true`). -/
def theoryDef (strict : Bool) : List AtomDef :=
  let rels := if strict then ["<=", "=", ">=", "<", ">"] else ["<=", "=", ">="]
  [⟨"minimize".toList, sumTerm, none, true⟩, ⟨"maximize".toList, sumTerm, none, true⟩, ⟨['s', 'u', 'm'], sumTerm, some (rels, sumTerm), false⟩,
    ⟨['d', 'i', 'f', 'f'], sumTerm, some (rels, sumTerm), false⟩, ⟨['d', 'o', 'm'], domTerm, some (["="], domTerm), false⟩]

/-- Where a theory atom occurs: as the head of a fact, as the head of a rule with a body, or in a body. Environment: clingo, for parsing.hh:7-55. -/
inductive Place
  | fact
  | head
  | body
  deriving DecidableEq

/-- parsing.hh:24-28, 49-53: clingo's check of the place of an atom against the definitions; `directive` atoms have to be facts, the others are
declared `head` and may not occur in bodies. -/
def allowedAt (strict : Bool) (a : TAtom) (pl : Place) : Bool :=
  (theoryDef strict).any fun d => isName a.term d.name && match pl with
    | .fact => true
    | .head => !d.directive
    | .body => false

/-- clingo's check of a theory atom against the definitions: there is a definition with its name and, if the atom has a guard, it has to have a
relation from the definition. (The guard may be missing.) Environment, for parsing.hh:7-55. -/
def admitted (strict : Bool) (a : TAtom) : Bool :=
  (theoryDef strict).any fun d => isName a.term d.name &&
    match a.guard, d.guard with
    | none, _ => true
    | some g, some r => decide (g.1 ∈ r.1)
    | some _, none => false

/-! ### reading terms -/

/-- A term as it is written, without parentheses on the top-level: operands with their unary operators, separated by binary operators. (Parentheses,
function arguments and so on are read recursively and are operands here.) Environment: clingo, for parsing.hh:7-55. -/
structure Unparsed where
  ops : List (List Char)
  head : TTerm
  rest : List (List Char × List (List Char) × TTerm)

/-- Elements of the stack of the parser. Environment: clingo, for parsing.hh:7-55. -/
inductive Item where
  | term (t : TTerm)
  | op (o : OpDef)

/-- `TheoryTermDef::hasOp` and `getPrioAssoc`. Environment: clingo, for parsing.hh:7-55. -/
def findOp (ops : List OpDef) (name : List Char) (unary : Bool) : Option OpDef := ops.find? fun o => o.name == name && o.unary == unary

/-- `TheoryParser::reduce_`. The top of the stack is the head of the list. Environment: clingo, for parsing.hh:7-55. -/
def reduceTop : List Item → Option (List Item)
  | .term b :: .op o :: st =>
    if o.unary then some (.term (.func o.name [b]) :: st)
    else match st with
      | .term a :: st => some (.term (.func o.name [a, b]) :: st)
      | _ => none
  | _ => none

/-- `TheoryParser::check_`: whether the operator on the stack binds stronger than the next (binary) one. Environment: clingo, for parsing.hh:7-55. -/
def mustReduce (o : OpDef) : List Item → Bool
  | .term _ :: .op p :: _ => decide (o.prio < p.prio) || (decide (o.prio = p.prio) && o.left)
  | _ => false

/-- `while (check_(op)) reduce_();` each reduction makes the stack smaller. Environment: clingo, for parsing.hh:7-55. -/
def reduceWhile (o : OpDef) : Nat → List Item → Option (List Item)
  | 0, st => some st
  | n + 1, st => if mustReduce o st then (reduceTop st).bind (reduceWhile o n) else some st

/-- `while (stack_.size() > 1) reduce_();` Environment: clingo, for parsing.hh:7-55. -/
def reduceAll : Nat → List Item → Option (List Item)
  | 0, st => some st
  | n + 1, st => if st.length > 1 then (reduceTop st).bind (reduceAll n) else some st

/-- Push the unary operators of an operand. Environment: clingo, for parsing.hh:7-55. -/
def pushUnary (ops : List OpDef) : List (List Char) → List Item → Option (List Item)
  | [], st => some st
  | u :: us, st => (findOp ops u true).bind fun o => pushUnary ops us (.op o :: st)

/-- The loop over the elements of the term after the first operand. Environment: clingo, for parsing.hh:7-55. -/
def pushRest (ops : List OpDef) : List (List Char × List (List Char) × TTerm) → List Item → Option (List Item)
  | [], st => some st
  | (b, us, t) :: es, st => do
    let o ← findOp ops b false
    let st ← reduceWhile o st.length st
    let st ← pushUnary ops us (.op o :: st)
    pushRest ops es (.term t :: st)

/-- `TheoryParser::parse`. Environment: clingo, for parsing.hh:7-55. -/
def readTerm (ops : List OpDef) (u : Unparsed) : Option TTerm := do
  let st ← pushUnary ops u.ops []
  let st ← pushRest ops u.rest (.term u.head :: st)
  let st ← reduceAll st.length st
  match st with
  | [.term t] => some t
  | _ => none

end Lpx
