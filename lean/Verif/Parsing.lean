import Verif.Problem

/-!
# Model of parsing.cc

Theory terms, symbols and theory atoms follow clingo's data model. C strings are lists of characters. Exceptions are
values of `Err`. Output parameters (`res`, `iqs`, `var_map`) become results.
-/

namespace Lpx

/-- Clingo symbols that occur: numbers, strings, functions (with sign); a tuple is a function with empty name. Environment (clingo.hh, class `Symbol`). -/
inductive Symbol where
  | num (n : Int)
  | str (s : List Char)
  | fn (name : List Char) (args : List Symbol) (pos : Bool)

mutual
/-- Equality of symbols. Environment (clingo.hh, `operator==`). -/
def Symbol.decEq : (a b : Symbol) → Decidable (a = b)
  | .num m, .num n => if h : m = n then .isTrue (by rw [h]) else .isFalse (fun e => h (by injection e))
  | .str m, .str n => if h : m = n then .isTrue (by rw [h]) else .isFalse (fun e => h (by injection e))
  | .fn m as p, .fn n bs q =>
    if h : m = n ∧ p = q then
      match Symbol.decEqs as bs with
      | .isTrue h2 => .isTrue (by rw [h.1, h.2, h2])
      | .isFalse h2 => .isFalse (fun e => h2 (by injection e))
    else .isFalse (fun e => h (by injection e with h1 h2 h3; exact ⟨h1, h3⟩))
  | .num _, .str _ => .isFalse (by intro h; injection h)
  | .num _, .fn _ _ _ => .isFalse (by intro h; injection h)
  | .str _, .num _ => .isFalse (by intro h; injection h)
  | .str _, .fn _ _ _ => .isFalse (by intro h; injection h)
  | .fn _ _ _, .num _ => .isFalse (by intro h; injection h)
  | .fn _ _ _, .str _ => .isFalse (by intro h; injection h)
/-- Equality of lists of symbols. Environment (clingo.hh, `operator==`). -/
def Symbol.decEqs : (as bs : List Symbol) → Decidable (as = bs)
  | [], [] => .isTrue rfl
  | [], _ :: _ => .isFalse (by intro h; injection h)
  | _ :: _, [] => .isFalse (by intro h; injection h)
  | a :: as, b :: bs =>
    match Symbol.decEq a b, Symbol.decEqs as bs with
    | .isTrue h1, .isTrue h2 => .isTrue (by rw [h1, h2])
    | .isFalse h1, _ => .isFalse (fun e => h1 (by injection e))
    | _, .isFalse h2 => .isFalse (fun e => h2 (by injection e))
end
instance : DecidableEq Symbol := Symbol.decEq

/-- Clingo theory terms (`TheoryTermType`). Environment (clingo.hh, class `TheoryTerm`, read in parsing.cc:130-330). -/
inductive TTerm where
  | number (n : Int)
  | symbol (name : List Char)
  | func (name : List Char) (args : List TTerm)
  | tuple (args : List TTerm)
  | list (args : List TTerm)
  | set (args : List TTerm)

/-- Exceptions: `runtime_error` of `throw_syntax_error` (parsing.cc:19-27), `overflow_error` of `safe_cast`,
`domain_error` of the IMath back end; `abort` is the process abort of the FLINT back end on a division by zero. -/
inductive Err where
  | syntax | overflow | domain | abort
deriving DecidableEq, Repr

/-- The two number back ends (number_imath.hh, number_flint.hh). -/
inductive Backend where
  | imath | flint
deriving DecidableEq, Repr

/-- parsing.cc:35-43 `is_string` for a term of type `Symbol` with the given name. -/
def isString (name : List Char) : Bool :=
  decide (2 ≤ name.length) && (name.head? == some '"') && (name.getLast? == some '"')

/-- parsing.cc:45-47 `is_invalid`: the symbol standing for constants. -/
def isInvalid : Symbol → Bool
  | .num n => n == 0
  | _ => false

/-- parsing.cc:49-66 `evaluate_cmp`. -/
def evaluateCmp (rel : String) : Except Err Relation :=
  if rel = "<=" then .ok .le
  else if rel = ">=" then .ok .ge
  else if rel = "=" then .ok .eq
  else if rel = ">" then .ok .gt
  else if rel = "<" then .ok .lt
  else .error .syntax

/-! ### numbers in strings -/

/-- parsing.cc:107 `[0-9]`. -/
def isDig (c : Char) : Bool := decide ('0' ≤ c) && decide (c ≤ '9')
/-- Value of a digit. Used for parsing.cc:101-131 (`as_num`). -/
def digVal (c : Char) : Nat := c.toNat - '0'.toNat
/-- Reading a digit string in base 10. Used for parsing.cc:101-131 (`as_num`). -/
def readNat (ds : List Char) : Nat := ds.foldl (fun n c => 10 * n + digVal c) 0

/-- Splitting into the longest prefix of digits and the rest. Used for parsing.cc:101-131 (`as_num`). -/
def spanDig : List Char → List Char × List Char
  | [] => ([], [])
  | c :: cs => if isDig c then (c :: (spanDig cs).1, (spanDig cs).2) else ([], c :: cs)

/-- Group 1 of the regular expression in parsing.cc:107. -/
def splitSign : List Char → Bool × List Char
  | '-' :: r => (true, r)
  | s => (false, s)

/-- `regex_match` with `(-)?([0-9]+)(\.([0-9]+))?` (parsing.cc:107-112): sign, group 2 and, if matched, group 4. -/
def matchNum (s : List Char) : Option (Bool × List Char × Option (List Char)) :=
  let sg := splitSign s
  let ip := spanDig sg.2
  if ip.1.isEmpty then none
  else
    match ip.2 with
    | [] => some (sg.1, ip.1, none)
    | '.' :: r =>
      let fp := spanDig r
      if fp.1.isEmpty || !fp.2.isEmpty then none else some (sg.1, ip.1, some fp.1)
    | _ => none

/-- parsing.cc:117-120: drop trailing zeros. -/
def trimZeros (ds : List Char) : List Char := (ds.reverse.dropWhile (· == '0')).reverse

/-- parsing.cc:101-131 `as_num`; `Rational{a, 10}` reads `digits` or `digits/digits`. -/
def asNum (name : List Char) : Option Rat :=
  if name.length ≤ 2 || !isString name then none
  else
    match matchNum ((name.drop 1).dropLast) with
    | none => none
    | some (neg, ip, fp) =>
      let n : Rat := match fp with
        | none => (readNat ip : Rat)
        | some f =>
          let f := trimZeros f
          (readNat (ip ++ f) : Rat) / (readNat ('1' :: List.replicate f.length '0') : Rat)
      some (if neg then -n else n)

/-- parsing.cc:133-164 `unquote`. -/
def unquote : List Char → List Char
  | [] => []
  | '\\' :: 'n' :: cs => '\n' :: unquote cs
  | '\\' :: '\\' :: cs => '\\' :: unquote cs
  | '\\' :: '"' :: cs => '"' :: unquote cs
  | ['\\'] => []
  | '\\' :: _ :: cs => unquote cs
  | c :: cs => c :: unquote cs

/-! ### evaluation of terms -/

/-- parsing.cc:78, 166 `std::variant<Rational, Clingo::Symbol>`. -/
inductive Val where
  | rat (q : Rat)
  | sym (s : Symbol)

/-- parsing.cc:68-75, 168-171: a binary operation on numbers. If both operands raise an exception, C++ leaves open which of
them is raised (the operands are function arguments); the model takes the first. -/
def binNum (f : Rat → Rat → Except Err Rat) (a b : Except Err Val) : Except Err Val :=
  match a, b with
  | .error e, _ => .error e
  | _, .error e => .error e
  | .ok (.rat x), .ok (.rat y) => (f x y).map .rat
  | _, _ => .error .syntax

/-- parsing.cc:205-207, 318, number_imath.hh:203-218 Division of rationals by the back ends; division by zero raises `domain_error` with IMath and aborts with FLINT. -/
def divNum (be : Backend) (x y : Rat) : Except Err Rat :=
  if y = 0 then .error (match be with | .imath => .domain | .flint => .abort) else .ok (x / y)

/-- parsing.cc:77-85 `EU`: unary minus. -/
def negVal : Except Err Val → Except Err Val
  | .error e => .error e
  | .ok (.rat x) => .ok (.rat (-x))
  | .ok (.sym (.fn name args pos)) => if name.isEmpty then .error .syntax else .ok (.sym (.fn name args !pos))
  | .ok (.sym _) => .error .syntax

/-- `Integer::as_int` (number_flint.hh:245-253, number_imath.hh:257-263). -/
def fitsInt (n : Int) : Bool := decide (-2147483648 ≤ n) && decide (n ≤ 2147483647)

/-- parsing.cc:87-99 `AS`, `as_sym`. -/
def asSym : Except Err Val → Except Err Symbol
  | .error e => .error e
  | .ok (.rat x) => if x.den = 1 ∧ fitsInt x.num = true then .ok (.num x.num) else .error .syntax
  | .ok (.sym s) => .ok s

/-- parsing.cc:212-219: the arguments of a function. -/
def asSyms : List (Except Err Val) → Except Err (List Symbol)
  | [] => .ok []
  | r :: rs => do
    let s ← asSym r
    let ss ← asSyms rs
    return s :: ss

/-- parsing.cc:212-220. -/
def mkFn (name : List Char) (rs : List (Except Err Val)) : Except Err Val := do
  let ss ← asSyms rs
  return .sym (.fn name ss true)

/-- parsing.cc:190-220: a term of type `Function`, given the values of its arguments with (`rs`) and without (`rs0`)
numbers in strings. -/
def evalFn (be : Backend) (name : List Char) (rs rs0 : List (Except Err Val)) : Except Err Val :=
  match rs with
  | [a, b] =>
    if name = ['+'] then binNum (fun x y => .ok (x + y)) a b
    else if name = ['-'] then binNum (fun x y => .ok (x - y)) a b
    else if name = ['*'] then binNum (fun x y => .ok (x * y)) a b
    else if name = ['/'] then binNum (divNum be) a b
    else if name = ['.', '.'] then .error .syntax
    else mkFn name rs0
  | [a] => if name = ['-'] then negVal a else mkFn name rs0
  | _ => mkFn name rs0

mutual
/-- parsing.cc:173-225 `evaluate`. -/
def evaluate (be : Backend) (numStr : Bool) : TTerm → Except Err Val
  | .symbol name =>
    if isString name then
      match (if numStr then asNum name else none) with
      | some q => .ok (.rat q)
      | none => .ok (.sym (.str (unquote ((name.drop 1).dropLast))))
    else .ok (.sym (.fn name [] true))
  | .number n => .ok (.rat n)
  | .func name args => evalFn be name (evaluates be numStr args) (evaluates be false args)
  | .tuple args => mkFn [] (evaluates be false args)
  | .list _ => .error .syntax
  | .set _ => .error .syntax
/-- parsing.cc:218-220 `evaluate` on all arguments. -/
def evaluates (be : Backend) (numStr : Bool) : List TTerm → List (Except Err Val)
  | [] => []
  | t :: ts => evaluate be numStr t :: evaluates be numStr ts
end

/-- parsing.cc:227-234 `evaluate_var`. -/
def evaluateVar (be : Backend) (t : TTerm) : Except Err Symbol :=
  match evaluate be false t with
  | .ok (.sym s) => .ok s
  | .ok (.rat _) => .error .syntax
  | .error e => .error e

/-- parsing.cc:236-243 `evaluate_num`. -/
def evaluateNum (be : Backend) (t : TTerm) : Except Err Rat :=
  match evaluate be true t with
  | .ok (.rat q) => .ok q
  | .ok (.sym _) => .error .syntax
  | .error e => .error e

/-! ### elements -/

/-- parsing.cc:45-47 The symbol standing for the constant 1. -/
def cst : Symbol := .num 0

/-- parsing.cc:247-270: one side of a difference. -/
def diffArg (sgn : Rat) : Except Err Val → Except Err (Term Symbol)
  | .error e => .error e
  | .ok (.rat q) => .ok ⟨sgn * q, cst⟩
  | .ok (.sym s) => .ok ⟨sgn, s⟩

/-- parsing.cc:245-273 `parse_diff_elem`. -/
def parseDiffElem (be : Backend) : TTerm → Except Err (List (Term Symbol))
  | .func name [a, b] =>
    if name = ['-'] then do
      let x ← diffArg 1 (evaluate be true a)
      let y ← diffArg (-1) (evaluate be true b)
      return [x, y]
    else .error .syntax
  | _ => .error .syntax

/-- parsing.cc:287-289, 293-295 `it->co = -it->co`. -/
def negTerms (ts : List (Term Symbol)) : List (Term Symbol) := ts.map fun t => ⟨-t.co, t.var⟩

/-- parsing.cc:303-309: one row of the product. -/
def mulRow (l : Term Symbol) : List (Term Symbol) → Except Err (List (Term Symbol))
  | [] => .ok []
  | r :: rs =>
    if isInvalid l.var || isInvalid r.var then do
      let ts ← mulRow l rs
      return ⟨l.co * r.co, if isInvalid l.var then r.var else l.var⟩ :: ts
    else .error .syntax

/-- parsing.cc:303-309: the product of two sums. -/
def mulTerms : List (Term Symbol) → List (Term Symbol) → Except Err (List (Term Symbol))
  | [], _ => .ok []
  | l :: ls, rs => do
    let x ← mulRow l rs
    let y ← mulTerms ls rs
    return x ++ y

/-- parsing.cc:278-319, 326-328: a term of type `Function`; `rs` are the results for the arguments. -/
def sumFn (be : Backend) (name : List Char) (args : List TTerm) (rs : List (Except Err (List (Term Symbol)))) :
    Except Err (List (Term Symbol)) :=
  match args, rs with
  | [a, b], [x, y] =>
    if name = ['+'] then do
      let x ← x
      let y ← y
      return x ++ y
    else if name = ['-'] then do
      let x ← x
      let y ← y
      return x ++ negTerms y
    else if name = ['*'] then do
      let x ← x
      let y ← y
      mulTerms x y
    else if name = ['/'] then do
      let x ← x
      let q ← evaluateNum be b
      if q = 0 then .error .syntax else return x.map fun t => ⟨t.co / q, t.var⟩
    else do
      let v ← evaluateVar be (.func name [a, b])
      return [⟨1, v⟩]
  | [a], [x] =>
    if name = ['-'] then do
      let x ← x
      return negTerms x
    else if name = ['+'] then x
    else do
      let v ← evaluateVar be (.func name [a])
      return [⟨1, v⟩]
  | args, _ => do
    let v ← evaluateVar be (.func name args)
    return [⟨1, v⟩]

mutual
/-- parsing.cc:275-332 `parse_sum_elem`. -/
def parseSum (be : Backend) : TTerm → Except Err (List (Term Symbol))
  | .number n => .ok [⟨n, cst⟩]
  | .symbol name =>
    match (if isString name then asNum name else none) with
    | some q => .ok [⟨q, cst⟩]
    | none => do
      let v ← evaluateVar be (.symbol name)
      return [⟨1, v⟩]
  | .func name args => sumFn be name args (parseSums be args)
  | .tuple args => do
    let v ← evaluateVar be (.tuple args)
    return [⟨1, v⟩]
  | .list _ => .error .syntax
  | .set _ => .error .syntax
/-- parsing.cc:275-330 `parse_sum_elem` on all arguments. -/
def parseSums (be : Backend) : List TTerm → List (Except Err (List (Term Symbol)))
  | [] => []
  | t :: ts => parseSum be t :: parseSums be ts
end

/-! ### atoms -/

/-- A theory element; `condId` is its condition as a program literal. Environment (clingo.hh, class `TheoryElement`, read in parsing.cc:334-440). -/
structure Elem where
  tuple : List TTerm
  cond : List Int
  condId : Int

/-- A theory atom. Environment (clingo.hh, class `TheoryAtom`, read in parsing.cc:381-440). -/
structure TAtom where
  term : TTerm
  elements : List Elem
  guard : Option (String × TTerm)
  literal : Int

/-- solving.hh:302-306, parsing.hh:57-61 The data filled by `evaluate_theory`: `aux_map_`, `iqs_` and `objective_`. -/
structure Prog where
  aux : List ((Symbol × Int) × Symbol) := []
  iqs : List (Ineq Symbol) := []
  objective : List (Term Symbol) := []

/-- Looking up an auxiliary variable (parsing.hh:57 `VarMap`). -/
def auxFind (aux : List ((Symbol × Int) × Symbol)) (k : Symbol × Int) : Option Symbol :=
  (aux.find? fun p => p.1 = k).map (·.2)

/-- `safe_cast<int>(n)` for a `size_t` (util.hh:29-48). -/
def castInt (n : Nat) : Except Err Int := if n ≤ 2147483647 then .ok n else .error .overflow

/-- parsing.cc:343-353: one term of a conditional element. `Clingo::Number(safe_cast<int>(..))` is evaluated in any case. -/
def condTerm (mapper : Int → Int) (condId : Int) (p : Prog) (t : Term Symbol) : Except Err (Prog × Term Symbol) := do
  let n ← castInt (p.aux.length + 1)
  match auxFind p.aux (t.var, condId) with
  | some s => return (p, ⟨t.co, s⟩)
  | none =>
    let lit := mapper condId
    let s := Symbol.num n
    return ({ p with aux := p.aux ++ [((t.var, condId), s)], iqs := p.iqs ++ [⟨[⟨1, s⟩], 0, .eq, -lit⟩, ⟨[⟨1, s⟩, ⟨-1, t.var⟩], 0, .eq, lit⟩] }, ⟨t.co, s⟩)

/-- parsing.cc:343-352 the loop over the terms of a conditional element. -/
def condTerms (mapper : Int → Int) (condId : Int) : List (Term Symbol) → Prog → Except Err (Prog × List (Term Symbol))
  | [], p => .ok (p, [])
  | t :: ts, p => do
    let r ← condTerm mapper condId p t
    let rs ← condTerms mapper condId ts r.1
    return (rs.1, r.2 :: rs.2)

/-- parsing.cc:337-354: one element. -/
def parseElem (be : Backend) (mapper : Int → Int) (p : Prog) (e : Elem) : Except Err (Prog × List (Term Symbol)) :=
  match e.tuple with
  | [t] => do
    let ts ← parseSum be t
    if e.cond.isEmpty then return (p, ts) else condTerms mapper e.condId ts p
  | _ => .error .syntax

/-- parsing.cc:334-356 `parse_sum_elems`. -/
def parseElems (be : Backend) (mapper : Int → Int) : List Elem → Prog → Except Err (Prog × List (Term Symbol))
  | [], p => .ok (p, [])
  | e :: es, p => do
    let r ← parseElem be mapper p e
    let rs ← parseElems be mapper es r.1
    return (rs.1, r.2 ++ rs.2)

/-- parsing.cc:370-371: add to the first term with the same variable, or append a new one. -/
def addCo (v : Symbol) (co : Rat) : List (Term Symbol) → List (Term Symbol)
  | [] => [⟨co, v⟩]
  | t :: ts => if t.var = v then ⟨t.co + co, t.var⟩ :: ts else t :: addCo v co ts

/-- parsing.cc:365-374: combining coefficients. -/
def combine (acc : List (Term Symbol) × Rat) (t : Term Symbol) : List (Term Symbol) × Rat :=
  if isInvalid t.var then (acc.1, acc.2 - t.co) else (addCo t.var t.co acc.1, acc.2)

/-- parsing.cc:358-379 `simplify`: the combined terms and the new right-hand side. -/
def simplify (ts : List (Term Symbol)) : List (Term Symbol) × Rat :=
  let r := ts.foldl combine ([], 0)
  (r.1.filter fun t => decide (t.co ≠ 0), r.2)

/-- parsing.cc:29-33 `match(term, name, 0)`. -/
def isName : TTerm → List Char → Bool
  | .symbol n, name => n == name
  | .func n [], name => n == name
  | _, _ => false

/-- parsing.cc:385-397 `&dom`. -/
def parseDom (be : Backend) (mapper : Int → Int) (p : Prog) (a : TAtom) : Except Err Prog :=
  match a.elements, a.guard with
  | [e], some g =>
    match e.tuple with
    | [.func name [l, u]] =>
      if e.cond.isEmpty && name == ['.', '.'] then do
        let var ← evaluateVar be g.2
        let u ← evaluateNum be u
        let l ← evaluateNum be l
        let lit := mapper a.literal
        return { p with iqs := p.iqs ++ [⟨[⟨1, var⟩], u, .le, lit⟩, ⟨[⟨1, var⟩], l, .ge, lit⟩] }
      else .error .syntax
    | _ => .error .syntax
  | _, _ => .error .syntax

/-- parsing.cc:403-410, 414-421: move the guard to the left, simplify and add the constraint. -/
def addIneq (be : Backend) (mapper : Int → Int) (a : TAtom) (g : String × TTerm) (p : Prog) (lhs : List (Term Symbol)) :
    Except Err Prog := do
  let gt ← parseSum be g.2
  let r := simplify (lhs ++ negTerms gt)
  let rel ← evaluateCmp g.1
  return { p with iqs := p.iqs ++ [⟨r.1, r.2, rel, mapper a.literal⟩] }

/-- parsing.cc:398-410 `&diff`. -/
def parseDiff (be : Backend) (mapper : Int → Int) (p : Prog) (a : TAtom) : Except Err Prog :=
  match a.elements, a.guard with
  | [e], some g =>
    match e.tuple with
    | [t] =>
      if e.cond.isEmpty then do
        let lhs ← parseDiffElem be t
        addIneq be mapper a g p lhs
      else .error .syntax
    | _ => .error .syntax
  | _, _ => .error .syntax

/-- parsing.cc:411-421 `&sum`. -/
def parseSumAtom (be : Backend) (mapper : Int → Int) (p : Prog) (a : TAtom) : Except Err Prog :=
  match a.guard with
  | some g => do
    let r ← parseElems be mapper a.elements p
    addIneq be mapper a g r.1 r.2
  | none => .error .syntax

/-- parsing.cc:422-430 `&minimize` and `&maximize`. -/
def parseObj (be : Backend) (mapper : Int → Int) (p : Prog) (a : TAtom) (neg : Bool) : Except Err Prog := do
  let r ← parseElems be mapper a.elements p
  return { r.1 with objective := r.1.objective ++ (if neg then negTerms r.2 else r.2) }

/-- parsing.cc:384-431 the loop body of `parse_theory`; other atoms are ignored. -/
def parseAtom (be : Backend) (mapper : Int → Int) (p : Prog) (a : TAtom) : Except Err Prog :=
  if isName a.term ['d', 'o', 'm'] then parseDom be mapper p a
  else if isName a.term ['d', 'i', 'f', 'f'] then parseDiff be mapper p a
  else if isName a.term ['s', 'u', 'm'] then parseSumAtom be mapper p a
  else if isName a.term "minimize".toList then parseObj be mapper p a true
  else if isName a.term "maximize".toList then parseObj be mapper p a false
  else .ok p

/-- parsing.cc:384-430 the loop over the theory atoms. -/
def parseAtoms (be : Backend) (mapper : Int → Int) : List TAtom → Prog → Except Err Prog
  | [], p => .ok p
  | a :: as, p => do
    let p ← parseAtom be mapper p a
    parseAtoms be mapper as p

/-- parsing.cc:381-440 `parse_theory`, `evaluate_theory`. -/
def evaluateTheory (be : Backend) (mapper : Int → Int) (atoms : List TAtom) (p : Prog) : Except Err Prog := do
  let p ← parseAtoms be mapper atoms p
  let r := simplify p.objective
  if r.2 = 0 then return { p with objective := r.1 } else .error .syntax

/-! ### exceptions

`aux_map_`, `iqs_` and `objective_` are passed by reference (parsing.hh:60-61): if `evaluate_theory` throws, what has been added before stays there. The
functions below compute the data after such an exception; they are meant for the cases where the function of the same name without `Left` fails. -/

/-- parsing.cc:343-353 The data after an exception in the loop over the terms of a conditional element (`safe_cast` throws). -/
def condTermsLeft (mapper : Int → Int) (condId : Int) : List (Term Symbol) → Prog → Prog
  | [], p => p
  | t :: ts, p =>
    match condTerm mapper condId p t with
    | .ok r => condTermsLeft mapper condId ts r.1
    | .error _ => p

/-- parsing.cc:337-354 The data after an exception while an element is parsed: `parse_sum_elem` only changes the local vector. -/
def parseElemLeft (be : Backend) (mapper : Int → Int) (p : Prog) (e : Elem) : Prog :=
  match e.tuple with
  | [t] =>
    match parseSum be t with
    | .ok ts => if e.cond.isEmpty then p else condTermsLeft mapper e.condId ts p
    | .error _ => p
  | _ => p

/-- parsing.cc:334-356 The data after an exception in `parse_sum_elems`. -/
def parseElemsLeft (be : Backend) (mapper : Int → Int) : List Elem → Prog → Prog
  | [], p => p
  | e :: es, p =>
    match parseElem be mapper p e with
    | .ok r => parseElemsLeft be mapper es r.1
    | .error _ => parseElemLeft be mapper p e

/-- parsing.cc:385-397 The data after an exception for `&dom`: the upper bound is added before the lower bound is evaluated. -/
def parseDomLeft (be : Backend) (mapper : Int → Int) (p : Prog) (a : TAtom) : Prog :=
  match a.elements, a.guard with
  | [e], some g =>
    match e.tuple with
    | [.func name [_, u]] =>
      if e.cond.isEmpty && name == ['.', '.'] then
        match evaluateVar be g.2, evaluateNum be u with
        | .ok var, .ok u => { p with iqs := p.iqs ++ [⟨[⟨1, var⟩], u, .le, mapper a.literal⟩] }
        | _, _ => p
      else p
    | _ => p
  | _, _ => p

/-- parsing.cc:411-421 The data after an exception for `&sum` (in the elements, the guard or its relation). -/
def parseSumAtomLeft (be : Backend) (mapper : Int → Int) (p : Prog) (a : TAtom) : Prog :=
  match a.guard with
  | some _ => parseElemsLeft be mapper a.elements p
  | none => p

/-- parsing.cc:384-431 The data after an exception in the loop body of `parse_theory`. `&diff` adds its constraint last; `&minimize` and `&maximize` fail in
`parse_sum_elems`. -/
def parseAtomLeft (be : Backend) (mapper : Int → Int) (p : Prog) (a : TAtom) : Prog :=
  if isName a.term ['d', 'o', 'm'] then parseDomLeft be mapper p a
  else if isName a.term ['d', 'i', 'f', 'f'] then p
  else if isName a.term ['s', 'u', 'm'] then parseSumAtomLeft be mapper p a
  else if isName a.term "minimize".toList then parseElemsLeft be mapper a.elements p
  else if isName a.term "maximize".toList then parseElemsLeft be mapper a.elements p
  else p

/-- parsing.cc:384-430 The data after an exception in the loop over the theory atoms. -/
def parseAtomsLeft (be : Backend) (mapper : Int → Int) : List TAtom → Prog → Prog
  | [], p => p
  | a :: as, p =>
    match parseAtom be mapper p a with
    | .ok q => parseAtomsLeft be mapper as q
    | .error _ => parseAtomLeft be mapper p a

/-- parsing.cc:381-440 The data after an exception in `evaluate_theory`. If the last check fails, the objective function has been simplified already. -/
def evaluateLeft (be : Backend) (mapper : Int → Int) (atoms : List TAtom) (p : Prog) : Prog :=
  match parseAtoms be mapper atoms p with
  | .ok q => { q with objective := (simplify q.objective).1 }
  | .error _ => parseAtomsLeft be mapper atoms p

end Lpx
