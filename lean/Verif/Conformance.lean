import Verif.Examples
import Verif.App
import Verif.Theory
import Verif.NumberQ

/-!
# The unit tests of the project, run on the model

These are tests, not proofs: they compare the model with the expected results in libclingo-lpx/tests (which the project's authors checked
against the code). All of them are evaluated by Lean's kernel.
-/

set_option linter.unusedSectionVars false

namespace Lpx.Conformance
open Lpx Lpx.Witness Lpx.Props

/-! ### printing (problem.cc:25-76) -/

/-- problem.cc:25-49 `operator<<(Relation)`. -/
def showRel : Relation → List Char
  | .le => ['<', '=']
  | .ge => ['>', '=']
  | .eq => ['=']
  | .lt => ['<']
  | .gt => ['>']

/-- problem.cc:51-59 `operator<<(Term)`. -/
def showTerm (t : Term Symbol) : List Char :=
  (if t.co = -1 then ['-'] else if t.co ≠ 1 then showRat t.co ++ ['*'] else []) ++ showSym t.var

/-- problem.cc:62-70 the loop of `operator<<(Inequality)`. -/
def showTerms : Bool → List (Term Symbol) → List Char
  | _, [] => []
  | plus, t :: ts => (if plus then [' ', '+', ' '] else []) ++ showTerm t ++ showTerms true ts

/-- problem.cc:61-76 `operator<<(Inequality)`. -/
def showIneq (x : Ineq Symbol) : List Char :=
  showTerms false x.lhs ++ (if x.lhs.isEmpty then ['0'] else []) ++ ' ' :: showRel x.rel ++ ' ' :: showRat x.rhs

/-! ### tests/parsing.cc -/

/-- A variable. -/
def v (x : String) : TTerm := .symbol x.toList
/-- A binary operator. -/
def o (f : String) (a b : TTerm) : TTerm := .func f.toList [a, b]
/-- Unary minus. -/
def neg (a : TTerm) : TTerm := .func ['-'] [a]
/-- A number. -/
def n (k : ℤ) : TTerm := .number k
/-- A product with a number. -/
def k (c : ℤ) (x : String) : TTerm := o "*" (n c) (v x)

/-- `&name { ts } rel t`. -/
def atom (name : String) (ts : List TTerm) (g : Option (String × TTerm)) (lit : ℤ := 1) : TAtom where
  term := .symbol name.toList
  elements := ts.map fun t => ⟨[t], [], 0⟩
  guard := g
  literal := lit

/-- `&sum { ts } rel k`. -/
def sum (ts : List TTerm) (rel : String) (k : ℤ) (lit : ℤ := 1) : TAtom := atom "sum" ts (some (rel, .number k)) lit

/-- The test program: every literal is mapped to 1. -/
def parse (be : Backend) (as : List TAtom) : Option (List (List Char) × List (List Char)) :=
  match evaluateTheory be (fun _ => 1) as {} with
  | .ok p => some (p.iqs.map showIneq, p.objective.map showTerm)
  | .error _ => none

/-- An operand of an unparsed term. -/
def rd (u : Unparsed) : TTerm := (readTerm sumTerm u).getD (.tuple [])

-- example 1: `&sum { x2; x3 } >= 10.`
example : parse .imath [sum [v "x2", v "x3"] ">=" 10] = some (["x2 + x3 >= 10".toList], []) := by decide +kernel
-- example 2: `&sum { -x } <= 0.`
example : parse .imath [sum [rd ⟨[['-']], v "x", []⟩] "<=" 0] = some (["-x <= 0".toList], []) := by decide +kernel
-- example 3: `&sum { -x; -2/(-3)*y } = -1.`
example : parse .imath [atom "sum" [rd ⟨[['-']], v "x", []⟩, rd ⟨[['-']], n 2, [(['/'], [], rd ⟨[['-']], n 3, []⟩), (['*'], [], v "y")]⟩]
    (some ("=", rd ⟨[['-']], n 1, []⟩))] = some (["-x + 2/3*y = -1".toList], []) := by decide +kernel
-- example 4: `&minimize { 3*x }. &maximize { -y }.`
example : parse .imath [atom "minimize" [k 3 "x"] none, atom "maximize" [neg (v "y")] none] = some ([], ["-3*x".toList, "-y".toList]) := by
  decide +kernel
-- example 5: `&sum { 2*(x+3*y)/7; 10 } = x*3-z.`
example : parse .imath [atom "sum" [rd ⟨[], n 2, [(['*'], [], rd ⟨[], v "x", [(['+'], [], n 3), (['*'], [], v "y")]⟩), (['/'], [], n 7)]⟩, n 10]
    (some ("=", rd ⟨[], v "x", [(['*'], [], n 3), (['-'], [], v "z")]⟩))] = some (["-19/7*x + 6/7*y + z = -10".toList], []) := by decide +kernel
-- example 6: `&sum { x } = "123.0".`
example : parse .imath [atom "sum" [v "x"] (some ("=", .symbol "\"123.0\"".toList))] = some (["x = 123".toList], []) := by decide +kernel

/-! ### tests/tableau.cc -/

/-- Section "fraction". -/
def fraction : Tableau := (((Tableau.empty.set 0 0 (2/4)).set 0 1 (1/3)).set 0 2 (1/5)).set 0 3 (1/210)

example : fraction.rowEntries 0 = [(0, 105, 210), (1, 70, 210), (2, 42, 210), (3, 1, 210)] := by decide +kernel
example : (fraction.set 0 4 (7/210)).rowEntries 0 = [(0, 105, 210), (1, 70, 210), (2, 42, 210), (3, 1, 210), (4, 7, 210)] := by decide +kernel

-- Section "integer".
example : Tableau.empty.isEmpty = true ∧ Tableau.empty.get 0 0 = 0 ∧ (Tableau.empty.set 0 0 2).size = 1 ∧ (Tableau.empty.set 0 0 2).get 0 0 = 2 ∧
    ((Tableau.empty.set 0 0 2).set 0 0 3).size = 1 ∧ ((Tableau.empty.set 0 0 2).set 0 0 3).get 0 0 = 3 ∧
    (((Tableau.empty.set 0 0 2).set 0 0 3).set 0 0 0).get 0 0 = 0 ∧ (((Tableau.empty.set 0 0 2).set 0 0 3).set 0 0 0).isEmpty = true := by decide +kernel

/-- The table after the last `set` of the section. -/
def integerTab : Tableau := (((Tableau.empty.set 0 0 2).set 0 0 3).set 0 0 0).set 0 2 1

example : integerTab.size = 1 ∧ integerTab.rowEntries 0 = [(2, 1, 1)] ∧ integerTab.colEntries 2 = [(0, 1, 1)] ∧ (integerTab.compactCol 2).size = 1 ∧
    (integerTab.compactCol 2).colEntries 0 = [] := by decide +kernel

/-- Section "pivot". -/
def pivotTab : Tableau := ((((((((Tableau.empty.set 0 0 1).set 0 1 2).set 0 2 3).set 1 0 4).set 1 1 5).set 1 2 6).set 2 0 7).set 2 1 8).set 2 2 9

example : (List.range 3).map (fun i => (List.range 3).map ((pivotTab.pivot 1 1).get i)) =
      [[-3/5, 2/5, 3/5], [-4/5, 1/5, -6/5], [3/5, 8/5, -3/5]] ∧
    (List.range 3).map (pivotTab.pivot 1 1).rowEntries =
      [[(0, -3, 5), (1, 2, 5), (2, 3, 5)], [(0, -4, 5), (1, 1, 5), (2, -6, 5)], [(0, 3, 5), (1, 8, 5), (2, -3, 5)]] := by decide +kernel

/-! ### tests/solving.cc -/

section Search
variable {V : Type} [LpFull V]

/-- Propagator and history. -/
abbrev St (V : Type) := Propagator V × Ghost V

/-- Run an event; all histories are allowed. -/
def ev (e : Ev) (s : St V) : Option (St V) := e.run .imath .any s

/-- The last call of a thread found a conflict. -/
def stuck (s : St V) : Bool := atThr s.2 0 (·.stuck)

/-- Propagate literals one after the other, each on a level of its own, until there is a conflict. Returns the number of levels. -/
def descend : List ℤ → ℕ → St V → Option (St V × ℕ)
  | [], dl, s => some (s, dl)
  | l :: ls, dl, s =>
    match ev (.prop (dl + 1) 0 [l] true) s with
    | none => none
    | some s => if stuck s then some (s, dl + 1) else descend ls (dl + 1) s

/-- Undo all levels. -/
def ascend : ℕ → St V → Option (St V)
  | 0, s => some s
  | k + 1, s => (ev (.undo 0) s).bind (ascend k)

/-- Literals of cuts that have not been propagated. -/
def open' (s : St V) : List ℤ :=
  match s.2.thrs[0]? with
  | none => []
  | some gt => ((s.1.cutsOf 0).map (·.1)).filter fun l => decide (¬ Act gt.frames l)

/-- A search for an answer set with the given literals: propagate them, check the total assignment, report a model if there is no conflict, go
back to level 0, check again (which reads the global objective) and propagate the literals of cuts. -/
def attempt (asg : List ℤ) (s : St V) (ms : List (List (V × Bool))) : Option (St V × List (List (V × Bool))) :=
  if stuck s then some (s, ms)
  else
    match descend asg 0 s with
    | none => none
    | some (s, dl) =>
      let r := if stuck s then some (s, ms)
        else
          match ev (.check dl true 0) s with
          | none => none
          | some s => if atThr s.2 0 (·.checked) && (open' s).isEmpty then (ev (.model 0) s).map fun s => (s, ms ++ [s.1.objectiveOf 0]) else some (s, ms)
      match r with
      | none => none
      | some (s, ms) =>
        match ascend dl s with
        | none => none
        | some s =>
          match ev (.check 0 false 0) s with
          | none => none
          | some s => if (open' s).isEmpty then some (s, ms) else (ev (.prop 0 0 (open' s) true) s).map (·, ms)

/-- All assignments in turn. -/
def attempts : List (List ℤ) → St V → List (List (V × Bool)) → Option (St V × List (List (V × Bool)))
  | [], s, ms => some (s, ms)
  | a :: as, s, ms => (attempt a s ms).bind fun r => attempts as r.1 r.2

/-- A solving step: `init`, propagation of the facts on level 0, then all assignments. -/
def step (atoms : List TAtom) (facts : List ℤ) (asgs : List (List ℤ)) (r : St V × List (List (V × Bool))) : Option (St V × List (List (V × Bool))) :=
  match ev (.init atoms 1) r.1 with
  | none => none
  | some s =>
    match ev (.prop 0 0 facts true) s with
    | none => none
    | some s => attempts asgs s r.2

/-- A program with a single step; the result lists the value of the objective for each model. -/
def models (opts : Options) (atoms : List TAtom) (facts : List ℤ) (asgs : List (List ℤ)) : Option (List (List (V × Bool))) :=
  (step atoms facts asgs (start opts, [])).map (·.2)

/-- All total assignments to the given atoms. -/
def total : List ℤ → List (List ℤ)
  | [] => [[]]
  | a :: as => (total as).map (a :: ·) ++ (total as).map (-a :: ·)

end Search

/-- The options in the test program. -/
def opts : Options := { select := .conflict, store := .part, propagateMode := .changed, propagateConflicts := true }

/-- `run`. -/
def run (atoms : List TAtom) : Option Bool := (models (V := ℚ) opts atoms [1] [[]]).map fun ms => !ms.isEmpty
/-- `run<RationalQ>`. -/
def runQ (atoms : List TAtom) : Option Bool := (models (V := RatQ) opts atoms [1] [[]]).map fun ms => !ms.isEmpty

-- Section "non-strict".
example : run [sum [v "x1", v "x2"] "<=" 20, sum [v "x1", v "x3"] "=" 5, sum [v "x2", v "x3"] ">=" 10] = some true := by decide +kernel
example : run [sum [v "x"] ">=" 2, sum [v "x"] "<=" 0] = some false := by decide +kernel
example : run [sum [neg (v "x")] "<=" (-2), sum [v "x"] "<=" 0] = some false := by decide +kernel
example : run [sum [k 4 "x"] "<=" 4, sum [v "x"] ">=" 2] = some false := by decide +kernel
example : run [sum [v "x", v "y"] ">=" 2, sum [v "x", v "y"] "<=" 0, sum [v "y"] "=" 0] = some false := by decide +kernel
example : run [sum [v "x", v "y"] ">=" 2, sum [k 2 "x", neg (v "y")] ">=" 0, sum [neg (v "x"), k 2 "y"] ">=" 1] = some true := by decide +kernel
-- Section "strict".
example : runQ [sum [v "x1", v "x2"] "<" 20, sum [v "x1", v "x3"] "=" 5, sum [v "x2", v "x3"] ">" 10] = some true := by decide +kernel
example : runQ [sum [v "x"] ">" 2, sum [v "x"] "<" 0] = some false := by decide +kernel
example : runQ [sum [neg (v "x")] "<" (-2), sum [v "x"] "<" 0] = some false := by decide +kernel
example : runQ [sum [k 4 "x"] "<" 4, sum [v "x"] ">" 2] = some false := by decide +kernel
example : runQ [sum [v "x", v "y"] ">" 2, sum [v "x", v "y"] "<" 0, sum [v "y"] "=" 0] = some false := by decide +kernel
example : runQ [sum [v "x", v "y"] ">" 2, sum [k 2 "x", neg (v "y")] ">" 0, sum [neg (v "x"), k 2 "y"] ">" 1] = some true := by decide +kernel
example : runQ [sum [v "x", neg (v "y")] ">" 0, sum [v "y", neg (v "z")] ">" 0, sum [v "z", neg (v "x")] ">" 0] = some false := by decide +kernel

/-- `run_o` without global objective. -/
def runO (atoms : List TAtom) : Option (List (List (ℚ × Bool))) := models opts atoms [1] [[]]

/-- The constraints of the first two tests in section "optimize". -/
def opt3 : List TAtom := [sum [v "x_1", k 2 "x_2", k 3 "x_3"] "<=" 30, sum [k 2 "x_1", k 2 "x_2", k 5 "x_3"] "<=" 24,
  sum [k 4 "x_1", v "x_2", k 2 "x_3"] "<=" 36]
/-- The objective of the first two tests. -/
def opt3max : TAtom := atom "maximize" [k 3 "x_1", v "x_2", k 2 "x_3"] none

example : runO (opt3 ++ [sum [v "x_1"] ">=" 0, sum [v "x_2"] ">=" 0, sum [v "x_3"] ">=" 0, opt3max]) = some [[(28, true)]] := by decide +kernel
example : runO (opt3 ++ [opt3max]) = some [[(378 / 13, true)]] := by decide +kernel
example : runO [sum [k 2 "x_1", neg (v "x_2")] "<=" 2, sum [v "x_1", k (-5) "x_2"] "<=" (-4), atom "maximize" [k 2 "x_1", neg (v "x_2")] none] = some [[(2, true)]] := by decide +kernel
example : (runO [sum [v "x", v "y"] ">=" 7, sum [v "y"] ">=" 3, atom "maximize" [k 8 "x", k (-5) "y"] none]).map (·.map (·.map (·.2))) = some [[false]] := by decide +kernel

/-- `run_o` with global objective and step `q`. -/
def runG (q : ℚ) (atoms : List TAtom) (as : List (List ℤ)) : Option (List (List (ℚ × Bool))) :=
  models { opts with globalObjective := some ⟨q, 0⟩ } atoms [1] as

example : runG 0 [sum [v "a", v "b"] "<=" 5, sum [v "a"] "<=" 2 2, sum [v "b"] "<=" 2 3, atom "maximize" [v "a", v "b"] none] (total [2, 3]) = some [[(4, true)], [(5, true)], [(5, true)], [(5, true)]] := by decide +kernel
example : runG 0 [sum [v "a"] "<=" 5 2, sum [v "b"] "<=" 5 2, sum [v "b"] "<=" 5 3, sum [v "a", v "b"] "<=" 10 4, atom "maximize" [v "a", v "b"] none] [[2, 3, -4], [2, -3, -4], [-2, 3, -4], [-2, -3, 4]] = some [[(10, true)], [(10, true)], [(10, false)]] := by decide +kernel

/-- The variable for an item. -/
def pack (i : ℕ) : TTerm := .func "pack".toList [.number i]
/-- The knapsack program; literal `i + 1` for `pack(i)`. -/
def knapsack : List TAtom :=
  (List.range' 1 5).map (fun i => sum [pack i] ">=" 0) ++ (List.range' 1 5).map (fun i => sum [pack i] "<=" 1) ++
  (List.range' 1 5).map (fun (i : ℕ) => sum [pack i] ">=" 1 (i + 1)) ++ (List.range' 1 5).map (fun (i : ℕ) => sum [pack i] "<=" 0 (-(i + 1))) ++
  [sum ([(1, 8), (2, 3), (3, 3), (4, 4), (5, 6)].map fun p : ℕ × ℤ => o "*" (n p.2) (pack p.1)) "<=" 10,
   atom "maximize" ([(1, 160), (2, 50), (3, 50), (4, 70), (5, 110)].map fun p : ℕ × ℤ => o "*" (n p.2) (pack p.1)) none]

example : runG 0 knapsack (total [2, 3, 4, 5, 6]) = some [[(160, true)], [(170, true)], [(180, true)]] := by decide +kernel
example : models (V := RatQ) { opts with globalObjective := some ⟨0, 1⟩ } knapsack [1]
    [[2, -3, -4, -5, -6], [-2, 3, 4, 5, -6], [-2, -3, -4, 5, 6], [-2, 3, 4, -5, -6]] = some [[(⟨160, 0⟩, true)], [(⟨170, 0⟩, true)], [(⟨180, 0⟩, true)]] := by decide +kernel

-- Section "multi-shot".
/-- `run_m`: each step has new atoms and facts. -/
def runM : List (List TAtom × List ℤ × List (List ℤ)) → St ℚ × List (List (ℚ × Bool)) → Option ℕ
  | [], r => some r.2.length
  | (as, fs, asgs) :: ss, r => (step as fs asgs r).bind (runM ss)

example : runM [([sum [v "x1", v "x2"] "<=" 20, sum [v "x1", v "x2"] ">=" 10], [1], [[]]),
    ([sum [v "x1"] ">=" 30, sum [v "x3"] ">=" 1], [1], [[]]), ([sum [v "x2"] ">=" 10], [1], [[]])] (start opts, []) = some 2 := by decide +kernel

/-- `&sum { x1 : a; x2 : b } rel 10` -/
def cond (rel : String) : TAtom := { sum [] rel 10 with elements := [⟨[v "x1"], [2], 2⟩, ⟨[v "x2"], [3], 3⟩] }

example : runM [([cond "<=", cond ">="], [1], total [2, 3]), ([], [1, -2, -3], [[]])] (start opts, []) = some 3 := by decide +kernel

/-! ### tests/number.cc -/

example : let a : RatQ := ⟨4, 3⟩; let b : RatQ := ⟨2, 1⟩; let c : ℚ := 3
    a + b = ⟨6, 4⟩ ∧ b + a = ⟨6, 4⟩ ∧ a - b = ⟨2, 2⟩ ∧ b - a = ⟨-2, -2⟩ ∧ c • a = ⟨12, 9⟩ ∧ (1 / c) • a = ⟨4 / 3, 1⟩ := by decide +kernel

end Lpx.Conformance
