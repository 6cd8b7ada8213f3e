import Verif.SysSpec
import Verif.Data

/-!
# Model of the output of models (clingo-lpx.cc:171-191, app/src/main.cc:68-107, libpyclingo-lpx/clingolpx/__main__.py:45-66)
-/

namespace Lpx

/-- clingo-lpx.cc:177-190 `operator<<` of the value types. -/
class LpPrint (V : Type) where
  print : V → List Char

instance : LpPrint Rat := ⟨showRat⟩
instance : LpPrint RatQ := ⟨RatQ.print⟩

/-- clingo-lpx.cc:180 The name of the symbols of the assignment. -/
def lpxName : List Char := ['_', '_', 'l', 'p', 'x']
/-- clingo-lpx.cc:187 The name of the symbol of the objective. -/
def objName : List Char := "__lpx_objective".toList

/-- clingo-lpx.cc:171-191 `extend_model`: the symbols added to a model. (`getD` stands for accesses out of bounds, which do not happen, see
C32.) -/
def Propagator.extendModel {V : Type} [LpFull V] [LpPrint V] (p : Propagator V) (th : Nat) : List Symbol :=
  (p.apiModel th).map (fun e => .fn lpxName [e.1.getD (.num 0), .str (LpPrint.print (e.2.getD 0))] true) ++
  (p.objectiveOf th).map fun o => .fn objName [.str (LpPrint.print o.1), .num (if o.2 then 1 else 0)] true

/-- clingo's printing of symbols (trusted library behaviour): escaped characters of strings. Environment, used by app/src/main.cc:68-107. -/
def escape : List Char → List Char
  | [] => []
  | c :: cs => (if c = '\n' then ['\\', 'n'] else if c = '\\' then ['\\', '\\'] else if c = '"' then ['\\', '"'] else [c]) ++ escape cs

mutual
/-- clingo's printing of symbols (trusted library behaviour). Environment, used by app/src/main.cc:68-107. -/
def showSym : Symbol → List Char
  | .num n => showInt n
  | .str s => '"' :: escape s ++ ['"']
  | .fn name args pos =>
    (if pos then [] else ['-']) ++ name ++
      match args with
      | [] => if name.isEmpty then ['(', ')'] else []
      | [a] => '(' :: showSym a ++ (if name.isEmpty then [',', ')'] else [')'])
      | a :: as => '(' :: showSym a ++ showSyms as ++ [')']
/-- The remaining arguments. Environment: clingo, used by app/src/main.cc:68-107. -/
def showSyms : List Symbol → List Char
  | [] => []
  | a :: as => ',' :: showSym a ++ showSyms as
end

/-- Separate by spaces, as done with the flag `comma` in main.cc:72-79, 85-93. -/
def joined : Bool → List (List Char) → List Char
  | _, [] => []
  | comma, x :: xs => (if comma then [' '] else []) ++ x ++ joined true xs

/-- main.cc:86-87 `sym.match("__lpx", 2) && sym.arguments().back().type() == String`, and the text printed for it. -/
def asgEntry : Symbol → Option (List Char)
  | .fn name [a, .str v] _ => if name == lpxName then some (showSym a ++ '=' :: v) else none
  | _ => none

/-- main.cc:94-98: the objective. -/
def objEntry : Symbol → Option (List Char × Bool)
  | .fn name [.str v, .num n] _ => if name == objName then some (v, n == 1) else none
  | _ => none

/-- main.cc:84-100: the loop over the theory symbols: the texts of the assignment and the last objective. -/
def scan : List Symbol → List (List Char) × Option (List Char × Bool) → List (List Char) × Option (List Char × Bool)
  | [], r => r
  | s :: ss, r =>
    scan ss <| match asgEntry s with
      | some t => (r.1 ++ [t], r.2)
      | none => match objEntry s with
        | some o => (r.1, some o)
        | none => r

/-- main.cc:70-83, 94-104: the text around the parts found by `scan`. -/
def printParts (atoms : List Symbol) (asg : List (List Char)) (obj : Option (List Char × Bool)) : List Char :=
  joined false (atoms.map showSym) ++ "\nAssignment:\n".toList ++ joined false asg ++
    (match obj with
      | some o => "\nOptimization: ".toList ++ o.1 ++ " [".toList ++ (if o.2 then "bounded".toList else "unbounded".toList) ++ "]".toList
      | none => []) ++ ['\n']

/-- main.cc:68-107 `print_model`; the arguments are the shown symbols and the theory symbols, both sorted. -/
def printModel (atoms theory : List Symbol) : List Char :=
  printParts atoms (scan theory ([], none)).1 (scan theory ([], none)).2

/-- __main__.py:58-62: the loop over the theory symbols; `none` is the exception raised by `args[1].string` if the argument is not a string. -/
def pyEntries : List Symbol → Option (List (List Char))
  | [] => some []
  | .fn name [a, b] true :: ss =>
    if name == lpxName then
      match b with
      | .str v => (pyEntries ss).map fun es => (showSym a ++ '=' :: v) :: es
      | _ => none
    else pyEntries ss
  | _ :: ss => pyEntries ss

/-- __main__.py:45-66 `print_model`; the arguments are the shown symbols and the theory symbols, both sorted. -/
def pyPrintModel (atoms theory : List Symbol) : Option (List Char) :=
  (pyEntries theory).map fun es => joined false (atoms.map showSym) ++ ['\n'] ++ "Assignment:\n".toList ++ joined false es ++ ['\n']

end Lpx
