import Verif.SysCheck

/-!
# Model of the configuration interface (clingo-lpx.cc:201-436)

C strings are lists of characters without NUL; `tolower` in the C locale changes the letters A-Z only. The number
reader of the arithmetic library (`Rational{value, 10}`, number_flint.hh:441-464, number_imath.hh:436-438) is the
parameter `rd`; `none` is the exception it throws.
-/

namespace Lpx

/-- clingo-lpx.cc:202-209 `iequals_pre`: `none` is `nullptr`, otherwise the remainder of `a`. -/
def iequalsPre : List Char → List Char → Option (List Char)
  | a, [] => some a
  | [], _ :: _ => none
  | x :: a, y :: b => if x.toLower ≠ y.toLower then none else iequalsPre a b

/-- clingo-lpx.cc:212-215 `iequals`. -/
def iequals (a b : List Char) : Bool := iequalsPre a b == some []

/-- clingo-lpx.cc:329-333 `clingolpx_theory` before registration. -/
structure Theory where
  options : Options := {}
  strict : Bool := false

/-- clingo-lpx.cc:218-325, 380-406 Outcome of a configuration function: return value and new state, an exception, or undefined behaviour. -/
inductive Outcome where
  /-- normal return -/
  | ret (ok : Bool) (th : Theory)
  /-- a C++ exception leaves the function (nothing has been changed) -/
  | throws
  /-- memory is written through a pointer to an object of a different type -/
  | undef

/-- clingo-lpx.cc:220-231 `parse_bool`; `set` is the write through `data`. -/
def parseBool (v : List Char) (set : Bool → Theory) (th : Theory) : Outcome :=
  if iequals v "no".toList || iequals v "off".toList || iequals v "0".toList then .ret true (set false)
  else if iequals v "yes".toList || iequals v "on".toList || iequals v "1".toList then .ret true (set true)
  else .ret false th

/-- clingo-lpx.cc:234-249 `parse_select`. -/
def parseSelect (v : List Char) (th : Theory) : Outcome :=
  if iequals v "none".toList then .ret true { th with options := { th.options with select := .none } }
  else if iequals v "match".toList then .ret true { th with options := { th.options with select := .matching } }
  else if iequals v "conflict".toList then .ret true { th with options := { th.options with select := .conflict } }
  else .ret false th

/-- clingo-lpx.cc:252-267 `parse_propagate`. -/
def parsePropagate (v : List Char) (th : Theory) : Outcome :=
  if iequals v "none".toList then .ret true { th with options := { th.options with propagateMode := .none } }
  else if iequals v "changed".toList then .ret true { th with options := { th.options with propagateMode := .changed } }
  else if iequals v "full".toList then .ret true { th with options := { th.options with propagateMode := .full } }
  else .ret false th

/-- clingo-lpx.cc:270-285 `parse_store`. -/
def parseStore (v : List Char) (th : Theory) : Outcome :=
  if iequals v "no".toList then .ret true { th with options := { th.options with store := .no } }
  else if iequals v "partial".toList then .ret true { th with options := { th.options with store := .part } }
  else if iequals v "total".toList then .ret true { th with options := { th.options with store := .total } }
  else .ret false th

/-- clingo-lpx.cc:288-313 `parse_objective`. -/
def parseObjective (rd : List Char → Option Rat) (v : List Char) (th : Theory) : Outcome :=
  if iequals v "local".toList then .ret true { th with options := { th.options with globalObjective := none } }
  else
    match iequalsPre v "global".toList with
    | none => .ret false th
    | some [] => .ret true { th with options := { th.options with globalObjective := some ⟨0, 0⟩ } }
    | some v =>
      match iequalsPre v ",".toList with
      | none => .ret false th
      | some v =>
        if iequals v "e".toList then .ret true { th with options := { th.options with globalObjective := some ⟨0, 1⟩ } }
        else
          match rd v with
          | none => .throws
          | some q => .ret true { th with options := { th.options with globalObjective := some ⟨q, 0⟩ } }

/-- clingo-lpx.cc:386, 392 A write through a pointer of the wrong type: undefined if the parser accepts the value (then it writes), otherwise
its result. -/
def confused : Outcome → Outcome
  | .ret true _ => .undef
  | o => o

/-- clingo-lpx.cc:380-406 `clingolpx_configure`. `parse_bool` gets a pointer to an `std::optional<RationalQ>` for the
key `objective` (line 386) and `parse_propagate`, which expects a pointer to `Options`, gets a pointer to the member
`propagate_mode` for the key `propagate-bounds` (line 392). -/
def configure (key v : List Char) (th : Theory) : Outcome :=
  if key = "strict".toList then parseBool v (fun b => { th with strict := b }) th
  else if key = "objective".toList then confused (parseBool v (fun _ => th) th)
  else if key = "propagate-conflicts".toList then
    parseBool v (fun b => { th with options := { th.options with propagateConflicts := b } }) th
  else if key = "propagate-bounds".toList then confused (parsePropagate v th)
  else if key = "select".toList then parseSelect v th
  else if key = "store".toList then parseStore v th
  else .ret false th

/-- clingo-lpx.cc:408-425 `clingolpx_register_options`: what the command line parser of clingo does with an option
(flags are set to true or false by clingo itself). -/
def commandLine (rd : List Char → Option Rat) (key v : List Char) (th : Theory) : Outcome :=
  if key = "propagate-bounds".toList then parsePropagate v th
  else if key = "objective".toList then parseObjective rd v th
  else if key = "select".toList then parseSelect v th
  else if key = "store".toList then parseStore v th
  else .ret false th

/-- clingo-lpx.cc:427-435 `clingolpx_validate_options`: `false` is the reported error. -/
def validateOptions (th : Theory) : Bool :=
  !(!th.strict && (match th.options.globalObjective with | some q => !q.isRational | none => false))

end Lpx
