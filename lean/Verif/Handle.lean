import Verif.Api
import Verif.Theory
import Verif.SysSpec

/-!
# Model of the theory object (clingo-lpx.cc:328-435, clingo-lpx.h)

The sequence of calls of a user: configuration, command line, validation, registration. What clingo answers in `clingolpx_register` is arbitrary.
-/

namespace Lpx

/-- clingo-lpx.cc:125-137: what an `LPXPropagatorFacade` has passed to clingo. -/
structure Registered where
  /-- the value type is `RationalQ` -/
  epsilon : Bool
  /-- the theory definition added to the program -/
  grammar : List AtomDef
  /-- the copy of the options held by the propagator -/
  opts : Options
  /-- the callback `decide` is registered -/
  decides : Bool

/-- clingo-lpx.cc:328-332 `clingolpx_theory`. -/
structure Handle where
  theory : Theory := {}
  reg : Option Registered := none

/-- clingo-lpx.cc:347-436 The calls that change the theory object or check it. -/
inductive Call where
  /-- `clingolpx_configure` -/
  | configure (key v : List Char)
  /-- clingo's option parser reads `--key=v` -/
  | option (key v : List Char)
  /-- clingo's option parser reads `--strict` or `--no-strict` -/
  | strictFlag (b : Bool)
  /-- clingo's option parser reads `--propagate-conflicts` or `--no-propagate-conflicts` -/
  | conflictsFlag (b : Bool)
  /-- `clingolpx_validate_options` -/
  | validate
  /-- `clingolpx_register`; `ok` tells whether clingo accepts the theory definition and the propagator -/
  | register (ok : Bool)

/-- Result of a call. clingo-lpx.cc:33-39 (`CLINGOLPX_TRY`, `CLINGOLPX_CATCH`). -/
inductive Answer where
  /-- returns true -/
  | yes
  /-- returns false -/
  | no
  /-- a C++ exception leaves the function -/
  | exception
deriving DecidableEq

/-- clingo-lpx.cc:125-137: constructor of the facade. -/
def facade (strict : Bool) (opts : Options) : Registered where
  epsilon := strict
  grammar := theoryDef strict
  opts := opts
  decides := decide (opts.select ≠ .none)

/-- An outcome of the functions in `Api`; `none` is undefined behaviour. clingo-lpx.cc:33-39 (`CLINGOLPX_TRY`, `CLINGOLPX_CATCH`). -/
def Handle.after (h : Handle) : Outcome → Option (Answer × Handle)
  | .ret true th => some (.yes, { h with theory := th })
  | .ret false th => some (.no, { h with theory := th })
  | .throws => some (.exception, h)
  | .undef => none

/-- clingo-lpx.cc:352-435: one call. `none` is undefined behaviour. An exception in the constructor of the facade is caught and leaves the old one. -/
def Handle.call (rd : List Char → Option Rat) (h : Handle) : Call → Option (Answer × Handle)
  | .configure key v => h.after (Lpx.configure key v h.theory)
  | .option key v => h.after (commandLine rd key v h.theory)
  | .strictFlag b => some (.yes, { h with theory := { h.theory with strict := b } })
  | .conflictsFlag b => some (.yes, { h with theory := { h.theory with options := { h.theory.options with propagateConflicts := b } } })
  | .validate => some (if validateOptions h.theory then .yes else .no, h)
  | .register ok => some (if ok then (.yes, { h with reg := some (facade h.theory.strict h.theory.options) }) else (.no, h))

/-- A sequence of calls starting with a state; the answers are in order. Not part of the code: sequences of calls. -/
def Handle.runFrom (rd : List Char → Option Rat) : Handle → List Call → Option (List Answer × Handle)
  | h, [] => some ([], h)
  | h, c :: cs => (h.call rd c).bind fun r => (runFrom rd r.2 cs).map fun q => (r.1 :: q.1, q.2)

/-- clingo-lpx.cc:347-350 `clingolpx_create`, and then a sequence of calls. -/
def Handle.run (rd : List Char → Option Rat) (cs : List Call) : Option (List Answer × Handle) := Handle.runFrom rd {} cs

/-- clingo-lpx.cc:81-91, 128-137: the literal decided on: if `decide` is not registered, clingo uses its own choice. -/
def Registered.decision {V : Type} [LpValue V] (r : Registered) (p : Propagator V) (th : Nat) (lit : Int) : Option Int :=
  if r.decides then p.decideLit th lit else some lit

/-- clingo-lpx.cc:316-323, 380-406 `check_parse` and the error message of `clingolpx_configure` when it returns false. -/
def configureMessage (key : List Char) : List Char :=
  let value := fun k : String => "invalid value for '".toList ++ k.toList ++ ['\'']
  if key = "strict".toList then value "strict"
  else if key = "objective".toList then value "objective"
  else if key = "propagate-conflicts".toList then value "propagate-conflicts"
  else if key = "propagate-bounds".toList then value "propagate-bounds"
  else if key = "select".toList then value "select"
  else if key = "store".toList then value "select"
  else "invalid configuration key '".toList ++ key ++ ['\'']

end Lpx
