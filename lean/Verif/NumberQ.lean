import Verif.Number

/-!
# Model of the class `RationalQ` (number.hh)

Like in `Number` the objects live in memory. An object of class `RationalQ` consists of its members `c_` and `k_`, which are objects of class `Rational`.
The overloads are modelled one by one on top of the operations of the class `Rational`, for either library.
-/

namespace Lpx.Number

/-- number.hh:11, 110-112: the addresses of the members `c_` and `k_`. -/
structure QObj where
  c : Loc
  k : Loc

namespace Q
variable (C : Classes)

/-- number.hh:99 constructor; the parameters are passed by value and moved to the members. -/
def make (c k : Loc) : M QObj := do
  let c ← C.ratMove c
  let k ← C.ratMove k
  return ⟨c, k⟩
/-- number.hh:100 copy constructor. -/
def copy (a : QObj) : M QObj := do
  let c ← C.ratCopy a.c
  let k ← C.ratCopy a.k
  return ⟨c, k⟩
/-- number.hh:101 move constructor. -/
def move (a : QObj) : M QObj := do
  let c ← C.ratMove a.c
  let k ← C.ratMove a.k
  return ⟨c, k⟩
/-- number.hh:102 copy assignment. -/
def assign (t a : QObj) : M QObj := do
  let _ ← C.ratAssign t.c a.c
  let _ ← C.ratAssign t.k a.k
  return t
/-- number.hh:103 move assignment. -/
def moveAssign (t a : QObj) : M QObj := do
  let _ ← C.ratMoveAssign t.c a.c
  let _ ← C.ratMoveAssign t.k a.k
  return t
/-- number.hh:117-120 `swap`. -/
def swap (a b : QObj) : M Unit := do
  C.ratSwap a.c b.c
  C.ratSwap a.k b.k

/-- number.hh:122 `is_rational`. -/
def isRational (a : QObj) : M Bool := C.ratRelFixed .eq a.k 0
/-- number.hh:124-129 `as_rational`, which returns a reference to the member; `none` is the exception. -/
def asRational (a : QObj) : M (Option Loc) := do
  if !(← isRational C a) then return none
  return some a.c

/-- number.hh:135-144, 149-158, 163-172: the part shared by the overloads of `compare`. -/
def compareTail (a : QObj) (ret : Int) : M Int := do
  if ret ≠ 0 then return ret
  if ← C.ratRelFixed .lt a.k 0 then return -1
  if ← C.ratRelFixed .gt a.k 0 then return 1
  return 0
/-- number.hh:133-145 `compare`. -/
def compareFixed (a : QObj) (b : Int) : M Int := do compareTail C a (← C.ratCompareFixed a.c b)
/-- number.hh:147-159 `compare`. -/
def compareInt (a : QObj) (b : Loc) : M Int := do compareTail C a (← C.ratCompareInt a.c b)
/-- number.hh:161-173 `compare`. -/
def compareRat (a : QObj) (b : Loc) : M Int := do compareTail C a (← C.ratCompare a.c b)
/-- number.hh:175-181 `compare`. -/
def compare (a b : QObj) : M Int := do
  let ret ← C.ratCompare a.c b.c
  if ret ≠ 0 then return ret
  C.ratCompare a.k b.k

/-- number.hh:185, 199, 207-210 `+`, 236, 250, 258-261 `-` with a fixed size integer. -/
def shiftFixed (op : QOp) : Mode → QObj → Int → M QObj
  | .const, a, b => do
    let c ← C.ratBinFixed op .const a.c b
    let k ← C.ratCopy a.k
    make C c k
  | .temp, a, b => do
    let _ ← C.ratBinFixed op .assign a.c b
    move C a
  | .assign, a, b => do
    let _ ← C.ratBinFixed op .assign a.c b
    return a
/-- number.hh:187-189, 201, 212-215 `+`, 238-240, 252, 263-266 `-` with an integer. -/
def shiftInt (op : QOp) : Mode → QObj → Loc → M QObj
  | .const, a, b => do
    let c ← C.ratBinInt op .const a.c b
    let k ← C.ratCopy a.k
    make C c k
  | .temp, a, b => do
    let _ ← C.ratBinInt op .assign a.c b
    move C a
  | .assign, a, b => do
    let _ ← C.ratBinInt op .assign a.c b
    return a
/-- number.hh:191-193, 203, 217-220 `+`, 242-244, 254, 268-271 `-` with a rational. -/
def shiftRat (op : QOp) : Mode → QObj → Loc → M QObj
  | .const, a, b => do
    let c ← C.ratBin op .const a.c b
    let k ← C.ratCopy a.k
    make C c k
  | .temp, a, b => do
    let _ ← C.ratBin op .assign a.c b
    move C a
  | .assign, a, b => do
    let _ ← C.ratBin op .assign a.c b
    return a
/-- number.hh:195-197, 205, 222-226 `+`, 246-248, 256, 273-277 `-` of two objects. -/
def shift (op : QOp) : Mode → QObj → QObj → M QObj
  | .const, a, b => do
    let c ← C.ratBin op .const a.c b.c
    let k ← C.ratBin op .const a.k b.k
    make C c k
  | .temp, a, b => do
    let _ ← C.ratBin op .assign a.c b.c
    let _ ← C.ratBin op .assign a.k b.k
    move C a
  | .assign, a, b => do
    let _ ← C.ratBin op .assign a.c b.c
    let _ ← C.ratBin op .assign a.k b.k
    return a

/-- number.hh:230 a parameter passed by value: a copy, or moved from a temporary. -/
def byValue (temp : Bool) (a : QObj) : M QObj := if temp then move C a else copy C a
/-- number.hh:230-234 unary minus. -/
def minus (temp : Bool) (a : QObj) : M QObj := do
  let a ← byValue C temp a
  let _ ← C.ratNeg a.c
  let _ ← C.ratNeg a.k
  move C a

/-- number.hh:281-283, 293, 299-303 `*`, 319-321, 331, 337-341 `/` with a fixed size integer. -/
def scaleFixed (op : QOp) : Mode → QObj → Int → M QObj
  | .const, a, b => do
    let c ← C.ratBinFixed op .const a.c b
    let k ← C.ratBinFixed op .const a.k b
    make C c k
  | .temp, a, b => do
    let _ ← C.ratBinFixed op .assign a.c b
    let _ ← C.ratBinFixed op .assign a.k b
    move C a
  | .assign, a, b => do
    let _ ← C.ratBinFixed op .assign a.c b
    let _ ← C.ratBinFixed op .assign a.k b
    return a
/-- number.hh:285-287, 295, 305-309 `*`, 323-325, 333, 343-347 `/` with an integer. -/
def scaleInt (op : QOp) : Mode → QObj → Loc → M QObj
  | .const, a, b => do
    let c ← C.ratBinInt op .const a.c b
    let k ← C.ratBinInt op .const a.k b
    make C c k
  | .temp, a, b => do
    let _ ← C.ratBinInt op .assign a.c b
    let _ ← C.ratBinInt op .assign a.k b
    move C a
  | .assign, a, b => do
    let _ ← C.ratBinInt op .assign a.c b
    let _ ← C.ratBinInt op .assign a.k b
    return a
/-- number.hh:289-291, 297, 311-315 `*`, 327-329, 335, 349-353 `/` with a rational. -/
def scaleRat (op : QOp) : Mode → QObj → Loc → M QObj
  | .const, a, b => do
    let c ← C.ratBin op .const a.c b
    let k ← C.ratBin op .const a.k b
    make C c k
  | .temp, a, b => do
    let _ ← C.ratBin op .assign a.c b
    let _ ← C.ratBin op .assign a.k b
    move C a
  | .assign, a, b => do
    let _ ← C.ratBin op .assign a.c b
    let _ ← C.ratBin op .assign a.k b
    return a

/-- number.hh:377 `==` with a fixed size integer; `&&` does not evaluate the right operand if the left one is false. -/
def equalFixed (a : QObj) (b : Int) : M Bool := do
  if ← C.ratRelFixed .eq a.k 0 then C.ratRelFixed .eq a.c b else return false
/-- number.hh:357, 362, 367, 372, 377, 384 comparison operators with a fixed size integer. -/
def relFixed : Rel → QObj → Int → M Bool
  | .eq, a, b => equalFixed C a b
  | .ne, a, b => do return !(← equalFixed C a b)
  | r, a, b => do return r.ofCmp (← compareFixed C a b)
/-- number.hh:378 `==` with an integer. -/
def equalInt (a : QObj) (b : Loc) : M Bool := do
  if ← C.ratRelFixed .eq a.k 0 then C.ratRelInt .eq a.c b else return false
/-- number.hh:358, 363, 368, 373, 378, 385 comparison operators with an integer. -/
def relInt : Rel → QObj → Loc → M Bool
  | .eq, a, b => equalInt C a b
  | .ne, a, b => do return !(← equalInt C a b)
  | r, a, b => do return r.ofCmp (← compareInt C a b)
/-- number.hh:379 `==` with a rational. -/
def equalRat (a : QObj) (b : Loc) : M Bool := do
  if ← C.ratRelFixed .eq a.k 0 then C.ratRel .eq a.c b else return false
/-- number.hh:359, 364, 369, 374, 379, 386 comparison operators with a rational. -/
def relRat : Rel → QObj → Loc → M Bool
  | .eq, a, b => equalRat C a b
  | .ne, a, b => do return !(← equalRat C a b)
  | r, a, b => do return r.ofCmp (← compareRat C a b)
/-- number.hh:380-382 `==` of two objects. -/
def equal (a b : QObj) : M Bool := do
  if ← C.ratRel .eq a.c b.c then C.ratRel .eq a.k b.k else return false
/-- number.hh:360, 365, 370, 375, 380-382, 387 comparison operators of two objects. -/
def rel : Rel → QObj → QObj → M Bool
  | .eq, a, b => equal C a b
  | .ne, a, b => do return !(← equal C a b)
  | r, a, b => do return r.ofCmp (← compare C a b)

end Q
end Lpx.Number
