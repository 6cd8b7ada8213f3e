import Verif.Num

/-!
# Model of the number classes (number_flint.hh, number_imath.hh)

`Integer` and `Rational` wrap objects of an arbitrary precision library. Here the objects live in memory cells: an `Integer` occupies one cell, a
`Rational` two consecutive ones (numerator and denominator, which `num()` and `den()` give access to). The overloads of each operator are modelled one by
one, including those that reuse the memory of a temporary operand (`Integer &&`). The functions of the libraries are modelled by their documentation; calling
them outside of it is the exception `ub`. Memory freed by destructors is never reused in the model. For FLINT the code for version 2.6 or newer is
modelled (`__FLINT_RELEASE >= 20600`).
-/

namespace Lpx.Number

/-- Memory addresses. -/
scoped notation "Loc" => Nat

/-- The memory: the integers in the cells, and the first free cell. Environment of number_flint.hh and number_imath.hh. -/
structure Heap where
  cell : Loc → Int
  next : Loc

/-- Exceptions: number_imath.hh:203-218 `mp_handle_error_` (`domain_error` for `MP_UNDEF`), abortion of the process by FLINT on divisions by zero,
and library functions called outside of their documentation. -/
inductive Exn where
  | domain | abort | ub
deriving DecidableEq

/-- Code that works on the memory. Environment of number_flint.hh and number_imath.hh. -/
abbrev M := StateT Heap (Except Exn)

/-- Reading a cell. Environment of number_flint.hh and number_imath.hh. -/
def rd (l : Loc) : M Int := fun h => .ok (h.cell l, h)
/-- Writing a cell. Environment of number_flint.hh and number_imath.hh. -/
def wr (l : Loc) (z : Int) : M Unit := fun h => .ok ((), { h with cell := Function.update h.cell l z })
/-- Throwing an exception. For example number_imath.hh:193-210 (`mp_handle_error_`). -/
def raise {α : Type} (e : Exn) : M α := fun _ => .error e
/-- The documented precondition of a library function. Environment of number_flint.hh and number_imath.hh. -/
def require (p : Prop) [Decidable p] : M Unit := if p then pure () else raise .ub

/-- Lowest terms and a positive denominator. Specification of the objects of type `fmpq` and `mpq_t` in number_flint.hh and number_imath.hh. -/
def Canon (n d : Int) : Prop := 0 < d ∧ Int.gcd n d = 1
instance (n d : Int) : Decidable (Canon n d) := by unfold Canon; infer_instance

/-- The same rational or one that does not overlap. Specification (aliasing of parameters in number_flint.hh and number_imath.hh). -/
def Apart (a b : Loc) : Prop := a = b ∨ a + 2 ≤ b ∨ b + 2 ≤ a
instance (a b : Loc) : Decidable (Apart a b) := by unfold Apart; infer_instance

/-- An integer outside of the rational. Specification (aliasing of parameters in number_flint.hh and number_imath.hh). -/
def Outside (z q : Loc) : Prop := z < q ∨ q + 2 ≤ z
instance (a b : Loc) : Decidable (Outside a b) := by unfold Outside; infer_instance

/-! ### the libraries -/

/-- A new integer, zero (`fmpz_init`, `mp_int_init`). Library function called in number_flint.hh:195; number_imath.hh:214. -/
def newInt : M Loc := fun h => .ok (h.next, { cell := Function.update h.cell h.next 0, next := h.next + 1 })
/-- A new rational, 0/1 (`fmpq_init`, `mp_rat_init`). Library function called in number_flint.hh:436; number_imath.hh:431. -/
def newRat : M Loc := fun h =>
  .ok (h.next, { cell := Function.update (Function.update h.cell h.next 0) (h.next + 1) 1, next := h.next + 2 })

/-- The integer operations. number_flint.hh:258-363, number_imath.hh:277-362. -/
inductive ZOp where
  | add | sub | mul
/-- What they compute. Specification of the library functions used in number_flint.hh:258-363, number_imath.hh:277-362. -/
def ZOp.eval : ZOp → Int → Int → Int
  | .add, x, y => x + y
  | .sub, x, y => x - y
  | .mul, x, y => x * y

/-- `fmpz_add/sub/mul(c, a, b)` and `mp_int_add/sub/mul(a, b, c)`: any operands may be the same. Library function called in number_flint.hh:271, 312, 344; number_imath.hh:279, 312, 340. -/
def zz (op : ZOp) (c a b : Loc) : M Unit := do wr c (op.eval (← rd a) (← rd b))
/-- `fmpz_add/sub/mul_si(c, a, b)` and `mp_int_add/sub/mul_value(a, b, c)`. Library function called in number_flint.hh:262, 303, 338; number_imath.hh:273, 306, 334. -/
def zs (op : ZOp) (c a : Loc) (b : Int) : M Unit := do wr c (op.eval (← rd a) b)
/-- `fmpz_set`, `mp_int_copy`. Library function called in number_flint.hh:208; number_imath.hh:225. -/
def zset (c a : Loc) : M Unit := do wr c (← rd a)
/-- `fmpz_set_si`, `mp_int_set_value`. Library function called in number_flint.hh:198; number_imath.hh:217. -/
def zsetSi (c : Loc) (b : Int) : M Unit := wr c b
/-- `fmpz_neg`, `mp_int_neg`. Library function called in number_flint.hh:241; number_imath.hh:253. -/
def zneg (c a : Loc) : M Unit := do wr c (-(← rd a))
/-- `fmpz_swap`, `mp_int_swap`. Library function called in number_flint.hh:224; number_imath.hh:241. -/
def zswap (a b : Loc) : M Unit := do
  let x ← rd a
  let y ← rd b
  wr a y
  wr b x
/-- `fmpz_addmul(c, a, b)`. Library function called in number_flint.hh:232. -/
def zaddmul (c a b : Loc) : M Unit := do wr c ((← rd c) + (← rd a) * (← rd b))
/-- `fmpz_divexact(c, a, b)`: the divisor has to divide and must not be zero. Library function called in number_flint.hh:227. -/
def zdivexact (c a b : Loc) : M Unit := do
  let x ← rd a
  let y ← rd b
  require (y ≠ 0 ∧ y ∣ x)
  wr c (x / y)
/-- `mp_int_div(a, b, c, nullptr)`: rounds towards zero; returns `MP_UNDEF` (`false`) and changes nothing if the divisor is zero. Library function called in number_imath.hh:244. -/
def mpdiv (a b c : Loc) : M Bool := do
  let x ← rd a
  let y ← rd b
  if y = 0 then return false
  else
    wr c (x.tdiv y)
    return true
/-- `fmpz_gcd(c, a, b)`. Library function called in number_flint.hh:421. -/
def zgcd (c a b : Loc) : M Unit := do wr c (Int.gcd (← rd a) (← rd b))
/-- `mp_int_gcd(a, b, c)`: returns `MP_UNDEF` and changes nothing if both numbers are zero. Library function called in number_imath.hh:416. -/
def mpgcd (a b c : Loc) : M Bool := do
  let x ← rd a
  let y ← rd b
  if x = 0 ∧ y = 0 then return false
  else
    wr c (Int.gcd x y)
    return true
/-- `fmpz_cmp_si(a, b)`, `mp_int_compare_value(a, b)`. Library function called in number_flint.hh:413; number_imath.hh:406. -/
def zcmpSi (a : Loc) (b : Int) : M Int := do return cmpRat (← rd a) b
/-- `mp_int_compare(a, b)`. Library function called in number_imath.hh:409. -/
def zcmp (a b : Loc) : M Int := do return cmpRat (← rd a) (← rd b)
/-- `fmpz_equal(a, b)`. Library function called in number_flint.hh:391. -/
def zequal (a b : Loc) : M Bool := do return decide ((← rd a) = (← rd b))
/-- `fmpz_equal_si(a, b)`. Library function called in number_flint.hh:388. -/
def zequalSi (a : Loc) (b : Int) : M Bool := do return decide ((← rd a) = b)

/-- The rational operations. number_flint.hh:519-699, number_imath.hh:496-634. -/
inductive QOp where
  | add | sub | mul | div
/-- What they compute. Specification of the library functions used in number_flint.hh:519-699, number_imath.hh:496-634. -/
def QOp.eval : QOp → Rat → Rat → Rat
  | .add, x, y => x + y
  | .sub, x, y => x - y
  | .mul, x, y => x * y
  | .div, x, y => x / y

/-- The value of a fraction. Specification of the objects of type `fmpq` and `mpq_t` in number_flint.hh and number_imath.hh. -/
def frac (n d : Int) : Rat := (n : Rat) / (d : Rat)

/-- Storing a rational in lowest terms. Environment: the documented results of the library functions used in number_flint.hh and number_imath.hh. -/
def wrRat (c : Loc) (q : Rat) : M Unit := do
  wr c q.num
  wr (c + 1) q.den

/-- Reading a rational; the library functions require lowest terms. Environment of number_flint.hh and number_imath.hh. -/
def rdRat (a : Loc) : M Rat := do
  let n ← rd a
  let d ← rd (a + 1)
  require (Canon n d)
  return frac n d

/-- The result of an operation; `e` is what happens on divisions by zero. Environment of number_flint.hh and number_imath.hh. -/
def evalOp (e : Exn) (op : QOp) (x y : Rat) : M Rat :=
  match op with
  | .div => if y = 0 then raise e else pure (x / y)
  | op => pure (op.eval x y)

/-- `fmpq_add/sub/mul/div(c, a, b)`, `mp_rat_add/sub/mul/div(a, b, c)`. Library function called in number_flint.hh:538, 588, 633, 674; number_imath.hh:508, 547, 581, 615. -/
def qq (e : Exn) (op : QOp) (c a b : Loc) : M Unit := do
  require (Apart c a ∧ Apart c b)
  let x ← rdRat a
  let y ← rdRat b
  wrRat c (← evalOp e op x y)
/-- `fmpq_add/sub/mul/div_fmpz(c, a, b)`, `mp_rat_add/sub/mul/div_int(a, b, c)`. Library function called in number_flint.hh:532, 582, 627, 668; number_imath.hh:502, 541, 575, 609. -/
def qz (e : Exn) (op : QOp) (c a b : Loc) : M Unit := do
  require (Apart c a ∧ Outside b c)
  let x ← rdRat a
  let y ← rd b
  wrRat c (← evalOp e op x y)
/-- `fmpq_add/sub/mul_si(c, a, b)`. Library function called in number_flint.hh:523, 573, 618. -/
def qs (e : Exn) (op : QOp) (c a : Loc) (b : Int) : M Unit := do
  require (Apart c a)
  let x ← rdRat a
  wrRat c (← evalOp e op x b)
/-- `fmpq_set`, `mp_rat_copy`. Library function called in number_flint.hh:468; number_imath.hh:442. -/
def qset (c a : Loc) : M Unit := do
  require (Apart c a)
  wrRat c (← rdRat a)
/-- `fmpq_set_si(c, b, 1)`, `mp_rat_set_value(c, b, 1)`. Library function called in number_flint.hh:439; number_imath.hh:434. -/
def qsetSi (c : Loc) (b : Int) : M Unit := wrRat c b
/-- `fmpq_neg`, `mp_rat_neg` (in place). Library function called in number_flint.hh:511; number_imath.hh:485. -/
def qneg (c : Loc) : M Unit := do wrRat c (-(← rdRat c))
/-- `fmpq_swap`. Library function called in number_flint.hh:515. -/
def qswap (a b : Loc) : M Unit := do
  zswap a b
  zswap (a + 1) (b + 1)
/-- `fmpq_canonicalise`; a zero denominator is not allowed. Library function called in number_flint.hh:461. -/
def fmpqCanonicalise (a : Loc) : M Unit := do
  let n ← rd a
  let d ← rd (a + 1)
  require (d ≠ 0)
  wrRat a (frac n d)
/-- `mp_rat_reduce`; `MP_UNDEF` if the denominator is zero. Library function called in number_imath.hh:494. -/
def mpRatReduce (a : Loc) : M Unit := do
  let n ← rd a
  let d ← rd (a + 1)
  if d = 0 then raise .domain else wrRat a (frac n d)
/-- `fmpq_cmp`, `mp_rat_compare`. Library function called in number_flint.hh:787; number_imath.hh:712. -/
def qcmp (a b : Loc) : M Int := do return cmpRat (← rdRat a) (← rdRat b)
/-- `fmpq_cmp_si`, `mp_rat_compare_value(a, b, 1)`. Library function called in number_flint.hh:773; number_imath.hh:704. -/
def qcmpSi (a : Loc) (b : Int) : M Int := do return cmpRat (← rdRat a) b
/-- `fmpq_cmp_fmpz`. Library function called in number_flint.hh:781. -/
def qcmpZ (a b : Loc) : M Int := do return cmpRat (← rdRat a) (← rd b)
/-- `fmpq_equal`, which compares numerators and denominators. Library function called in number_flint.hh:747. -/
def qequal (a b : Loc) : M Bool := do
  let n ← rd a
  let d ← rd (a + 1)
  let n' ← rd b
  let d' ← rd (b + 1)
  require (Canon n d ∧ Canon n' d')
  return decide (n = n' ∧ d = d')
/-- `fmpq_equal_si`, `fmpq_equal_fmpz`: the denominator has to be one. Library function called in number_flint.hh:732, 740. -/
def qequalInt (a : Loc) (b : Int) : M Bool := do
  let n ← rd a
  let d ← rd (a + 1)
  require (Canon n d)
  return decide (n = b ∧ d = 1)

/-! ### the classes -/

/-- Overloads: `operator+(T const &a, b)`, `operator+(T &&a, b)` and `operator+=(T &a, b)`. number_flint.hh:258-363, 519-699, number_imath.hh:277-362, 496-634. -/
inductive Mode where
  | const | temp | assign
/-- Comparison operators. number_flint.hh:365-430, 701-760, number_imath.hh:364-430, 636-686. -/
inductive Rel where
  | lt | le | gt | ge | eq | ne

/-- The result of a comparison operator given by `compare`. number_flint.hh:701-727, number_imath.hh:640-686. -/
def Rel.ofCmp : Rel → Int → Bool
  | .lt, c => decide (c < 0)
  | .le, c => decide (c ≤ 0)
  | .gt, c => decide (c > 0)
  | .ge, c => decide (c ≥ 0)
  | .eq, c => decide (c = 0)
  | .ne, c => decide (c ≠ 0)

/-- The operations offered by the two number classes. number_flint.hh and number_imath.hh, the declarations of `Integer` and `Rational`. -/
structure Classes where
  /-- `Integer{b}` -/
  intOfFixed : Int → M Loc
  /-- copy construction and assignment of `Integer` -/
  intCopy : Loc → M Loc
  intAssign : Loc → Loc → M Loc
  /-- move construction and assignment of `Integer` -/
  intMove : Loc → M Loc
  intMoveAssign : Loc → Loc → M Loc
  /-- `+`, `-`, `*` of two `Integer`s, or an `Integer` and a `fixed_int` -/
  intBin : ZOp → Mode → Loc → Loc → M Loc
  intBinFixed : ZOp → Mode → Loc → Int → M Loc
  /-- unary minus, `neg`, `divide`, `add_mul` -/
  intMinus : Loc → M Loc
  intNeg : Loc → M Loc
  intDivide : Loc → Loc → M Loc
  intAddMul : Loc → Loc → Loc → M Loc
  /-- `gcd`, `gcd_div`, `as_int` -/
  intGcd : Loc → Loc → M Loc
  intGcdDiv : Loc → Loc → M (Loc × Loc × Loc)
  intAsInt : Loc → M (Option Int)
  /-- comparisons -/
  intRel : Rel → Loc → Loc → M Bool
  intRelFixed : Rel → Loc → Int → M Bool
  /-- `Rational{b}`, `Rational{num, den}` -/
  ratOfFixed : Int → M Loc
  ratOfInts : Loc → Loc → M Loc
  /-- copies and moves -/
  ratCopy : Loc → M Loc
  ratAssign : Loc → Loc → M Loc
  ratMove : Loc → M Loc
  ratMoveAssign : Loc → Loc → M Loc
  /-- arithmetic -/
  ratBin : QOp → Mode → Loc → Loc → M Loc
  ratBinInt : QOp → Mode → Loc → Loc → M Loc
  ratBinFixed : QOp → Mode → Loc → Int → M Loc
  ratMinus : Loc → M Loc
  ratNeg : Loc → M Loc
  ratCanonicalize : Loc → M Unit
  /-- comparisons -/
  ratRel : Rel → Loc → Loc → M Bool
  ratRelInt : Rel → Loc → Loc → M Bool
  ratRelFixed : Rel → Loc → Int → M Bool
  /-- `compare` -/
  ratCompare : Loc → Loc → M Int
  ratCompareInt : Loc → Loc → M Int
  ratCompareFixed : Loc → Int → M Int
  /-- `swap` -/
  ratSwap : Loc → Loc → M Unit

/-! ### FLINT -/

namespace Flint

/-- FLINT represents integers with an absolute value below 2^62 by themselves and others by a pointer to a number on the heap, which is encoded in the
word by setting bit 62. `place` gives these words, which depend on the memory allocator. Environment of number_flint.hh. -/
def word (place : Heap → Loc → Int) (h : Heap) (a : Loc) : Int :=
  if -2 ^ 62 < h.cell a ∧ h.cell a < 2 ^ 62 then h.cell a else place h a

/-- number_flint.hh:200 `Integer(fixed_int)`. -/
def intOfFixed (b : Int) : M Loc := do
  let c ← newInt
  zsetSi c b
  return c
/-- number_flint.hh:210 copy constructor. -/
def intCopy (a : Loc) : M Loc := do
  let c ← newInt
  zset c a
  return c
/-- number_flint.hh:214-217. -/
def intAssign (c a : Loc) : M Loc := do
  zset c a
  return c
/-- number_flint.hh:212 move constructor. -/
def intMove (a : Loc) : M Loc := do
  let c ← newInt
  zswap c a
  return c
/-- number_flint.hh:219-222. -/
def intMoveAssign (c a : Loc) : M Loc := do
  zswap c a
  return c

/-- number_flint.hh:262-363 `+`, `-`, `*` of integers. -/
def intBin : ZOp → Mode → Loc → Loc → M Loc
  -- 272-276
  | .add, .const, a, b => do let c ← newInt; zz .add c a b; return c
  -- 280, 291-294
  | .add, .temp, a, b => do zz .add a a b; intMove a
  -- 291-294
  | .add, .assign, a, b => do zz .add a a b; return a
  -- 313-317
  | .sub, .const, a, b => do let c ← newInt; zz .sub c a b; return c
  -- 321, 332-335
  | .sub, .temp, a, b => do zz .sub a a b; intMove a
  -- 332-335
  | .sub, .assign, a, b => do zz .sub a a b; return a
  -- 342-346
  | .mul, .const, a, b => do let c ← newInt; zz .mul c a b; return c
  -- 350, 357-360
  | .mul, .temp, a, b => do zz .mul a a b; intMove a
  -- 357-360
  | .mul, .assign, a, b => do zz .mul a a b; return a

/-- number_flint.hh:262-363 `+`, `-`, `*` with a fixed size integer. -/
def intBinFixed : ZOp → Mode → Loc → Int → M Loc
  -- 262-270
  | .add, .const, a, b => do let c ← newInt; zs .add c a b; return c
  -- 278, 282-289
  | .add, .temp, a, b => do zs .add a a b; intMove a
  | .add, .assign, a, b => do zs .add a a b; return a
  -- 303-311
  | .sub, .const, a, b => do let c ← newInt; zs .sub c a b; return c
  -- 319, 323-330
  | .sub, .temp, a, b => do zs .sub a a b; intMove a
  | .sub, .assign, a, b => do zs .sub a a b; return a
  -- 336-340
  | .mul, .const, a, b => do let c ← newInt; zs .mul c a b; return c
  -- 348, 352-355
  | .mul, .temp, a, b => do zs .mul a a b; intMove a
  | .mul, .assign, a, b => do zs .mul a a b; return a

/-- number_flint.hh:240-243 `neg`. -/
def intNeg (a : Loc) : M Loc := do
  zneg a a
  return a
/-- number_flint.hh:298-301 unary minus; the parameter is a copy and the result is moved out of it. -/
def intMinus (a : Loc) : M Loc := do
  let p ← intCopy a
  let p ← intNeg p
  intMove p
/-- number_flint.hh:228-231 `divide`. -/
def intDivide (a b : Loc) : M Loc := do
  zdivexact a a b
  return a
/-- number_flint.hh:233-236 `add_mul`. -/
def intAddMul (c a b : Loc) : M Loc := do
  zaddmul c a b
  return c
/-- number_flint.hh:423-427 `gcd`. -/
def intGcd (a b : Loc) : M Loc := do
  let g ← newInt
  zgcd g a b
  return g
/-- number_flint.hh:429-435 `gcd_div`. -/
def intGcdDiv (a b : Loc) : M (Loc × Loc × Loc) := do
  let g ← newInt
  let x ← newInt
  let y ← newInt
  zgcd g a b
  zdivexact x a g
  zdivexact y b g
  return (g, x, y)
/-- number_flint.hh:245-253 `as_int`: the number fits into a word and into an `int`. -/
def intAsInt (a : Loc) : M (Option Int) := do
  let x ← rd a
  if -2 ^ 63 ≤ x ∧ x < 2 ^ 63 then
    if -2147483648 ≤ x ∧ x ≤ 2147483647 then return some x else return none
  else return none

/-- number_flint.hh:417 `compare(Integer, fixed_int)`. -/
def intCompareFixed (a : Loc) (b : Int) : M Int := zcmpSi a b
/-- number_flint.hh:419 `compare(Integer, Integer)`, which passes the word of `b` to a function expecting its value. -/
def intCompare (place : Heap → Loc → Int) (a b : Loc) : M Int := fun h => zcmpSi a (word place h b) h

/-- number_flint.hh:364-400 comparison operators. -/
def intRel (place : Heap → Loc → Int) : Rel → Loc → Loc → M Bool
  | .eq, a, b => zequal a b
  | .ne, a, b => do return !(← zequal a b)
  | r, a, b => do return r.ofCmp (← intCompare place a b)
/-- number_flint.hh:364-400 comparison operators with a fixed size integer. -/
def intRelFixed : Rel → Loc → Int → M Bool
  | .eq, a, b => zequalSi a b
  | .ne, a, b => do return !(← zequalSi a b)
  | r, a, b => do return r.ofCmp (← intCompareFixed a b)

/-- number_flint.hh:443 `Rational(fixed_int)`. -/
def ratOfFixed (b : Int) : M Loc := do
  let c ← newRat
  qsetSi c b
  return c
/-- number_flint.hh:473-477 `Rational(Integer num, Integer den)`; the parameters are temporaries. -/
def ratOfInts (n d : Loc) : M Loc := do
  let c ← newRat
  let _ ← intMoveAssign c n
  let _ ← intMoveAssign (c + 1) d
  fmpqCanonicalise c
  return c
/-- number_flint.hh:471 copy constructor. -/
def ratCopy (a : Loc) : M Loc := do
  let c ← newRat
  qset c a
  return c
/-- number_flint.hh:481-484. -/
def ratAssign (c a : Loc) : M Loc := do
  qset c a
  return c
/-- number_flint.hh:479 move constructor. -/
def ratMove (a : Loc) : M Loc := do
  let c ← newRat
  qswap c a
  return c
/-- number_flint.hh:486-489. -/
def ratMoveAssign (c a : Loc) : M Loc := do
  qswap c a
  return c

/-- number_flint.hh:523-695 `+`, `-`, `*`, `/` of rationals. -/
def ratBin : QOp → Mode → Loc → Loc → M Loc
  -- 540-544
  | .add, .const, a, b => do let c ← newRat; qq .abort .add c a b; return c
  -- 550, 562-565
  | .add, .temp, a, b => do qq .abort .add a a b; ratMove a
  | .add, .assign, a, b => do qq .abort .add a a b; return a
  -- 590-594
  | .sub, .const, a, b => do let c ← newRat; qq .abort .sub c a b; return c
  -- 600, 612-615
  | .sub, .temp, a, b => do qq .abort .sub a a b; ratMove a
  | .sub, .assign, a, b => do qq .abort .sub a a b; return a
  -- 635-639
  | .mul, .const, a, b => do let c ← newRat; qq .abort .mul c a b; return c
  -- 645, 661-664
  | .mul, .temp, a, b => do qq .abort .mul a a b; ratMove a
  | .mul, .assign, a, b => do qq .abort .mul a a b; return a
  -- 676-680
  | .div, .const, a, b => do let c ← newRat; qq .abort .div c a b; return c
  -- 686, 695-698
  | .div, .temp, a, b => do qq .abort .div a a b; ratMove a
  | .div, .assign, a, b => do qq .abort .div a a b; return a

/-- number_flint.hh:523-695 `+`, `-`, `*`, `/` of a rational and an integer. -/
def ratBinInt : QOp → Mode → Loc → Loc → M Loc
  -- 534-538
  | .add, .const, a, b => do let c ← newRat; qz .abort .add c a b; return c
  -- 548, 557-560
  | .add, .temp, a, b => do qz .abort .add a a b; ratMove a
  | .add, .assign, a, b => do qz .abort .add a a b; return a
  -- 584-588
  | .sub, .const, a, b => do let c ← newRat; qz .abort .sub c a b; return c
  -- 598, 607-610
  | .sub, .temp, a, b => do qz .abort .sub a a b; ratMove a
  | .sub, .assign, a, b => do qz .abort .sub a a b; return a
  -- 629-633
  | .mul, .const, a, b => do let c ← newRat; qz .abort .mul c a b; return c
  -- 643, 656-659
  | .mul, .temp, a, b => do qz .abort .mul a a b; ratMove a
  | .mul, .assign, a, b => do qz .abort .mul a a b; return a
  -- 670-674
  | .div, .const, a, b => do let c ← newRat; qz .abort .div c a b; return c
  -- 684, 690-693
  | .div, .temp, a, b => do qz .abort .div a a b; ratMove a
  | .div, .assign, a, b => do qz .abort .div a a b; return a

/-- number_flint.hh:523-695 `+`, `-`, `*`, `/` of a rational and a fixed size integer; the divisor is converted to an `Integer`. -/
def ratBinFixed : QOp → Mode → Loc → Int → M Loc
  -- 524-532
  | .add, .const, a, b => do let c ← newRat; qs .abort .add c a b; return c
  -- 546, 552-555
  | .add, .temp, a, b => do qs .abort .add a a b; ratMove a
  | .add, .assign, a, b => do qs .abort .add a a b; return a
  -- 574-582
  | .sub, .const, a, b => do let c ← newRat; qs .abort .sub c a b; return c
  -- 596, 602-605
  | .sub, .temp, a, b => do qs .abort .sub a a b; ratMove a
  | .sub, .assign, a, b => do qs .abort .sub a a b; return a
  -- 619-627
  | .mul, .const, a, b => do let c ← newRat; qs .abort .mul c a b; return c
  -- 641, 647-654
  | .mul, .temp, a, b => do qs .abort .mul a a b; ratMove a
  | .mul, .assign, a, b => do qs .abort .mul a a b; return a
  -- 668
  | .div, .const, a, b => do let z ← intOfFixed b; ratBinInt .div .const a z
  -- 682, 688
  | .div, .temp, a, b => do let z ← intOfFixed b; let a ← ratBinInt .div .assign a z; ratMove a
  | .div, .assign, a, b => do let z ← intOfFixed b; ratBinInt .div .assign a z

/-- number_flint.hh:513-516 `neg`. -/
def ratNeg (a : Loc) : M Loc := do
  qneg a
  return a
/-- number_flint.hh:569-572 unary minus. -/
def ratMinus (a : Loc) : M Loc := do
  let p ← ratCopy a
  let p ← ratNeg p
  ratMove p

/-- number_flint.hh:515 `swap`. -/
def ratSwap (a b : Loc) : M Unit := qswap a b

/-- number_flint.hh:787 `compare` of rationals. -/
def ratCompare (a b : Loc) : M Int := qcmp a b
/-- number_flint.hh:779-785 `compare` of a rational and an integer. -/
def ratCompareInt (a b : Loc) : M Int := qcmpZ a b
/-- number_flint.hh:771-777 `compare` of a rational and a fixed size integer. -/
def ratCompareFixed (a : Loc) (b : Int) : M Int := qcmpSi a b

/-- number_flint.hh:701-760 comparison operators of rationals. -/
def ratRel : Rel → Loc → Loc → M Bool
  | .eq, a, b => qequal a b
  | .ne, a, b => do return !(← qequal a b)
  | r, a, b => do return r.ofCmp (← ratCompare a b)
/-- number_flint.hh:701-760 comparison operators of a rational and an integer. -/
def ratRelInt : Rel → Loc → Loc → M Bool
  | .eq, a, b => do qequalInt a (← rd b)
  | .ne, a, b => do return !(← qequalInt a (← rd b))
  | r, a, b => do return r.ofCmp (← ratCompareInt a b)
/-- number_flint.hh:701-760 comparison operators of a rational and a fixed size integer. -/
def ratRelFixed : Rel → Loc → Int → M Bool
  | .eq, a, b => qequalInt a b
  | .ne, a, b => do return !(← qequalInt a b)
  | r, a, b => do return r.ofCmp (← ratCompareFixed a b)

end Flint

/-- The classes in number_flint.hh. -/
def flint (place : Heap → Loc → Int) : Classes where
  intOfFixed := Flint.intOfFixed
  intCopy := Flint.intCopy
  intAssign := Flint.intAssign
  intMove := Flint.intMove
  intMoveAssign := Flint.intMoveAssign
  intBin := Flint.intBin
  intBinFixed := Flint.intBinFixed
  intMinus := Flint.intMinus
  intNeg := Flint.intNeg
  intDivide := Flint.intDivide
  intAddMul := Flint.intAddMul
  intGcd := Flint.intGcd
  intGcdDiv := Flint.intGcdDiv
  intAsInt := Flint.intAsInt
  intRel := Flint.intRel place
  intRelFixed := Flint.intRelFixed
  ratOfFixed := Flint.ratOfFixed
  ratOfInts := Flint.ratOfInts
  ratCopy := Flint.ratCopy
  ratAssign := Flint.ratAssign
  ratMove := Flint.ratMove
  ratMoveAssign := Flint.ratMoveAssign
  ratBin := Flint.ratBin
  ratBinInt := Flint.ratBinInt
  ratBinFixed := Flint.ratBinFixed
  ratMinus := Flint.ratMinus
  ratNeg := Flint.ratNeg
  ratCanonicalize := fmpqCanonicalise
  ratRel := Flint.ratRel
  ratRelInt := Flint.ratRelInt
  ratRelFixed := Flint.ratRelFixed
  ratCompare := Flint.ratCompare
  ratCompareInt := Flint.ratCompareInt
  ratCompareFixed := Flint.ratCompareFixed
  ratSwap := Flint.ratSwap

/-! ### IMath -/

namespace IMath

/-- number_imath.hh:226 `Integer(fixed_int)`. -/
def intOfFixed (b : Int) : M Loc := do
  let c ← newInt
  zsetSi c b
  return c
/-- number_imath.hh:234 copy constructor. -/
def intCopy (a : Loc) : M Loc := do
  let c ← newInt
  zset c a
  return c
/-- number_imath.hh:238-241. -/
def intAssign (c a : Loc) : M Loc := do
  zset c a
  return c
/-- number_imath.hh:236 move constructor. -/
def intMove (a : Loc) : M Loc := do
  let c ← newInt
  zswap c a
  return c
/-- number_imath.hh:243-246. -/
def intMoveAssign (c a : Loc) : M Loc := do
  zswap c a
  return c

/-- number_imath.hh:277-362 `+`, `-`, `*` of integers. -/
def intBin : ZOp → Mode → Loc → Loc → M Loc
  -- 283-287
  | .add, .const, a, b => do let c ← newInt; zz .add c a b; return c
  -- 291, 298-301
  | .add, .temp, a, b => do zz .add a a b; intMove a
  | .add, .assign, a, b => do zz .add a a b; return a
  -- 316-320
  | .sub, .const, a, b => do let c ← newInt; zz .sub c a b; return c
  -- 324, 331-334
  | .sub, .temp, a, b => do zz .sub a a b; intMove a
  | .sub, .assign, a, b => do zz .sub a a b; return a
  -- 344-348
  | .mul, .const, a, b => do let c ← newInt; zz .mul c a b; return c
  -- 352, 359-362
  | .mul, .temp, a, b => do zz .mul a a b; intMove a
  | .mul, .assign, a, b => do zz .mul a a b; return a

/-- number_imath.hh:277-362 `+`, `-`, `*` with a fixed size integer. -/
def intBinFixed : ZOp → Mode → Loc → Int → M Loc
  | .add, .const, a, b => do let c ← newInt; zs .add c a b; return c
  | .add, .temp, a, b => do zs .add a a b; intMove a
  | .add, .assign, a, b => do zs .add a a b; return a
  | .sub, .const, a, b => do let c ← newInt; zs .sub c a b; return c
  | .sub, .temp, a, b => do zs .sub a a b; intMove a
  | .sub, .assign, a, b => do zs .sub a a b; return a
  | .mul, .const, a, b => do let c ← newInt; zs .mul c a b; return c
  | .mul, .temp, a, b => do zs .mul a a b; intMove a
  | .mul, .assign, a, b => do zs .mul a a b; return a

/-- number_imath.hh:261-264 `neg`. -/
def intNeg (a : Loc) : M Loc := do
  zneg a a
  return a
/-- number_imath.hh:305-308 unary minus; the parameter is a copy. -/
def intMinus (a : Loc) : M Loc := do
  let p ← intCopy a
  let p ← intNeg p
  intMove p
/-- number_imath.hh:252-255 `divide`; the error code is ignored. -/
def intDivide (a b : Loc) : M Loc := do
  let _ ← mpdiv a b a
  return a
/-- number_imath.hh:257 `add_mul`. -/
def intAddMul (c a b : Loc) : M Loc := do
  let p ← intBin .mul .const a b
  intBin .add .assign c p
/-- number_imath.hh:414-418 `gcd`; the error code is ignored. -/
def intGcd (a b : Loc) : M Loc := do
  let g ← newInt
  let _ ← mpgcd a b g
  return g
/-- number_imath.hh:420-426 `gcd_div`; the error codes are ignored. -/
def intGcdDiv (a b : Loc) : M (Loc × Loc × Loc) := do
  let g ← newInt
  let x ← newInt
  let y ← newInt
  let _ ← mpgcd a b g
  let _ ← mpdiv a g x
  let _ ← mpdiv b g y
  return (g, x, y)
/-- number_imath.hh:266-274 `as_int`; `mp_int_to_int` fails if the number does not fit into a word. -/
def intAsInt (a : Loc) : M (Option Int) := do
  let x ← rd a
  if -2 ^ 63 ≤ x ∧ x < 2 ^ 63 then
    if -2147483648 ≤ x ∧ x ≤ 2147483647 then return some x else return none
  else return none

/-- number_imath.hh:364-394, 408-410 comparison operators. -/
def intRel (r : Rel) (a b : Loc) : M Bool := do return r.ofCmp (← zcmp a b)
/-- number_imath.hh:364-394, 406 comparison operators with a fixed size integer. -/
def intRelFixed (r : Rel) (a : Loc) (b : Int) : M Bool := do return r.ofCmp (← zcmpSi a b)

/-- number_imath.hh:434 `Rational(fixed_int)`. -/
def ratOfFixed (b : Int) : M Loc := do
  let c ← newRat
  qsetSi c b
  return c
/-- number_imath.hh:444-448 `Rational(Integer num, Integer den)`; the parameters are temporaries. -/
def ratOfInts (n d : Loc) : M Loc := do
  let c ← newRat
  let _ ← intMoveAssign c n
  let _ ← intMoveAssign (c + 1) d
  mpRatReduce c
  return c
/-- number_imath.hh:442 copy constructor. -/
def ratCopy (a : Loc) : M Loc := do
  let c ← newRat
  qset c a
  return c
/-- number_imath.hh:452-455. -/
def ratAssign (c a : Loc) : M Loc := do
  qset c a
  return c
/-- number_imath.hh:450 move constructor. -/
def ratMove (a : Loc) : M Loc := do
  let c ← newRat
  qswap c a
  return c
/-- number_imath.hh:457-460. -/
def ratMoveAssign (c a : Loc) : M Loc := do
  qswap c a
  return c

/-- number_imath.hh:500-634 `+`, `-`, `*`, `/` of rationals. -/
def ratBin : QOp → Mode → Loc → Loc → M Loc
  -- 508-512
  | .add, .const, a, b => do let c ← newRat; qq .domain .add c a b; return c
  -- 518, 527-530
  | .add, .temp, a, b => do qq .domain .add a a b; ratMove a
  | .add, .assign, a, b => do qq .domain .add a a b; return a
  -- 547-551
  | .sub, .const, a, b => do let c ← newRat; qq .domain .sub c a b; return c
  -- 557, 566-569
  | .sub, .temp, a, b => do qq .domain .sub a a b; ratMove a
  | .sub, .assign, a, b => do qq .domain .sub a a b; return a
  -- 581-585
  | .mul, .const, a, b => do let c ← newRat; qq .domain .mul c a b; return c
  -- 591, 600-603
  | .mul, .temp, a, b => do qq .domain .mul a a b; ratMove a
  | .mul, .assign, a, b => do qq .domain .mul a a b; return a
  -- 615-619
  | .div, .const, a, b => do let c ← newRat; qq .domain .div c a b; return c
  -- 625, 634-637
  | .div, .temp, a, b => do qq .domain .div a a b; ratMove a
  | .div, .assign, a, b => do qq .domain .div a a b; return a

/-- number_imath.hh:500-634 `+`, `-`, `*`, `/` of a rational and an integer. -/
def ratBinInt : QOp → Mode → Loc → Loc → M Loc
  -- 502-506
  | .add, .const, a, b => do let c ← newRat; qz .domain .add c a b; return c
  -- 516, 522-525
  | .add, .temp, a, b => do qz .domain .add a a b; ratMove a
  | .add, .assign, a, b => do qz .domain .add a a b; return a
  -- 541-545
  | .sub, .const, a, b => do let c ← newRat; qz .domain .sub c a b; return c
  -- 555, 561-564
  | .sub, .temp, a, b => do qz .domain .sub a a b; ratMove a
  | .sub, .assign, a, b => do qz .domain .sub a a b; return a
  -- 575-579
  | .mul, .const, a, b => do let c ← newRat; qz .domain .mul c a b; return c
  -- 589, 595-598
  | .mul, .temp, a, b => do qz .domain .mul a a b; ratMove a
  | .mul, .assign, a, b => do qz .domain .mul a a b; return a
  -- 609-613
  | .div, .const, a, b => do let c ← newRat; qz .domain .div c a b; return c
  -- 623, 629-632
  | .div, .temp, a, b => do qz .domain .div a a b; ratMove a
  | .div, .assign, a, b => do qz .domain .div a a b; return a

/-- number_imath.hh:500, 514, 520, 539, 553, 559, 573, 587, 593, 607, 621, 627: the fixed size integer is converted to an `Integer`. -/
def ratBinFixed (op : QOp) : Mode → Loc → Int → M Loc
  | .const, a, b => do let z ← intOfFixed b; ratBinInt op .const a z
  | .temp, a, b => do let z ← intOfFixed b; let a ← ratBinInt op .assign a z; ratMove a
  | .assign, a, b => do let z ← intOfFixed b; ratBinInt op .assign a z

/-- number_imath.hh:486-489 `neg`. -/
def ratNeg (a : Loc) : M Loc := do
  qneg a
  return a
/-- number_imath.hh:534-537 unary minus. -/
def ratMinus (a : Loc) : M Loc := do
  let p ← ratCopy a
  let p ← ratNeg p
  ratMove p

/-- number_imath.hh:489-492 `swap`. -/
def ratSwap (a b : Loc) : M Unit := do
  zswap a b
  zswap (a + 1) (b + 1)

/-- number_imath.hh:711-713 `compare` of rationals. -/
def ratCompare (a b : Loc) : M Int := qcmp a b
/-- number_imath.hh:706-709 `compare` of a rational and an integer: a rational is made from a copy of the integer and 1. -/
def ratCompareInt (a b : Loc) : M Int := do
  let n ← intCopy b
  let d ← intOfFixed 1
  let q ← ratOfInts n d
  ratCompare a q
/-- number_imath.hh:704 `compare` of a rational and a fixed size integer. -/
def ratCompareFixed (a : Loc) (b : Int) : M Int := qcmpSi a b

/-- number_imath.hh:640-686 comparison operators of rationals. -/
def ratRel (r : Rel) (a b : Loc) : M Bool := do return r.ofCmp (← ratCompare a b)
/-- number_imath.hh:640-686 comparison operators of a rational and an integer. -/
def ratRelInt (r : Rel) (a b : Loc) : M Bool := do return r.ofCmp (← ratCompareInt a b)
/-- number_imath.hh:640-686 comparison operators of a rational and a fixed size integer. -/
def ratRelFixed (r : Rel) (a : Loc) (b : Int) : M Bool := do return r.ofCmp (← ratCompareFixed a b)

end IMath

/-- The classes in number_imath.hh. -/
def imath : Classes where
  intOfFixed := IMath.intOfFixed
  intCopy := IMath.intCopy
  intAssign := IMath.intAssign
  intMove := IMath.intMove
  intMoveAssign := IMath.intMoveAssign
  intBin := IMath.intBin
  intBinFixed := IMath.intBinFixed
  intMinus := IMath.intMinus
  intNeg := IMath.intNeg
  intDivide := IMath.intDivide
  intAddMul := IMath.intAddMul
  intGcd := IMath.intGcd
  intGcdDiv := IMath.intGcdDiv
  intAsInt := IMath.intAsInt
  intRel := IMath.intRel
  intRelFixed := IMath.intRelFixed
  ratOfFixed := IMath.ratOfFixed
  ratOfInts := IMath.ratOfInts
  ratCopy := IMath.ratCopy
  ratAssign := IMath.ratAssign
  ratMove := IMath.ratMove
  ratMoveAssign := IMath.ratMoveAssign
  ratBin := IMath.ratBin
  ratBinInt := IMath.ratBinInt
  ratBinFixed := IMath.ratBinFixed
  ratMinus := IMath.ratMinus
  ratNeg := IMath.ratNeg
  ratCanonicalize := mpRatReduce
  ratRel := IMath.ratRel
  ratRelInt := IMath.ratRelInt
  ratRelFixed := IMath.ratRelFixed
  ratCompare := IMath.ratCompare
  ratCompareInt := IMath.ratCompareInt
  ratCompareFixed := IMath.ratCompareFixed
  ratSwap := IMath.ratSwap

end Lpx.Number
