import Verif.Num
import Verif.Tableau
import Mathlib.Data.Nat.Digits.Lemmas

/-!
# Model of printing (number.hh, number_flint.hh, number_imath.hh) and of safe casts (util.hh)
-/

namespace Lpx

/-- The decimal digits of a natural number, most significant first (what FLINT's and IMath's integer output
functions with base 10 produce; trusted library behaviour). Used in number_flint.hh and number_imath.hh (`operator<<`). -/
def showNat (n : Nat) : List Char :=
  if n = 0 then ['0'] else ((Nat.digits 10 n).map Nat.digitChar).reverse

/-- number_flint.hh:402-409, number_imath.hh:396-402 `operator<<(Integer)`: sign and decimal digits. -/
def showInt (n : Int) : List Char := if n < 0 then '-' :: showNat n.natAbs else showNat n.natAbs

/-- number_flint.hh:760-767, number_imath.hh:687-700 `operator<<(Rational)`: the numerator alone if the denominator is
1, otherwise numerator, slash, denominator. (Rationals are kept canonical.) -/
def showRat (q : Rat) : List Char := if q.den = 1 then showInt q.num else showInt q.num ++ '/' :: showNat q.den

/-- number.hh:389-403 `operator<<(RationalQ)`. -/
def RatQ.print (q : RatQ) : List Char :=
  (if q.c ≠ 0 ∨ q.k = 0 then showRat q.c else []) ++
  (if q.k ≠ 0 then
    (if q.c ≠ 0 then ['+'] else []) ++ (if q.k ≠ 1 then showRat q.k ++ ['*'] else []) ++ ['e']
  else [])

/-- A C++ integer type: signedness and number of bits. util.hh:10-43 (`std::numeric_limits`). -/
structure IntType where
  signed : Bool
  bits : Nat
deriving DecidableEq, Repr

namespace IntType

/-- util.hh:18 `std::numeric_limits<T>::min()` -/
def min (T : IntType) : Int := if T.signed then -(2 ^ (T.bits - 1)) else 0
/-- util.hh:18, 30 `std::numeric_limits<T>::max()` -/
def max (T : IntType) : Int := if T.signed then 2 ^ (T.bits - 1) - 1 else 2 ^ T.bits - 1
/-- util.hh:24, 42 `static_cast<T>` of a mathematical integer: reduction modulo `2^bits` into the range of the type. -/
def wrap (T : IntType) (s : Int) : Int :=
  let r := s % 2 ^ T.bits
  if T.signed ∧ r ≥ 2 ^ (T.bits - 1) then r - 2 ^ T.bits else r

end IntType

/-- util.hh:16-33 `sc_check`: `true` if no exception is thrown. (The comparisons are between types of the same
signedness, for which C++'s usual arithmetic conversions preserve both values.) -/
def scCheck (T S : IntType) (s : Int) : Bool :=
  if T.signed = S.signed then
    -- util.hh:16-21
    !(T ≠ S ∧ (s < T.min ∨ s > T.max))
  else if S.signed then
    -- util.hh:22-27 signed to unsigned
    !(s < 0 ∨ S.wrap (T.wrap s) ≠ s)
  else
    -- util.hh:28-33 unsigned to signed
    !(s > T.max)

/-- util.hh:38-43 `safe_cast`; `none` is the thrown exception. -/
def safeCast (T S : IntType) (s : Int) : Option Int := if scCheck T S s then some (T.wrap s) else none

end Lpx
