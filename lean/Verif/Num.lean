import Mathlib.Algebra.Order.Module.Defs
import Mathlib.Algebra.Order.Field.Rat
import Mathlib.Algebra.Order.Module.Field
import Mathlib.Tactic.Linarith
import Mathlib.Tactic.Ring
import Mathlib.Tactic.Module
import Mathlib.Tactic.FieldSimp

/-!
# Model of the numbers (number.hh)

`Integer` and `Rational` (number_flint.hh / number_imath.hh) are Lean's `Int` and `Rat`: the arbitrary precision
libraries are trusted to be exact. `RationalQ` is modelled operation by operation.
-/

namespace Lpx

/-- number.hh:11-113 `RationalQ`: the number `c + k*e` with an infinitesimal `e`. -/
@[ext] structure RatQ where
  c : Rat := 0
  k : Rat := 0
deriving DecidableEq, Repr

/-- Three way comparison of rationals as in number_flint.hh `compare` (sign of `a - b`). -/
def cmpRat (a b : Rat) : Int := if a < b then -1 else if a = b then 0 else 1

namespace RatQ

/-- number.hh:122 `is_rational`. -/
def isRational (a : RatQ) : Bool := a.k == 0

/-- number.hh:124-129 `as_rational`; `none` is the thrown exception. -/
def asRational (a : RatQ) : Option Rat := if a.isRational then some a.c else none

/-- number.hh:133-173 `compare(RationalQ, fixed_int/Integer/Rational)` (the three overloads are the same code). -/
def compareRat (a : RatQ) (b : Rat) : Int :=
  let ret := cmpRat a.c b
  if ret ≠ 0 then ret else if a.k < 0 then -1 else if a.k > 0 then 1 else 0

/-- number.hh:175-181 `compare(RationalQ, RationalQ)`. -/
def compare (a b : RatQ) : Int :=
  let ret := cmpRat a.c b.c
  if ret ≠ 0 then ret else cmpRat a.k b.k

/-- number.hh:195-197, 222-226 `+` and `+=`. -/
def add (a b : RatQ) : RatQ := ⟨a.c + b.c, a.k + b.k⟩
/-- number.hh:185-193 `+` with a rational or integer. -/
def addRat (a : RatQ) (b : Rat) : RatQ := ⟨a.c + b, a.k⟩
/-- number.hh:230-234 unary minus. -/
def neg (a : RatQ) : RatQ := ⟨-a.c, -a.k⟩
/-- number.hh:246-248 `-`. -/
def sub (a b : RatQ) : RatQ := ⟨a.c - b.c, a.k - b.k⟩
/-- number.hh:236-244 `-` with a rational or integer. -/
def subRat (a : RatQ) (b : Rat) : RatQ := ⟨a.c - b, a.k⟩
/-- number.hh:281-291 `*` with a rational or integer. -/
def mulRat (a : RatQ) (b : Rat) : RatQ := ⟨a.c * b, a.k * b⟩
/-- number.hh:319-329 `/` with a rational or integer. -/
def divRat (a : RatQ) (b : Rat) : RatQ := ⟨a.c / b, a.k / b⟩
/-- number.hh:357-375 `<`, `<=`, `>`, `>=` with a rational or integer. -/
def ltRat (a : RatQ) (b : Rat) : Bool := a.compareRat b < 0
/-- number.hh:357-375 `<=` with a rational or integer. -/
def leRat (a : RatQ) (b : Rat) : Bool := a.compareRat b ≤ 0
/-- number.hh:357-375 `>` with a rational or integer. -/
def gtRat (a : RatQ) (b : Rat) : Bool := a.compareRat b > 0
/-- number.hh:357-375 `>=` with a rational or integer. -/
def geRat (a : RatQ) (b : Rat) : Bool := a.compareRat b ≥ 0
/-- number.hh:377-379 `==` with a rational or integer. -/
def eqRat (a : RatQ) (b : Rat) : Bool := a.k == 0 && a.c == b

instance : Zero RatQ := ⟨⟨0, 0⟩⟩
instance : Add RatQ := ⟨add⟩
instance : Neg RatQ := ⟨neg⟩
instance : Sub RatQ := ⟨sub⟩
instance : SMul Rat RatQ := ⟨fun q a => mulRat a q⟩
/-- number.hh:365 `<=`. -/
instance : LE RatQ := ⟨fun a b => compare a b ≤ 0⟩
/-- number.hh:360 `<`. -/
instance : LT RatQ := ⟨fun a b => compare a b < 0⟩
instance : DecidableLE RatQ := fun a b => inferInstanceAs (Decidable (compare a b ≤ 0))
instance : DecidableLT RatQ := fun a b => inferInstanceAs (Decidable (compare a b < 0))

theorem le_def (a b : RatQ) : a ≤ b ↔ a.c < b.c ∨ (a.c = b.c ∧ a.k ≤ b.k) := by
  show compare a b ≤ 0 ↔ _
  unfold compare cmpRat
  rcases lt_trichotomy a.c b.c with h | h | h
  · simp [h]
  · rcases lt_trichotomy a.k b.k with h' | h' | h'
    · simp [h, h', h'.le]
    · simp [h, h']
    · simp [h, h'.not_ge, h'.not_gt, h'.ne']
  · simp [h.not_gt, h.ne']

theorem lt_def (a b : RatQ) : a < b ↔ a.c < b.c ∨ (a.c = b.c ∧ a.k < b.k) := by
  show compare a b < 0 ↔ _
  unfold compare cmpRat
  rcases lt_trichotomy a.c b.c with h | h | h
  · simp [h]
  · rcases lt_trichotomy a.k b.k with h' | h' | h'
    · simp [h, h']
    · simp [h, h']
    · simp [h, h'.not_gt, h'.ne']
  · simp [h.not_gt, h.ne']

@[simp] theorem add_c (a b : RatQ) : (a + b).c = a.c + b.c := rfl
@[simp] theorem add_k (a b : RatQ) : (a + b).k = a.k + b.k := rfl
@[simp] theorem neg_c (a : RatQ) : (-a).c = -a.c := rfl
@[simp] theorem neg_k (a : RatQ) : (-a).k = -a.k := rfl
@[simp] theorem sub_c (a b : RatQ) : (a - b).c = a.c - b.c := rfl
@[simp] theorem sub_k (a b : RatQ) : (a - b).k = a.k - b.k := rfl
@[simp] theorem zero_c : (0 : RatQ).c = 0 := rfl
@[simp] theorem zero_k : (0 : RatQ).k = 0 := rfl
@[simp] theorem smul_c (q : Rat) (a : RatQ) : (q • a).c = q * a.c := mul_comm _ _
@[simp] theorem smul_k (q : Rat) (a : RatQ) : (q • a).k = q * a.k := mul_comm _ _

instance : AddCommGroup RatQ where
  add_assoc a b c := by ext <;> simp [add_assoc]
  zero_add a := by ext <;> simp
  add_zero a := by ext <;> simp
  add_comm a b := by ext <;> simp [add_comm]
  neg_add_cancel a := by ext <;> simp
  sub_eq_add_neg a b := by ext <;> simp [sub_eq_add_neg]
  nsmul := nsmulRec
  zsmul := zsmulRec

instance : Module Rat RatQ where
  one_smul a := by ext <;> simp
  mul_smul p q a := by ext <;> simp [mul_assoc]
  smul_zero q := by ext <;> simp
  smul_add q a b := by ext <;> simp [mul_add]
  add_smul p q a := by ext <;> simp [add_mul]
  zero_smul a := by ext <;> simp

instance : LinearOrder RatQ where
  le_refl a := by rw [le_def]; right; exact ⟨rfl, le_refl _⟩
  le_trans a b c h1 h2 := by
    rw [le_def] at *
    rcases h1 with h1 | ⟨h1, h1'⟩ <;> rcases h2 with h2 | ⟨h2, h2'⟩
    · left; linarith
    · left; linarith
    · left; linarith
    · right; exact ⟨h1.trans h2, h1'.trans h2'⟩
  le_antisymm a b h1 h2 := by
    rw [le_def] at *
    rcases h1 with h1 | ⟨h1, h1'⟩ <;> rcases h2 with h2 | ⟨h2, h2'⟩
    · linarith
    · linarith
    · linarith
    · ext
      · exact h1
      · linarith
  le_total a b := by
    rw [le_def, le_def]
    rcases lt_trichotomy a.c b.c with h | h | h
    · left; left; exact h
    · rcases le_total a.k b.k with h' | h'
      · left; right; exact ⟨h, h'⟩
      · right; right; exact ⟨h.symm, h'⟩
    · right; left; exact h
  lt_iff_le_not_ge a b := by
    rw [lt_def, le_def, le_def]
    constructor
    · rintro (h | ⟨h, h'⟩)
      · exact ⟨Or.inl h, by rintro (h2 | ⟨h2, _⟩) <;> linarith⟩
      · exact ⟨Or.inr ⟨h, h'.le⟩, by rintro (h2 | ⟨h2, h3⟩) <;> linarith⟩
    · rintro ⟨h | ⟨h, h'⟩, h2⟩
      · exact Or.inl h
      · right; refine ⟨h, ?_⟩
        by_contra h3
        exact h2 (Or.inr ⟨h.symm, not_lt.1 h3⟩)
  toDecidableLE := inferInstance
  toDecidableEq := inferInstance
  toDecidableLT := inferInstance

instance : IsOrderedAddMonoid RatQ where
  add_le_add_left a b h c := by
    rw [le_def] at *
    rcases h with h | ⟨h, h'⟩
    · left; simp; linarith
    · right; simp; exact ⟨h, h'⟩

instance : PosSMulStrictMono Rat RatQ where
  smul_lt_smul_of_pos_left q hq a b h := by
    rw [lt_def] at *
    rcases h with h | ⟨h, h'⟩
    · left; simpa using mul_lt_mul_of_pos_left h hq
    · right; simp only [smul_c, smul_k]; exact ⟨by rw [h], mul_lt_mul_of_pos_left h' hq⟩

end RatQ

/-- solving.hh:72, solving.cc:84-113 The operations on the template parameter `Value` of `Solver` beyond those of an ordered `Rat`-vector space. -/
class LpValue (V : Type) extends AddCommGroup V, Module Rat V, LinearOrder V, IsOrderedAddMonoid V,
    PosSMulStrictMono Rat V where
  /-- conversion `Value{r}` from a rational -/
  ofRat : Rat → V
  /-- the infinitesimal added for a strict bound (0 if there is none) -/
  eps : V
  ofRat_add : ∀ a b, ofRat (a + b) = ofRat a + ofRat b
  ofRat_smul : ∀ q a : Rat, ofRat (q * a) = q • ofRat a
  ofRat_lt : ∀ a b, a < b → ofRat a < ofRat b
  archimedean : ∀ v : V, ∃ q : Rat, v < ofRat q
  eps_nonneg : 0 ≤ eps

instance : LpValue Rat where
  ofRat := id
  eps := 0
  ofRat_add _ _ := rfl
  ofRat_smul _ _ := rfl
  ofRat_lt _ _ h := h
  archimedean v := ⟨v + 1, by simp⟩
  eps_nonneg := le_refl _

instance : LpValue RatQ where
  ofRat c := ⟨c, 0⟩
  eps := ⟨0, 1⟩
  ofRat_add a b := by ext <;> simp
  ofRat_smul q a := by ext <;> simp
  ofRat_lt a b h := by rw [RatQ.lt_def]; left; exact h
  archimedean v := ⟨v.c + 1, by rw [RatQ.lt_def]; left; simp⟩
  eps_nonneg := le_of_lt (by rw [RatQ.lt_def]; right; simp)

/-- `v * a / d` (e.g. solving.cc:923,945): scaling by the tableau entry `a/d`. -/
def mulDiv {V : Type} [LpValue V] (v : V) (a d : Int) : V := ((a : Rat) / (d : Rat)) • v

/-- `v / a * d` (solving.cc:552,939): scaling by the inverse of the tableau entry `a/d`. -/
def divMul {V : Type} [LpValue V] (v : V) (a d : Int) : V := ((d : Rat) / (a : Rat)) • v

/-- On rational values `mulDiv` is literally `v * a / d`. -/
theorem mulDiv_rat (v : Rat) (a d : Int) : mulDiv v a d = v * a / d := by
  show (a : Rat) / d * v = _; ring
theorem divMul_rat (v : Rat) (a d : Int) : divMul v a d = v / a * d := by
  show (d : Rat) / a * v = _; ring
/-- On epsilon values `mulDiv` is literally `(v * a) / d` with the operators of number.hh. -/
theorem mulDiv_ratq (v : RatQ) (a d : Int) : mulDiv v a d = (v.mulRat a).divRat d := by
  ext
  · show v.c * ((a : Rat) / d) = v.c * a / d; ring
  · show v.k * ((a : Rat) / d) = v.k * a / d; ring
theorem divMul_ratq (v : RatQ) (a d : Int) : divMul v a d = (v.divRat a).mulRat d := by
  ext
  · show v.c * ((d : Rat) / a) = v.c / a * d; ring
  · show v.k * ((d : Rat) / a) = v.k / a * d; ring

end Lpx
