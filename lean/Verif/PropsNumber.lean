import Verif.Number
import Mathlib.Tactic.FieldSimp
import Mathlib.Tactic.Linarith

/-!
# Properties of the number classes (C58)

The specification: `IntAt`, `RatAt`, `Unchanged`, `Yields` and the lists of requirements `ExactIntegers`, `ExactRationals` and `ComparesIntegers`.
-/

set_option linter.unusedSectionVars false
set_option linter.unusedSimpArgs false
set_option linter.unusedVariables false

namespace Lpx.Props
open Lpx.Number

/-! ### specification -/

/-- The object `a` is an `Integer` with value `z`. -/
def IntAt (h : Heap) (a : Loc) (z : Int) : Prop := a < h.next ∧ h.cell a = z

/-- The object `a` is a `Rational` with value `q`, stored in lowest terms and with a positive denominator. -/
def RatAt (h : Heap) (a : Loc) (q : Rat) : Prop := a + 1 < h.next ∧ h.cell a = q.num ∧ h.cell (a + 1) = q.den

/-- All objects existing before are as they were, except for the given cells. -/
def Unchanged (h h' : Heap) (except : Loc → Prop) : Prop := h.next ≤ h'.next ∧ ∀ l < h.next, ¬ except l → h'.cell l = h.cell l

/-- The program ends without an exception in a state with the property. -/
def Yields {α : Type} (p : M α) (h : Heap) (post : α → Heap → Prop) : Prop := ∃ r h', p h = .ok (r, h') ∧ post r h'

/-- Where the result of an operator goes: a new object, or the left operand for `+=` and the like. Only the left operand may change, and if it is not a
temporary, then only by being assigned to. -/
def ResultOf (m : Mode) (h : Heap) (left : Loc → Prop) (a : Loc) (r : Loc) (h' : Heap) : Prop :=
  match m with
  | .const => h.next ≤ r ∧ Unchanged h h' fun _ => False
  | .temp => h.next ≤ r ∧ Unchanged h h' left
  | .assign => r = a ∧ Unchanged h h' left

/-- The cells of a rational. -/
def Cells (a : Loc) (l : Loc) : Prop := l = a ∨ l = a + 1

/-- The meaning of the comparison operators. -/
def Compares {α : Type} [LinearOrder α] : Rel → α → α → Prop
  | .lt, x, y => x < y
  | .le, x, y => x ≤ y
  | .gt, x, y => x > y
  | .ge, x, y => x ≥ y
  | .eq, x, y => x = y
  | .ne, x, y => x ≠ y

/-- The meaning of the result of `compare`. -/
def SignOf {α : Type} [LinearOrder α] (r : Int) (x y : α) : Prop := (r < 0 ↔ x < y) ∧ (r = 0 ↔ x = y) ∧ (r > 0 ↔ x > y)

/-- What is expected from the class `Integer`, except for comparing two integers. -/
structure ExactIntegers (c : Classes) : Prop where
  /-- constructors and assignments -/
  ofFixed : ∀ (b : Int) (h : Heap), Yields (c.intOfFixed b) h fun r h' => IntAt h' r b ∧ h.next ≤ r ∧ Unchanged h h' fun _ => False
  copy : ∀ (a : Loc) (x : Int) (h : Heap), IntAt h a x → Yields (c.intCopy a) h fun r h' => IntAt h' r x ∧ h.next ≤ r ∧ Unchanged h h' fun _ => False
  assign : ∀ (t a : Loc) (x : Int) (h : Heap), t < h.next → IntAt h a x →
    Yields (c.intAssign t a) h fun r h' => IntAt h' t x ∧ r = t ∧ Unchanged h h' (· = t)
  move : ∀ (a : Loc) (x : Int) (h : Heap), IntAt h a x → Yields (c.intMove a) h fun r h' => IntAt h' r x ∧ h.next ≤ r ∧ Unchanged h h' (· = a)
  moveAssign : ∀ (t a : Loc) (x : Int) (h : Heap), t < h.next → IntAt h a x →
    Yields (c.intMoveAssign t a) h fun r h' => IntAt h' t x ∧ r = t ∧ Unchanged h h' fun l => l = t ∨ l = a
  /-- `+`, `-` and `*` -/
  bin : ∀ (m : Mode) (a b : Loc) (x y : Int) (h : Heap), IntAt h a x → IntAt h b y →
    (Yields (c.intBin .add m a b) h fun r h' => IntAt h' r (x + y) ∧ ResultOf m h (· = a) a r h') ∧
    (Yields (c.intBin .sub m a b) h fun r h' => IntAt h' r (x - y) ∧ ResultOf m h (· = a) a r h') ∧
    (Yields (c.intBin .mul m a b) h fun r h' => IntAt h' r (x * y) ∧ ResultOf m h (· = a) a r h')
  binFixed : ∀ (m : Mode) (a : Loc) (x y : Int) (h : Heap), IntAt h a x →
    (Yields (c.intBinFixed .add m a y) h fun r h' => IntAt h' r (x + y) ∧ ResultOf m h (· = a) a r h') ∧
    (Yields (c.intBinFixed .sub m a y) h fun r h' => IntAt h' r (x - y) ∧ ResultOf m h (· = a) a r h') ∧
    (Yields (c.intBinFixed .mul m a y) h fun r h' => IntAt h' r (x * y) ∧ ResultOf m h (· = a) a r h')
  /-- unary minus, negation in place, exact division, and addition of a product -/
  minus : ∀ (a : Loc) (x : Int) (h : Heap), IntAt h a x → Yields (c.intMinus a) h fun r h' => IntAt h' r (-x) ∧ h.next ≤ r ∧ Unchanged h h' fun _ => False
  neg : ∀ (a : Loc) (x : Int) (h : Heap), IntAt h a x → Yields (c.intNeg a) h fun r h' => IntAt h' a (-x) ∧ r = a ∧ Unchanged h h' (· = a)
  divide : ∀ (a b : Loc) (x y : Int) (h : Heap), IntAt h a (x * y) → IntAt h b y → y ≠ 0 →
    Yields (c.intDivide a b) h fun r h' => IntAt h' a x ∧ r = a ∧ Unchanged h h' (· = a)
  addMul : ∀ (t a b : Loc) (w x y : Int) (h : Heap), IntAt h t w → IntAt h a x → IntAt h b y →
    Yields (c.intAddMul t a b) h fun r h' => IntAt h' t (w + x * y) ∧ r = t ∧ Unchanged h h' (· = t)
  /-- the greatest common divisor, and the quotients by it -/
  gcd : ∀ (a b : Loc) (x y : Int) (h : Heap), IntAt h a x → IntAt h b y →
    Yields (c.intGcd a b) h fun r h' => IntAt h' r (Int.gcd x y) ∧ h.next ≤ r ∧ Unchanged h h' fun _ => False
  gcdDiv : ∀ (a b : Loc) (x y : Int) (h : Heap), IntAt h a x → IntAt h b y → (x ≠ 0 ∨ y ≠ 0) →
    Yields (c.intGcdDiv a b) h fun r h' => ∃ u v : Int, IntAt h' r.1 (Int.gcd x y) ∧ IntAt h' r.2.1 u ∧ IntAt h' r.2.2 v ∧
      u * Int.gcd x y = x ∧ v * Int.gcd x y = y ∧ h.next ≤ r.1 ∧ h.next ≤ r.2.1 ∧ h.next ≤ r.2.2 ∧ Unchanged h h' fun _ => False
  /-- conversion to 32-bit numbers -/
  asInt : ∀ (a : Loc) (x : Int) (h : Heap), IntAt h a x →
    Yields (c.intAsInt a) h fun r h' => h' = h ∧ ∀ y : Int, r = some y ↔ y = x ∧ -2 ^ 31 ≤ x ∧ x < 2 ^ 31
  /-- comparison with a fixed size integer -/
  compareFixed : ∀ (o : Rel) (a : Loc) (x y : Int) (h : Heap), IntAt h a x → Yields (c.intRelFixed o a y) h fun r h' => h' = h ∧ (r = true ↔ Compares o x y)

/-- Comparing two integers. -/
def ComparesIntegers (c : Classes) : Prop :=
  ∀ (o : Rel) (a b : Loc) (x y : Int) (h : Heap), IntAt h a x → IntAt h b y → Yields (c.intRel o a b) h fun r h' => h' = h ∧ (r = true ↔ Compares o x y)

/-- What is expected from the class `Rational`; the library reports divisions by zero by the exception `e`. -/
structure ExactRationals (c : Classes) (e : Exn) : Prop where
  /-- constructors and assignments -/
  ofFixed : ∀ (b : Int) (h : Heap), Yields (c.ratOfFixed b) h fun r h' => RatAt h' r b ∧ h.next ≤ r ∧ Unchanged h h' fun _ => False
  ofInts : ∀ (a b : Loc) (x y : Int) (h : Heap), IntAt h a x → IntAt h b y → a ≠ b → y ≠ 0 →
    Yields (c.ratOfInts a b) h fun r h' => RatAt h' r ((x : Rat) / y) ∧ h.next ≤ r ∧ Unchanged h h' fun l => l = a ∨ l = b
  copy : ∀ (a : Loc) (x : Rat) (h : Heap), RatAt h a x → Yields (c.ratCopy a) h fun r h' => RatAt h' r x ∧ h.next ≤ r ∧ Unchanged h h' fun _ => False
  assign : ∀ (t a : Loc) (x : Rat) (h : Heap), t + 1 < h.next → RatAt h a x → (t = a ∨ t + 2 ≤ a ∨ a + 2 ≤ t) →
    Yields (c.ratAssign t a) h fun r h' => RatAt h' t x ∧ r = t ∧ Unchanged h h' (Cells t)
  move : ∀ (a : Loc) (x : Rat) (h : Heap), RatAt h a x → Yields (c.ratMove a) h fun r h' => RatAt h' r x ∧ h.next ≤ r ∧ Unchanged h h' (Cells a)
  moveAssign : ∀ (t a : Loc) (x : Rat) (h : Heap), t + 1 < h.next → RatAt h a x → (t = a ∨ t + 2 ≤ a ∨ a + 2 ≤ t) →
    Yields (c.ratMoveAssign t a) h fun r h' => RatAt h' t x ∧ r = t ∧ Unchanged h h' fun l => Cells t l ∨ Cells a l
  /-- `+`, `-`, `*` and `/` of rationals -/
  bin : ∀ (m : Mode) (a b : Loc) (x y : Rat) (h : Heap), RatAt h a x → RatAt h b y → (a = b ∨ a + 2 ≤ b ∨ b + 2 ≤ a) →
    (Yields (c.ratBin .add m a b) h fun r h' => RatAt h' r (x + y) ∧ ResultOf m h (Cells a) a r h') ∧
    (Yields (c.ratBin .sub m a b) h fun r h' => RatAt h' r (x - y) ∧ ResultOf m h (Cells a) a r h') ∧
    (Yields (c.ratBin .mul m a b) h fun r h' => RatAt h' r (x * y) ∧ ResultOf m h (Cells a) a r h') ∧
    (y ≠ 0 → Yields (c.ratBin .div m a b) h fun r h' => RatAt h' r (x / y) ∧ ResultOf m h (Cells a) a r h') ∧
    (y = 0 → c.ratBin .div m a b h = .error e)
  /-- of a rational and an integer; the integer may be the numerator or denominator of the rational unless it is changed -/
  binInt : ∀ (m : Mode) (a b : Loc) (x : Rat) (y : Int) (h : Heap), RatAt h a x → IntAt h b y → (m = .const ∨ ¬ Cells a b) →
    (Yields (c.ratBinInt .add m a b) h fun r h' => RatAt h' r (x + y) ∧ ResultOf m h (Cells a) a r h') ∧
    (Yields (c.ratBinInt .sub m a b) h fun r h' => RatAt h' r (x - y) ∧ ResultOf m h (Cells a) a r h') ∧
    (Yields (c.ratBinInt .mul m a b) h fun r h' => RatAt h' r (x * y) ∧ ResultOf m h (Cells a) a r h') ∧
    (y ≠ 0 → Yields (c.ratBinInt .div m a b) h fun r h' => RatAt h' r (x / y) ∧ ResultOf m h (Cells a) a r h') ∧
    (y = 0 → c.ratBinInt .div m a b h = .error e)
  /-- of a rational and a fixed size integer -/
  binFixed : ∀ (m : Mode) (a : Loc) (x : Rat) (y : Int) (h : Heap), RatAt h a x →
    (Yields (c.ratBinFixed .add m a y) h fun r h' => RatAt h' r (x + y) ∧ ResultOf m h (Cells a) a r h') ∧
    (Yields (c.ratBinFixed .sub m a y) h fun r h' => RatAt h' r (x - y) ∧ ResultOf m h (Cells a) a r h') ∧
    (Yields (c.ratBinFixed .mul m a y) h fun r h' => RatAt h' r (x * y) ∧ ResultOf m h (Cells a) a r h') ∧
    (y ≠ 0 → Yields (c.ratBinFixed .div m a y) h fun r h' => RatAt h' r (x / y) ∧ ResultOf m h (Cells a) a r h') ∧
    (y = 0 → c.ratBinFixed .div m a y h = .error e)
  minus : ∀ (a : Loc) (x : Rat) (h : Heap), RatAt h a x → Yields (c.ratMinus a) h fun r h' => RatAt h' r (-x) ∧ h.next ≤ r ∧ Unchanged h h' fun _ => False
  neg : ∀ (a : Loc) (x : Rat) (h : Heap), RatAt h a x → Yields (c.ratNeg a) h fun r h' => RatAt h' a (-x) ∧ r = a ∧ Unchanged h h' (Cells a)
  /-- `canonicalize` after writing to numerator and denominator -/
  canonicalize : ∀ (a : Loc) (x y : Int) (h : Heap), IntAt h a x → IntAt h (a + 1) y → y ≠ 0 →
    Yields (c.ratCanonicalize a) h fun _ h' => RatAt h' a ((x : Rat) / y) ∧ Unchanged h h' (Cells a)
  /-- comparisons -/
  compare : ∀ (o : Rel) (a b : Loc) (x y : Rat) (h : Heap), RatAt h a x → RatAt h b y → Yields (c.ratRel o a b) h fun r h' => h' = h ∧ (r = true ↔ Compares o x y)
  compareInt : ∀ (o : Rel) (a b : Loc) (x : Rat) (y : Int) (h : Heap), RatAt h a x → IntAt h b y →
    Yields (c.ratRelInt o a b) h fun r h' => (Unchanged h h' fun _ => False) ∧ (r = true ↔ Compares o x (y : Rat))
  compareFixed : ∀ (o : Rel) (a : Loc) (x : Rat) (y : Int) (h : Heap), RatAt h a x →
    Yields (c.ratRelFixed o a y) h fun r h' => h' = h ∧ (r = true ↔ Compares o x (y : Rat))
  /-- `compare` -/
  sign : ∀ (a b : Loc) (x y : Rat) (h : Heap), RatAt h a x → RatAt h b y → Yields (c.ratCompare a b) h fun r h' => h' = h ∧ SignOf r x y
  signInt : ∀ (a b : Loc) (x : Rat) (y : Int) (h : Heap), RatAt h a x → IntAt h b y →
    Yields (c.ratCompareInt a b) h fun r h' => (Unchanged h h' fun _ => False) ∧ SignOf r x (y : Rat)
  signFixed : ∀ (a : Loc) (x : Rat) (y : Int) (h : Heap), RatAt h a x → Yields (c.ratCompareFixed a y) h fun r h' => h' = h ∧ SignOf r x (y : Rat)
  /-- `swap` -/
  swap : ∀ (a b : Loc) (x y : Rat) (h : Heap), RatAt h a x → RatAt h b y → (a = b ∨ a + 2 ≤ b ∨ b + 2 ≤ a) →
    Yields (c.ratSwap a b) h fun _ h' => RatAt h' a y ∧ RatAt h' b x ∧ Unchanged h h' fun l => Cells a l ∨ Cells b l

/-! ### running programs -/

/-- Heap with an integer written. -/
def setI (h : Heap) (l : Loc) (z : Int) : Heap := { h with cell := Function.update h.cell l z }
/-- Heap with a rational written. -/
def setQ (h : Heap) (l : Loc) (q : Rat) : Heap := setI (setI h l q.num) (l + 1) q.den
/-- Heap with an integer allocated. -/
def allocI (h : Heap) : Heap := { cell := Function.update h.cell h.next 0, next := h.next + 1 }
/-- Heap with a rational allocated. -/
def allocQ (h : Heap) : Heap := { cell := Function.update (Function.update h.cell h.next 0) (h.next + 1) 1, next := h.next + 2 }

theorem bindM {α β : Type} (p : M α) (f : α → M β) (h : Heap) :
    (p >>= f) h = match p h with | .ok (r, h') => f r h' | .error e => .error e := by
  show (StateT.bind p f) h = _
  unfold StateT.bind
  cases hp : p h with
  | error e => simp [bind, Except.bind, hp]
  | ok rh => obtain ⟨r, h'⟩ := rh; simp [bind, Except.bind, hp]
theorem pureM {α : Type} (a : α) (h : Heap) : (pure a : M α) h = .ok (a, h) := rfl

theorem rd_run (l : Loc) (h : Heap) : rd l h = .ok (h.cell l, h) := rfl
theorem wr_run (l : Loc) (z : Int) (h : Heap) : wr l z h = .ok ((), setI h l z) := rfl
theorem newInt_run (h : Heap) : newInt h = .ok (h.next, allocI h) := rfl
theorem newRat_run (h : Heap) : newRat h = .ok (h.next, allocQ h) := rfl
theorem require_run {p : Prop} [Decidable p] (hp : p) (h : Heap) : require p h = .ok ((), h) := by rw [require, if_pos hp]; rfl

theorem setI_cell (h : Heap) (l : Loc) (z : Int) (k : Loc) : (setI h l z).cell k = if k = l then z else h.cell k := by
  simp [setI, Function.update_apply]
theorem setI_next (h : Heap) (l : Loc) (z : Int) : (setI h l z).next = h.next := rfl
theorem setQ_cell (h : Heap) (l : Loc) (q : Rat) (k : Loc) :
    (setQ h l q).cell k = if k = l + 1 then (q.den : Int) else if k = l then q.num else h.cell k := by simp [setQ, setI_cell]
theorem setQ_next (h : Heap) (l : Loc) (q : Rat) : (setQ h l q).next = h.next := rfl
theorem allocI_cell (h : Heap) (k : Loc) : (allocI h).cell k = if k = h.next then 0 else h.cell k := by simp [allocI, Function.update_apply]
theorem allocI_next (h : Heap) : (allocI h).next = h.next + 1 := rfl
theorem allocQ_cell (h : Heap) (k : Loc) : (allocQ h).cell k = if k = h.next + 1 then 1 else if k = h.next then 0 else h.cell k := by
  simp [allocQ, Function.update_apply]
theorem allocQ_next (h : Heap) : (allocQ h).next = h.next + 2 := rfl

theorem wrRat_run (l : Loc) (q : Rat) (h : Heap) : wrRat l q h = .ok ((), setQ h l q) := by
  simp only [wrRat, bindM, wr_run]; rfl

theorem rdRat_run {a : Loc} {q : Rat} {h : Heap} (ha : RatAt h a q) : rdRat a h = .ok (q, h) := by
  obtain ⟨_, hn, hd⟩ := ha
  have hc : Canon (h.cell a) (h.cell (a + 1)) := by
    rw [hn, hd]
    refine ⟨by exact_mod_cast q.pos, ?_⟩
    have := q.reduced
    rw [Int.gcd, Int.natAbs_natCast]
    exact this
  simp only [rdRat, bindM, rd_run, require_run hc, pureM]
  rw [hn, hd, frac, Int.cast_natCast, Rat.num_div_den]

theorem Yields.of_run {α : Type} {p : M α} {h h' : Heap} {r : α} {post : α → Heap → Prop} (hp : p h = .ok (r, h')) (hq : post r h') : Yields p h post :=
  ⟨r, h', hp, hq⟩

theorem RatAt.alloc {h : Heap} {a : Loc} {q : Rat} (ha : RatAt h a q) : RatAt (allocQ h) a q := by
  obtain ⟨h1, h2, h3⟩ := ha
  refine ⟨by rw [allocQ_next]; omega, ?_, ?_⟩
  · rw [allocQ_cell, if_neg (by omega), if_neg (by omega), h2]
  · rw [allocQ_cell, if_neg (by omega), if_neg (by omega), h3]

theorem IntAt.alloc {h : Heap} {a : Loc} {z : Int} (ha : IntAt h a z) : IntAt (allocQ h) a z := by
  obtain ⟨h1, h2⟩ := ha
  refine ⟨by rw [allocQ_next]; omega, ?_⟩
  rw [allocQ_cell, if_neg (by omega), if_neg (by omega), h2]

theorem RatAt.allocI {h : Heap} {a : Loc} {q : Rat} (ha : RatAt h a q) : RatAt (allocI h) a q := by
  obtain ⟨h1, h2, h3⟩ := ha
  refine ⟨by rw [allocI_next]; omega, ?_, ?_⟩
  · rw [allocI_cell, if_neg (by omega), h2]
  · rw [allocI_cell, if_neg (by omega), h3]

theorem RatAt.setI {h : Heap} {a l : Loc} {q : Rat} {z : Int} (ha : RatAt h a q) (hl : ¬ Cells a l) : RatAt (setI h l z) a q := by
  obtain ⟨h1, h2, h3⟩ := ha
  unfold Cells at hl
  refine ⟨h1, ?_, ?_⟩
  · rw [setI_cell, if_neg (by omega), h2]
  · rw [setI_cell, if_neg (by omega), h3]

theorem RatAt.setQ {h : Heap} {a : Loc} {q : Rat} (ha : a + 1 < h.next) : RatAt (setQ h a q) a q := by
  refine ⟨ha, ?_, ?_⟩
  · rw [setQ_cell, if_neg (by omega), if_pos rfl]
  · rw [setQ_cell, if_pos rfl]

theorem evalOp_run (e : Exn) (op : QOp) (x y : Rat) (h : Heap) (hy : op = .div → y ≠ 0) : evalOp e op x y h = .ok (op.eval x y, h) := by
  cases op with
  | div => simp only [evalOp, QOp.eval]; rw [if_neg (hy rfl)]; rfl
  | _ => rfl

theorem evalOp_zero (e : Exn) (x : Rat) (h : Heap) : evalOp e .div x 0 h = .error e := rfl

theorem qq_run {e : Exn} {op : QOp} {c a b : Loc} {x y : Rat} {h : Heap} (hca : Apart c a) (hcb : Apart c b) (ha : RatAt h a x) (hb : RatAt h b y)
    (hy : op = .div → y ≠ 0) : qq e op c a b h = .ok ((), setQ h c (op.eval x y)) := by
  simp only [qq, bindM, require_run (And.intro hca hcb), rdRat_run ha, rdRat_run hb, evalOp_run _ _ _ _ _ hy, wrRat_run]

theorem qq_zero {e : Exn} {c a b : Loc} {x y : Rat} {h : Heap} (hca : Apart c a) (hcb : Apart c b) (ha : RatAt h a x) (hb : RatAt h b y)
    (hy : y = 0) : qq e .div c a b h = .error e := by
  subst hy
  simp only [qq, bindM, require_run (And.intro hca hcb), rdRat_run ha, rdRat_run hb, evalOp_zero]

theorem qz_run {e : Exn} {op : QOp} {c a b : Loc} {x : Rat} {y : Int} {h : Heap} (hca : Apart c a) (hcb : Outside b c) (ha : RatAt h a x) (hb : IntAt h b y)
    (hy : op = .div → y ≠ 0) : qz e op c a b h = .ok ((), setQ h c (op.eval x y)) := by
  have hy' : op = .div → ((y : Int) : Rat) ≠ 0 := fun k => by exact_mod_cast hy k
  simp only [qz, bindM, require_run (And.intro hca hcb), rdRat_run ha, rd_run, hb.2, evalOp_run _ _ _ _ _ hy', wrRat_run]

theorem qz_zero {e : Exn} {c a b : Loc} {x : Rat} {y : Int} {h : Heap} (hca : Apart c a) (hcb : Outside b c) (ha : RatAt h a x) (hb : IntAt h b y)
    (hy : y = 0) : qz e .div c a b h = .error e := by
  subst hy
  simp only [qz, bindM, require_run (And.intro hca hcb), rdRat_run ha, rd_run, hb.2, Int.cast_zero, evalOp_zero]

theorem qs_run {e : Exn} {op : QOp} {c a : Loc} {x : Rat} {y : Int} {h : Heap} (hca : Apart c a) (ha : RatAt h a x)
    (hy : op = .div → y ≠ 0) : qs e op c a y h = .ok ((), setQ h c (op.eval x y)) := by
  have hy' : op = .div → ((y : Int) : Rat) ≠ 0 := fun k => by exact_mod_cast hy k
  simp only [qs, bindM, require_run hca, rdRat_run ha, evalOp_run _ _ _ _ _ hy', wrRat_run]

theorem qset_run {c a : Loc} {x : Rat} {h : Heap} (hca : Apart c a) (ha : RatAt h a x) : qset c a h = .ok ((), setQ h c x) := by
  simp only [qset, bindM, require_run hca, rdRat_run ha, wrRat_run]

theorem qneg_run {a : Loc} {x : Rat} {h : Heap} (ha : RatAt h a x) : qneg a h = .ok ((), setQ h a (-x)) := by
  simp only [qneg, bindM, rdRat_run ha, wrRat_run]

theorem zswap_run (a b : Loc) (h : Heap) : zswap a b h = .ok ((), setI (setI h a (h.cell b)) b (h.cell a)) := by
  simp only [zswap, bindM, rd_run, wr_run]

theorem qswap_run (a b : Loc) (h : Heap) : ∃ h', qswap a b h = .ok ((), h') ∧ h'.next = h.next ∧
    ((a = b ∨ a + 2 ≤ b ∨ b + 2 ≤ a) → h'.cell a = h.cell b ∧ h'.cell (a + 1) = h.cell (b + 1)) ∧
    ∀ l, ¬ Cells a l → ¬ Cells b l → h'.cell l = h.cell l := by
  simp only [qswap, bindM, zswap_run]
  refine ⟨_, rfl, rfl, fun hab => ⟨?_, ?_⟩, fun l h1 h2 => ?_⟩
  · simp only [setI_cell]
    split_ifs <;> first | omega | rfl | (congr 1 <;> omega)
  · simp only [setI_cell]
    split_ifs <;> first | omega | rfl | (congr 1 <;> omega)
  · unfold Cells at h1 h2
    simp only [setI_cell]
    split_ifs <;> first | omega | rfl | (congr 1 <;> omega)

theorem Unchanged.refl (h : Heap) (p : Loc → Prop) : Unchanged h h p := ⟨le_refl _, fun _ _ _ => rfl⟩
theorem Unchanged.trans {h h' h'' : Heap} {p : Loc → Prop} (h1 : Unchanged h h' p) (h2 : Unchanged h' h'' p) : Unchanged h h'' p :=
  ⟨h1.1.trans h2.1, fun l hl hp => (h2.2 l (lt_of_lt_of_le hl h1.1) hp).trans (h1.2 l hl hp)⟩
theorem Unchanged.mono {h h' : Heap} {p q : Loc → Prop} (h1 : Unchanged h h' p) (hpq : ∀ l < h.next, p l → q l) : Unchanged h h' q :=
  ⟨h1.1, fun l hl hq => h1.2 l hl fun k => hq (hpq l hl k)⟩
theorem unchanged_setI (h : Heap) (a : Loc) (z : Int) : Unchanged h (setI h a z) (· = a) :=
  ⟨le_refl _, fun l _ hp => by rw [setI_cell, if_neg hp]⟩
theorem unchanged_setQ (h : Heap) (a : Loc) (q : Rat) : Unchanged h (setQ h a q) (Cells a) :=
  ⟨le_refl _, fun l _ hp => by unfold Cells at hp; rw [setQ_cell, if_neg (by omega), if_neg (by omega)]⟩
theorem unchanged_allocI (h : Heap) (p : Loc → Prop) : Unchanged h (allocI h) p :=
  ⟨by rw [allocI_next]; omega, fun l hl _ => by rw [allocI_cell, if_neg (by omega)]⟩
theorem unchanged_allocQ (h : Heap) (p : Loc → Prop) : Unchanged h (allocQ h) p :=
  ⟨by rw [allocQ_next]; omega, fun l hl _ => by rw [allocQ_cell, if_neg (by omega), if_neg (by omega)]⟩

/-- Changes to new objects are not changes. -/
theorem Unchanged.fresh {h h' h'' : Heap} {p q : Loc → Prop} (h1 : Unchanged h h' q) (h2 : Unchanged h' h'' p) (hp : ∀ l < h.next, p l → q l) :
    Unchanged h h'' q :=
  ⟨h1.1.trans h2.1, fun l hl hq => (h2.2 l (lt_of_lt_of_le hl h1.1) fun k => hq (hp l hl k)).trans (h1.2 l hl hq)⟩

theorem Yields.bind {α β : Type} {p : M α} {f : α → M β} {h : Heap} {P : α → Heap → Prop} {Q : β → Heap → Prop}
    (hp : Yields p h P) (hf : ∀ r h', P r h' → Yields (f r) h' Q) : Yields (p >>= f) h Q := by
  obtain ⟨r, h', h1, h2⟩ := hp
  obtain ⟨s, h'', h3, h4⟩ := hf r h' h2
  exact ⟨s, h'', by rw [bindM, h1]; exact h3, h4⟩

theorem Yields.mono {α : Type} {p : M α} {h : Heap} {P Q : α → Heap → Prop} (hp : Yields p h P) (hpq : ∀ r h', P r h' → Q r h') : Yields p h Q := by
  obtain ⟨r, h', h1, h2⟩ := hp
  exact ⟨r, h', h1, hpq r h' h2⟩

theorem Yields.ret {α : Type} {a : α} {h : Heap} {P : α → Heap → Prop} (hp : P a h) : Yields (pure a : M α) h P := ⟨a, h, rfl, hp⟩

/-! ### shapes of the operators on rationals -/

theorem ratMove_yields {a : Loc} {x : Rat} {h : Heap} (ha : RatAt h a x) :
    Yields (Flint.ratMove a) h fun r h' => RatAt h' r x ∧ h.next ≤ r ∧ Unchanged h h' (Cells a) := by
  obtain ⟨h', hr, hn, hc, hu⟩ := qswap_run h.next a (allocQ h)
  have hal := ha.alloc
  refine ⟨h.next, h', by simp only [Flint.ratMove, bindM, newRat_run, hr]; rfl, ⟨?_, ?_, ?_⟩, le_refl _, ?_, fun l hl hp => ?_⟩
  · rw [hn, allocQ_next]; omega
  · rw [(hc (by have := ha.1; omega)).1, hal.2.1]
  · rw [(hc (by have := ha.1; omega)).2, hal.2.2]
  · rw [hn, allocQ_next]; omega
  · rw [hu l (by unfold Cells; omega) hp, allocQ_cell, if_neg (by omega), if_neg (by omega)]

theorem shape_const {h : Heap} {a : Loc} {v : Rat} {p : Loc → M Unit} (hp : p h.next (allocQ h) = .ok ((), setQ (allocQ h) h.next v)) :
    Yields (do let c ← newRat; p c; return c) h fun r h' => RatAt h' r v ∧ ResultOf .const h (Cells a) a r h' := by
  refine .of_run (r := h.next) (h' := setQ (allocQ h) h.next v) (by simp only [bindM, newRat_run, hp]; rfl) ⟨?_, le_refl _, ?_⟩
  · exact .setQ (by rw [allocQ_next]; omega)
  · exact (unchanged_allocQ h _).fresh (unchanged_setQ _ _ _) fun l hl hc => by unfold Cells at hc; omega

theorem shape_assign {h : Heap} {a : Loc} {v : Rat} {p : M Unit} (ha : a + 1 < h.next) (hp : p h = .ok ((), setQ h a v)) :
    Yields (do p; return a) h fun r h' => RatAt h' r v ∧ ResultOf .assign h (Cells a) a r h' :=
  .of_run (r := a) (h' := setQ h a v) (by simp only [bindM, hp]; rfl) ⟨.setQ ha, rfl, unchanged_setQ _ _ _⟩

theorem shape_temp {h : Heap} {a : Loc} {v : Rat} {p : M Unit} (ha : a + 1 < h.next) (hp : p h = .ok ((), setQ h a v)) :
    Yields (do p; Flint.ratMove a) h fun r h' => RatAt h' r v ∧ ResultOf .temp h (Cells a) a r h' := by
  refine Yields.bind (P := fun _ h' => h' = setQ h a v) (.of_run hp rfl) fun _ h' hh => ?_
  subst hh
  refine (ratMove_yields (.setQ (q := v) ha)).mono fun r h' ⟨h1, h2, h3⟩ => ⟨h1, h2, (unchanged_setQ _ _ _).trans h3⟩

theorem fail_const {h : Heap} {e : Exn} {p : Loc → M Unit} (hp : p h.next (allocQ h) = .error e) :
    (do let c ← newRat; p c; return c : M Loc) h = .error e := by simp only [bindM, newRat_run, hp]
theorem fail_assign {h : Heap} {α : Type} {e : Exn} {p : M Unit} {q : M α} (hp : p h = .error e) : (do p; q : M α) h = .error e := by simp only [bindM, hp]

theorem apart_fresh {h : Heap} {a : Loc} {x : Rat} (ha : RatAt h a x) : Apart h.next a := by have := ha.1; unfold Apart; omega
theorem outside_fresh {h : Heap} {a : Loc} {x : Int} (ha : IntAt h a x) : Outside a h.next := by have := ha.1; unfold Outside; omega
theorem apart_self (a : Loc) : Apart a a := .inl rfl
theorem outside_of {a b : Loc} (hb : ¬ Cells a b) : Outside b a := by unfold Cells at hb; unfold Outside; omega

/-! ### rationals -/

theorem allocI_setI_at (h : Heap) (z : Int) : IntAt (setI (allocI h) h.next z) h.next z :=
  ⟨by rw [setI_next, allocI_next]; omega, by rw [setI_cell, if_pos rfl]⟩
theorem unchanged_newI (h : Heap) (z : Int) (p : Loc → Prop) : Unchanged h (setI (allocI h) h.next z) p :=
  (unchanged_allocI h p).fresh (unchanged_setI _ _ _) fun l hl hc => by omega

theorem intOfFixed_yields (b : Int) (h : Heap) :
    Yields (Flint.intOfFixed b) h fun r h' => r = h.next ∧ h' = setI (allocI h) h.next b :=
  .of_run (r := h.next) (by simp only [Flint.intOfFixed, bindM, newInt_run, zsetSi, wr_run]; rfl) ⟨rfl, rfl⟩

theorem qsetSi_run (c : Loc) (b : Int) (h : Heap) : qsetSi c b h = .ok ((), setQ h c b) := by rw [qsetSi, wrRat_run]

theorem ratOfFixed_yields (b : Int) (h : Heap) :
    Yields (Flint.ratOfFixed b) h fun r h' => RatAt h' r b ∧ h.next ≤ r ∧ Unchanged h h' fun _ => False :=
  (shape_const (a := 0) (v := (b : Rat)) (p := fun c => qsetSi c b) (qsetSi_run _ _ _)).mono fun _ _ k => k

theorem ratCopy_yields {a : Loc} {x : Rat} {h : Heap} (ha : RatAt h a x) :
    Yields (Flint.ratCopy a) h fun r h' => RatAt h' r x ∧ h.next ≤ r ∧ Unchanged h h' fun _ => False :=
  (shape_const (a := 0) (v := x) (p := fun c => qset c a) (qset_run (apart_fresh ha) ha.alloc)).mono fun _ _ k => k

theorem ratAssign_yields {t a : Loc} {x : Rat} {h : Heap} (ht : t + 1 < h.next) (ha : RatAt h a x) (hta : Apart t a) :
    Yields (Flint.ratAssign t a) h fun r h' => RatAt h' t x ∧ r = t ∧ Unchanged h h' (Cells t) :=
  (shape_assign ht (qset_run hta ha)).mono fun _ _ ⟨h1, h2, h3⟩ => ⟨h2 ▸ h1, h2, h3⟩

theorem ratMoveAssign_yields {t a : Loc} {x : Rat} {h : Heap} (ht : t + 1 < h.next) (ha : RatAt h a x) (hta : t = a ∨ t + 2 ≤ a ∨ a + 2 ≤ t) :
    Yields (Flint.ratMoveAssign t a) h fun r h' => RatAt h' t x ∧ r = t ∧ Unchanged h h' fun l => Cells t l ∨ Cells a l := by
  obtain ⟨h', hr, hn, hc, hu⟩ := qswap_run t a h
  refine ⟨t, h', by simp only [Flint.ratMoveAssign, bindM, hr]; rfl, ⟨by rw [hn]; exact ht, ?_, ?_⟩, rfl, by rw [hn], fun l hl hp => ?_⟩
  · rw [(hc hta).1, ha.2.1]
  · rw [(hc hta).2, ha.2.2]
  · exact hu l (fun k => hp (.inl k)) fun k => hp (.inr k)

/-- The canonicalization of both libraries, for denominators different from zero. -/
def Reduces (p : Loc → M Unit) : Prop := ∀ (a : Loc) (h : Heap), h.cell (a + 1) ≠ 0 → p a h = .ok ((), setQ h a (frac (h.cell a) (h.cell (a + 1))))

theorem reduces_flint : Reduces fmpqCanonicalise := fun a h hd => by simp only [fmpqCanonicalise, bindM, rd_run, require_run hd, wrRat_run]
theorem reduces_imath : Reduces mpRatReduce := fun a h hd => by
  simp only [mpRatReduce, bindM, rd_run]
  rw [if_neg hd, wrRat_run]

theorem canonicalize_yields {p : Loc → M Unit} (hp : Reduces p) {a : Loc} {x y : Int} {h : Heap} (ha : IntAt h a x) (hb : IntAt h (a + 1) y) (hy : y ≠ 0) :
    Yields (p a) h fun _ h' => RatAt h' a ((x : Rat) / y) ∧ Unchanged h h' (Cells a) := by
  refine .of_run (hp a h (by rw [hb.2]; exact hy)) ⟨?_, unchanged_setQ _ _ _⟩
  rw [ha.2, hb.2]
  exact .setQ hb.1

theorem ratOfInts_yields {p : Loc → M Unit} (hp : Reduces p) {a b : Loc} {x y : Int} {h : Heap} (ha : IntAt h a x) (hb : IntAt h b y) (hab : a ≠ b)
    (hy : y ≠ 0) :
    Yields (do let c ← newRat; let _ ← Flint.intMoveAssign c a; let _ ← Flint.intMoveAssign (c + 1) b; p c; return c) h fun r h' =>
      RatAt h' r ((x : Rat) / y) ∧ h.next ≤ r ∧ Unchanged h h' fun l => l = a ∨ l = b := by
  obtain ⟨ha1, ha2⟩ := ha
  obtain ⟨hb1, hb2⟩ := hb
  have hrun : ∀ c d h, Flint.intMoveAssign c d h = .ok (c, setI (setI h c (h.cell d)) d (h.cell c)) := fun c d h => by
    simp only [Flint.intMoveAssign, bindM, zswap_run]; rfl
  have hg : ∀ g : Heap, g = setI (setI (setI (setI (allocQ h) h.next ((allocQ h).cell a)) a ((allocQ h).cell h.next)) (h.next + 1)
      ((setI (setI (allocQ h) h.next ((allocQ h).cell a)) a ((allocQ h).cell h.next)).cell b)) b
      ((setI (setI (allocQ h) h.next ((allocQ h).cell a)) a ((allocQ h).cell h.next)).cell (h.next + 1)) →
      g.next = h.next + 2 ∧ g.cell h.next = x ∧ g.cell (h.next + 1) = y ∧ ∀ l < h.next, ¬ (l = a ∨ l = b) → g.cell l = h.cell l := by
    rintro g rfl
    refine ⟨rfl, ?_, ?_, fun l hl hp => ?_⟩ <;>
    · simp only [setI_cell, allocQ_cell]
      split_ifs <;> omega
  obtain ⟨h1, h2, h3, h4⟩ := hg _ rfl
  refine .of_run (r := h.next) (by
    simp only [bindM, newRat_run, hrun]
    rw [hp _ _ (by rw [h3]; exact hy)]
    rfl) ⟨?_, le_refl _, ?_⟩
  · rw [h2, h3]
    exact .setQ (by rw [h1]; omega)
  · refine Unchanged.fresh ⟨by rw [h1]; omega, h4⟩ (unchanged_setQ _ _ _) fun l hl hc => ?_
    unfold Cells at hc
    omega

theorem ratMinus_yields {a : Loc} {x : Rat} {h : Heap} (ha : RatAt h a x) :
    Yields (Flint.ratMinus a) h fun r h' => RatAt h' r (-x) ∧ h.next ≤ r ∧ Unchanged h h' fun _ => False := by
  refine Yields.bind (ratCopy_yields ha) fun p h1 ⟨hp, hle, hu⟩ => ?_
  refine Yields.bind (P := fun r h' => r = p ∧ h' = setQ h1 p (-x)) (.of_run (by simp only [Flint.ratNeg, bindM, qneg_run hp]; rfl) ⟨rfl, rfl⟩) ?_
  rintro r h' ⟨rfl, rfl⟩
  refine (ratMove_yields (.setQ (q := -x) hp.1)).mono fun s h'' ⟨h2, h3, h4⟩ => ⟨h2, ?_, ?_⟩
  · exact hu.1.trans h3
  · exact (hu.fresh (unchanged_setQ _ _ _) fun l hl hc => by unfold Cells at hc; omega).fresh h4 fun l hl hc => by unfold Cells at hc; omega

theorem ratNeg_yields {a : Loc} {x : Rat} {h : Heap} (ha : RatAt h a x) :
    Yields (Flint.ratNeg a) h fun r h' => RatAt h' a (-x) ∧ r = a ∧ Unchanged h h' (Cells a) :=
  (shape_assign ha.1 (qneg_run ha)).mono fun _ _ ⟨h1, h2, h3⟩ => ⟨h2 ▸ h1, h2, h3⟩

/-! ### integers -/

theorem intMove_yields {a : Loc} {x : Int} {h : Heap} (ha : IntAt h a x) :
    Yields (Flint.intMove a) h fun r h' => IntAt h' r x ∧ h.next ≤ r ∧ Unchanged h h' (· = a) := by
  obtain ⟨ha1, ha2⟩ := ha
  refine .of_run (r := h.next) (by simp only [Flint.intMove, bindM, newInt_run, zswap_run]; rfl) ⟨⟨?_, ?_⟩, le_refl _, ?_, fun l hl hp => ?_⟩
  · simp only [setI_next, allocI_next]; omega
  · simp only [setI_cell, allocI_cell]; split_ifs <;> omega
  · simp only [setI_next, allocI_next]; omega
  · simp only [setI_cell, allocI_cell]; split_ifs <;> omega

theorem ishape_const {h : Heap} {a : Loc} {v : Int} {p : Loc → M Unit} (hp : p h.next (allocI h) = .ok ((), setI (allocI h) h.next v)) :
    Yields (do let c ← newInt; p c; return c) h fun r h' => IntAt h' r v ∧ ResultOf .const h (· = a) a r h' :=
  .of_run (r := h.next) (by simp only [bindM, newInt_run, hp]; rfl) ⟨allocI_setI_at h v, le_refl _, unchanged_newI h v _⟩

theorem IntAt.setI_self {h : Heap} {a : Loc} {z : Int} (ha : a < h.next) : IntAt (setI h a z) a z := ⟨ha, by rw [setI_cell, if_pos rfl]⟩

theorem ishape_assign {h : Heap} {a : Loc} {v : Int} {p : M Unit} (ha : a < h.next) (hp : p h = .ok ((), setI h a v)) :
    Yields (do p; return a) h fun r h' => IntAt h' r v ∧ ResultOf .assign h (· = a) a r h' :=
  .of_run (r := a) (by simp only [bindM, hp]; rfl) ⟨.setI_self ha, rfl, unchanged_setI _ _ _⟩

theorem ishape_temp {h : Heap} {a : Loc} {v : Int} {p : M Unit} (ha : a < h.next) (hp : p h = .ok ((), setI h a v)) :
    Yields (do p; Flint.intMove a) h fun r h' => IntAt h' r v ∧ ResultOf .temp h (· = a) a r h' := by
  refine Yields.bind (P := fun _ h' => h' = setI h a v) (.of_run hp rfl) fun _ h' hh => ?_
  subst hh
  exact (intMove_yields (.setI_self (z := v) ha)).mono fun r h' ⟨h1, h2, h3⟩ => ⟨h1, h2, (unchanged_setI _ _ _).trans h3⟩

theorem allocI_old {h : Heap} {a : Loc} {x : Int} (ha : IntAt h a x) : (allocI h).cell a = x := by
  rw [allocI_cell, if_neg (by have := ha.1; omega), ha.2]

theorem zz_run (op : ZOp) (c a b : Loc) (h : Heap) : zz op c a b h = .ok ((), setI h c (op.eval (h.cell a) (h.cell b))) := rfl
theorem zs_run (op : ZOp) (c a : Loc) (b : Int) (h : Heap) : zs op c a b h = .ok ((), setI h c (op.eval (h.cell a) b)) := rfl

theorem intBin_yields (op : ZOp) (m : Mode) {a b : Loc} {x y : Int} {h : Heap} (ha : IntAt h a x) (hb : IntAt h b y) :
    Yields (Flint.intBin op m a b) h fun r h' => IntAt h' r (op.eval x y) ∧ ResultOf m h (· = a) a r h' := by
  have h1 : ∀ c, zz op c a b (allocI h) = .ok ((), setI (allocI h) c (op.eval x y)) := fun c => by rw [zz_run, allocI_old ha, allocI_old hb]
  have h2 : zz op a a b h = .ok ((), setI h a (op.eval x y)) := by rw [zz_run, ha.2, hb.2]
  cases op <;> cases m <;> first | exact ishape_const (h1 _) | exact ishape_temp ha.1 h2 | exact ishape_assign ha.1 h2

theorem intBin_eq (op : ZOp) (m : Mode) (a b : Loc) : IMath.intBin op m a b = Flint.intBin op m a b := by cases op <;> cases m <;> rfl
theorem intBinFixed_eq (op : ZOp) (m : Mode) (a : Loc) (b : Int) : IMath.intBinFixed op m a b = Flint.intBinFixed op m a b := by
  cases op <;> cases m <;> rfl

theorem intBinFixed_yields (op : ZOp) (m : Mode) {a : Loc} {x y : Int} {h : Heap} (ha : IntAt h a x) :
    Yields (Flint.intBinFixed op m a y) h fun r h' => IntAt h' r (op.eval x y) ∧ ResultOf m h (· = a) a r h' := by
  have h1 : ∀ c, zs op c a y (allocI h) = .ok ((), setI (allocI h) c (op.eval x y)) := fun c => by rw [zs_run, allocI_old ha]
  have h2 : zs op a a y h = .ok ((), setI h a (op.eval x y)) := by rw [zs_run, ha.2]
  cases op <;> cases m <;> first | exact ishape_const (h1 _) | exact ishape_temp ha.1 h2 | exact ishape_assign ha.1 h2

theorem intCopy_yields {a : Loc} {x : Int} {h : Heap} (ha : IntAt h a x) :
    Yields (Flint.intCopy a) h fun r h' => IntAt h' r x ∧ h.next ≤ r ∧ Unchanged h h' fun _ => False :=
  (ishape_const (a := 0) (v := x) (p := fun c => zset c a) (by simp only [zset, bindM, rd_run, wr_run, allocI_old ha])).mono fun _ _ k => k

theorem intAssign_yields {t a : Loc} {x : Int} {h : Heap} (ht : t < h.next) (ha : IntAt h a x) :
    Yields (Flint.intAssign t a) h fun r h' => IntAt h' t x ∧ r = t ∧ Unchanged h h' (· = t) :=
  (ishape_assign (v := x) ht (by simp only [zset, bindM, rd_run, wr_run, ha.2])).mono fun _ _ ⟨h1, h2, h3⟩ => ⟨h2 ▸ h1, h2, h3⟩

theorem intMoveAssign_yields {t a : Loc} {x : Int} {h : Heap} (ht : t < h.next) (ha : IntAt h a x) :
    Yields (Flint.intMoveAssign t a) h fun r h' => IntAt h' t x ∧ r = t ∧ Unchanged h h' fun l => l = t ∨ l = a := by
  obtain ⟨ha1, ha2⟩ := ha
  refine .of_run (r := t) (h' := setI (setI h t (h.cell a)) a (h.cell t)) (by simp only [Flint.intMoveAssign, bindM, zswap_run]; rfl)
    ⟨⟨ht, ?_⟩, rfl, le_refl _, fun l hl hp => ?_⟩
  · simp only [setI_cell]; split_ifs <;> first | omega | (subst_vars; rfl)
  · simp only [setI_cell]; split_ifs <;> omega

theorem intNeg_yields {a : Loc} {x : Int} {h : Heap} (ha : IntAt h a x) :
    Yields (Flint.intNeg a) h fun r h' => IntAt h' a (-x) ∧ r = a ∧ Unchanged h h' (· = a) :=
  (ishape_assign (v := -x) ha.1 (by simp only [zneg, bindM, rd_run, wr_run, ha.2])).mono fun _ _ ⟨h1, h2, h3⟩ => ⟨h2 ▸ h1, h2, h3⟩

theorem intMinus_yields {a : Loc} {x : Int} {h : Heap} (ha : IntAt h a x) :
    Yields (Flint.intMinus a) h fun r h' => IntAt h' r (-x) ∧ h.next ≤ r ∧ Unchanged h h' fun _ => False := by
  refine Yields.bind (intCopy_yields ha) fun p h1 ⟨hp, hle, hu⟩ => Yields.bind (intNeg_yields hp) fun r h' ⟨hr, hrp, hu'⟩ => ?_
  subst hrp
  refine (intMove_yields hr).mono fun s h'' ⟨h2, h3, h4⟩ => ⟨h2, (hu.1.trans hu'.1).trans h3, ?_⟩
  exact (hu.fresh hu' fun l hl hc => by omega).fresh h4 fun l hl hc => by omega

theorem asInt_yields {a : Loc} {x : Int} {h : Heap} (ha : IntAt h a x) :
    Yields (Flint.intAsInt a) h fun r h' => h' = h ∧ ∀ y : Int, r = some y ↔ y = x ∧ -2 ^ 31 ≤ x ∧ x < 2 ^ 31 := by
  by_cases h1 : -2 ^ 63 ≤ x ∧ x < 2 ^ 63
  · by_cases h2 : -2147483648 ≤ x ∧ x ≤ 2147483647
    · refine .of_run (r := some x) (h' := h) (by simp only [Flint.intAsInt, bindM, rd_run, ha.2]; rw [if_pos h1, if_pos h2]; rfl) ⟨rfl, fun y => ?_⟩
      constructor
      · intro k; cases k; exact ⟨rfl, by omega, by omega⟩
      · rintro ⟨rfl, _⟩; rfl
    · refine .of_run (r := none) (h' := h) (by simp only [Flint.intAsInt, bindM, rd_run, ha.2]; rw [if_pos h1, if_neg h2]; rfl) ⟨rfl, fun y => ?_⟩
      constructor
      · intro k; cases k
      · intro ⟨_, k1, k2⟩; exact absurd (And.intro (by omega) (by omega)) h2
  · refine .of_run (r := none) (h' := h) (by simp only [Flint.intAsInt, bindM, rd_run, ha.2]; rw [if_neg h1]; rfl) ⟨rfl, fun y => ?_⟩
    constructor
    · intro k; cases k
    · intro ⟨_, k1, k2⟩; exact absurd (And.intro (by omega) (by omega)) h1

/-! ### comparisons -/

theorem ofCmp_compares (o : Rel) (x y : Rat) : o.ofCmp (cmpRat x y) = true ↔ Compares o x y := by
  unfold cmpRat
  rcases lt_trichotomy x y with hlt | heq | hgt
  · rw [if_pos hlt]
    cases o <;> simp [Rel.ofCmp, Compares, hlt, hlt.le, hlt.ne, hlt.not_gt, hlt.not_ge]
  · subst heq
    rw [if_neg (lt_irrefl _), if_pos rfl]
    cases o <;> simp [Rel.ofCmp, Compares]
  · rw [if_neg hgt.not_gt, if_neg hgt.ne']
    cases o <;> simp [Rel.ofCmp, Compares, hgt, hgt.le, hgt.ne', hgt.not_gt, hgt.not_ge]

theorem compares_cast (o : Rel) (x y : Int) : Compares o (x : Rat) (y : Rat) ↔ Compares o x y := by cases o <;> simp [Compares]

/-- All comparison operators are given by `compare`. -/
theorem compare_yields {p : M Int} {o : Rel} {x y : Rat} {h : Heap} (hp : p h = .ok (cmpRat x y, h)) :
    Yields (do return o.ofCmp (← p)) h fun r h' => h' = h ∧ (r = true ↔ Compares o x y) :=
  .of_run (by simp only [bindM, hp]; rfl) ⟨rfl, ofCmp_compares o x y⟩

theorem equal_yields {p : M Bool} {x y : Rat} {h : Heap} (hp : p h = .ok (decide (x = y), h)) :
    Yields p h fun r h' => h' = h ∧ (r = true ↔ Compares .eq x y) := .of_run hp ⟨rfl, by simp [Compares]⟩
theorem unequal_yields {p : M Bool} {x y : Rat} {h : Heap} (hp : p h = .ok (decide (x = y), h)) :
    Yields (do return !(← p)) h fun r h' => h' = h ∧ (r = true ↔ Compares .ne x y) := .of_run (by simp only [bindM, hp]; rfl) ⟨rfl, by simp [Compares]⟩

theorem signOf_cmpRat (x y : Rat) : SignOf (cmpRat x y) x y :=
  ⟨by simpa [Rel.ofCmp, Compares] using ofCmp_compares .lt x y, by simpa [Rel.ofCmp, Compares] using ofCmp_compares .eq x y,
    by simpa [Rel.ofCmp, Compares] using ofCmp_compares .gt x y⟩
theorem sign_yields {p : M Int} {x y : Rat} {h : Heap} (hp : p h = .ok (cmpRat x y, h)) : Yields p h fun r h' => h' = h ∧ SignOf r x y :=
  .of_run hp ⟨rfl, signOf_cmpRat x y⟩

theorem swap_yields {a b : Loc} {x y : Rat} {h : Heap} (ha : RatAt h a x) (hb : RatAt h b y) (hab : a = b ∨ a + 2 ≤ b ∨ b + 2 ≤ a) :
    Yields (qswap a b) h fun _ h' => RatAt h' a y ∧ RatAt h' b x ∧ Unchanged h h' fun l => Cells a l ∨ Cells b l := by
  obtain ⟨a1, a2, a3⟩ := ha
  obtain ⟨b1, b2, b3⟩ := hb
  simp only [Yields, qswap, bindM, zswap_run]
  refine ⟨(), _, rfl, ⟨a1, ?_, ?_⟩, ⟨b1, ?_, ?_⟩, le_refl _, fun l _ hl => ?_⟩
  · rw [← b2]; simp only [setI_cell]; split_ifs <;> first | omega | rfl | (congr 1 <;> omega)
  · rw [← b3]; simp only [setI_cell]; split_ifs <;> first | omega | rfl | (congr 1 <;> omega)
  · rw [← a2]; simp only [setI_cell]; split_ifs <;> first | omega | rfl | (congr 1 <;> omega)
  · rw [← a3]; simp only [setI_cell]; split_ifs <;> first | omega | rfl | (congr 1 <;> omega)
  · push Not at hl
    unfold Cells at hl
    simp only [setI_cell]; split_ifs <;> first | omega | rfl

theorem zcmpSi_run (a : Loc) (b : Int) (h : Heap) : zcmpSi a b h = .ok (cmpRat (h.cell a) b, h) := rfl
theorem zcmp_run (a b : Loc) (h : Heap) : zcmp a b h = .ok (cmpRat (h.cell a) (h.cell b), h) := rfl
theorem qcmp_run {a b : Loc} {x y : Rat} {h : Heap} (ha : RatAt h a x) (hb : RatAt h b y) : qcmp a b h = .ok (cmpRat x y, h) := by
  simp only [qcmp, bindM, rdRat_run ha, rdRat_run hb, pureM]
theorem qcmpSi_run {a : Loc} {x : Rat} (b : Int) {h : Heap} (ha : RatAt h a x) : qcmpSi a b h = .ok (cmpRat x b, h) := by
  simp only [qcmpSi, bindM, rdRat_run ha, pureM]
theorem qcmpZ_run {a b : Loc} {x : Rat} {y : Int} {h : Heap} (ha : RatAt h a x) (hb : IntAt h b y) : qcmpZ a b h = .ok (cmpRat x y, h) := by
  simp only [qcmpZ, bindM, rdRat_run ha, rd_run, hb.2, pureM]

theorem RatAt.canon {h : Heap} {a : Loc} {q : Rat} (ha : RatAt h a q) : Canon (h.cell a) (h.cell (a + 1)) := by
  obtain ⟨_, hn, hd⟩ := ha
  rw [hn, hd]
  exact ⟨by exact_mod_cast q.pos, by rw [Int.gcd, Int.natAbs_natCast]; exact q.reduced⟩

theorem qequal_run {a b : Loc} {x y : Rat} {h : Heap} (ha : RatAt h a x) (hb : RatAt h b y) : qequal a b h = .ok (decide (x = y), h) := by
  simp only [qequal, bindM, rd_run, require_run (And.intro ha.canon hb.canon), pureM]
  congr 2
  rw [ha.2.1, ha.2.2, hb.2.1, hb.2.2]
  refine decide_eq_decide.mpr ⟨fun ⟨h1, h2⟩ => Rat.ext h1 (by exact_mod_cast h2), ?_⟩
  rintro rfl
  exact ⟨rfl, rfl⟩

theorem qequalInt_run {a : Loc} {x : Rat} (b : Int) {h : Heap} (ha : RatAt h a x) : qequalInt a b h = .ok (decide (x = b), h) := by
  simp only [qequalInt, bindM, rd_run, require_run ha.canon, pureM]
  congr 2
  rw [ha.2.1, ha.2.2]
  refine decide_eq_decide.mpr ⟨fun ⟨h1, h2⟩ => Rat.ext (by simpa using h1) (by simpa using h2), ?_⟩
  rintro rfl
  exact ⟨by simp, by simp⟩

/-- number_imath.hh: the comparison of a rational and an integer by making a rational of the integer. -/
theorem imath_compareInt {a b : Loc} {x : Rat} {y : Int} {h : Heap} (ha : RatAt h a x) (hb : IntAt h b y) :
    Yields (IMath.ratCompareInt a b) h fun r h' => (Unchanged h h' fun _ => False) ∧ r = cmpRat x y := by
  refine Yields.bind (intCopy_yields hb) fun n h1 ⟨hn, hn1, hu1⟩ => ?_
  refine Yields.bind (intOfFixed_yields 1 h1) fun d h2 ⟨hd, hh2⟩ => ?_
  subst hd hh2
  have hu2 := unchanged_newI h1 1 fun _ => False
  have hn' : IntAt (setI (allocI h1) h1.next 1) n y := ⟨lt_of_lt_of_le hn.1 hu2.1, (hu2.2 n hn.1 id).trans hn.2⟩
  refine Yields.bind (ratOfInts_yields reduces_imath hn' (allocI_setI_at h1 1) (by have := hn.1; omega) (by decide)) fun q h3 ⟨hq, hq1, hu3⟩ => ?_
  have hu : Unchanged h h3 fun _ => False := (hu1.trans hu2).fresh hu3 fun l hl k => by have := hu1.1; omega
  have ha3 : RatAt h3 a x := by
    obtain ⟨k1, k2, k3⟩ := ha
    exact ⟨lt_of_lt_of_le k1 hu.1, (hu.2 a (by omega) id).trans k2, (hu.2 (a + 1) k1 id).trans k3⟩
  refine .of_run (qcmp_run ha3 hq) ⟨hu, by simp⟩

/-! ### rational operators -/

/-- The right result, or the exception for divisions by zero. -/
def RightResult (p : M Loc) (e : Exn) (op : QOp) (m : Mode) (a : Loc) (x y : Rat) (h : Heap) : Prop :=
  ((op = .div → y ≠ 0) → Yields p h fun r h' => RatAt h' r (op.eval x y) ∧ ResultOf m h (Cells a) a r h') ∧
    (op = .div → y = 0 → p h = .error e)

theorem qq_right {e : Exn} (op : QOp) {a b : Loc} {x y : Rat} {h : Heap} (ha : RatAt h a x) (hb : RatAt h b y) (hab : Apart a b) :
    RightResult (do let c ← newRat; qq e op c a b; return c) e op .const a x y h ∧
    RightResult (do qq e op a a b; Flint.ratMove a) e op .temp a x y h ∧
    RightResult (do qq e op a a b; return a) e op .assign a x y h := by
  refine ⟨⟨fun hy => ?_, ?_⟩, ⟨fun hy => ?_, ?_⟩, ⟨fun hy => ?_, ?_⟩⟩
  · exact shape_const (p := fun c => qq e op c a b) (qq_run (apart_fresh ha) (apart_fresh hb) ha.alloc hb.alloc hy)
  · rintro rfl hy
    exact fail_const (p := fun c => qq e .div c a b) (qq_zero (apart_fresh ha) (apart_fresh hb) ha.alloc hb.alloc hy)
  · exact shape_temp ha.1 (qq_run (apart_self a) hab ha hb hy)
  · rintro rfl hy
    exact fail_assign (qq_zero (apart_self a) hab ha hb hy)
  · exact shape_assign ha.1 (qq_run (apart_self a) hab ha hb hy)
  · rintro rfl hy
    exact fail_assign (qq_zero (apart_self a) hab ha hb hy)

theorem qz_const {e : Exn} (op : QOp) {a b : Loc} {x : Rat} {y : Int} {h : Heap} (ha : RatAt h a x) (hb : IntAt h b y) :
    RightResult (do let c ← newRat; qz e op c a b; return c) e op .const a x y h := by
  refine ⟨fun hy => ?_, ?_⟩
  · exact shape_const (p := fun c => qz e op c a b) (qz_run (apart_fresh ha) (outside_fresh hb) ha.alloc hb.alloc fun k => by exact_mod_cast hy k)
  · rintro rfl hy
    exact fail_const (p := fun c => qz e .div c a b) (qz_zero (apart_fresh ha) (outside_fresh hb) ha.alloc hb.alloc (by exact_mod_cast hy))

theorem qz_right {e : Exn} (op : QOp) {a b : Loc} {x : Rat} {y : Int} {h : Heap} (ha : RatAt h a x) (hb : IntAt h b y) (hab : ¬ Cells a b) :
    RightResult (do qz e op a a b; Flint.ratMove a) e op .temp a x y h ∧
    RightResult (do qz e op a a b; return a) e op .assign a x y h := by
  refine ⟨⟨fun hy => ?_, ?_⟩, ⟨fun hy => ?_, ?_⟩⟩
  · exact shape_temp ha.1 (qz_run (apart_self a) (outside_of hab) ha hb fun k => by exact_mod_cast hy k)
  · rintro rfl hy
    exact fail_assign (qz_zero (apart_self a) (outside_of hab) ha hb (by exact_mod_cast hy))
  · exact shape_assign ha.1 (qz_run (apart_self a) (outside_of hab) ha hb fun k => by exact_mod_cast hy k)
  · rintro rfl hy
    exact fail_assign (qz_zero (apart_self a) (outside_of hab) ha hb (by exact_mod_cast hy))

theorem qs_right {e : Exn} {op : QOp} (hop : op ≠ .div) {a : Loc} {x : Rat} {y : Int} {h : Heap} (ha : RatAt h a x) :
    RightResult (do let c ← newRat; qs e op c a y; return c) e op .const a x y h ∧
    RightResult (do qs e op a a y; Flint.ratMove a) e op .temp a x y h ∧
    RightResult (do qs e op a a y; return a) e op .assign a x y h := by
  refine ⟨⟨fun hy => ?_, fun k => absurd k hop⟩, ⟨fun hy => ?_, fun k => absurd k hop⟩, ⟨fun hy => ?_, fun k => absurd k hop⟩⟩
  · exact shape_const (p := fun c => qs e op c a y) (qs_run (apart_fresh ha) ha.alloc fun k => absurd k hop)
  · exact shape_temp ha.1 (qs_run (apart_self a) ha fun k => absurd k hop)
  · exact shape_assign ha.1 (qs_run (apart_self a) ha fun k => absurd k hop)

/-- Operators that first convert a fixed size integer. -/
theorem convert_right {e : Exn} {op : QOp} {m : Mode} {a : Loc} {x : Rat} {y : Int} {h : Heap} {f : Loc → M Loc} (ha : RatAt h a x)
    (hf : RightResult (f h.next) e op m a x y (setI (allocI h) h.next y)) : RightResult (do let z ← Flint.intOfFixed y; f z) e op m a x y h := by
  have hrun : Flint.intOfFixed y h = .ok (h.next, setI (allocI h) h.next y) := by
    simp only [Flint.intOfFixed, bindM, newInt_run, zsetSi, wr_run]; rfl
  have hu := unchanged_newI h y
  refine ⟨fun hy => ?_, fun hop hy => by rw [bindM, hrun]; exact hf.2 hop hy⟩
  refine Yields.bind (P := fun r h' => r = h.next ∧ h' = setI (allocI h) h.next y) (.of_run hrun ⟨rfl, rfl⟩) ?_
  rintro r h' ⟨rfl, rfl⟩
  refine (hf.1 hy).mono fun r h' ⟨h1, h2⟩ => ⟨h1, ?_⟩
  have hn : h.next ≤ (Lpx.Props.setI (Lpx.Props.allocI h) h.next y).next := by rw [setI_next, allocI_next]; omega
  cases m with
  | const => exact ⟨hn.trans h2.1, (hu _).trans h2.2⟩
  | temp => exact ⟨hn.trans h2.1, (hu _).trans h2.2⟩
  | assign => exact ⟨h2.1, (hu _).trans h2.2⟩

theorem RatAt.newI {h : Heap} {a : Loc} {q : Rat} (ha : RatAt h a q) (y : Int) : RatAt (Lpx.Props.setI (Lpx.Props.allocI h) h.next y) a q :=
  ha.allocI.setI (by have := ha.1; unfold Cells; omega)

/-- Operators on temporaries that move the result of an assignment. -/
theorem RightResult.move {p : M Loc} {e : Exn} {op : QOp} {a : Loc} {x y : Rat} {h : Heap} (hp : RightResult p e op .assign a x y h) :
    RightResult (do let a ← p; Flint.ratMove a) e op .temp a x y h := by
  refine ⟨fun hy => ?_, fun hop hy => by rw [bindM, hp.2 hop hy]⟩
  refine Yields.bind (hp.1 hy) fun r h' ⟨h1, h2, h3⟩ => ?_
  subst h2
  exact (ratMove_yields h1).mono fun s h'' ⟨k1, k2, k3⟩ => ⟨k1, h3.1.trans k2, h3.trans k3⟩

theorem fresh_not_cells {h : Heap} {a : Loc} {x : Rat} (ha : RatAt h a x) : ¬ Cells a h.next := by have := ha.1; unfold Cells; omega

theorem flint_ratBin (op : QOp) (m : Mode) {a b : Loc} {x y : Rat} {h : Heap} (ha : RatAt h a x) (hb : RatAt h b y) (hab : Apart a b) :
    RightResult (Flint.ratBin op m a b) .abort op m a x y h := by
  obtain ⟨h1, h2, h3⟩ := qq_right (e := .abort) op ha hb hab
  cases op <;> cases m <;> first | exact h1 | exact h2 | exact h3
theorem imath_ratBin (op : QOp) (m : Mode) {a b : Loc} {x y : Rat} {h : Heap} (ha : RatAt h a x) (hb : RatAt h b y) (hab : Apart a b) :
    RightResult (IMath.ratBin op m a b) .domain op m a x y h := by
  obtain ⟨h1, h2, h3⟩ := qq_right (e := .domain) op ha hb hab
  cases op <;> cases m <;> first | exact h1 | exact h2 | exact h3

theorem flint_ratBinInt (op : QOp) (m : Mode) {a b : Loc} {x : Rat} {y : Int} {h : Heap} (ha : RatAt h a x) (hb : IntAt h b y)
    (hab : m = .const ∨ ¬ Cells a b) : RightResult (Flint.ratBinInt op m a b) .abort op m a x y h := by
  have h1 := qz_const (e := .abort) op ha hb
  cases m with
  | const => cases op <;> exact h1
  | temp => have h2 := (qz_right (e := .abort) op ha hb (hab.resolve_left (by simp))).1; cases op <;> exact h2
  | assign => have h2 := (qz_right (e := .abort) op ha hb (hab.resolve_left (by simp))).2; cases op <;> exact h2
theorem imath_ratBinInt (op : QOp) (m : Mode) {a b : Loc} {x : Rat} {y : Int} {h : Heap} (ha : RatAt h a x) (hb : IntAt h b y)
    (hab : m = .const ∨ ¬ Cells a b) : RightResult (IMath.ratBinInt op m a b) .domain op m a x y h := by
  have h1 := qz_const (e := .domain) op ha hb
  cases m with
  | const => cases op <;> exact h1
  | temp => have h2 := (qz_right (e := .domain) op ha hb (hab.resolve_left (by simp))).1; cases op <;> exact h2
  | assign => have h2 := (qz_right (e := .domain) op ha hb (hab.resolve_left (by simp))).2; cases op <;> exact h2

theorem imath_ratBinFixed (op : QOp) (m : Mode) {a : Loc} {x : Rat} {y : Int} {h : Heap} (ha : RatAt h a x) :
    RightResult (IMath.ratBinFixed op m a y) .domain op m a x y h := by
  have hz := allocI_setI_at h y
  cases m with
  | const => exact convert_right ha (imath_ratBinInt op .const (ha.newI y) hz (.inl rfl))
  | temp =>
    refine convert_right (f := fun z => IMath.ratBinInt op .assign a z >>= Flint.ratMove) ha ?_
    exact (imath_ratBinInt op .assign (ha.newI y) hz (.inr (fresh_not_cells ha))).move
  | assign => exact convert_right ha (imath_ratBinInt op .assign (ha.newI y) hz (.inr (fresh_not_cells ha)))

theorem flint_ratBinFixed (op : QOp) (m : Mode) {a : Loc} {x : Rat} {y : Int} {h : Heap} (ha : RatAt h a x) :
    RightResult (Flint.ratBinFixed op m a y) .abort op m a x y h := by
  have hz := allocI_setI_at h y
  cases op with
  | div =>
    cases m with
    | const => exact convert_right ha (flint_ratBinInt .div .const (ha.newI y) hz (.inl rfl))
    | temp =>
      refine convert_right (f := fun z => Flint.ratBinInt .div .assign a z >>= Flint.ratMove) ha ?_
      exact (flint_ratBinInt .div .assign (ha.newI y) hz (.inr (fresh_not_cells ha))).move
    | assign => exact convert_right ha (flint_ratBinInt .div .assign (ha.newI y) hz (.inr (fresh_not_cells ha)))
  | _ =>
    first
      | (obtain ⟨h1, h2, h3⟩ := qs_right (e := .abort) (op := .add) (by simp) (y := y) ha
         cases m <;> first | exact h1 | exact h2 | exact h3)
      | (obtain ⟨h1, h2, h3⟩ := qs_right (e := .abort) (op := .sub) (by simp) (y := y) ha
         cases m <;> first | exact h1 | exact h2 | exact h3)
      | (obtain ⟨h1, h2, h3⟩ := qs_right (e := .abort) (op := .mul) (by simp) (y := y) ha
         cases m <;> first | exact h1 | exact h2 | exact h3)

theorem rational_ops {f : QOp → M Loc} {e : Exn} {m : Mode} {a : Loc} {x y : Rat} {h : Heap} (hf : ∀ op, RightResult (f op) e op m a x y h) :
    (Yields (f .add) h fun r h' => RatAt h' r (x + y) ∧ ResultOf m h (Cells a) a r h') ∧
    (Yields (f .sub) h fun r h' => RatAt h' r (x - y) ∧ ResultOf m h (Cells a) a r h') ∧
    (Yields (f .mul) h fun r h' => RatAt h' r (x * y) ∧ ResultOf m h (Cells a) a r h') ∧
    (y ≠ 0 → Yields (f .div) h fun r h' => RatAt h' r (x / y) ∧ ResultOf m h (Cells a) a r h') ∧
    (y = 0 → f .div h = .error e) :=
  ⟨(hf .add).1 (fun k => by cases k), (hf .sub).1 (fun k => by cases k), (hf .mul).1 (fun k => by cases k), fun hy => (hf .div).1 fun _ => hy, (hf .div).2 rfl⟩

/-! ### the theorems -/

theorem gcd_ne_zero {x y : Int} (hxy : x ≠ 0 ∨ y ≠ 0) : (Int.gcd x y : Int) ≠ 0 := by
  intro k
  have := Int.gcd_eq_zero_iff.mp (by exact_mod_cast k)
  omega

/-- C58: with IMath the class `Integer` is exact. -/
theorem C58_imath_integers : ExactIntegers imath where
  ofFixed b h := (intOfFixed_yields b h).mono fun r h' ⟨h1, h2⟩ => by subst h1 h2; exact ⟨allocI_setI_at h b, le_refl _, unchanged_newI h b _⟩
  copy a x h ha := intCopy_yields ha
  assign t a x h ht ha := intAssign_yields ht ha
  move a x h ha := intMove_yields ha
  moveAssign t a x h ht ha := intMoveAssign_yields ht ha
  bin m a b x y h ha hb := by
    simp only [imath, intBin_eq]
    exact ⟨intBin_yields .add m ha hb, intBin_yields .sub m ha hb, intBin_yields .mul m ha hb⟩
  binFixed m a x y h ha := by
    simp only [imath, intBinFixed_eq]
    exact ⟨intBinFixed_yields .add m ha, intBinFixed_yields .sub m ha, intBinFixed_yields .mul m ha⟩
  minus a x h ha := intMinus_yields ha
  neg a x h ha := intNeg_yields ha
  divide a b x y h ha hb hy := by
    refine .of_run (r := a) (h' := setI h a x) ?_ ⟨.setI_self ha.1, rfl, unchanged_setI _ _ _⟩
    simp only [imath, IMath.intDivide, mpdiv, bindM, rd_run, ha.2, hb.2]
    rw [if_neg hy, Int.mul_tdiv_cancel _ hy]
    rfl
  addMul t a b w x y h ht ha hb := by
    simp only [imath, IMath.intAddMul, intBin_eq]
    refine Yields.bind (intBin_yields .mul .const ha hb) fun p h1 ⟨hp, hle, hu⟩ => ?_
    have ht1 : IntAt h1 t w := ⟨lt_of_lt_of_le ht.1 hu.1, (hu.2 t ht.1 id).trans ht.2⟩
    refine (intBin_yields .add .assign ht1 hp).mono fun r h' ⟨k1, k2, k3⟩ => ?_
    exact ⟨k2 ▸ k1, k2, (hu.mono fun _ _ k => k.elim).trans k3⟩
  gcd a b x y h ha hb := by
    by_cases hxy : x = 0 ∧ y = 0
    · obtain ⟨rfl, rfl⟩ := hxy
      refine .of_run (r := h.next) (h' := allocI h) ?_ ⟨⟨by rw [allocI_next]; omega, by rw [allocI_cell, if_pos rfl]; rfl⟩, le_refl _, unchanged_allocI _ _⟩
      simp only [imath, IMath.intGcd, mpgcd, bindM, newInt_run, rd_run, allocI_old ha, allocI_old hb]
      rfl
    · refine .of_run (r := h.next) (h' := setI (allocI h) h.next (Int.gcd x y)) ?_ ⟨allocI_setI_at _ _, le_refl _, unchanged_newI _ _ _⟩
      simp only [imath, IMath.intGcd, mpgcd, bindM, newInt_run, rd_run, allocI_old ha, allocI_old hb]
      rw [if_neg hxy]
      rfl
  gcdDiv a b x y h ha hb hxy := by
    have hg := gcd_ne_zero hxy
    have hx : x.tdiv (Int.gcd x y) * Int.gcd x y = x := Int.tdiv_mul_cancel (Int.gcd_dvd_left ..)
    have hy : y.tdiv (Int.gcd x y) * Int.gcd x y = y := Int.tdiv_mul_cancel (Int.gcd_dvd_right ..)
    obtain ⟨ha1, ha2⟩ := ha
    obtain ⟨hb1, hb2⟩ := hb
    have hxy' : ¬ (x = 0 ∧ y = 0) := by omega
    set g : Int := ((Int.gcd x y : Nat) : Int) with hgdef
    have e1 : (allocI (allocI (allocI h))).cell a = x := by simp only [allocI_cell, allocI_next]; split_ifs <;> omega
    have e2 : (allocI (allocI (allocI h))).cell b = y := by simp only [allocI_cell, allocI_next]; split_ifs <;> omega
    have e3 : (setI (allocI (allocI (allocI h))) h.next g).cell a = x := by rw [setI_cell, if_neg (by omega), e1]
    have e4 : (setI (allocI (allocI (allocI h))) h.next g).cell h.next = g := by rw [setI_cell, if_pos rfl]
    have e5 : (setI (setI (allocI (allocI (allocI h))) h.next g) (h.next + 1) (x.tdiv g)).cell b = y := by
      rw [setI_cell, if_neg (by omega), setI_cell, if_neg (by omega), e2]
    have e6 : (setI (setI (allocI (allocI (allocI h))) h.next g) (h.next + 1) (x.tdiv g)).cell h.next = g := by
      rw [setI_cell, if_neg (by omega), e4]
    refine .of_run (r := (h.next, h.next + 1, h.next + 2))
      (h' := setI (setI (setI (allocI (allocI (allocI h))) h.next g) (h.next + 1) (x.tdiv g)) (h.next + 2) (y.tdiv g)) ?_
      ⟨x.tdiv g, y.tdiv g, ⟨?_, ?_⟩, ⟨?_, ?_⟩, ⟨?_, ?_⟩, hx, hy, le_refl _, ?_, ?_, ?_, fun l hl _ => ?_⟩
    · simp only [imath, IMath.intGcdDiv, mpgcd, mpdiv, bindM, newInt_run, rd_run, e1, e2]
      rw [if_neg hxy', ← hgdef]
      simp only [bindM, wr_run, pureM]
      simp only [allocI_next, e3, e4, rd_run, bindM]
      rw [if_neg hg]
      simp only [bindM, wr_run, pureM, e5, e6]
      rw [if_neg hg]
      rfl
    all_goals (try simp only [setI_next, allocI_next])
    all_goals (try simp only [setI_cell, allocI_cell, allocI_next])
    all_goals (try split_ifs)
    all_goals omega
  asInt a x h ha := asInt_yields ha
  compareFixed o a x y h ha := by
    refine (compare_yields (o := o) (x := x) (y := y) (p := zcmpSi a y) (by rw [zcmpSi_run, ha.2])).mono fun r h' ⟨h1, h2⟩ => ⟨h1, ?_⟩
    rw [h2, compares_cast]

/-- C58: with IMath the class `Rational` is exact. -/
theorem C58_imath_rationals : ExactRationals imath .domain where
  ofFixed b h := ratOfFixed_yields b h
  ofInts a b x y h ha hb hab hy := ratOfInts_yields reduces_imath ha hb hab hy
  copy a x h ha := ratCopy_yields ha
  assign t a x h ht ha hta := ratAssign_yields ht ha hta
  move a x h ha := ratMove_yields ha
  moveAssign t a x h ht ha hta := ratMoveAssign_yields ht ha hta
  bin m a b x y h ha hb hab := rational_ops fun op => imath_ratBin op m ha hb hab
  binInt m a b x y h ha hb hab := by
    obtain ⟨a1, a2, a3, a4, a5⟩ := rational_ops (e := .domain) fun op => imath_ratBinInt op m ha hb hab
    exact ⟨a1, a2, a3, fun hy => a4 (by exact_mod_cast hy), fun hy => a5 (by exact_mod_cast hy)⟩
  binFixed m a x y h ha := by
    obtain ⟨a1, a2, a3, a4, a5⟩ := rational_ops (e := .domain) fun op => imath_ratBinFixed op m (y := y) ha
    exact ⟨a1, a2, a3, fun hy => a4 (by exact_mod_cast hy), fun hy => a5 (by exact_mod_cast hy)⟩
  minus a x h ha := ratMinus_yields ha
  neg a x h ha := ratNeg_yields ha
  canonicalize a x y h ha hb hy := canonicalize_yields reduces_imath ha hb hy
  compare o a b x y h ha hb := compare_yields (qcmp_run ha hb)
  compareInt o a b x y h ha hb :=
    (imath_compareInt ha hb).bind fun r h' ⟨hu, hr⟩ => .ret ⟨hu, by rw [hr]; exact ofCmp_compares o x y⟩
  compareFixed o a x y h ha := compare_yields (qcmpSi_run y ha)
  sign a b x y h ha hb := sign_yields (qcmp_run ha hb)
  signInt a b x y h ha hb := (imath_compareInt ha hb).mono fun r h' ⟨hu, hr⟩ => ⟨hu, hr ▸ signOf_cmpRat x y⟩
  signFixed a x y h ha := sign_yields (qcmpSi_run y ha)
  swap a b x y h ha hb hab := swap_yields ha hb hab

/-- C58: with IMath integers are compared correctly. -/
theorem C58_imath_compare : ComparesIntegers imath := fun o a b x y h ha hb => by
  refine (compare_yields (o := o) (x := x) (y := y) (p := zcmp a b) (by rw [zcmp_run, ha.2, hb.2])).mono fun r h' ⟨h1, h2⟩ => ⟨h1, ?_⟩
  rw [h2, compares_cast]

/-- C58: with FLINT the class `Integer` is exact. -/
theorem C58_flint_integers (place : Heap → Loc → Int) : ExactIntegers (flint place) where
  ofFixed b h := (intOfFixed_yields b h).mono fun r h' ⟨h1, h2⟩ => by subst h1 h2; exact ⟨allocI_setI_at h b, le_refl _, unchanged_newI h b _⟩
  copy a x h ha := intCopy_yields ha
  assign t a x h ht ha := intAssign_yields ht ha
  move a x h ha := intMove_yields ha
  moveAssign t a x h ht ha := intMoveAssign_yields ht ha
  bin m a b x y h ha hb := ⟨intBin_yields .add m ha hb, intBin_yields .sub m ha hb, intBin_yields .mul m ha hb⟩
  binFixed m a x y h ha := ⟨intBinFixed_yields .add m ha, intBinFixed_yields .sub m ha, intBinFixed_yields .mul m ha⟩
  minus a x h ha := intMinus_yields ha
  neg a x h ha := intNeg_yields ha
  divide a b x y h ha hb hy := by
    refine .of_run (r := a) (h' := setI h a x) ?_ ⟨.setI_self ha.1, rfl, unchanged_setI _ _ _⟩
    simp only [flint, Flint.intDivide, zdivexact, bindM, rd_run, ha.2, hb.2, require_run (And.intro hy (Dvd.intro_left x rfl)), wr_run]
    rw [Int.mul_ediv_cancel _ hy]
    rfl
  addMul t a b w x y h ht ha hb :=
    (ishape_assign (v := w + x * y) ht.1 (by simp only [zaddmul, bindM, rd_run, wr_run, ht.2, ha.2, hb.2])).mono
      fun _ _ ⟨h1, h2, h3⟩ => ⟨h2 ▸ h1, h2, h3⟩
  gcd a b x y h ha hb :=
    (ishape_const (a := 0) (v := ((Int.gcd x y : Nat) : Int)) (p := fun c => zgcd c a b) (by
      simp only [zgcd, bindM, rd_run, wr_run, allocI_old ha, allocI_old hb])).mono fun _ _ k => k
  gcdDiv a b x y h ha hb hxy := by
    have hg := gcd_ne_zero hxy
    have dx : ((Int.gcd x y : Nat) : Int) ∣ x := Int.gcd_dvd_left ..
    have dy : ((Int.gcd x y : Nat) : Int) ∣ y := Int.gcd_dvd_right ..
    obtain ⟨ha1, ha2⟩ := ha
    obtain ⟨hb1, hb2⟩ := hb
    set g : Int := ((Int.gcd x y : Nat) : Int) with hgdef
    have e1 : (allocI (allocI (allocI h))).cell a = x := by simp only [allocI_cell, allocI_next]; split_ifs <;> omega
    have e2 : (allocI (allocI (allocI h))).cell b = y := by simp only [allocI_cell, allocI_next]; split_ifs <;> omega
    have e3 : (setI (allocI (allocI (allocI h))) h.next g).cell a = x := by rw [setI_cell, if_neg (by omega), e1]
    have e4 : (setI (allocI (allocI (allocI h))) h.next g).cell h.next = g := by rw [setI_cell, if_pos rfl]
    have e5 : (setI (setI (allocI (allocI (allocI h))) h.next g) (h.next + 1) (x / g)).cell b = y := by
      rw [setI_cell, if_neg (by omega), setI_cell, if_neg (by omega), e2]
    have e6 : (setI (setI (allocI (allocI (allocI h))) h.next g) (h.next + 1) (x / g)).cell h.next = g := by
      rw [setI_cell, if_neg (by omega), e4]
    have rz : ∀ (c a b : Loc) (x y : Int) (h : Heap), h.cell a = x → h.cell b = y → y ≠ 0 ∧ y ∣ x → zdivexact c a b h = .ok ((), setI h c (x / y)) := by
      rintro c a b x y h rfl rfl hy
      simp only [zdivexact, bindM, rd_run, require_run hy, wr_run]
    have rg : zgcd h.next a b (allocI (allocI (allocI h))) = .ok ((), setI (allocI (allocI (allocI h))) h.next g) := by
      simp only [zgcd, bindM, rd_run, wr_run, e1, e2, hgdef]
    refine .of_run (r := (h.next, h.next + 1, h.next + 2))
      (h' := setI (setI (setI (allocI (allocI (allocI h))) h.next g) (h.next + 1) (x / g)) (h.next + 2) (y / g)) ?_
      ⟨x / g, y / g, ⟨?_, ?_⟩, ⟨?_, ?_⟩, ⟨?_, ?_⟩, Int.ediv_mul_cancel dx, Int.ediv_mul_cancel dy, le_refl _, ?_, ?_, ?_, fun l hl _ => ?_⟩
    · simp only [flint, Flint.intGcdDiv, bindM, newInt_run, allocI_next, rg, rz _ _ _ _ _ _ e3 e4 ⟨hg, dx⟩, rz _ _ _ _ _ _ e5 e6 ⟨hg, dy⟩]
      rfl
    all_goals (try simp only [setI_next, allocI_next])
    all_goals (try simp only [setI_cell, allocI_cell, allocI_next])
    all_goals (try split_ifs)
    all_goals omega
  asInt a x h ha := asInt_yields ha
  compareFixed o a x y h ha := by
    have hc : zcmpSi a y h = .ok (cmpRat x y, h) := by rw [zcmpSi_run, ha.2]
    have he : zequalSi a y h = .ok (decide ((x : Rat) = y), h) := by simp only [zequalSi, bindM, rd_run, pureM, ha.2, Int.cast_inj]
    have h1 := fun o => compare_yields (o := o) hc
    have h2 := equal_yields he
    have h3 := unequal_yields he
    suffices hs : Yields (Flint.intRelFixed o a y) h fun r h' => h' = h ∧ (r = true ↔ Compares o (x : Rat) (y : Rat)) by
      simp only [compares_cast] at hs
      exact hs
    cases o <;> first | exact h1 _ | exact h2 | exact h3

/-- C58: with FLINT the class `Rational` is exact; divisions by zero abort the process. -/
theorem C58_flint_rationals (place : Heap → Loc → Int) : ExactRationals (flint place) .abort where
  ofFixed b h := ratOfFixed_yields b h
  ofInts a b x y h ha hb hab hy := ratOfInts_yields reduces_flint ha hb hab hy
  copy a x h ha := ratCopy_yields ha
  assign t a x h ht ha hta := ratAssign_yields ht ha hta
  move a x h ha := ratMove_yields ha
  moveAssign t a x h ht ha hta := ratMoveAssign_yields ht ha hta
  bin m a b x y h ha hb hab := rational_ops fun op => flint_ratBin op m ha hb hab
  binInt m a b x y h ha hb hab := by
    obtain ⟨a1, a2, a3, a4, a5⟩ := rational_ops (e := .abort) fun op => flint_ratBinInt op m ha hb hab
    exact ⟨a1, a2, a3, fun hy => a4 (by exact_mod_cast hy), fun hy => a5 (by exact_mod_cast hy)⟩
  binFixed m a x y h ha := by
    obtain ⟨a1, a2, a3, a4, a5⟩ := rational_ops (e := .abort) fun op => flint_ratBinFixed op m (y := y) ha
    exact ⟨a1, a2, a3, fun hy => a4 (by exact_mod_cast hy), fun hy => a5 (by exact_mod_cast hy)⟩
  minus a x h ha := ratMinus_yields ha
  neg a x h ha := ratNeg_yields ha
  canonicalize a x y h ha hb hy := canonicalize_yields reduces_flint ha hb hy
  compare o a b x y h ha hb := by
    cases o <;> first | exact compare_yields (qcmp_run ha hb) | exact equal_yields (qequal_run ha hb) | exact unequal_yields (qequal_run ha hb)
  compareInt o a b x y h ha hb := by
    have he : (do qequalInt a (← rd b) : M Bool) h = .ok (decide (x = y), h) := by simp only [bindM, rd_run, hb.2, qequalInt_run y ha]
    have hs : Yields (Flint.ratRelInt o a b) h fun r h' => h' = h ∧ (r = true ↔ Compares o x (y : Rat)) := by
      cases o <;> first | exact compare_yields (qcmpZ_run ha hb) | exact equal_yields he | skip
      exact .of_run (r := !decide (x = y)) (h' := h) (by simp only [Flint.ratRelInt, bindM, rd_run, hb.2, qequalInt_run y ha]; rfl) ⟨rfl, by simp [Compares]⟩
    exact hs.mono fun r h' ⟨h1, h2⟩ => ⟨h1 ▸ Unchanged.refl _ _, h2⟩
  compareFixed o a x y h ha := by
    cases o <;> first | exact compare_yields (qcmpSi_run y ha) | exact equal_yields (qequalInt_run y ha) | exact unequal_yields (qequalInt_run y ha)
  sign a b x y h ha hb := sign_yields (qcmp_run ha hb)
  signInt a b x y h ha hb := (sign_yields (qcmpZ_run ha hb)).mono fun r h' ⟨h1, h2⟩ => ⟨h1 ▸ Unchanged.refl _ _, h2⟩
  signFixed a x y h ha := sign_yields (qcmpSi_run y ha)
  swap a b x y h ha hb hab := swap_yields ha hb hab

/-- C58, partially: with FLINT two integers are compared correctly if the absolute value of the second one is below 2^62; `==` and `!=` are always correct.
Missing: larger values, see `C58_flint_compare_violation`. -/
theorem C58_flint_compare_partial (place : Heap → Loc → Int) (o : Rel) (a b : Loc) (x y : Int) (h : Heap) (ha : IntAt h a x) (hb : IntAt h b y)
    (hy : (-2 ^ 62 < y ∧ y < 2 ^ 62) ∨ o = .eq ∨ o = .ne) :
    Yields ((flint place).intRel o a b) h fun r h' => h' = h ∧ (r = true ↔ Compares o x y) := by
  have he : zequal a b h = .ok (decide ((x : Rat) = y), h) := by simp only [zequal, bindM, rd_run, pureM, ha.2, hb.2, Int.cast_inj]
  have h2 := equal_yields he
  have h3 := unequal_yields he
  have hc : (-2 ^ 62 < y ∧ y < 2 ^ 62) → Flint.intCompare place a b h = .ok (cmpRat x y, h) := fun k => by
    rw [Flint.intCompare, Flint.word, hb.2, if_pos k, zcmpSi_run, ha.2]
  suffices hs : Yields ((flint place).intRel o a b) h fun r h' => h' = h ∧ (r = true ↔ Compares o (x : Rat) (y : Rat)) by
    simp only [compares_cast] at hs
    exact hs
  cases o <;> first | exact h2 | exact h3 | exact compare_yields (hc (hy.resolve_right (by simp)))

/-- C58 does not hold: with FLINT 0 is less than a large negative number. The representation of large numbers has bit 62 set. -/
theorem C58_flint_compare_violation (place : Heap → Loc → Int) (hplace : ∀ h a, 2 ^ 62 ≤ place h a ∧ place h a < 2 ^ 63) :
    ¬ ComparesIntegers (flint place) := by
  intro hall
  let h : Heap := { cell := fun l => if l = 0 then 0 else -2 ^ 70, next := 2 }
  have ha : IntAt h 0 0 := ⟨by decide, rfl⟩
  have hb : IntAt h 1 (-2 ^ 70) := ⟨by decide, rfl⟩
  obtain ⟨r, h', hr, rfl, hiff⟩ := hall .lt 0 1 0 (-2 ^ 70) h ha hb
  have hw : Flint.word place h 1 = place h 1 := by
    rw [Flint.word, hb.2, if_neg (by decide)]
  have hlt : ((0 : Int) : Rat) < (place h 1 : Int) := by
    have := (hplace h 1).1
    exact_mod_cast (by omega : (0 : Int) < place h 1)
  have hrun : (flint place).intRel .lt 0 1 h = .ok (true, h) := by
    simp only [flint, Flint.intRel, bindM, Flint.intCompare, hw, zcmpSi_run, ha.2, cmpRat]
    rw [if_pos hlt]
    rfl
  rw [hrun] at hr
  cases hr
  exact absurd (hiff.mp rfl) (by simp only [Compares]; decide)

/-! ### the hypotheses can be met -/

/-- A memory with the rationals 1/2 and -7/3 and the integer 6. -/
def someHeap : Heap := { cell := fun l => if l = 0 then 1 else if l = 1 then 2 else if l = 2 then -7 else if l = 3 then 3 else 6, next := 5 }

example : RatAt someHeap 0 (1 / 2) ∧ RatAt someHeap 2 (-7 / 3) ∧ IntAt someHeap 4 6 := by
  refine ⟨⟨by decide, ?_, ?_⟩, ⟨by decide, ?_, ?_⟩, by decide, by decide⟩ <;> decide +kernel

/-- 1/2 + -7/3 is -11/6, in place and for both libraries. -/
example (place : Heap → Loc → Int) :
    (Yields (imath.ratBin .add .assign 0 2) someHeap fun r h' => RatAt h' r (-11 / 6) ∧ r = 0) ∧
    (Yields ((flint place).ratBin .add .assign 0 2) someHeap fun r h' => RatAt h' r (-11 / 6) ∧ r = 0) := by
  have h1 : RatAt someHeap 0 (1 / 2) := ⟨by decide, by decide +kernel, by decide +kernel⟩
  have h2 : RatAt someHeap 2 (-7 / 3) := ⟨by decide, by decide +kernel, by decide +kernel⟩
  have e : (1 / 2 + -7 / 3 : Rat) = -11 / 6 := by norm_num
  have k1 := (C58_imath_rationals.bin .assign 0 2 _ _ someHeap h1 h2 (by decide)).1
  have k2 := ((C58_flint_rationals place).bin .assign 0 2 _ _ someHeap h1 h2 (by decide)).1
  rw [e] at k1 k2
  exact ⟨k1.mono fun _ _ ⟨p, q, _⟩ => ⟨p, q⟩, k2.mono fun _ _ ⟨p, q, _⟩ => ⟨p, q⟩⟩

example : ∃ place : Heap → Loc → Int, ∀ h a, 2 ^ 62 ≤ place h a ∧ place h a < 2 ^ 63 := ⟨fun _ a => 2 ^ 62 + (a : Int) % 1000, fun _ a => by show _ ≤ (2 ^ 62 + (a : Int) % 1000) ∧ (2 ^ 62 + (a : Int) % 1000) < _; omega⟩

end Lpx.Props
