import Verif.NumberQ
import Verif.PropsNumber

/-!
# C70: numbers with an epsilon component are computed exactly in memory

The class `RationalQ` (number.hh) on the memory of `Number`: each overload of each operator stores the right number in the right object and changes no
other object, also when the operands are the same object, for both libraries.
-/

namespace Lpx.Props
open Lpx.Number

/-! ### specification -/

/-- Two rationals in different memory. -/
def Separate (a b : Loc) : Prop := a + 2 ≤ b ∨ b + 2 ≤ a

/-- The object `a` is a `RationalQ` with value `c + k*e`. -/
def QAt (h : Heap) (a : QObj) (x : RatQ) : Prop := RatAt h a.c x.c ∧ RatAt h a.k x.k ∧ Separate a.c a.k

/-- The cells of the object. -/
def QCells (a : QObj) (l : Loc) : Prop := Cells a.c l ∨ Cells a.k l

/-- Two objects in different memory. -/
def QSeparate (a b : QObj) : Prop := Separate a.c b.c ∧ Separate a.c b.k ∧ Separate a.k b.c ∧ Separate a.k b.k

/-- The object was created. -/
def QNew (h : Heap) (r : QObj) : Prop := h.next ≤ r.c ∧ h.next ≤ r.k

/-- Where the result of an operator goes: a new object, or the left operand for `+=` and the like. Only the left operand may change, and if it is not a
temporary, then only by being assigned to. -/
def QResultOf (m : Mode) (h : Heap) (a r : QObj) (h' : Heap) : Prop :=
  match m with
  | .const => QNew h r ∧ Unchanged h h' fun _ => False
  | .temp => QNew h r ∧ Unchanged h h' (QCells a)
  | .assign => r = a ∧ Unchanged h h' (QCells a)

/-- The lexicographic order: the epsilon is positive but smaller than every positive rational. -/
def QCompares : Rel → RatQ → RatQ → Prop
  | .lt, x, y => x.c < y.c ∨ (x.c = y.c ∧ x.k < y.k)
  | .le, x, y => x.c < y.c ∨ (x.c = y.c ∧ x.k ≤ y.k)
  | .gt, x, y => y.c < x.c ∨ (x.c = y.c ∧ y.k < x.k)
  | .ge, x, y => y.c < x.c ∨ (x.c = y.c ∧ y.k ≤ x.k)
  | .eq, x, y => x.c = y.c ∧ x.k = y.k
  | .ne, x, y => ¬ (x.c = y.c ∧ x.k = y.k)

/-- The meaning of the result of `compare`. -/
def QSignOf (r : Int) (x y : RatQ) : Prop := (r < 0 ↔ QCompares .lt x y) ∧ (r = 0 ↔ QCompares .eq x y) ∧ (r > 0 ↔ QCompares .gt x y)

/-- What is expected from the class `RationalQ` on top of the class `Rational` in `C`; the library reports divisions by zero by the exception `e`. A
rational may be the one returned by `as_rational`, which is the member `c_`: then there is no epsilon component. -/
structure ExactRationalQs (C : Classes) (e : Exn) : Prop where
  /-- constructors, assignments and swap -/
  make : ∀ (c k : Loc) (x : RatQ) (h : Heap), RatAt h c x.c → RatAt h k x.k → Separate c k →
    Yields (Q.make C c k) h fun r h' => QAt h' r x ∧ QNew h r ∧ Unchanged h h' fun l => Cells c l ∨ Cells k l
  copy : ∀ (a : QObj) (x : RatQ) (h : Heap), QAt h a x → Yields (Q.copy C a) h fun r h' => QAt h' r x ∧ QNew h r ∧ Unchanged h h' fun _ => False
  move : ∀ (a : QObj) (x : RatQ) (h : Heap), QAt h a x → Yields (Q.move C a) h fun r h' => QAt h' r x ∧ QNew h r ∧ Unchanged h h' (QCells a)
  assign : ∀ (t a : QObj) (w x : RatQ) (h : Heap), QAt h t w → QAt h a x → (t = a ∨ QSeparate t a) →
    Yields (Q.assign C t a) h fun r h' => QAt h' t x ∧ r = t ∧ Unchanged h h' (QCells t)
  moveAssign : ∀ (t a : QObj) (w x : RatQ) (h : Heap), QAt h t w → QAt h a x → (t = a ∨ QSeparate t a) →
    Yields (Q.moveAssign C t a) h fun r h' => QAt h' t x ∧ r = t ∧ Unchanged h h' fun l => QCells t l ∨ QCells a l
  swap : ∀ (a b : QObj) (x y : RatQ) (h : Heap), QAt h a x → QAt h b y → (a = b ∨ QSeparate a b) →
    Yields (Q.swap C a b) h fun _ h' => QAt h' a y ∧ QAt h' b x ∧ Unchanged h h' fun l => QCells a l ∨ QCells b l
  /-- numbers without epsilon component -/
  isRational : ∀ (a : QObj) (x : RatQ) (h : Heap), QAt h a x → Yields (Q.isRational C a) h fun r h' => h' = h ∧ (r = true ↔ x.k = 0)
  asRational : ∀ (a : QObj) (x : RatQ) (h : Heap), QAt h a x →
    Yields (Q.asRational C a) h fun r h' => h' = h ∧ (x.k = 0 → ∃ l, r = some l ∧ RatAt h l x.c) ∧ (x.k ≠ 0 → r = none)
  /-- `+` and `-` -/
  shiftFixed : ∀ (m : Mode) (a : QObj) (x : RatQ) (y : Int) (h : Heap), QAt h a x →
    (Yields (Q.shiftFixed C .add m a y) h fun r h' => QAt h' r ⟨x.c + y, x.k⟩ ∧ QResultOf m h a r h') ∧
    (Yields (Q.shiftFixed C .sub m a y) h fun r h' => QAt h' r ⟨x.c - y, x.k⟩ ∧ QResultOf m h a r h')
  shiftInt : ∀ (m : Mode) (a : QObj) (b : Loc) (x : RatQ) (y : Int) (h : Heap), QAt h a x → IntAt h b y → (m = .const ∨ ¬ QCells a b) →
    (Yields (Q.shiftInt C .add m a b) h fun r h' => QAt h' r ⟨x.c + y, x.k⟩ ∧ QResultOf m h a r h') ∧
    (Yields (Q.shiftInt C .sub m a b) h fun r h' => QAt h' r ⟨x.c - y, x.k⟩ ∧ QResultOf m h a r h')
  shiftRat : ∀ (m : Mode) (a : QObj) (b : Loc) (x : RatQ) (y : Rat) (h : Heap), QAt h a x → RatAt h b y → (b = a.c ∨ Separate b a.c ∧ Separate b a.k) →
    (Yields (Q.shiftRat C .add m a b) h fun r h' => QAt h' r ⟨x.c + y, x.k⟩ ∧ QResultOf m h a r h') ∧
    (Yields (Q.shiftRat C .sub m a b) h fun r h' => QAt h' r ⟨x.c - y, x.k⟩ ∧ QResultOf m h a r h')
  shift : ∀ (m : Mode) (a b : QObj) (x y : RatQ) (h : Heap), QAt h a x → QAt h b y → (a = b ∨ QSeparate a b) →
    (Yields (Q.shift C .add m a b) h fun r h' => QAt h' r ⟨x.c + y.c, x.k + y.k⟩ ∧ QResultOf m h a r h') ∧
    (Yields (Q.shift C .sub m a b) h fun r h' => QAt h' r ⟨x.c - y.c, x.k - y.k⟩ ∧ QResultOf m h a r h')
  minus : ∀ (temp : Bool) (a : QObj) (x : RatQ) (h : Heap), QAt h a x →
    Yields (Q.minus C temp a) h fun r h' => QAt h' r ⟨-x.c, -x.k⟩ ∧ QNew h r ∧ Unchanged h h' fun l => temp = true ∧ QCells a l
  /-- `*` and `/` -/
  scaleFixed : ∀ (m : Mode) (a : QObj) (x : RatQ) (y : Int) (h : Heap), QAt h a x →
    (Yields (Q.scaleFixed C .mul m a y) h fun r h' => QAt h' r ⟨x.c * y, x.k * y⟩ ∧ QResultOf m h a r h') ∧
    (y ≠ 0 → Yields (Q.scaleFixed C .div m a y) h fun r h' => QAt h' r ⟨x.c / y, x.k / y⟩ ∧ QResultOf m h a r h') ∧
    (y = 0 → Q.scaleFixed C .div m a y h = .error e)
  scaleInt : ∀ (m : Mode) (a : QObj) (b : Loc) (x : RatQ) (y : Int) (h : Heap), QAt h a x → IntAt h b y → (m = .const ∨ ¬ QCells a b) →
    (Yields (Q.scaleInt C .mul m a b) h fun r h' => QAt h' r ⟨x.c * y, x.k * y⟩ ∧ QResultOf m h a r h') ∧
    (y ≠ 0 → Yields (Q.scaleInt C .div m a b) h fun r h' => QAt h' r ⟨x.c / y, x.k / y⟩ ∧ QResultOf m h a r h') ∧
    (y = 0 → Q.scaleInt C .div m a b h = .error e)
  scaleRat : ∀ (m : Mode) (a : QObj) (b : Loc) (x : RatQ) (y : Rat) (h : Heap), QAt h a x → RatAt h b y →
    (b = a.c ∧ x.k = 0 ∨ Separate b a.c ∧ Separate b a.k) →
    (Yields (Q.scaleRat C .mul m a b) h fun r h' => QAt h' r ⟨x.c * y, x.k * y⟩ ∧ QResultOf m h a r h') ∧
    (y ≠ 0 → Yields (Q.scaleRat C .div m a b) h fun r h' => QAt h' r ⟨x.c / y, x.k / y⟩ ∧ QResultOf m h a r h') ∧
    (y = 0 → Q.scaleRat C .div m a b h = .error e)
  /-- comparisons -/
  relFixed : ∀ (o : Rel) (a : QObj) (x : RatQ) (y : Int) (h : Heap), QAt h a x →
    Yields (Q.relFixed C o a y) h fun r h' => h' = h ∧ (r = true ↔ QCompares o x ⟨y, 0⟩)
  relInt : ∀ (o : Rel) (a : QObj) (b : Loc) (x : RatQ) (y : Int) (h : Heap), QAt h a x → IntAt h b y →
    Yields (Q.relInt C o a b) h fun r h' => (Unchanged h h' fun _ => False) ∧ (r = true ↔ QCompares o x ⟨y, 0⟩)
  relRat : ∀ (o : Rel) (a : QObj) (b : Loc) (x : RatQ) (y : Rat) (h : Heap), QAt h a x → RatAt h b y →
    Yields (Q.relRat C o a b) h fun r h' => h' = h ∧ (r = true ↔ QCompares o x ⟨y, 0⟩)
  rel : ∀ (o : Rel) (a b : QObj) (x y : RatQ) (h : Heap), QAt h a x → QAt h b y →
    Yields (Q.rel C o a b) h fun r h' => h' = h ∧ (r = true ↔ QCompares o x y)
  compareFixed : ∀ (a : QObj) (x : RatQ) (y : Int) (h : Heap), QAt h a x → Yields (Q.compareFixed C a y) h fun r h' => h' = h ∧ QSignOf r x ⟨y, 0⟩
  compareInt : ∀ (a : QObj) (b : Loc) (x : RatQ) (y : Int) (h : Heap), QAt h a x → IntAt h b y →
    Yields (Q.compareInt C a b) h fun r h' => (Unchanged h h' fun _ => False) ∧ QSignOf r x ⟨y, 0⟩
  compareRat : ∀ (a : QObj) (b : Loc) (x : RatQ) (y : Rat) (h : Heap), QAt h a x → RatAt h b y →
    Yields (Q.compareRat C a b) h fun r h' => h' = h ∧ QSignOf r x ⟨y, 0⟩
  compare : ∀ (a b : QObj) (x y : RatQ) (h : Heap), QAt h a x → QAt h b y → Yields (Q.compare C a b) h fun r h' => h' = h ∧ QSignOf r x y

/-! ### memory -/

theorem RatAt.keep {h h' : Heap} {a : Loc} {x : Rat} {p : Loc → Prop} (ha : RatAt h a x) (hu : Unchanged h h' p) (hp : ∀ l, p l → ¬ Cells a l) : RatAt h' a x :=
  ⟨lt_of_lt_of_le ha.1 hu.1, (hu.2 a (by have := ha.1; omega) fun k => hp _ k (.inl rfl)).trans ha.2.1, (hu.2 (a + 1) ha.1 fun k => hp _ k (.inr rfl)).trans ha.2.2⟩

theorem IntAt.keep {h h' : Heap} {a : Loc} {x : Int} {p : Loc → Prop} (ha : IntAt h a x) (hu : Unchanged h h' p) (hp : ¬ p a) : IntAt h' a x :=
  ⟨lt_of_lt_of_le ha.1 hu.1, (hu.2 a ha.1 hp).trans ha.2⟩

theorem Separate.cells {a b : Loc} (hab : Separate a b) {l : Loc} (hl : Cells a l) : ¬ Cells b l := by
  unfold Separate at hab; unfold Cells at *; omega
theorem Separate.symm {a b : Loc} (hab : Separate a b) : Separate b a := by unfold Separate at *; omega

/-- Allocated later. -/
theorem separate_new {h : Heap} {a b : Loc} {x : Rat} (ha : RatAt h a x) (hb : h.next ≤ b) : Separate a b := by have := ha.1; unfold Separate; omega

variable {C : Classes} {e : Exn}

theorem ExactRationals.make (R : ExactRationals C e) {c k : Loc} {x : RatQ} {h : Heap} (hc : RatAt h c x.c) (hk : RatAt h k x.k) (hck : Separate c k) :
    Yields (Q.make C c k) h fun r h' => QAt h' r x ∧ QNew h r ∧ Unchanged h h' fun l => Cells c l ∨ Cells k l := by
  refine (R.move c x.c h hc).bind fun c' h1 ⟨a1, a2, a3⟩ => ?_
  refine (R.move k x.k h1 (hk.keep a3 fun l hl => hck.cells hl)).bind fun k' h2 ⟨b1, b2, b3⟩ => .ret ?_
  have hsep := separate_new a1 b2
  refine ⟨⟨a1.keep b3 fun l hl hl' => ?_, b1, hsep⟩, ⟨a2, a3.1.trans b2⟩, (a3.mono fun l _ hl => .inl hl).trans (b3.mono fun l _ hl => .inr hl)⟩
  have := hk.1
  unfold Cells at hl hl'; omega

/-- Both members are new. -/
theorem ExactRationals.pair_new (R : ExactRationals C e) {f g : M Loc} {z : RatQ} {h : Heap}
    (hf : Yields f h fun r h' => RatAt h' r z.c ∧ h.next ≤ r ∧ Unchanged h h' fun _ => False)
    (hg : ∀ h', (Unchanged h h' fun _ => False) → Yields g h' fun r h'' => RatAt h'' r z.k ∧ h'.next ≤ r ∧ Unchanged h' h'' fun _ => False) :
    Yields (do let c ← f; let k ← g; Q.make C c k) h fun r h' => QAt h' r z ∧ QNew h r ∧ Unchanged h h' fun _ => False := by
  refine hf.bind fun c h1 ⟨a1, a2, a3⟩ => (hg h1 a3).bind fun k h2 ⟨b1, b2, b3⟩ => ?_
  have hsep := separate_new a1 b2
  refine (R.make (x := z) (a1.keep b3 fun _ hl => hl.elim) b1 hsep).mono fun r h' ⟨k1, k2, k3⟩ => ⟨k1, ?_, ?_⟩
  · exact ⟨(a3.1.trans b3.1).trans k2.1, (a3.1.trans b3.1).trans k2.2⟩
  · refine (a3.trans b3).fresh k3 fun l hl hc => ?_
    have := a3.1
    unfold Cells at hc; omega

/-- One member after the other is assigned to. -/
theorem pair_assign {α : Type} {f g : M Loc} {rest : M α} {P : α → Heap → Prop} {z : RatQ} {a : QObj} {h : Heap} (hsep : Separate a.c a.k)
    (hf : Yields f h fun _ h' => RatAt h' a.c z.c ∧ Unchanged h h' (Cells a.c))
    (hg : ∀ h', RatAt h' a.c z.c → Unchanged h h' (Cells a.c) → Yields g h' fun _ h'' => RatAt h'' a.k z.k ∧ Unchanged h' h'' (Cells a.k))
    (hrest : ∀ h', QAt h' a z → Unchanged h h' (QCells a) → Yields rest h' P) :
    Yields (do let _ ← f; let _ ← g; rest) h P := by
  refine hf.bind fun _ h1 ⟨a1, a2⟩ => (hg h1 a1 a2).bind fun _ h2 ⟨b1, b2⟩ => ?_
  exact hrest h2 ⟨a1.keep b2 fun l hl => hsep.symm.cells hl, b1, hsep⟩ ((a2.mono fun l _ hl => .inl hl).trans (b2.mono fun l _ hl => .inr hl))

theorem ExactRationals.qmove (R : ExactRationals C e) {a : QObj} {x : RatQ} {h : Heap} (ha : QAt h a x) :
    Yields (Q.move C a) h fun r h' => QAt h' r x ∧ QNew h r ∧ Unchanged h h' (QCells a) := R.make ha.1 ha.2.1 ha.2.2

theorem ExactRationals.qmove' (R : ExactRationals C e) {a : QObj} {x : RatQ} {h h0 : Heap} (ha : QAt h a x) (hu : Unchanged h0 h (QCells a)) :
    Yields (Q.move C a) h fun r h' => QAt h' r x ∧ QResultOf .temp h0 a r h' :=
  (R.qmove ha).mono fun _ _ ⟨k1, k2, k3⟩ => ⟨k1, ⟨hu.1.trans k2.1, hu.1.trans k2.2⟩, hu.trans k3⟩

theorem ret_assign {a : QObj} {z : RatQ} {h h0 : Heap} (ha : QAt h a z) (hu : Unchanged h0 h (QCells a)) :
    Yields (pure a : M QObj) h fun r h' => QAt h' r z ∧ QResultOf .assign h0 a r h' := .ret ⟨ha, rfl, hu⟩

/-! ### arithmetic -/

/-- The three overloads of an operator on the member `c_`. -/
theorem ExactRationals.shift_ops (R : ExactRationals C e) {f : Mode → M Loc} {a : QObj} {x : RatQ} {z : Rat} {h : Heap} {q : Mode → M QObj} (m : Mode)
    (ha : QAt h a x)
    (q1 : q .const = (do let c ← f .const; let k ← C.ratCopy a.k; Q.make C c k)) (q2 : q .temp = (do let _ ← f .assign; Q.move C a))
    (q3 : q .assign = (do let _ ← f .assign; return a))
    (hf : ∀ m', (m' = .const ↔ m = .const) → Yields (f m') h fun r h' => RatAt h' r z ∧ ResultOf m' h (Cells a.c) a.c r h') :
    Yields (q m) h fun r h' => QAt h' r ⟨z, x.k⟩ ∧ QResultOf m h a r h' := by
  obtain ⟨hc, hk, hs⟩ := ha
  have one : (m = .assign ∨ m = .temp) → ∀ {rest : M QObj} {P : QObj → Heap → Prop},
      (∀ h', QAt h' a ⟨z, x.k⟩ → Unchanged h h' (QCells a) → Yields rest h' P) → Yields (do let _ ← f .assign; rest) h P := by
    intro hm rest P hrest
    refine (hf .assign (by rcases hm with rfl | rfl <;> simp)).bind fun r h1 ⟨a1, a2, a3⟩ => ?_
    subst a2
    exact hrest h1 ⟨a1, hk.keep a3 fun l hl => hs.cells hl, hs⟩ (a3.mono fun l _ hl => .inl hl)
  cases m with
  | const =>
    rw [q1]
    exact R.pair_new (z := ⟨z, x.k⟩) (hf .const (by simp)) fun h' hu => R.copy a.k x.k h' (hk.keep hu fun _ hl => hl.elim)
  | temp => rw [q2]; exact one (.inr rfl) fun h' k1 k2 => R.qmove' k1 k2
  | assign => rw [q3]; exact one (.inl rfl) fun h' k1 k2 => ret_assign k1 k2

/-- The three overloads of an operator on both members. -/
theorem ExactRationals.both_ops (R : ExactRationals C e) {f g : Mode → M Loc} {a : QObj} {x z : RatQ} {h : Heap} {q : Mode → M QObj} (m : Mode)
    (ha : QAt h a x)
    (q1 : q .const = (do let c ← f .const; let k ← g .const; Q.make C c k)) (q2 : q .temp = (do let _ ← f .assign; let _ ← g .assign; Q.move C a))
    (q3 : q .assign = (do let _ ← f .assign; let _ ← g .assign; return a))
    (hf : ∀ m', (m' = .const ↔ m = .const) → Yields (f m') h fun r h' => RatAt h' r z.c ∧ ResultOf m' h (Cells a.c) a.c r h')
    (hg1 : m = .const → ∀ h', (Unchanged h h' fun _ => False) → Yields (g .const) h' fun r h'' => RatAt h'' r z.k ∧ ResultOf .const h' (Cells a.k) a.k r h'')
    (hg2 : m ≠ .const → ∀ h', RatAt h' a.c z.c → Unchanged h h' (Cells a.c) → RatAt h' a.k x.k →
      Yields (g .assign) h' fun r h'' => RatAt h'' r z.k ∧ ResultOf .assign h' (Cells a.k) a.k r h'') :
    Yields (q m) h fun r h' => QAt h' r z ∧ QResultOf m h a r h' := by
  obtain ⟨hc, hk, hs⟩ := ha
  have two : m ≠ .const → ∀ {rest : M QObj} {P : QObj → Heap → Prop},
      (∀ h', QAt h' a z → Unchanged h h' (QCells a) → Yields rest h' P) → Yields (do let _ ← f .assign; let _ ← g .assign; rest) h P := by
    intro hm rest P hrest
    refine pair_assign hs ((hf .assign (by simp [hm])).mono fun r h1 ⟨a1, a2, a3⟩ => ⟨a2 ▸ a1, a3⟩) (fun h' k1 k2 => ?_) hrest
    exact (hg2 hm h' k1 k2 (hk.keep k2 fun l hl => hs.cells hl)).mono fun r h1 ⟨a1, a2, a3⟩ => ⟨a2 ▸ a1, a3⟩
  cases m with
  | const => rw [q1]; exact R.pair_new (hf .const (by simp)) fun h' hu => hg1 rfl h' hu
  | temp => rw [q2]; exact two (by simp) fun h' k1 k2 => R.qmove' k1 k2
  | assign => rw [q3]; exact two (by simp) fun h' k1 k2 => ret_assign k1 k2

/-- Divisions by zero fail at the first member. -/
theorem fail_both {f : Mode → M Loc} {g : Mode → M Loc} {a : QObj} {h : Heap} {q : Mode → M QObj} (m : Mode)
    (q1 : q .const = (do let c ← f .const; let k ← g .const; Q.make C c k)) (q2 : q .temp = (do let _ ← f .assign; let _ ← g .assign; Q.move C a))
    (q3 : q .assign = (do let _ ← f .assign; let _ ← g .assign; return a))
    (hf : ∀ m', (m' = .const ↔ m = .const) → f m' h = .error e) : q m h = .error e := by
  cases m with
  | const => rw [q1]; simp only [bindM, hf .const (by simp)]
  | temp => rw [q2]; simp only [bindM, hf .assign (by simp)]
  | assign => rw [q3]; simp only [bindM, hf .assign (by simp)]

theorem Separate.same {a b : Loc} (hab : Separate a b) : a = b ∨ a + 2 ≤ b ∨ b + 2 ≤ a := .inr hab

/-! ### comparisons -/

theorem Yields.pureIte {α : Type} {b : Bool} {p q : M α} {h : Heap} {P : α → Heap → Prop} (hp : b = true → Yields p h P) (hq : b = false → Yields q h P) :
    Yields (if b = true then p else q) h P := by
  cases b with
  | true => simpa using hp rfl
  | false => simpa using hq rfl

theorem ExactRationals.compareTail (R : ExactRationals C e) {a : QObj} {x : RatQ} {y : Rat} {r : Int} {h : Heap} (ha : QAt h a x) (hr : SignOf r x.c y) :
    Yields (Q.compareTail C a r) h fun r h' => h' = h ∧ QSignOf r x ⟨y, 0⟩ := by
  obtain ⟨h1, h2, h3⟩ := hr
  unfold Q.compareTail
  by_cases hr0 : r = 0
  · have hxy := h2.mp hr0
    simp only [hr0, ne_eq, not_true_eq_false, if_false]
    refine Yields.bind (R.compareFixed .lt a.k x.k 0 h ha.2.1) fun b h' ⟨e1, e2⟩ => ?_
    subst e1
    refine Yields.pureIte (fun hb => ?_) fun hb => ?_
    · have hlt : x.k < 0 := by simpa [Compares] using e2.mp hb
      exact .ret ⟨rfl, by simp [QCompares, hxy, hlt], by simp [QCompares, hxy, hlt.ne], by simp [QCompares, hxy, hlt.le]⟩
    · have hge : 0 ≤ x.k := by
        by_contra hc
        rw [e2.mpr (by simpa [Compares] using hc)] at hb
        cases hb
      refine Yields.bind (R.compareFixed .gt a.k x.k 0 h' ha.2.1) fun b h' ⟨e1, e2⟩ => ?_
      subst e1
      refine Yields.pureIte (fun hb => ?_) fun hb => ?_
      · have hlt : 0 < x.k := by simpa [Compares] using e2.mp hb
        exact .ret ⟨rfl, by simp [QCompares, hxy, hlt.le], by simp [QCompares, hxy, hlt.ne'], by simp [QCompares, hxy, hlt]⟩
      · have hle : x.k ≤ 0 := by
          by_contra hc
          rw [e2.mpr (by simpa [Compares] using hc)] at hb
          cases hb
        have h0 : x.k = 0 := le_antisymm hle hge
        exact .ret ⟨rfl, by simp [QCompares, hxy, h0], by simp [QCompares, hxy, h0], by simp [QCompares, hxy, h0]⟩
  · have hne : x.c ≠ y := fun k => hr0 (h2.mpr k)
    simp only [ne_eq, hr0, not_false_eq_true, if_true]
    exact .ret ⟨rfl, by simp [QCompares, h1, hne], by simp [QCompares, hr0, hne], by simp [QCompares, h3, hne]⟩

/-- The operators given by `compare`. -/
theorem qofCmp {r : Int} {x y : RatQ} (hr : QSignOf r x y) (o : Rel) : o.ofCmp r = true ↔ QCompares o x y := by
  obtain ⟨h1, h2, h3⟩ := hr
  simp only [QCompares] at h1 h2 h3
  have tri := lt_trichotomy x.c y.c
  have trk := lt_trichotomy x.k y.k
  cases o <;> simp only [Rel.ofCmp, QCompares, decide_eq_true_eq]
  · exact h1
  · have : r ≤ 0 ↔ r < 0 ∨ r = 0 := by omega
    rw [this, h1, h2]
    constructor
    · rintro ((k | k) | k)
      · exact .inl k
      · exact .inr ⟨k.1, k.2.le⟩
      · exact .inr ⟨k.1, k.2.le⟩
    · rintro (k | ⟨k1, k2⟩)
      · exact .inl (.inl k)
      · rcases k2.lt_or_eq with k3 | k3
        · exact .inl (.inr ⟨k1, k3⟩)
        · exact .inr ⟨k1, k3⟩
  · exact h3
  · have : r ≥ 0 ↔ r > 0 ∨ r = 0 := by omega
    rw [this, h3, h2]
    constructor
    · rintro ((k | k) | k)
      · exact .inl k
      · exact .inr ⟨k.1, k.2.le⟩
      · exact .inr ⟨k.1, k.2.ge⟩
    · rintro (k | ⟨k1, k2⟩)
      · exact .inl (.inl k)
      · rcases k2.lt_or_eq with k3 | k3
        · exact .inl (.inr ⟨k1, k3⟩)
        · exact .inr ⟨k1, k3.symm⟩
  · exact h2
  · exact not_congr h2

/-- All operators from `==` and `compare`. -/
theorem rel_yields {q : Rel → M Bool} {eq : M Bool} {cmp : M Int} {x y : RatQ} {h : Heap} {K : Heap → Prop} (o : Rel)
    (q1 : q .eq = eq) (q2 : q .ne = (do return !(← eq))) (q3 : ∀ o, o ≠ .eq → o ≠ .ne → q o = (do return o.ofCmp (← cmp)))
    (heq : Yields eq h fun r h' => K h' ∧ (r = true ↔ QCompares .eq x y)) (hcmp : Yields cmp h fun r h' => K h' ∧ QSignOf r x y) :
    Yields (q o) h fun r h' => K h' ∧ (r = true ↔ QCompares o x y) := by
  have hc : ∀ o, Yields (do return o.ofCmp (← cmp)) h fun r h' => K h' ∧ (r = true ↔ QCompares o x y) := fun o =>
    hcmp.bind fun r h' ⟨k1, k2⟩ => .ret ⟨k1, qofCmp k2 o⟩
  cases o with
  | eq => rw [q1]; exact heq
  | ne =>
    rw [q2]
    refine heq.bind fun r h' ⟨k1, k2⟩ => .ret ⟨k1, ?_⟩
    show (!r) = true ↔ ¬ _
    refine Iff.trans ?_ (not_congr k2)
    cases r <;> simp
  | lt => rw [q3 _ (by simp) (by simp)]; exact hc _
  | le => rw [q3 _ (by simp) (by simp)]; exact hc _
  | gt => rw [q3 _ (by simp) (by simp)]; exact hc _
  | ge => rw [q3 _ (by simp) (by simp)]; exact hc _

/-- Equality with a number without epsilon component. -/
theorem ExactRationals.equalTail (R : ExactRationals C e) {a : QObj} {x : RatQ} {y : Rat} {p : M Bool} {h : Heap} {K : Heap → Prop} (ha : QAt h a x)
    (hK : K h) (hp : Yields p h fun r h' => K h' ∧ (r = true ↔ Compares .eq x.c y)) :
    Yields (do if ← C.ratRelFixed .eq a.k 0 then p else return false) h fun r h' => K h' ∧ (r = true ↔ QCompares .eq x ⟨y, 0⟩) := by
  refine Yields.bind (R.compareFixed .eq a.k x.k 0 h ha.2.1) fun b h' ⟨e1, e2⟩ => ?_
  subst e1
  have hb' : b = true ↔ x.k = 0 := by rw [e2]; simp [Compares]
  refine Yields.pureIte (fun hb => hp.mono fun r h'' ⟨k1, k2⟩ => ⟨k1, ?_⟩) fun hb => .ret ⟨hK, ?_⟩
  · rw [k2]; simp [Compares, QCompares, hb'.mp hb]
  · have : ¬ x.k = 0 := fun k => by rw [hb'.mpr k] at hb; cases hb
    simp [QCompares, this]

theorem compare_qsign (R : ExactRationals C e) {a b : QObj} {x y : RatQ} {h : Heap} (ha : QAt h a x) (hb : QAt h b y) :
    Yields (Q.compare C a b) h fun r h' => h' = h ∧ QSignOf r x y := by
  refine (R.sign a.c b.c x.c y.c h ha.1 hb.1).bind fun r h' ⟨k1, h1, h2, h3⟩ => ?_
  subst k1
  by_cases hr : r = 0
  · have hxy := h2.mp hr
    simp only [hr, ne_eq, not_true_eq_false, if_false]
    refine (R.sign a.k b.k x.k y.k _ ha.2.1 hb.2.1).mono fun r h' ⟨k1, h1, h2, h3⟩ => ⟨k1, ?_, ?_, ?_⟩
    · rw [h1]; simp [QCompares, hxy]
    · rw [h2]; simp [QCompares, hxy]
    · rw [h3]; simp [QCompares, hxy]
  · have hne : x.c ≠ y.c := fun k => hr (h2.mpr k)
    simp only [ne_eq, hr, not_false_eq_true, if_true]
    exact .ret ⟨rfl, by simp [QCompares, h1, hne], by simp [QCompares, hr, hne], by simp [QCompares, h3, hne]⟩

/-! ### the theorem -/

/-- C70 on top of the requirements of C58. -/
theorem exact_rationalqs (R : ExactRationals C e) : ExactRationalQs C e where
  make c k x h hc hk hs := R.make hc hk hs
  copy a x h ha := by
    refine (R.copy a.c x.c h ha.1).bind fun c h1 ⟨a1, a2, a3⟩ => ?_
    refine (R.copy a.k x.k h1 (ha.2.1.keep a3 fun _ hl => hl.elim)).bind fun k h2 ⟨b1, b2, b3⟩ => .ret ?_
    exact ⟨⟨a1.keep b3 fun _ hl => hl.elim, b1, separate_new a1 b2⟩, ⟨a2, a3.1.trans b2⟩, a3.trans b3⟩
  move a x h ha := R.qmove ha
  assign t a w x h ht ha hta := by
    have same : (t.c = a.c ∨ t.c + 2 ≤ a.c ∨ a.c + 2 ≤ t.c) ∧ (t.k = a.k ∨ t.k + 2 ≤ a.k ∨ a.k + 2 ≤ t.k) := by
      rcases hta with rfl | hs
      · exact ⟨.inl rfl, .inl rfl⟩
      · exact ⟨hs.1.same, hs.2.2.2.same⟩
    refine pair_assign ht.2.2 ((R.assign t.c a.c x.c h ht.1.1 ha.1 same.1).mono fun _ h' ⟨k1, _, k3⟩ => ⟨k1, k3⟩) (fun h' k1 k2 => ?_)
      fun h' k1 k2 => .ret ⟨k1, rfl, k2⟩
    have hak : RatAt h' a.k x.k := ha.2.1.keep k2 fun l hl => by
      rcases hta with rfl | hs
      · exact ht.2.2.cells hl
      · exact hs.2.1.cells hl
    exact (R.assign t.k a.k x.k h' (lt_of_lt_of_le ht.2.1.1 k2.1) hak same.2).mono fun _ h' ⟨k1, _, k3⟩ => ⟨k1, k3⟩
  moveAssign t a w x h ht ha hta := by
    have same : (t.c = a.c ∨ t.c + 2 ≤ a.c ∨ a.c + 2 ≤ t.c) ∧ (t.k = a.k ∨ t.k + 2 ≤ a.k ∨ a.k + 2 ≤ t.k) := by
      rcases hta with rfl | hs
      · exact ⟨.inl rfl, .inl rfl⟩
      · exact ⟨hs.1.same, hs.2.2.2.same⟩
    refine (R.moveAssign t.c a.c x.c h ht.1.1 ha.1 same.1).bind fun _ h1 ⟨a1, _, a3⟩ => ?_
    have hak : RatAt h1 a.k x.k := ha.2.1.keep a3 fun l hl => by
      rcases hl with hl | hl
      · rcases hta with rfl | hs
        · exact ht.2.2.cells hl
        · exact hs.2.1.cells hl
      · exact ha.2.2.cells hl
    refine (R.moveAssign t.k a.k x.k h1 (lt_of_lt_of_le ht.2.1.1 a3.1) hak same.2).bind fun _ h2 ⟨b1, _, b3⟩ => .ret ⟨⟨a1.keep b3 fun l hl => ?_, b1, ht.2.2⟩, rfl, ?_⟩
    · rcases hl with hl | hl
      · exact ht.2.2.symm.cells hl
      · rcases hta with rfl | hs
        · exact ht.2.2.symm.cells hl
        · exact hs.2.1.symm.cells hl
    · exact (a3.mono fun l _ hl => hl.imp .inl .inl).trans (b3.mono fun l _ hl => hl.imp .inr .inr)
  swap a b x y h ha hb hab := by
    have same : (a.c = b.c ∨ a.c + 2 ≤ b.c ∨ b.c + 2 ≤ a.c) ∧ (a.k = b.k ∨ a.k + 2 ≤ b.k ∨ b.k + 2 ≤ a.k) := by
      rcases hab with rfl | hs
      · exact ⟨.inl rfl, .inl rfl⟩
      · exact ⟨hs.1.same, hs.2.2.2.same⟩
    have cross : Separate a.c b.k ∧ Separate a.k b.c := by
      rcases hab with rfl | hs
      · exact ⟨ha.2.2, ha.2.2.symm⟩
      · exact ⟨hs.2.1, hs.2.2.1⟩
    refine (R.swap a.c b.c x.c y.c h ha.1 hb.1 same.1).bind fun _ h1 ⟨a1, a2, a3⟩ => ?_
    have hak : RatAt h1 a.k x.k := ha.2.1.keep a3 fun l hl => hl.elim ha.2.2.cells cross.2.symm.cells
    have hbk : RatAt h1 b.k y.k := hb.2.1.keep a3 fun l hl => hl.elim cross.1.cells hb.2.2.cells
    refine (R.swap a.k b.k x.k y.k h1 hak hbk same.2).mono fun _ h2 ⟨b1, b2, b3⟩ => ?_
    refine ⟨⟨a1.keep b3 fun l hl => hl.elim ha.2.2.symm.cells cross.1.symm.cells, b1, ha.2.2⟩,
      ⟨a2.keep b3 fun l hl => hl.elim cross.2.cells hb.2.2.symm.cells, b2, hb.2.2⟩, ?_⟩
    exact (a3.mono fun l _ hl => hl.imp .inl .inl).trans (b3.mono fun l _ hl => hl.imp .inr .inr)
  isRational a x h ha := (R.compareFixed .eq a.k x.k 0 h ha.2.1).mono fun r h' ⟨k1, k2⟩ => ⟨k1, by rw [k2]; simp [Compares]⟩
  asRational a x h ha := by
    refine Yields.bind (R.compareFixed .eq a.k x.k 0 h ha.2.1) fun b h' ⟨e1, e2⟩ => ?_
    subst e1
    have hb' : b = true ↔ x.k = 0 := by rw [e2]; simp [Compares]
    cases b with
    | true => exact .ret ⟨rfl, fun _ => ⟨a.c, rfl, ha.1⟩, fun k => absurd (hb'.mp rfl) k⟩
    | false => exact .ret ⟨rfl, fun k => absurd (hb'.mpr k) (by decide), fun _ => rfl⟩
  shiftFixed m a x y h ha :=
    ⟨R.shift_ops (f := fun m => C.ratBinFixed .add m a.c y) (q := fun m => Q.shiftFixed C .add m a y) m ha rfl rfl rfl fun m' _ => (R.binFixed m' a.c x.c y h ha.1).1,
     R.shift_ops (f := fun m => C.ratBinFixed .sub m a.c y) (q := fun m => Q.shiftFixed C .sub m a y) m ha rfl rfl rfl fun m' _ => (R.binFixed m' a.c x.c y h ha.1).2.1⟩
  shiftInt m a b x y h ha hb hab := by
    have hm : ∀ m', (m' = Mode.const ↔ m = .const) → (m' = .const ∨ ¬ Cells a.c b) := fun m' k => hab.imp k.mpr fun k hc => k (.inl hc)
    exact ⟨R.shift_ops (f := fun m => C.ratBinInt .add m a.c b) (q := fun m => Q.shiftInt C .add m a b) m ha rfl rfl rfl fun m' k => (R.binInt m' a.c b x.c y h ha.1 hb (hm m' k)).1,
      R.shift_ops (f := fun m => C.ratBinInt .sub m a.c b) (q := fun m => Q.shiftInt C .sub m a b) m ha rfl rfl rfl fun m' k => (R.binInt m' a.c b x.c y h ha.1 hb (hm m' k)).2.1⟩
  shiftRat m a b x y h ha hb hab := by
    have hm : a.c = b ∨ a.c + 2 ≤ b ∨ b + 2 ≤ a.c := hab.imp Eq.symm fun k => k.1.symm
    exact ⟨R.shift_ops (f := fun m => C.ratBin .add m a.c b) (q := fun m => Q.shiftRat C .add m a b) m ha rfl rfl rfl fun m' k => (R.bin m' a.c b x.c y h ha.1 hb hm).1,
      R.shift_ops (f := fun m => C.ratBin .sub m a.c b) (q := fun m => Q.shiftRat C .sub m a b) m ha rfl rfl rfl fun m' k => (R.bin m' a.c b x.c y h ha.1 hb hm).2.1⟩
  shift m a b x y h ha hb hab := by
    have same : (a.c = b.c ∨ a.c + 2 ≤ b.c ∨ b.c + 2 ≤ a.c) ∧ (a.k = b.k ∨ a.k + 2 ≤ b.k ∨ b.k + 2 ≤ a.k) := by
      rcases hab with rfl | hs
      · exact ⟨.inl rfl, .inl rfl⟩
      · exact ⟨hs.1.same, hs.2.2.2.same⟩
    have cross : Separate a.c b.k := by
      rcases hab with rfl | hs
      · exact ha.2.2
      · exact hs.2.1
    have hg1 : ∀ h', (Unchanged h h' fun _ => False) → RatAt h' a.k x.k ∧ RatAt h' b.k y.k := fun h' hu =>
      ⟨ha.2.1.keep hu fun _ hl => hl.elim, hb.2.1.keep hu fun _ hl => hl.elim⟩
    have hg2 : ∀ h', Unchanged h h' (Cells a.c) → RatAt h' b.k y.k := fun h' hu => hb.2.1.keep hu fun l hl => cross.cells hl
    exact ⟨R.both_ops (f := fun m => C.ratBin .add m a.c b.c) (g := fun m => C.ratBin .add m a.k b.k) (q := fun m => Q.shift C .add m a b) (z := ⟨_, _⟩) m ha rfl rfl rfl
        (fun m' _ => (R.bin m' a.c b.c x.c y.c h ha.1 hb.1 same.1).1) (fun _ h' hu => (R.bin .const a.k b.k x.k y.k h' (hg1 h' hu).1 (hg1 h' hu).2 same.2).1)
        (fun _ h' _ hu hk => (R.bin .assign a.k b.k x.k y.k h' hk (hg2 h' hu) same.2).1),
      R.both_ops (f := fun m => C.ratBin .sub m a.c b.c) (g := fun m => C.ratBin .sub m a.k b.k) (q := fun m => Q.shift C .sub m a b) (z := ⟨_, _⟩) m ha rfl rfl rfl
        (fun m' _ => (R.bin m' a.c b.c x.c y.c h ha.1 hb.1 same.1).2.1) (fun _ h' hu => (R.bin .const a.k b.k x.k y.k h' (hg1 h' hu).1 (hg1 h' hu).2 same.2).2.1)
        (fun _ h' _ hu hk => (R.bin .assign a.k b.k x.k y.k h' hk (hg2 h' hu) same.2).2.1)⟩
  minus temp a x h ha := by
    have hcopy : Yields (Q.byValue C temp a) h fun r h' => QAt h' r x ∧ QNew h r ∧ Unchanged h h' fun l => temp = true ∧ QCells a l := by
      cases temp with
      | true => simpa [Q.byValue] using R.qmove ha
      | false =>
        rw [show Q.byValue C false a = Q.copy C a from rfl]
        refine (R.copy a.c x.c h ha.1).bind fun c h1 ⟨a1, a2, a3⟩ => ?_
        refine (R.copy a.k x.k h1 (ha.2.1.keep a3 fun _ hl => hl.elim)).bind fun k h2 ⟨b1, b2, b3⟩ => .ret ?_
        exact ⟨⟨a1.keep b3 fun _ hl => hl.elim, b1, separate_new a1 b2⟩, ⟨a2, a3.1.trans b2⟩, (a3.trans b3).mono fun l _ hl => hl.elim⟩
    refine hcopy.bind fun p h1 ⟨a1, a2, a3⟩ => ?_
    refine pair_assign (z := ⟨-x.c, -x.k⟩) a1.2.2 ((R.neg p.c x.c h1 a1.1).mono fun _ h' ⟨k1, _, k3⟩ => ⟨k1, k3⟩)
      (fun h' k1 k2 => (R.neg p.k x.k h' (a1.2.1.keep k2 fun l hl => a1.2.2.cells hl)).mono fun _ h' ⟨k1, _, k3⟩ => ⟨k1, k3⟩) fun h2 b1 b2 => ?_
    have hnew : ∀ l < h.next, ¬ QCells p l := fun l hl hc => by
      obtain ⟨n1, n2⟩ := a2
      unfold QCells Cells at hc; omega
    refine (R.qmove b1).mono fun r h3 ⟨k1, k2, k3⟩ => ⟨k1, ⟨(a3.1.trans b2.1).trans k2.1, (a3.1.trans b2.1).trans k2.2⟩, ?_⟩
    exact (a3.fresh b2 fun l hl hc => absurd hc (hnew l hl)).fresh k3 fun l hl hc => absurd hc (hnew l hl)
  scaleFixed m a x y h ha := by
    have hk : ∀ h', (Unchanged h h' fun _ => False) → RatAt h' a.k x.k := fun h' hu => ha.2.1.keep hu fun _ hl => hl.elim
    exact ⟨R.both_ops (f := fun m => C.ratBinFixed .mul m a.c y) (g := fun m => C.ratBinFixed .mul m a.k y) (q := fun m => Q.scaleFixed C .mul m a y) (z := ⟨_, _⟩) m ha rfl rfl rfl
        (fun m' _ => (R.binFixed m' a.c x.c y h ha.1).2.2.1) (fun _ h' hu => (R.binFixed .const a.k x.k y h' (hk h' hu)).2.2.1)
        (fun _ h' _ _ hk => (R.binFixed .assign a.k x.k y h' hk).2.2.1),
      fun hy => R.both_ops (f := fun m => C.ratBinFixed .div m a.c y) (g := fun m => C.ratBinFixed .div m a.k y) (q := fun m => Q.scaleFixed C .div m a y) (z := ⟨_, _⟩) m ha rfl rfl rfl
        (fun m' _ => (R.binFixed m' a.c x.c y h ha.1).2.2.2.1 hy) (fun _ h' hu => (R.binFixed .const a.k x.k y h' (hk h' hu)).2.2.2.1 hy)
        (fun _ h' _ _ hk => (R.binFixed .assign a.k x.k y h' hk).2.2.2.1 hy),
      fun hy => fail_both (f := fun m => C.ratBinFixed .div m a.c y) (g := fun m => C.ratBinFixed .div m a.k y) (q := fun m => Q.scaleFixed C .div m a y) m rfl rfl rfl
        fun m' _ => (R.binFixed m' a.c x.c y h ha.1).2.2.2.2 hy⟩
  scaleInt m a b x y h ha hb hab := by
    have hm1 : ∀ m', (m' = Mode.const ↔ m = .const) → (m' = .const ∨ ¬ Cells a.c b) := fun m' k => hab.imp k.mpr fun k hc => k (.inl hc)
    have hk : ∀ h', (Unchanged h h' fun _ => False) → RatAt h' a.k x.k ∧ IntAt h' b y := fun h' hu => ⟨ha.2.1.keep hu fun _ hl => hl.elim, hb.keep hu id⟩
    have hb2 : m ≠ .const → ∀ h', Unchanged h h' (Cells a.c) → IntAt h' b y := fun k h' hu => hb.keep hu fun hc => hab.resolve_left k (.inl hc)
    have hm2 : m ≠ .const → (Mode.assign = .const ∨ ¬ Cells a.k b) := fun k => .inr fun hc => hab.resolve_left k (.inr hc)
    exact ⟨R.both_ops (f := fun m => C.ratBinInt .mul m a.c b) (g := fun m => C.ratBinInt .mul m a.k b) (q := fun m => Q.scaleInt C .mul m a b) (z := ⟨_, _⟩) m ha rfl rfl rfl
        (fun m' k => (R.binInt m' a.c b x.c y h ha.1 hb (hm1 m' k)).2.2.1) (fun _ h' hu => (R.binInt .const a.k b x.k y h' (hk h' hu).1 (hk h' hu).2 (.inl rfl)).2.2.1)
        (fun n h' _ hu hk => (R.binInt .assign a.k b x.k y h' hk (hb2 n h' hu) (hm2 n)).2.2.1),
      fun hy => R.both_ops (f := fun m => C.ratBinInt .div m a.c b) (g := fun m => C.ratBinInt .div m a.k b) (q := fun m => Q.scaleInt C .div m a b) (z := ⟨_, _⟩) m ha rfl rfl rfl
        (fun m' k => (R.binInt m' a.c b x.c y h ha.1 hb (hm1 m' k)).2.2.2.1 hy) (fun _ h' hu => (R.binInt .const a.k b x.k y h' (hk h' hu).1 (hk h' hu).2 (.inl rfl)).2.2.2.1 hy)
        (fun n h' _ hu hk => (R.binInt .assign a.k b x.k y h' hk (hb2 n h' hu) (hm2 n)).2.2.2.1 hy),
      fun hy => fail_both (f := fun m => C.ratBinInt .div m a.c b) (g := fun m => C.ratBinInt .div m a.k b) (q := fun m => Q.scaleInt C .div m a b) m rfl rfl rfl
        fun m' k => (R.binInt m' a.c b x.c y h ha.1 hb (hm1 m' k)).2.2.2.2 hy⟩
  scaleRat m a b x y h ha hb hab := by
    have hm1 : a.c = b ∨ a.c + 2 ≤ b ∨ b + 2 ≤ a.c := hab.imp (fun k => k.1.symm) fun k => k.1.symm
    have hm2 : a.k = b ∨ a.k + 2 ≤ b ∨ b + 2 ≤ a.k := by
      rcases hab with ⟨rfl, -⟩ | k
      · exact ha.2.2.symm.same
      · exact k.2.symm.same
    have hk : ∀ h', (Unchanged h h' fun _ => False) → RatAt h' a.k x.k ∧ RatAt h' b y := fun h' hu =>
      ⟨ha.2.1.keep hu fun _ hl => hl.elim, hb.keep hu fun _ hl => hl.elim⟩
    have hxy : b = a.c → y = x.c := fun k => by
      obtain ⟨_, k1, k2⟩ := hb
      obtain ⟨_, k3, k4⟩ := ha.1
      subst k
      exact Rat.ext (k1.symm.trans k3) (by exact_mod_cast k2.symm.trans k4)
    -- the second operand after the first assignment
    have hb2 : ∀ {z : Rat} h', RatAt h' a.c z → Unchanged h h' (Cells a.c) → ∃ w, RatAt h' b w ∧ (w = y ∨ w = z ∧ x.k = 0 ∧ y = x.c) := fun h' hz hu => by
      rcases hab with ⟨rfl, k⟩ | k
      · exact ⟨_, hz, .inr ⟨rfl, k, hxy rfl⟩⟩
      · exact ⟨y, hb.keep hu fun l hl => k.1.symm.cells hl, .inl rfl⟩
    refine ⟨R.both_ops (f := fun m => C.ratBin .mul m a.c b) (g := fun m => C.ratBin .mul m a.k b) (q := fun m => Q.scaleRat C .mul m a b) (z := ⟨_, _⟩) m ha rfl rfl rfl
        (fun m' k => (R.bin m' a.c b x.c y h ha.1 hb hm1).2.2.1) (fun _ h' hu => (R.bin .const a.k b x.k y h' (hk h' hu).1 (hk h' hu).2 hm2).2.2.1)
        (fun n h' hz hu hk2 => ?_),
      fun hy => R.both_ops (f := fun m => C.ratBin .div m a.c b) (g := fun m => C.ratBin .div m a.k b) (q := fun m => Q.scaleRat C .div m a b) (z := ⟨_, _⟩) m ha rfl rfl rfl
        (fun m' k => (R.bin m' a.c b x.c y h ha.1 hb hm1).2.2.2.1 hy) (fun _ h' hu => (R.bin .const a.k b x.k y h' (hk h' hu).1 (hk h' hu).2 hm2).2.2.2.1 hy)
        (fun n h' hz hu hk2 => ?_),
      fun hy => fail_both (f := fun m => C.ratBin .div m a.c b) (g := fun m => C.ratBin .div m a.k b) (q := fun m => Q.scaleRat C .div m a b) m rfl rfl rfl
        fun m' k => (R.bin m' a.c b x.c y h ha.1 hb hm1).2.2.2.2 hy⟩
    · obtain ⟨w, hw, hw'⟩ := hb2 h' hz hu
      have key := (R.bin .assign a.k b x.k w h' hk2 hw hm2).2.2.1
      rcases hw' with rfl | ⟨-, h0, -⟩
      · exact key
      · simpa [h0] using key
    · obtain ⟨w, hw, hw'⟩ := hb2 h' hz hu
      rcases hw' with rfl | ⟨hwz, h0, hyx⟩
      · exact (R.bin .assign a.k b x.k w h' hk2 hw hm2).2.2.2.1 hy
      · have hw0 : w ≠ 0 := by
          rw [hwz]
          simp only [ne_eq]
          rw [← hyx, div_self hy]
          exact one_ne_zero
        simpa [h0] using (R.bin .assign a.k b x.k w h' hk2 hw hm2).2.2.2.1 hw0
  relFixed o a x y h ha :=
    rel_yields (q := fun o => Q.relFixed C o a y) (eq := Q.equalFixed C a y) (cmp := Q.compareFixed C a y) (K := (· = h)) o rfl rfl
      (fun o h1 h2 => by cases o <;> first | rfl | exact absurd rfl h1 | exact absurd rfl h2)
      (R.equalTail ha rfl (R.compareFixed .eq a.c x.c y h ha.1))
      ((R.signFixed a.c x.c y h ha.1).bind fun r h' ⟨k1, k2⟩ => by subst k1; exact R.compareTail ha k2)
  relInt o a b x y h ha hb :=
    rel_yields (q := fun o => Q.relInt C o a b) (eq := Q.equalInt C a b) (cmp := Q.compareInt C a b) (K := fun h' => Unchanged h h' fun _ => False) o rfl rfl
      (fun o h1 h2 => by cases o <;> first | rfl | exact absurd rfl h1 | exact absurd rfl h2)
      (R.equalTail ha (Unchanged.refl _ _) (R.compareInt .eq a.c b x.c y h ha.1 hb))
      ((R.signInt a.c b x.c y h ha.1 hb).bind fun r h' ⟨k1, k2⟩ =>
        (R.compareTail ⟨ha.1.keep k1 fun _ hl => hl.elim, ha.2.1.keep k1 fun _ hl => hl.elim, ha.2.2⟩ k2).mono fun r h'' ⟨k3, k4⟩ => ⟨k3 ▸ k1, k4⟩)
  relRat o a b x y h ha hb :=
    rel_yields (q := fun o => Q.relRat C o a b) (eq := Q.equalRat C a b) (cmp := Q.compareRat C a b) (K := (· = h)) o rfl rfl
      (fun o h1 h2 => by cases o <;> first | rfl | exact absurd rfl h1 | exact absurd rfl h2)
      (R.equalTail ha rfl (R.compare .eq a.c b x.c y h ha.1 hb))
      ((R.sign a.c b x.c y h ha.1 hb).bind fun r h' ⟨k1, k2⟩ => by subst k1; exact R.compareTail ha k2)
  rel o a b x y h ha hb :=
    rel_yields (q := fun o => Q.rel C o a b) (eq := Q.equal C a b) (cmp := Q.compare C a b) (K := (· = h)) o rfl rfl
      (fun o h1 h2 => by cases o <;> first | rfl | exact absurd rfl h1 | exact absurd rfl h2)
      ((R.compare .eq a.c b.c x.c y.c h ha.1 hb.1).bind fun r h' ⟨k1, k2⟩ => by
        subst k1
        refine Yields.pureIte (fun hr => (R.compare .eq a.k b.k x.k y.k _ ha.2.1 hb.2.1).mono fun r' h' ⟨k3, k4⟩ => ⟨k3, ?_⟩) fun hr => .ret ⟨rfl, ?_⟩
        · have := k2.mp hr
          rw [k4]; simp only [Compares] at *; simp [QCompares, this]
        · have : ¬ x.c = y.c := fun k => by rw [k2.mpr k] at hr; cases hr
          simp [QCompares, this])
      (compare_qsign R ha hb)
  compareFixed a x y h ha := (R.signFixed a.c x.c y h ha.1).bind fun r h' ⟨k1, k2⟩ => by subst k1; exact R.compareTail ha k2
  compareInt a b x y h ha hb := (R.signInt a.c b x.c y h ha.1 hb).bind fun r h' ⟨k1, k2⟩ =>
    (R.compareTail ⟨ha.1.keep k1 fun _ hl => hl.elim, ha.2.1.keep k1 fun _ hl => hl.elim, ha.2.2⟩ k2).mono fun r h'' ⟨k3, k4⟩ => ⟨k3 ▸ k1, k4⟩
  compareRat a b x y h ha hb := (R.sign a.c b x.c y h ha.1 hb).bind fun r h' ⟨k1, k2⟩ => by subst k1; exact R.compareTail ha k2
  compare a b x y h ha hb := compare_qsign R ha hb

/-- C70: with IMath. -/
theorem C70_imath : ExactRationalQs imath .domain := exact_rationalqs C58_imath_rationals
/-- C70: with FLINT, whatever the memory allocator does. -/
theorem C70_flint (place : Heap → Loc → Int) : ExactRationalQs (flint place) .abort := exact_rationalqs (C58_flint_rationals place)

/-! ### the hypotheses can be met -/

/-- A memory with the rationals 1/2, -7/3, 5/1 and 0/1. -/
def someQHeap : Heap := { cell := fun l => if l = 0 then 1 else if l = 1 then 2 else if l = 2 then -7 else if l = 3 then 3 else if l = 4 then 5 else if l = 6 then 0 else 1, next := 8 }

theorem someQHeap_a : QAt someQHeap ⟨0, 2⟩ ⟨1 / 2, -7 / 3⟩ := ⟨⟨by decide, by decide +kernel, by decide +kernel⟩, ⟨by decide, by decide +kernel, by decide +kernel⟩, .inl (by decide)⟩
theorem someQHeap_b : QAt someQHeap ⟨4, 6⟩ ⟨5, 0⟩ := ⟨⟨by decide, by decide +kernel, by decide +kernel⟩, ⟨by decide, by decide +kernel, by decide +kernel⟩, .inl (by decide)⟩

/-- Both operands are the same object, for both libraries: `a += a`. -/
example (place : Heap → Loc → Int) :
    (Yields (Q.shift imath .add .assign ⟨0, 2⟩ ⟨0, 2⟩) someQHeap fun r h' => QAt h' r ⟨1, -14 / 3⟩) ∧
    (Yields (Q.shift (flint place) .add .assign ⟨0, 2⟩ ⟨0, 2⟩) someQHeap fun r h' => QAt h' r ⟨1, -14 / 3⟩) := by
  have e1 : (1 / 2 + 1 / 2 : Rat) = 1 := by norm_num
  have e2 : (-7 / 3 + -7 / 3 : Rat) = -14 / 3 := by norm_num
  have k1 := (C70_imath.shift .assign ⟨0, 2⟩ ⟨0, 2⟩ _ _ someQHeap someQHeap_a someQHeap_a (.inl rfl)).1
  have k2 := ((C70_flint place).shift .assign ⟨0, 2⟩ ⟨0, 2⟩ _ _ someQHeap someQHeap_a someQHeap_a (.inl rfl)).1
  simp only [e1, e2] at k1 k2
  exact ⟨k1.mono fun _ _ k => k.1, k2.mono fun _ _ k => k.1⟩

/-- `b /= b.as_rational()` and `a < b`. -/
example : (Yields (Q.scaleRat imath .div .assign ⟨4, 6⟩ 4) someQHeap fun r h' => QAt h' r ⟨1, 0⟩) ∧
    (Yields (Q.rel imath .lt ⟨0, 2⟩ ⟨4, 6⟩) someQHeap fun r _ => r = true) := by
  have k1 := (C70_imath.scaleRat .assign ⟨4, 6⟩ 4 _ _ someQHeap someQHeap_b someQHeap_b.1 (.inl ⟨rfl, rfl⟩)).2.1 (by norm_num)
  have e1 : (5 / 5 : Rat) = 1 := by norm_num
  have e2 : (0 / 5 : Rat) = 0 := by norm_num
  simp only [e1, e2] at k1
  exact ⟨k1.mono fun _ _ k => k.1, (C70_imath.rel .lt ⟨0, 2⟩ ⟨4, 6⟩ _ _ someQHeap someQHeap_a someQHeap_b).mono fun r h' k => k.2.mpr (.inl (by norm_num))⟩

end Lpx.Props
