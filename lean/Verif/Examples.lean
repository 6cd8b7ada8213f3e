import Verif.Witness

/-! # Programs used in examples and refutations -/

set_option linter.unusedSectionVars false

namespace Lpx.Props
open Lpx Lpx.Witness

/-! ### programs -/

/-- `&sum { x } rel k` with solver literal `lit`. -/
def sumAtom (x : String) (rel : String) (k : ℤ) (lit : ℤ) : TAtom where
  term := .symbol "sum".toList
  elements := [⟨[.symbol x.toList], [], 0⟩]
  guard := some (rel, .number k)
  literal := lit

/-- `&minimize { x }`. -/
def minAtom (x : String) : TAtom where
  term := .symbol "minimize".toList
  elements := [⟨[.symbol x.toList], [], 0⟩]
  guard := none
  literal := 9

/-- `&sum { } rel k` with solver literal `lit`. -/
def constAtom (rel : String) (k : ℤ) (lit : ℤ) : TAtom where
  term := .symbol "sum".toList
  elements := []
  guard := some (rel, .number k)
  literal := lit

/-- `&sum { x; y } rel k` with solver literal `lit`. -/
def sum2Atom (x y : String) (rel : String) (k : ℤ) (lit : ℤ) : TAtom where
  term := .symbol "sum".toList
  elements := [⟨[.symbol x.toList], [], 0⟩, ⟨[.symbol y.toList], [], 0⟩]
  guard := some (rel, .number k)
  literal := lit

/-- The variable `x`. -/
def symX : Symbol := .fn ['x'] [] true
/-- The variable `y`. -/
def symY : Symbol := .fn ['y'] [] true

instance decHolds {r : Relation} {a b : ℚ} : Decidable (r.holds a b) := by unfold Relation.holds; cases r <;> infer_instance
instance decIneq {g : Symbol → ℚ} {x : Ineq Symbol} : Decidable (x.holds g) := by unfold Ineq.holds; infer_instance

/-- Find the thread, and test something about its history. -/
def atThr {V : Type} (g : Ghost V) (th : ℕ) (f : GThr → Bool) : Bool := (g.thrs[th]?).any f

theorem atThr_spec {V : Type} {g : Ghost V} {th : ℕ} {f : GThr → Bool} (h : atThr g th f = true) : ∃ gt, g.thrs[th]? = some gt ∧ f gt = true := by
  unfold atThr at h
  cases hg : g.thrs[th]? with
  | none => rw [hg] at h; cases h
  | some gt => rw [hg] at h; exact ⟨gt, rfl, h⟩

/-- No strict relation. -/
def noStrict (p : Prog) : Bool := p.iqs.all fun x => decide (x.rel ≠ .lt ∧ x.rel ≠ .gt)

theorem noStrict_spec {V : Type} [LpFull V] {p : Prog} (h : noStrict p = true) : ∀ x ∈ p.iqs, Supports V x.rel := by
  intro x hx hr
  unfold noStrict at h
  rw [List.all_eq_true] at h
  have := of_decide_eq_true (h x hx)
  rcases hr with hr | hr
  · exact absurd hr this.1
  · exact absurd hr this.2

/-- Without a global objective there is no step to convert. -/
theorem stepOK_none {V : Type} [LpFull V] {opts : Options} (h : opts.globalObjective = none) : StepOK V opts := by
  intro q hq; rw [h] at hq; cases hq

/-- `x >= 1`, `x + y <= 5`, `y >= 2`, `x >= 4`, with literals 1, 2, 3, 4: the first three are consistent, all four are not. -/
def prog4 : List TAtom := [sumAtom "x" ">=" 1 1, sum2Atom "x" "y" "<=" 5 2, sumAtom "y" ">=" 2 3, sumAtom "x" ">=" 4 4]

/-- The same with strict relations. -/
def prog4s : List TAtom := [sumAtom "x" ">" 1 1, sum2Atom "x" "y" "<" 5 2, sumAtom "y" ">" 2 3, sumAtom "x" ">=" 3 4]

/-- `x >= 1`, `x = 5`, `x <= 0`, `y >= 0`. -/
def prog1 : List TAtom := [sumAtom "x" ">=" 1 1, sumAtom "x" "=" 5 2, sumAtom "x" "<=" 0 3, sumAtom "y" ">=" 0 4]

/-- `k * x`. -/
def mulT (k : ℤ) (x : String) : TTerm := .func "*".toList [.number k, .symbol x.toList]

/-- `&name { k1*x1; ...; kn*xn } guard` with solver literal `lit`. -/
def linAtom (name : String) (ks : List (ℤ × String)) (guard : Option (String × TTerm)) (lit : ℤ) : TAtom where
  term := .symbol name.toList
  elements := ks.map fun k => ⟨[mulT k.1 k.2], [], 0⟩
  guard := guard
  literal := lit

/-- `&maximize { x }`. -/
def maxAtom (x : String) : TAtom where
  term := .symbol "maximize".toList
  elements := [⟨[.symbol x.toList], [], 0⟩]
  guard := none
  literal := 9

end Lpx.Props
