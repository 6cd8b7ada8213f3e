import Verif.PropsApp

/-!
# C60: printed models can be read back

The text printed for a model determines the shown atoms, the values of the variables and the objective.
-/

set_option linter.unusedSectionVars false

namespace Lpx.Props
open Lpx Lpx.Witness

/-! ### specification -/

/-- Characters of names: not one of those with a meaning in printed symbols and models. -/
def NameChar (c : Char) : Prop := c ∉ ['(', ')', ',', '=', '"', ' ', '\n', '-']
instance (c : Char) : Decidable (NameChar c) := by unfold NameChar; infer_instance

/-- Names as in clingo: not empty, no special characters, not starting with a digit. -/
def GoodName (name : List Char) : Prop := (∃ c cs, name = c :: cs ∧ ¬ c.isDigit) ∧ ∀ c ∈ name, NameChar c

mutual
/-- Symbols that clingo can create: functions have names and tuples are not negated. -/
def GoodSym : Symbol → Prop
  | .num _ => True
  | .str _ => True
  | .fn name args pos => (GoodName name ∨ name = [] ∧ pos = true) ∧ GoodSyms args
/-- All arguments. -/
def GoodSyms : List Symbol → Prop
  | [] => True
  | a :: as => GoodSym a ∧ GoodSyms as
end

/-- A value type whose printed values contain no white space and determine the value. -/
class Readable (V : Type) [LpPrint V] : Prop where
  inj : ∀ a b : V, LpPrint.print a = LpPrint.print b → a = b
  plain : ∀ (a : V) (c : Char), c ∈ LpPrint.print a → c ≠ ' ' ∧ c ≠ '\n'

/-! ### values -/

theorem digitChar_digit {d : ℕ} (h : d < 10) : (Nat.digitChar d).isDigit = true := by
  interval_cases d <;> decide

theorem showNat_digit {n : ℕ} {c : Char} (h : c ∈ showNat n) : c.isDigit = true := by
  unfold showNat at h
  split at h
  · simp at h; subst h; decide
  · simp only [List.mem_reverse, List.mem_map] at h
    obtain ⟨d, hd, rfl⟩ := h
    exact digitChar_digit (Nat.digits_lt_base (by omega) hd)

theorem digit_plain {c : Char} (h : c.isDigit = true) : c ≠ ' ' ∧ c ≠ '\n' := by
  refine ⟨?_, ?_⟩ <;> rintro rfl <;> revert h <;> decide

theorem showInt_plain {n : ℤ} {c : Char} (h : c ∈ showInt n) : c ≠ ' ' ∧ c ≠ '\n' := by
  unfold showInt at h
  split at h
  · rcases List.mem_cons.1 h with rfl | h
    · decide
    · exact digit_plain (showNat_digit h)
  · exact digit_plain (showNat_digit h)

theorem showRat_plain {q : ℚ} {c : Char} (h : c ∈ showRat q) : c ≠ ' ' ∧ c ≠ '\n' := by
  unfold showRat at h
  split at h
  · exact showInt_plain h
  · rcases List.mem_append.1 h with h | h
    · exact showInt_plain h
    · rcases List.mem_cons.1 h with rfl | h
      · decide
      · exact digit_plain (showNat_digit h)

instance : Readable ℚ := ⟨C41_print_rational, fun _ _ h => showRat_plain h⟩

instance : Readable RatQ where
  inj := C41_print_epsilon
  plain a c h := by
    have hk : ∀ k, c ∈ RatQ.printK k ++ ['e'] → c ≠ ' ' ∧ c ≠ '\n' := by
      intro k h
      rcases List.mem_append.1 h with h | h
      · unfold RatQ.printK at h
        split at h
        · rcases List.mem_append.1 h with h | h
          · exact showRat_plain h
          · simp at h; subst h; decide
        · simp at h
      · simp at h; subst h; decide
    replace h : c ∈ a.print := h
    rcases print_cases a with ⟨-, e⟩ | ⟨-, -, e⟩ | ⟨-, -, e⟩ <;> rw [e] at h
    · exact showRat_plain h
    · exact hk _ h
    · rcases List.mem_append.1 h with h | h
      · exact showRat_plain h
      · rcases List.mem_cons.1 h with rfl | h
        · decide
        · exact hk _ h

/-! ### symbols -/

/-- A longest prefix of characters of one kind is unique. -/
theorem span_unique {D : Char → Prop} : ∀ {a a' r r' : List Char}, (∀ c ∈ a, D c) → (∀ c ∈ a', D c) →
    (∀ c, r.head? = some c → ¬ D c) → (∀ c, r'.head? = some c → ¬ D c) → a ++ r = a' ++ r' → a = a' ∧ r = r' := by
  intro a
  induction a with
  | nil =>
    intro a' r r' _ ha' hr hr' h
    cases a' with
    | nil => exact ⟨rfl, h⟩
    | cons c cs => exact absurd (ha' c (by simp)) (hr c (by rw [show r = c :: (cs ++ r') from h]; rfl))
  | cons c cs ih =>
    intro a' r r' ha ha' hr hr' h
    cases a' with
    | nil => exact absurd (ha c (by simp)) (hr' c (by rw [show r' = c :: (cs ++ r) from h.symm]; rfl))
    | cons d ds =>
      have h' : c :: (cs ++ r) = d :: (ds ++ r') := h
      injection h' with h1 h2
      obtain ⟨e1, e2⟩ := ih (fun x hx => ha x (by simp [hx])) (fun x hx => ha' x (by simp [hx])) hr hr' h2
      exact ⟨by rw [h1, e1], e2⟩

/-- The text for one character of a string. -/
def esc (c : Char) : List Char := if c = '\n' then ['\\', 'n'] else if c = '\\' then ['\\', '\\'] else if c = '"' then ['\\', '"'] else [c]

theorem esc_cases (c : Char) : (c = '\n' ∧ esc c = ['\\', 'n']) ∨ (c = '\\' ∧ esc c = ['\\', '\\']) ∨ (c = '"' ∧ esc c = ['\\', '"']) ∨
    (c ≠ '\\' ∧ c ≠ '"' ∧ esc c = [c]) := by
  unfold esc
  by_cases h1 : c = '\n'
  · exact .inl ⟨h1, if_pos h1⟩
  by_cases h2 : c = '\\'
  · exact .inr (.inl ⟨h2, by rw [if_neg h1, if_pos h2]⟩)
  by_cases h3 : c = '"'
  · exact .inr (.inr (.inl ⟨h3, by rw [if_neg h1, if_neg h2, if_pos h3]⟩))
  · exact .inr (.inr (.inr ⟨h2, h3, by rw [if_neg h1, if_neg h2, if_neg h3]⟩))

theorem esc_quote {c : Char} {x y : List Char} : esc c ++ x ≠ '"' :: y := by
  intro h
  rcases esc_cases c with ⟨-, e⟩ | ⟨-, e⟩ | ⟨-, e⟩ | ⟨-, h2, e⟩ <;> rw [e] at h <;>
    simp only [List.cons_append, List.nil_append, List.cons.injEq] at h
  · exact absurd h.1 (by decide)
  · exact absurd h.1 (by decide)
  · exact absurd h.1 (by decide)
  · exact h2 h.1

theorem esc_unique {c d : Char} {x y : List Char} (h : esc c ++ x = esc d ++ y) : c = d ∧ x = y := by
  rcases esc_cases c with ⟨rfl, e⟩ | ⟨rfl, e⟩ | ⟨rfl, e⟩ | ⟨h1, h2, e⟩ <;> rcases esc_cases d with ⟨rfl, e'⟩ | ⟨rfl, e'⟩ | ⟨rfl, e'⟩ | ⟨k1, k2, e'⟩ <;>
    simp only [e, e', List.cons_append, List.nil_append, List.cons.injEq] at h <;> clear e e'
  all_goals first
    | exact ⟨rfl, h.2.2⟩
    | exact ⟨h.1, h.2⟩
    | exact absurd h.2.1 (by decide)
    | exact absurd h.1.symm ‹_›
    | exact absurd h.1 ‹_›

theorem escape_unique : ∀ {s s' r r' : List Char}, escape s ++ '"' :: r = escape s' ++ '"' :: r' → s = s' ∧ r = r' := by
  have hc : ∀ c cs x, escape (c :: cs) ++ x = esc c ++ (escape cs ++ x) := fun c cs x => by rw [escape, List.append_assoc]; rfl
  intro s
  induction s with
  | nil =>
    intro s' r r' h
    cases s' with
    | nil => exact ⟨rfl, by simpa [escape] using h⟩
    | cons c cs => rw [hc] at h; exact absurd h.symm esc_quote
  | cons c cs ih =>
    intro s' r r' h
    cases s' with
    | nil => rw [hc] at h; exact absurd h esc_quote
    | cons d ds =>
      rw [hc, hc] at h
      obtain ⟨e1, e2⟩ := esc_unique h
      obtain ⟨e3, e4⟩ := ih e2
      exact ⟨by rw [e1, e3], e4⟩

/-- What may follow a symbol. -/
def Delim (r : List Char) : Prop := ∀ c, r.head? = some c → c ∈ [')', ',', '=', ' ', '\n']

theorem Delim.notName {r : List Char} (h : Delim r) : ∀ c, r.head? = some c → ¬ NameChar c := by
  intro c hc
  have := h c hc
  simp only [List.mem_cons, List.not_mem_nil, or_false] at this
  rcases this with rfl | rfl | rfl | rfl | rfl <;> decide

theorem Delim.notDigit {r : List Char} (h : Delim r) : ∀ c, r.head? = some c → ¬ c.isDigit = true := by
  intro c hc
  have := h c hc
  simp only [List.mem_cons, List.not_mem_nil, or_false] at this
  rcases this with rfl | rfl | rfl | rfl | rfl <;> decide

/-- The printed arguments, with parentheses. -/
def showArgs (tuple : Bool) : List Symbol → List Char
  | [] => if tuple then ['(', ')'] else []
  | [a] => '(' :: showSym a ++ (if tuple then [',', ')'] else [')'])
  | a :: as => '(' :: showSym a ++ showSyms as ++ [')']

theorem showSym_fn (name : List Char) (args : List Symbol) (pos : Bool) :
    showSym (.fn name args pos) = (if pos then [] else ['-']) ++ name ++ showArgs name.isEmpty args := by
  rw [showSym.eq_def]
  match args with
  | [] => rfl
  | [a] => rfl
  | a :: b :: as => rfl

/-- The first characters of a printed symbol. -/
theorem showSym_head (s : Symbol) (h : GoodSym s) : ∃ c cs, showSym s = c :: cs ∧ c ∉ [')', ',', '=', ' ', '\n'] := by
  cases s with
  | num n =>
    rw [showSym.eq_def]
    unfold showInt
    cases hn : showNat n.natAbs with
    | nil => exact absurd hn (showNat_ne_nil _)
    | cons d ds =>
      dsimp only
      rw [hn]
      split
      · exact ⟨_, _, rfl, by decide⟩
      · refine ⟨_, _, rfl, fun hm => ?_⟩
        have hd := showNat_digit (n := n.natAbs) (c := d) (by rw [hn]; simp)
        simp only [List.mem_cons, List.not_mem_nil, or_false] at hm
        rcases hm with rfl | rfl | rfl | rfl | rfl <;> revert hd <;> decide
  | str s => rw [showSym.eq_def]; exact ⟨_, _, rfl, by decide⟩
  | fn name args pos =>
    rw [showSym_fn]
    rw [GoodSym.eq_def] at h
    obtain ⟨h, -⟩ := h
    cases pos with
    | false => exact ⟨'-', _, rfl, by decide⟩
    | true =>
      rcases h with ⟨⟨c, cs, rfl, -⟩, hc⟩ | ⟨rfl, -⟩
      · refine ⟨c, _, rfl, fun hm => hc c (by simp) ?_⟩
        simp only [List.mem_cons, List.not_mem_nil, or_false] at hm ⊢
        tauto
      · match args with
        | [] => exact ⟨'(', _, rfl, by decide⟩
        | [a] => exact ⟨'(', _, rfl, by decide⟩
        | a :: b :: as => exact ⟨'(', _, rfl, by decide⟩

theorem showInt_unique {n n' : ℤ} {r r' : List Char} (hr : Delim r) (hr' : Delim r') (h : showInt n ++ r = showInt n' ++ r') :
    n = n' ∧ r = r' := by
  have hd : ∀ k l : ℕ, ∀ x y : List Char, showNat k ++ x ≠ '-' :: showNat l ++ y := by
    intro k l x y he
    cases hk : showNat k with
    | nil => exact showNat_ne_nil _ hk
    | cons c cs =>
      have := showNat_digit (n := k) (c := c) (by rw [hk]; simp)
      rw [hk] at he
      simp only [List.cons_append, List.cons.injEq] at he
      rw [he.1] at this
      revert this; decide
  have hs : ∀ k l : ℕ, showNat k ++ r = showNat l ++ r' → k = l ∧ r = r' := by
    intro k l he
    obtain ⟨e1, e2⟩ := span_unique (D := fun c => c.isDigit = true) (fun c hc => showNat_digit hc) (fun c hc => showNat_digit hc)
      hr.notDigit hr'.notDigit he
    exact ⟨showNat_inj e1, e2⟩
  unfold showInt at h
  split at h <;> split at h
  · simp only [List.cons_append, List.cons.injEq, true_and] at h
    obtain ⟨e1, e2⟩ := hs _ _ h
    exact ⟨by omega, e2⟩
  · exact absurd h.symm (hd _ _ _ _)
  · exact absurd h (hd _ _ _ _)
  · obtain ⟨e1, e2⟩ := hs _ _ h
    exact ⟨by omega, e2⟩

/-- `showSym s` can be read off the front of a text. -/
def Unique (s : Symbol) : Prop := ∀ (s' : Symbol) (r r' : List Char), GoodSym s → GoodSym s' → Delim r → Delim r' →
  showSym s ++ r = showSym s' ++ r' → s = s' ∧ r = r'

theorem delim_cons {c : Char} {r : List Char} (h : c ∈ [')', ',', '=', ' ', '\n']) : Delim (c :: r) := by
  intro d hd
  simp only [List.head?_cons, Option.some.injEq] at hd
  exact hd ▸ h

theorem showSyms_delim (as : List Symbol) (r : List Char) : Delim (showSyms as ++ ')' :: r) := by
  cases as with
  | nil => exact delim_cons (by decide)
  | cons a as => rw [showSyms.eq_def]; exact delim_cons (by decide)

theorem showSyms_unique : ∀ {as : List Symbol}, (∀ a ∈ as, Unique a) → ∀ {as' : List Symbol} {r r' : List Char}, GoodSyms as → GoodSyms as' →
    showSyms as ++ ')' :: r = showSyms as' ++ ')' :: r' → as = as' ∧ r = r' := by
  intro as
  induction as with
  | nil =>
    intro _ as' r r' _ _ h
    cases as' with
    | nil => exact ⟨rfl, by simpa [showSyms] using h⟩
    | cons b bs => simp [showSyms] at h
  | cons a as ih =>
    intro hu as' r r' g g' h
    cases as' with
    | nil => simp [showSyms] at h
    | cons b bs =>
      rw [GoodSyms] at g g'
      simp only [showSyms, List.cons_append, List.append_assoc, List.cons.injEq, true_and] at h
      obtain ⟨e1, e2⟩ := hu a (by simp) b _ _ g.1 g'.1 (showSyms_delim _ _) (showSyms_delim _ _) h
      obtain ⟨e3, e4⟩ := ih (fun x hx => hu x (by simp [hx])) g.2 g'.2 e2
      exact ⟨by rw [e1, e3], e4⟩

theorem showArgs_unique {as as' : List Symbol} {t : Bool} {r r' : List Char} (hu : ∀ a ∈ as, Unique a) (g : GoodSyms as) (g' : GoodSyms as')
    (hr : Delim r) (hr' : Delim r') (h : showArgs t as ++ r = showArgs t as' ++ r') : as = as' ∧ r = r' := by
  have hl : ∀ {x : List Char}, Delim x → ∀ {y : List Char}, x ≠ '(' :: y := by
    rintro x hx y rfl
    have := hx '(' rfl
    revert this; decide
  have hhead : ∀ {a : Symbol} {x y z : List Char} {c : Char}, GoodSym a → c ∈ [')', ',', '=', ' ', '\n'] → showSym a ++ x ≠ c :: y := by
    intro a x y z c ga hc he
    obtain ⟨d, ds, e1, e2⟩ := showSym_head a ga
    rw [e1] at he
    simp only [List.cons_append, List.cons.injEq] at he
    exact e2 (he.1 ▸ hc)
  match as, as', hu, g, g', h with
  | [], [], _, _, _, h => exact ⟨rfl, List.append_cancel_left h⟩
  | [], [b], _, _, g', h =>
    rw [GoodSyms] at g'
    cases t
    · exact absurd h (by simpa [showArgs] using hl hr)
    · simp only [showArgs, if_true, List.cons_append, List.nil_append, List.cons.injEq, true_and, List.append_assoc] at h
      exact absurd h.symm (hhead (z := []) g'.1 (by decide))
  | [], b :: b2 :: bs, _, _, g', h =>
    rw [GoodSyms] at g'
    cases t
    · exact absurd h (by simpa [showArgs] using hl hr)
    · simp only [showArgs, if_true, List.cons_append, List.nil_append, List.cons.injEq, true_and, List.append_assoc] at h
      exact absurd h.symm (hhead (z := []) g'.1 (by decide))
  | [a], [], _, g, _, h =>
    rw [GoodSyms] at g
    cases t
    · exact absurd h.symm (by simpa [showArgs] using hl hr')
    · simp only [showArgs, if_true, List.cons_append, List.nil_append, List.cons.injEq, true_and, List.append_assoc] at h
      exact absurd h (hhead (z := []) g.1 (by decide))
  | a :: a2 :: as, [], _, g, _, h =>
    rw [GoodSyms] at g
    cases t
    · exact absurd h.symm (by simpa [showArgs] using hl hr')
    · simp only [showArgs, if_true, List.cons_append, List.nil_append, List.cons.injEq, true_and, List.append_assoc] at h
      exact absurd h (hhead (z := []) g.1 (by decide))
  | [a], [b], hu, g, g', h =>
    rw [GoodSyms] at g g'
    simp only [showArgs, List.cons_append, List.cons.injEq, true_and, List.append_assoc] at h
    have hd : ∀ x, Delim ((if t = true then [',', ')'] else [')']) ++ x) := by
      intro x; split <;> exact delim_cons (by decide)
    obtain ⟨e1, e2⟩ := hu a (by simp) b _ _ g.1 g'.1 (hd _) (hd _) h
    exact ⟨by rw [e1], List.append_cancel_left e2⟩
  | [a], b :: b2 :: bs, hu, g, g', h =>
    rw [GoodSyms] at g g'
    simp only [showArgs, List.cons_append, List.cons.injEq, true_and, List.append_assoc, List.nil_append] at h
    have hd : ∀ x, Delim ((if t = true then [',', ')'] else [')']) ++ x) := by
      intro x; split <;> exact delim_cons (by decide)
    obtain ⟨e1, e2⟩ := hu a (by simp) b _ _ g.1 g'.1 (hd _) (showSyms_delim _ _) h
    rw [GoodSyms] at g'
    cases t
    · simp [showSyms] at e2
    · simp only [showSyms, if_true, List.cons_append, List.nil_append, List.cons.injEq, true_and, List.append_assoc] at e2
      exact absurd e2.symm (hhead (z := []) g'.2.1 (by decide))
  | a :: a2 :: as, [b], hu, g, g', h =>
    rw [GoodSyms] at g g'
    simp only [showArgs, List.cons_append, List.cons.injEq, true_and, List.append_assoc, List.nil_append] at h
    have hd : ∀ x, Delim ((if t = true then [',', ')'] else [')']) ++ x) := by
      intro x; split <;> exact delim_cons (by decide)
    obtain ⟨e1, e2⟩ := hu a (by simp) b _ _ g.1 g'.1 (showSyms_delim _ _) (hd _) h
    rw [GoodSyms] at g
    cases t
    · simp [showSyms] at e2
    · simp only [showSyms, if_true, List.cons_append, List.nil_append, List.cons.injEq, true_and, List.append_assoc] at e2
      exact absurd e2 (hhead (z := []) g.2.1 (by decide))
  | a :: a2 :: as, b :: b2 :: bs, hu, g, g', h =>
    rw [GoodSyms] at g g'
    simp only [showArgs, List.cons_append, List.cons.injEq, true_and, List.append_assoc, List.nil_append] at h
    obtain ⟨e1, e2⟩ := hu a (by simp) b _ _ g.1 g'.1 (showSyms_delim _ _) (showSyms_delim _ _) h
    obtain ⟨e3, e4⟩ := showSyms_unique (fun x hx => hu x (by simp [hx])) g.2 g'.2 e2
    exact ⟨by rw [e1, e3], e4⟩

theorem showArgs_notName (t : Bool) (as : List Symbol) {r : List Char} (hr : Delim r) :
    ∀ c, (showArgs t as ++ r).head? = some c → ¬ NameChar c := by
  intro c hc
  match as with
  | [] =>
    cases t
    · exact hr.notName c hc
    · simp only [showArgs, if_true, List.cons_append, List.head?_cons, Option.some.injEq] at hc; subst hc; decide
  | [a] => simp only [showArgs, List.cons_append, List.head?_cons, Option.some.injEq] at hc; subst hc; decide
  | a :: b :: as => simp only [showArgs, List.cons_append, List.head?_cons, Option.some.injEq] at hc; subst hc; decide

mutual
/-- Induction over symbols. -/
theorem symInd {P : Symbol → Prop} (h1 : ∀ n, P (.num n)) (h2 : ∀ s, P (.str s))
    (h3 : ∀ name args pos, (∀ a ∈ args, P a) → P (.fn name args pos)) : ∀ s, P s
  | .num n => h1 n
  | .str s => h2 s
  | .fn name args pos => h3 name args pos (symInds h1 h2 h3 args)
theorem symInds {P : Symbol → Prop} (h1 : ∀ n, P (.num n)) (h2 : ∀ s, P (.str s))
    (h3 : ∀ name args pos, (∀ a ∈ args, P a) → P (.fn name args pos)) : ∀ as : List Symbol, ∀ a ∈ as, P a
  | [], _, h => absurd h (by simp)
  | b :: bs, a, h => by
    rcases List.mem_cons.1 h with h | h
    · exact h ▸ symInd h1 h2 h3 b
    · exact symInds h1 h2 h3 bs a h
end

/-- The kind of a symbol, seen from the first characters of its text. -/
def kindOf : List Char → ℕ
  | '"' :: _ => 0
  | '-' :: c :: _ => if c.isDigit then 1 else 2
  | c :: _ => if c.isDigit then 1 else 2
  | [] => 3

theorem kindOf_num (n : ℤ) (r : List Char) : kindOf (showSym (.num n) ++ r) = 1 := by
  rw [showSym.eq_def]
  unfold showInt
  cases hn : showNat n.natAbs with
  | nil => exact absurd hn (showNat_ne_nil _)
  | cons d ds =>
    have hd := showNat_digit (n := n.natAbs) (c := d) (by rw [hn]; simp)
    dsimp only
    rw [hn]
    split
    · simp [kindOf, hd]
    · have h1 : d ≠ '"' := by rintro rfl; revert hd; decide
      have h2 : d ≠ '-' := by rintro rfl; revert hd; decide
      simp only [List.cons_append]
      unfold kindOf
      split
      · rename_i he; injection he with he _; exact absurd he h1
      · rename_i he; injection he with he _; exact absurd he h2
      · rename_i he; injection he with he _; rw [← he, if_pos hd]
      · rename_i he; cases he

theorem kindOf_str (s : List Char) (r : List Char) : kindOf (showSym (.str s) ++ r) = 0 := by
  rw [showSym.eq_def]
  rfl

theorem kindOf_other {c : Char} {cs : List Char} (h1 : c ≠ '"') (h2 : c ≠ '-') (h3 : ¬ c.isDigit = true) : kindOf (c :: cs) = 2 := by
  unfold kindOf
  split
  · rename_i he; injection he with he _; exact absurd he h1
  · rename_i he; injection he with he _; exact absurd he h2
  · rename_i he; injection he with he _; rw [← he, if_neg h3]
  · rename_i he; cases he

theorem kindOf_fn (name : List Char) (args : List Symbol) (pos : Bool) (r : List Char) (g : GoodSym (.fn name args pos)) :
    kindOf (showSym (.fn name args pos) ++ r) = 2 := by
  rw [showSym_fn]
  rw [GoodSym.eq_def] at g
  obtain ⟨g, -⟩ := g
  rcases g with ⟨⟨c, cs, rfl, hd⟩, hc⟩ | ⟨rfl, rfl⟩
  · have hn := hc c (by simp)
    have h1 : c ≠ '"' := by rintro rfl; exact hn (by decide)
    have h2 : c ≠ '-' := by rintro rfl; exact hn (by decide)
    cases pos with
    | true => exact kindOf_other h1 h2 hd
    | false =>
      simp only [Bool.false_eq_true, if_false, List.cons_append, List.nil_append]
      simp [kindOf, hd]
  · match args with
    | [] => rfl
    | [a] => rfl
    | a :: b :: as => rfl

/-- The text of a symbol determines the symbol, also within a longer text. -/
theorem sym_unique (s : Symbol) : Unique s := by
  induction s using symInd with
  | h1 n =>
    intro s' r r' g g' hr hr' h
    cases s' with
    | num n' =>
      rw [showSym.eq_def, showSym.eq_def (.num n')] at h
      obtain ⟨e1, e2⟩ := showInt_unique hr hr' h
      exact ⟨by rw [e1], e2⟩
    | str s' => have := congrArg kindOf h; rw [kindOf_num, kindOf_str] at this; cases this
    | fn name args pos => have := congrArg kindOf h; rw [kindOf_num, kindOf_fn _ _ _ _ g'] at this; cases this
  | h2 s =>
    intro s' r r' g g' hr hr' h
    cases s' with
    | num n' => have := congrArg kindOf h; rw [kindOf_num, kindOf_str] at this; cases this
    | str s' =>
      rw [showSym.eq_def, showSym.eq_def (.str s')] at h
      simp only [List.cons_append, List.append_assoc, List.nil_append, List.cons.injEq, true_and] at h
      obtain ⟨e1, e2⟩ := escape_unique h
      exact ⟨by rw [e1], e2⟩
    | fn name args pos => have := congrArg kindOf h; rw [kindOf_str, kindOf_fn _ _ _ _ g'] at this; cases this
  | h3 name args pos ih =>
    intro s' r r' g g' hr hr' h
    cases s' with
    | num n' => have := congrArg kindOf h; rw [kindOf_num, kindOf_fn _ _ _ _ g] at this; cases this
    | str s' => have := congrArg kindOf h; rw [kindOf_str, kindOf_fn _ _ _ _ g] at this; cases this
    | fn name' args' pos' =>
      rw [showSym_fn, showSym_fn] at h
      rw [GoodSym.eq_def] at g g'
      have hname : ∀ {name : List Char} {pos : Bool}, (GoodName name ∨ name = [] ∧ pos = true) → ∀ c ∈ name, NameChar c := by
        rintro name pos (h | ⟨rfl, -⟩)
        · exact h.2
        · simp
      have hfirst : ∀ {name : List Char} {pos : Bool} {args : List Symbol} {x y : List Char}, (GoodName name ∨ name = [] ∧ pos = true) →
          pos = true → name ++ (showArgs name.isEmpty args ++ x) ≠ '-' :: y := by
        intro name pos args x y hg hp he
        rcases hg with ⟨⟨c, cs, rfl, -⟩, hc⟩ | ⟨rfl, -⟩
        · simp only [List.cons_append, List.cons.injEq] at he
          exact hc c (by simp) (by rw [he.1]; decide)
        · match args with
          | [] => simp [showArgs] at he
          | [a] => simp [showArgs] at he
          | a :: b :: as => simp [showArgs] at he
      have hpos : pos = pos' := by
        cases pos <;> cases pos'
        · rfl
        · simp only [Bool.false_eq_true, if_false, if_true, List.cons_append, List.nil_append, List.append_assoc] at h
          exact absurd h.symm (hfirst g'.1 rfl)
        · simp only [Bool.false_eq_true, if_false, if_true, List.cons_append, List.nil_append, List.append_assoc] at h
          exact absurd h (hfirst g.1 rfl)
        · rfl
      subst hpos
      simp only [List.append_assoc] at h
      have h := List.append_cancel_left h
      obtain ⟨e1, e2⟩ := span_unique (hname g.1) (hname g'.1) (showArgs_notName _ _ hr) (showArgs_notName _ _ hr') h
      subst e1
      obtain ⟨e3, e4⟩ := showArgs_unique ih g.2 g'.2 hr hr' e2
      exact ⟨by rw [e3], e4⟩

/-- C60, symbols: the printed text determines the symbol. -/
theorem C60_symbols (s s' : Symbol) (g : GoodSym s) (g' : GoodSym s') (h : showSym s = showSym s') : s = s' :=
  (sym_unique s s' [] [] g g' (fun _ h => by cases h) (fun _ h => by cases h) (by simpa using h)).1

/-! ### lines -/

/-- No line breaks. -/
def OneLine (x : List Char) : Prop := '\n' ∉ x

theorem name_oneLine {name : List Char} (h : ∀ c ∈ name, NameChar c) : OneLine name := fun hn => h _ hn (by decide)

theorem escape_oneLine (s : List Char) : OneLine (escape s) := by
  induction s with
  | nil => simp [OneLine, escape]
  | cons c cs ih =>
    have h1 : OneLine (esc c) := by
      by_cases hc : c = '\n'
      · subst hc; unfold OneLine; decide
      · rcases esc_cases c with ⟨h, e⟩ | ⟨-, e⟩ | ⟨-, e⟩ | ⟨-, -, e⟩ <;> unfold OneLine <;> rw [e]
        · exact absurd h hc
        · decide
        · decide
        · simpa using fun h => hc h.symm
    show OneLine (esc c ++ escape cs)
    exact fun h => (List.mem_append.1 h).elim h1 ih

theorem showSym_oneLine (s : Symbol) : GoodSym s → OneLine (showSym s) := by
  induction s using symInd with
  | h1 n => intro _; rw [showSym.eq_def]; exact fun h => (showInt_plain h).2 rfl
  | h2 s =>
    intro _
    rw [showSym.eq_def]
    simp only [OneLine, List.cons_append, List.mem_cons, List.mem_append, List.not_mem_nil, or_false, not_or]
    exact ⟨by decide, escape_oneLine s, by decide⟩
  | h3 name args pos ih =>
    intro g
    rw [GoodSym.eq_def] at g
    obtain ⟨g1, g2⟩ := g
    rw [showSym_fn]
    have hn : OneLine name := by
      rcases g1 with h | ⟨rfl, -⟩
      · exact name_oneLine h.2
      · simp [OneLine]
    have hs : ∀ as : List Symbol, (∀ a ∈ as, GoodSym a → OneLine (showSym a)) → GoodSyms as → OneLine (showSyms as) := by
      intro as
      induction as with
      | nil => intro _ _; simp [OneLine, showSyms]
      | cons a as ih2 =>
        intro h g
        rw [GoodSyms] at g
        simp only [OneLine, showSyms, List.cons_append, List.mem_cons, List.mem_append, not_or]
        exact ⟨by decide, h a (by simp) g.1, ih2 (fun b hb => h b (by simp [hb])) g.2⟩
    have ha : OneLine (showArgs name.isEmpty args) := by
      match args, ih, g2 with
      | [], _, _ => simp only [OneLine, showArgs]; split <;> decide
      | [a], ih, g =>
        rw [GoodSyms] at g
        simp only [OneLine, showArgs, List.cons_append, List.mem_cons, List.mem_append, not_or]
        refine ⟨by decide, ih a (by simp) g.1, ?_⟩
        split <;> decide
      | a :: b :: as, ih, g =>
        rw [GoodSyms] at g
        have := hs (b :: as) (fun x hx => ih x (by simp [hx])) g.2
        simp only [OneLine, showArgs, List.cons_append, List.mem_cons, List.mem_append, not_or, List.not_mem_nil, or_false]
        exact ⟨by decide, ⟨ih a (by simp) g.1, this⟩, by decide⟩
    simp only [OneLine, List.mem_append, not_or]
    refine ⟨⟨?_, hn⟩, ha⟩
    cases pos <;> decide

/-- Splitting at the first line break is unique. -/
theorem line_unique {a a' r r' : List Char} (h1 : OneLine a) (h2 : OneLine a') (h : a ++ '\n' :: r = a' ++ '\n' :: r') : a = a' ∧ r = r' := by
  obtain ⟨e1, e2⟩ := span_unique (D := fun c => c ≠ '\n') (fun c hc he => h1 (he ▸ hc)) (fun c hc he => h2 (he ▸ hc))
    (by simp) (by simp) h
  exact ⟨e1, by simpa using e2⟩

theorem joined_oneLine {b : Bool} {xs : List (List Char)} (h : ∀ x ∈ xs, OneLine x) : OneLine (joined b xs) := by
  induction xs generalizing b with
  | nil => simp [OneLine, joined]
  | cons x xs ih =>
    simp only [OneLine, joined, List.mem_append, not_or]
    refine ⟨⟨?_, h x (by simp)⟩, ih fun y hy => h y (by simp [hy])⟩
    cases b <;> decide

/-- The text of the entries of the assignment. -/
def entryOf {V : Type} [LpPrint V] (e : Symbol × V) : List Char := showSym e.1 ++ '=' :: LpPrint.print e.2

theorem joined_delim (xs : List (List Char)) : Delim (joined true xs) := by
  cases xs with
  | nil => intro c hc; cases hc
  | cons x xs => exact delim_cons (by decide)

theorem joined_syms_unique : ∀ {xs xs' : List Symbol} {b : Bool}, (∀ x ∈ xs, GoodSym x) → (∀ x ∈ xs', GoodSym x) →
    joined b (xs.map showSym) = joined b (xs'.map showSym) → xs = xs' := by
  intro xs
  have hne : ∀ (x : Symbol) (b : Bool) (ys : List (List Char)), GoodSym x → joined b (showSym x :: ys) ≠ [] := by
    intro x b ys g
    obtain ⟨c, cs, e, -⟩ := showSym_head x g
    cases b <;> simp [joined, e]
  induction xs with
  | nil =>
    intro xs' b _ g' h
    cases xs' with
    | nil => rfl
    | cons x xs' => exact absurd h.symm (hne x b _ (g' x (by simp)))
  | cons x xs ih =>
    intro xs' b g g' h
    cases xs' with
    | nil => exact absurd h (hne x b _ (g x (by simp)))
    | cons y ys =>
      simp only [List.map_cons, joined, List.append_assoc] at h
      have h := List.append_cancel_left h
      obtain ⟨e1, e2⟩ := sym_unique x y _ _ (g x (by simp)) (g' y (by simp)) (joined_delim _) (joined_delim _) h
      rw [e1, ih (fun z hz => g z (by simp [hz])) (fun z hz => g' z (by simp [hz])) e2]

theorem joined_entries_unique {V : Type} [LpPrint V] [Readable V] : ∀ {xs xs' : List (Symbol × V)} {b : Bool}, (∀ x ∈ xs, GoodSym x.1) →
    (∀ x ∈ xs', GoodSym x.1) → joined b (xs.map entryOf) = joined b (xs'.map entryOf) → xs = xs' := by
  intro xs
  have hne : ∀ (x : Symbol × V) (b : Bool) (ys : List (List Char)), joined b (entryOf x :: ys) ≠ [] := by
    intro x b ys
    cases b <;> simp [joined, entryOf]
  have hsp : ∀ ys : List (List Char), ∀ c, (joined true ys).head? = some c → ¬ c ≠ ' ' := by
    intro ys c hc
    cases ys with
    | nil => cases hc
    | cons y ys => simp only [joined, if_true, List.cons_append, List.head?_cons, Option.some.injEq] at hc; simp [← hc]
  induction xs with
  | nil =>
    intro xs' b _ g' h
    cases xs' with
    | nil => rfl
    | cons x xs' => exact absurd h.symm (hne x b _)
  | cons x xs ih =>
    intro xs' b g g' h
    cases xs' with
    | nil => exact absurd h (hne x b _)
    | cons y ys =>
      simp only [List.map_cons, joined, List.append_assoc] at h
      have h := List.append_cancel_left h
      simp only [entryOf, List.append_assoc, List.cons_append] at h
      obtain ⟨e1, e2⟩ := sym_unique x.1 y.1 _ _ (g x (by simp)) (g' y (by simp)) (delim_cons (by decide)) (delim_cons (by decide)) h
      injection e2 with _ e2
      obtain ⟨e3, e4⟩ := span_unique (D := fun c => c ≠ ' ') (fun c hc => (Readable.plain x.2 c hc).1) (fun c hc => (Readable.plain y.2 c hc).1)
        (hsp _) (hsp _) e2
      rw [ih (fun z hz => g z (by simp [hz])) (fun z hz => g' z (by simp [hz])) e4, Prod.ext e1 (Readable.inj _ _ e3)]

/-! ### the output -/

/-- What follows the line of the assignment. -/
def objectiveTail {V : Type} [LpPrint V] : List (V × Bool) → List Char
  | [] => []
  | (v, b) :: _ => "Optimization: ".toList ++ (LpPrint.print v ++ ' ' :: ((if b then "[bounded]".toList else "[unbounded]".toList) ++ ['\n']))

theorem objectiveLine_tail {V : Type} [LpFull V] [LpPrint V] (o : List (V × Bool)) : objectiveLine o ++ ['\n'] = '\n' :: objectiveTail o := by
  have e0 : "\nOptimization: ".toList = '\n' :: "Optimization: ".toList := by decide
  have e1 : " [bounded]".toList = ' ' :: "[bounded]".toList := by decide
  have e2 : " [unbounded]".toList = ' ' :: "[unbounded]".toList := by decide
  cases o with
  | nil => unfold objectiveLine objectiveTail; rfl
  | cons x xs =>
    obtain ⟨v, b⟩ := x
    cases b
    · unfold objectiveLine objectiveTail
      dsimp only
      rw [e0, e2, if_neg Bool.false_ne_true]
      generalize "Optimization: ".toList = c1
      generalize "[unbounded]".toList = c2
      simp only [List.append_assoc, List.cons_append]
    · unfold objectiveLine objectiveTail
      dsimp only
      rw [e0, e1, if_pos rfl]
      generalize "Optimization: ".toList = c1
      generalize "[bounded]".toList = c2
      simp only [List.append_assoc, List.cons_append]

theorem objectiveTail_unique {V : Type} [LpPrint V] [Readable V] {o o' : List (V × Bool)} (l : o.length ≤ 1) (l' : o'.length ≤ 1)
    (h : objectiveTail o = objectiveTail o') : o = o' := by
  have hsp : ∀ (r : List Char) (c : Char), (' ' :: r).head? = some c → ¬ c ≠ ' ' := by
    intro r c hc
    simpa using (Option.some.inj hc).symm
  have e0 : "Optimization: ".toList = 'O' :: "ptimization: ".toList := by decide
  cases o with
  | nil =>
    cases o' with
    | nil => rfl
    | cons y ys => unfold objectiveTail at h; dsimp only at h; rw [e0] at h; cases h
  | cons x xs =>
    cases o' with
    | nil => unfold objectiveTail at h; dsimp only at h; rw [e0] at h; cases h
    | cons y ys =>
      have n1 : xs = [] := by cases xs with | nil => rfl | cons _ _ => simp at l
      have n2 : ys = [] := by cases ys with | nil => rfl | cons _ _ => simp at l'
      subst n1 n2
      obtain ⟨v, b⟩ := x
      obtain ⟨v', b'⟩ := y
      unfold objectiveTail at h
      dsimp only at h
      have h := List.append_cancel_left h
      obtain ⟨h1, h2⟩ := span_unique (D := fun c => c ≠ ' ') (fun c hc => (Readable.plain v c hc).1) (fun c hc => (Readable.plain v' c hc).1)
        (hsp _) (hsp _) h
      have h3 : b = b' := by
        have h2 := List.append_cancel_right (List.cons.inj h2).2
        clear h h1
        cases b <;> cases b'
        · rfl
        · exact absurd h2 (by decide)
        · exact absurd h2 (by decide)
        · rfl
      rw [Readable.inj _ _ h1, h3]

theorem objectiveOf_length {V : Type} [LpFull V] (p : Propagator V) (th : ℕ) : (p.objectiveOf th).length ≤ 1 := by
  unfold Propagator.objectiveOf
  cases p.thrs[th]? with
  | none => simp
  | some t => cases t.slv.getObjective <;> simp

/-- A permutation of the entries is the list of entries of a permutation of the pairs. -/
theorem perm_map_exists {α β : Type} {f : α → β} {l : List α} {e : List β} (h : e.Perm (l.map f)) : ∃ l' : List α, l'.Perm l ∧ e = l'.map f := by
  have h2 : List.Forall₂ (fun b a => b = f a) (l.map f) l := by
    induction l with
    | nil => exact .nil
    | cons a l ih => exact .cons rfl (by
        clear ih h
        induction l with
        | nil => exact .nil
        | cons b l ih => exact .cons rfl ih)
  obtain ⟨l', h3, h4⟩ := List.perm_comp_forall₂ h h2
  refine ⟨l', h4, ?_⟩
  clear h h2 h4
  induction h3 with
  | nil => rfl
  | cons h _ ih => rw [List.map_cons, h, ih]

variable {V : Type} [LpFull V] [LpPrint V] [Readable V] {be : Backend} {opts : Options}
  {Q : Restr V} {p p' : Propagator V} {g g' : Ghost V}

/-- C60: the printed model determines the shown atoms, the value of every variable and the objective. Two models, possibly of two different
programs, for which the same text is printed agree on all of this. -/
theorem C60_output {opts' : Options} {Q' : Restr V} {be' : Backend}
    (hr : Reach be opts Q p g) (hr' : Reach be' opts' Q' p' g')
    {th th' : ℕ} {t t' : Thr V} (ht : p.thrs[th]? = some t) (ht' : p'.thrs[th']? = some t') {atoms atoms' theory theory' : List Symbol}
    (hth : theory.Perm (p.extendModel th)) (hth' : theory'.Perm (p'.extendModel th'))
    (ga : ∀ a ∈ atoms, GoodSym a) (ga' : ∀ a ∈ atoms', GoodSym a) (gu : ∀ y ∈ userVars p, GoodSym y) (gu' : ∀ y ∈ userVars p', GoodSym y)
    (h : printModel atoms theory = printModel atoms' theory') :
    atoms = atoms' ∧ (∀ y, y ∈ userVars p ↔ y ∈ userVars p') ∧ (∀ y ∈ userVars p, p.valueOf th y = p'.valueOf th' y) ∧
      p.objectiveOf th = p'.objectiveOf th' := by
  obtain ⟨es, hp, e⟩ := C51_output hr ht atoms hth
  obtain ⟨es', hp', e'⟩ := C51_output hr' ht' atoms' hth'
  have hm : ∀ (q : Propagator V) (k : ℕ), ((userVars q).map fun y => showSym y ++ '=' :: LpPrint.print (q.valueOf k y)) =
      ((userVars q).map fun y => (y, q.valueOf k y)).map entryOf := fun q k => by rw [List.map_map]; rfl
  rw [hm] at hp hp'
  obtain ⟨l, hl, rfl⟩ := perm_map_exists hp
  obtain ⟨l', hl', rfl⟩ := perm_map_exists hp'
  have gl : ∀ x ∈ l, GoodSym x.1 := by
    intro x hx
    obtain ⟨y, hy, rfl⟩ := List.mem_map.1 (hl.mem_iff.1 hx)
    exact gu y hy
  have gl' : ∀ x ∈ l', GoodSym x.1 := by
    intro x hx
    obtain ⟨y, hy, rfl⟩ := List.mem_map.1 (hl'.mem_iff.1 hx)
    exact gu' y hy
  have ha : "\nAssignment:\n".toList = '\n' :: "Assignment:\n".toList := by decide
  rw [e, e'] at h
  simp only [List.append_assoc, objectiveLine_tail, ha, List.cons_append] at h
  have o1 : ∀ {as : List Symbol}, (∀ a ∈ as, GoodSym a) → OneLine (joined false (as.map showSym)) := by
    intro as ga
    refine joined_oneLine fun x hx => ?_
    obtain ⟨a, ha, rfl⟩ := List.mem_map.1 hx
    exact showSym_oneLine a (ga a ha)
  have o2 : ∀ {l : List (Symbol × V)}, (∀ x ∈ l, GoodSym x.1) → OneLine (joined false (l.map entryOf)) := by
    intro l gl
    refine joined_oneLine fun x hx => ?_
    obtain ⟨a, ha, rfl⟩ := List.mem_map.1 hx
    simp only [OneLine, entryOf, List.mem_append, List.mem_cons, not_or]
    exact ⟨showSym_oneLine _ (gl a ha), by decide, fun k => (Readable.plain _ _ k).2 rfl⟩
  obtain ⟨h1, h2⟩ := line_unique (o1 ga) (o1 ga') h
  obtain ⟨h3, h4⟩ := line_unique (o2 gl) (o2 gl') (List.append_cancel_left h2)
  have hll : l = l' := joined_entries_unique gl gl' h3
  have hpairs : ∀ (q : Propagator V) (k : ℕ) (y : Symbol) (v : V),
      (y, v) ∈ ((userVars q).map fun y => (y, q.valueOf k y)) ↔ y ∈ userVars q ∧ q.valueOf k y = v := by
    intro q k y v
    simp only [List.mem_map, Prod.mk.injEq]
    constructor
    · rintro ⟨z, hz, rfl, rfl⟩; exact ⟨hz, rfl⟩
    · rintro ⟨hz, rfl⟩; exact ⟨y, hz, rfl, rfl⟩
  have hboth : ∀ y v, (y ∈ userVars p ∧ p.valueOf th y = v) ↔ (y ∈ userVars p' ∧ p'.valueOf th' y = v) := fun y v => by
    rw [← hpairs, ← hpairs, ← hl.mem_iff, ← hl'.mem_iff, hll]
  refine ⟨joined_syms_unique ga ga' h1, fun y => ?_, fun y hy => ?_, objectiveTail_unique (objectiveOf_length _ _) (objectiveOf_length _ _) h4⟩
  · exact ⟨fun hy => ((hboth y _).1 ⟨hy, rfl⟩).1, fun hy => ((hboth y _).2 ⟨hy, rfl⟩).1⟩
  · exact ((hboth y _).1 ⟨hy, rfl⟩).2.symm

/-- The hypotheses are met: a model with the variables `x` and `y`, and the atom `a("x\\y",-3)`. -/
example : ∃ (p : Propagator ℚ) (g : Ghost ℚ) (t : Thr ℚ), Reach .imath {} Intact p g ∧ p.thrs[0]? = some t ∧
    (∀ y ∈ userVars p, GoodSym y) ∧ GoodSym (.fn ['a'] [.str ['x', '\\', 'y'], .num (-3)] true) ∧ userVars p ≠ [] ∧ p.objectiveOf 0 ≠ [] := by
  obtain ⟨p, g, h1, -, h2⟩ := exists_reach (V := ℚ) (be := .imath) (mode := .intact) (opts := {})
    [.init (prog4 ++ [maxAtom "x"]) 1, .prop 0 0 [1] true, .prop 1 0 [2, 3] true, .check 1 true 0]
    (P := fun p _ => p.thrs[0]?.isSome && decide (userVars p = [.fn ['x'] [] true, .fn ['y'] [] true] ∧ p.objectiveOf 0 ≠ []))
    (by decide +kernel)
  rw [Bool.and_eq_true] at h2
  obtain ⟨t, ht⟩ := Option.isSome_iff_exists.1 h2.1
  have h3 := of_decide_eq_true h2.2
  have gn : ∀ c : Char, ¬ c.isDigit → NameChar c → GoodName [c] := fun c h1 h2 => ⟨⟨c, [], rfl, h1⟩, by simpa using h2⟩
  refine ⟨p, g, t, h1, ht, ?_, ?_, by rw [h3.1]; simp, h3.2⟩
  · rw [h3.1]
    intro y hy
    rcases List.mem_cons.1 hy with rfl | hy
    · simp only [GoodSym, GoodSyms, and_true]; exact .inl (gn _ (by decide) (by decide))
    · rw [List.mem_singleton] at hy
      subst hy
      simp only [GoodSym, GoodSyms, and_true]; exact .inl (gn _ (by decide) (by decide))
  · simp only [GoodSym, GoodSyms, and_true]; exact .inl (gn _ (by decide) (by decide))

end Lpx.Props
