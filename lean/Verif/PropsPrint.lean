import Verif.PropsData

/-!
# C41: what is printed

A specification of the text printed for a value, by reading it: decimal digits, sign, fraction in lowest terms, multiples of the infinitesimal `e`.
-/

namespace Lpx.Props
open Lpx

/-- The number denoted by a string of decimal digits. -/
def digitsValue (s : List Char) : ℕ := s.foldl (fun v c => 10 * v + (c.toNat - '0'.toNat)) 0

/-- `s` is the usual decimal notation of `n`: digits only, without leading zeros. -/
structure Decimal (s : List Char) (n : ℕ) : Prop where
  nonempty : s ≠ []
  digits : ∀ c ∈ s, c.isDigit = true
  leading : s.head? = some '0' → s = ['0']
  value : digitsValue s = n

/-- `s` is the usual notation of the integer `z`: a minus sign exactly for negative numbers. -/
def Signed (s : List Char) (z : ℤ) : Prop :=
  (0 ≤ z ∧ Decimal s z.natAbs) ∨ (z < 0 ∧ ∃ t, s = '-' :: t ∧ Decimal t z.natAbs)

/-- `s` is the notation of the rational `q`: an integer, or a fraction `a/b` in lowest terms with `b > 1`. -/
def Fraction (s : List Char) (q : ℚ) : Prop :=
  (∃ z : ℤ, q = z ∧ Signed s z) ∨
  ∃ (a : ℤ) (b : ℕ) (sa sb : List Char), s = sa ++ '/' :: sb ∧ Signed sa a ∧ Decimal sb b ∧ 1 < b ∧ Nat.Coprime a.natAbs b ∧ q = a / b

/-- `s` is the notation of `c + k * e`: `c`, `e`, `k*e`, `c+e` or `c+k*e`. -/
def EpsText (s : List Char) (q : RatQ) : Prop :=
  (q.k = 0 ∧ Fraction s q.c) ∨
  (q.k ≠ 0 ∧ ∃ sc sk, s = sc ++ sk ∧
    (q.c = 0 ∧ sc = [] ∨ q.c ≠ 0 ∧ ∃ t, sc = t ++ ['+'] ∧ Fraction t q.c) ∧
    (q.k = 1 ∧ sk = ['e'] ∨ q.k ≠ 1 ∧ ∃ t, sk = t ++ ['*', 'e'] ∧ Fraction t q.k))

theorem digitChar_isDigit {a : ℕ} (ha : a < 10) : (Nat.digitChar a).isDigit = true ∧ (Nat.digitChar a).toNat - '0'.toNat = a := by
  have key : ∀ a < 10, (Nat.digitChar a).isDigit = true ∧ (Nat.digitChar a).toNat - '0'.toNat = a := by decide
  exact key a ha

theorem digitsValue_map : ∀ (l : List ℕ), (∀ d ∈ l, d < 10) → digitsValue ((l.map Nat.digitChar).reverse) = Nat.ofDigits 10 l := by
  intro l
  induction l with
  | nil => intro _; rfl
  | cons a l ih =>
    intro h
    have h1 := ih fun d hd => h d (by simp [hd])
    unfold digitsValue at h1 ⊢
    rw [List.map_cons, List.reverse_cons, List.foldl_append, h1]
    simp only [List.foldl_cons, List.foldl_nil]
    rw [(digitChar_isDigit (h a (by simp))).2, Nat.ofDigits_cons]
    omega

theorem decimal_showNat (n : ℕ) : Decimal (showNat n) n := by
  by_cases hn : n = 0
  · subst hn
    exact ⟨by decide, by decide, by decide, by decide⟩
  refine ⟨showNat_ne_nil n, ?_, ?_, ?_⟩
  · intro c hc
    unfold showNat at hc
    rw [if_neg hn] at hc
    simp only [List.mem_reverse, List.mem_map] at hc
    obtain ⟨d, hd, rfl⟩ := hc
    exact (digitChar_isDigit (Nat.digits_lt_base (by norm_num) hd)).1
  · intro h
    exfalso
    unfold showNat at h
    rw [if_neg hn, List.head?_reverse, List.getLast?_map] at h
    have h1 : Nat.digits 10 n ≠ [] := Nat.digits_ne_nil_iff_ne_zero.2 hn
    rw [List.getLast?_eq_getLast_of_ne_nil h1] at h
    simp only [Option.map_some, Option.some.injEq] at h
    have h2 := Nat.getLast_digit_ne_zero 10 hn
    have h3 : (Nat.digits 10 n).getLast h1 < 10 := Nat.digits_lt_base (by norm_num) (List.getLast_mem h1)
    exact h2 (digitChar_inj h3 (by norm_num) (h.trans rfl))
  · unfold showNat
    rw [if_neg hn, digitsValue_map _ fun d hd => Nat.digits_lt_base (by norm_num) hd, Nat.ofDigits_digits]

theorem signed_showInt (z : ℤ) : Signed (showInt z) z := by
  unfold showInt
  split
  · rename_i h; exact .inr ⟨h, _, rfl, decimal_showNat _⟩
  · rename_i h; exact .inl ⟨not_lt.1 h, decimal_showNat _⟩

/-- **C41.** Without `--strict`: a value is printed as an integer in decimal notation or as a fraction in lowest terms. -/
theorem C41_rational_text (q : ℚ) : Fraction (showRat q) q := by
  unfold showRat
  split
  · rename_i h
    exact .inl ⟨q.num, ((Rat.den_eq_one_iff q).1 h).symm, signed_showInt _⟩
  · rename_i h
    refine .inr ⟨q.num, q.den, _, _, rfl, signed_showInt _, decimal_showNat _, ?_, q.reduced, (Rat.num_div_den q).symm⟩
    have := q.den_pos
    omega

/-- **C41.** With `--strict`: a value is printed as a sum of a rational and a multiple of `e`, leaving out zeros and the factor one. -/
theorem C41_epsilon_text (q : RatQ) : EpsText q.print q := by
  rcases print_cases q with ⟨h1, h2⟩ | ⟨h1, h2, h3⟩ | ⟨h1, h2, h3⟩
  · exact .inl ⟨h1, h2 ▸ C41_rational_text _⟩
  all_goals
    have hk : (q.k = 1 ∧ RatQ.printK q.k ++ ['e'] = ['e'] ∨ q.k ≠ 1 ∧ ∃ t, RatQ.printK q.k ++ ['e'] = t ++ ['*', 'e'] ∧ Fraction t q.k) := by
      unfold RatQ.printK
      by_cases h : q.k = 1
      · exact .inl ⟨h, by simp [h]⟩
      · exact .inr ⟨h, showRat q.k, by simp [h], C41_rational_text _⟩
  · exact .inr ⟨h1, [], _, h3, .inl ⟨h2, rfl⟩, hk⟩
  · exact .inr ⟨h1, showRat q.c ++ ['+'], RatQ.printK q.k ++ ['e'], by rw [h3]; simp, .inr ⟨h2, _, rfl, C41_rational_text _⟩, hk⟩

/-- The text determines the value: a text is the notation of at most one natural number. -/
theorem Decimal.unique {s : List Char} {m n : ℕ} (h : Decimal s m) (k : Decimal s n) : m = n := h.value.symm.trans k.value

example : showRat (-7 / 2) = "-7/2".toList ∧ showRat 0 = "0".toList ∧ RatQ.print ⟨3, -1⟩ = "3+-1*e".toList ∧ RatQ.print ⟨0, 1⟩ = "e".toList := by
  decide +kernel

end Lpx.Props
