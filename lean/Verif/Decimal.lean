import Mathlib.Data.Rat.Defs
import Mathlib.Tactic.Ring
import Mathlib.Tactic.FieldSimp
import Mathlib.Tactic.Linarith
import Mathlib.Data.List.Basic
import Mathlib.Algebra.Order.Field.Rat
import Verif.Parsing

/-!
# Decimal strings (C27)

Specification of the numbers a quoted string denotes and the proof that `as_num` reads exactly these.
-/

namespace Lpx

/-- Specification: the number denoted by a string of digits in positional notation. -/
def decVal : List Char → ℕ
  | [] => 0
  | c :: cs => (c.toNat - '0'.toNat) * 10 ^ cs.length + decVal cs

/-- Specification: a non-empty string of decimal digits. -/
def Digits (ds : List Char) : Prop := ds ≠ [] ∧ ∀ c ∈ ds, '0' ≤ c ∧ c ≤ '9'

/-- Specification: an optional minus sign. -/
def signStr (neg : Bool) : List Char := if neg then ['-'] else []
/-- Specification: the value with its sign. -/
def signed (neg : Bool) (q : ℚ) : ℚ := if neg then -q else q

/-- Specification: the quoted string `name` is the decimal number `q`. -/
inductive Decimal (name : List Char) (q : ℚ) : Prop
  | int (neg : Bool) (ip : List Char) (hi : Digits ip) (hn : name = '"' :: (signStr neg ++ ip ++ ['"']))
      (hq : q = signed neg (decVal ip))
  | frac (neg : Bool) (ip fp : List Char) (hi : Digits ip) (hf : Digits fp)
      (hn : name = '"' :: (signStr neg ++ ip ++ '.' :: fp ++ ['"']))
      (hq : q = signed neg (decVal ip + decVal fp / 10 ^ fp.length))

theorem isDig_iff (c : Char) : isDig c = true ↔ '0' ≤ c ∧ c ≤ '9' := by simp [isDig]

theorem digits_iff (ds : List Char) : Digits ds ↔ ds ≠ [] ∧ ∀ c ∈ ds, isDig c = true := by
  simp only [Digits, isDig_iff]

theorem decVal_append (a b : List Char) : decVal (a ++ b) = decVal a * 10 ^ b.length + decVal b := by
  induction a with
  | nil => simp [decVal]
  | cons c cs ih => simp only [List.cons_append, decVal, List.length_append, ih, pow_add]; ring

theorem readNat_acc (ds : List Char) : ∀ n, ds.foldl (fun n c => 10 * n + digVal c) n = n * 10 ^ ds.length + decVal ds := by
  induction ds with
  | nil => intro n; simp [decVal]
  | cons c cs ih =>
    intro n
    rw [List.foldl_cons, ih]
    simp only [decVal, digVal, List.length_cons, pow_succ]; ring

theorem readNat_eq (ds : List Char) : readNat ds = decVal ds := by
  rw [readNat, readNat_acc]; simp

theorem decVal_zeros (k : ℕ) : decVal (List.replicate k '0') = 0 := by
  induction k with
  | zero => rfl
  | succ k ih => rw [List.replicate_succ, decVal, ih]; simp

theorem decVal_one_zeros (k : ℕ) : decVal ('1' :: List.replicate k '0') = 10 ^ k := by
  rw [decVal, decVal_zeros]
  have : ('1'.toNat - '0'.toNat) = 1 := by decide
  rw [this]; simp

theorem trimZeros_spec (ds : List Char) : ∃ k, ds = trimZeros ds ++ List.replicate k '0' := by
  have h := List.takeWhile_append_dropWhile (p := (· == '0')) (l := ds.reverse)
  have h2 : ∀ c ∈ ds.reverse.takeWhile (· == '0'), c = '0' := by
    intro c hc; simpa using List.all_takeWhile (p := (· == '0')) (l := ds.reverse) |> fun h => (List.all_eq_true.mp h c hc)
  refine ⟨(ds.reverse.takeWhile (· == '0')).length, ?_⟩
  have h3 := List.eq_replicate_of_mem h2
  have h4 : ds = (ds.reverse.takeWhile (· == '0') ++ ds.reverse.dropWhile (· == '0')).reverse := by rw [h]; simp
  rw [List.reverse_append] at h4
  rw [h3] at h4
  simpa [trimZeros] using h4

/-- The quotient read from the trimmed digits is the decimal fraction. -/
theorem frac_value (ip f : List Char) :
    ((readNat (ip ++ trimZeros f) : ℕ) : ℚ) / (readNat ('1' :: List.replicate (trimZeros f).length '0') : ℕ)
      = decVal ip + decVal f / 10 ^ f.length := by
  obtain ⟨k, hk⟩ := trimZeros_spec f
  rw [readNat_eq, readNat_eq, decVal_one_zeros, decVal_append]
  generalize trimZeros f = g at hk
  subst hk
  rw [decVal_append, decVal_zeros, List.length_append, List.length_replicate]
  push_cast
  rw [pow_add]
  field_simp
  ring

theorem spanDig_spec (s : List Char) : s = (spanDig s).1 ++ (spanDig s).2 ∧ (∀ c ∈ (spanDig s).1, isDig c = true) ∧
    ∀ c cs, (spanDig s).2 = c :: cs → isDig c = false := by
  induction s with
  | nil => simp [spanDig]
  | cons c cs ih =>
    rw [spanDig]
    by_cases hc : isDig c = true
    · rw [if_pos hc]
      refine ⟨by simpa using ih.1, ?_, ih.2.2⟩
      intro d hd
      rcases List.mem_cons.mp hd with rfl | hd
      · exact hc
      · exact ih.2.1 d hd
    · rw [if_neg hc]
      refine ⟨rfl, by simp, ?_⟩
      intro d ds hd
      cases hd; simpa using hc

theorem spanDig_append (a b : List Char) (ha : ∀ c ∈ a, isDig c = true) (hb : ∀ c cs, b = c :: cs → isDig c = false) :
    spanDig (a ++ b) = (a, b) := by
  induction a with
  | nil =>
    cases b with
    | nil => rfl
    | cons c cs => simp [spanDig, hb c cs rfl]
  | cons c cs ih =>
    rw [List.cons_append, spanDig, if_pos (ha c (by simp)), ih (fun d hd => ha d (by simp [hd]))]

/-- The splitting of the sign. -/
theorem sign_split (s : List Char) (neg : Bool) (r : List Char) (hr : ∀ r', r ≠ '-' :: r') :
    splitSign s = (neg, r) ↔ s = signStr neg ++ r := by
  unfold splitSign
  split
  · rename_i r0
    cases neg
    · simp only [signStr]
      constructor
      · intro h; cases h
      · intro h; exact absurd h.symm (hr r0)
    · simp [signStr]
  · rename_i s hs
    cases neg
    · simp [signStr]
    · simp only [signStr]
      constructor
      · intro h; cases h
      · intro h; exact absurd h (by simpa using hs r)

theorem matchNum_none_iff (s : List Char) (neg : Bool) (ip : List Char) :
    matchNum s = some (neg, ip, none) ↔ Digits ip ∧ s = signStr neg ++ ip := by
  constructor
  · intro h
    simp only [matchNum] at h
    generalize hsg : splitSign s = sg at h
    split at h
    · cases h
    · rename_i hne
      have hsp := spanDig_spec sg.2
      split at h
      · rename_i h2
        cases h
        rw [h2, List.append_nil] at hsp
        have hd : Digits (spanDig sg.2).1 := (digits_iff _).mpr ⟨by simpa using hne, hsp.2.1⟩
        refine ⟨hd, ?_⟩
        rw [← hsp.1]
        refine (sign_split s sg.1 sg.2 ?_).mp hsg
        intro r' hr'
        have := hsp.2.1 '-' (by rw [← hsp.1, hr']; simp)
        exact absurd this (by decide)
      · rename_i r h2
        split at h <;> simp at h
      · cases h
  · rintro ⟨hd, rfl⟩
    have hd' := (digits_iff _).mp hd
    have hs : splitSign (signStr neg ++ ip) = (neg, ip) := by
      refine (sign_split _ neg ip ?_).mpr rfl
      rintro r' rfl
      exact absurd (hd'.2 '-' (by simp)) (by decide)
    have hsp : spanDig ip = (ip, []) := by simpa using spanDig_append ip [] hd'.2 (by simp)
    simp only [matchNum, hs, hsp]
    rw [if_neg (by simpa using hd'.1)]

theorem matchNum_some_iff (s : List Char) (neg : Bool) (ip fp : List Char) :
    matchNum s = some (neg, ip, some fp) ↔ Digits ip ∧ Digits fp ∧ s = signStr neg ++ ip ++ '.' :: fp := by
  constructor
  · intro h
    simp only [matchNum] at h
    generalize hsg : splitSign s = sg at h
    split at h
    · cases h
    · rename_i hne
      have hsp := spanDig_spec sg.2
      split at h
      · cases h
      · rename_i r h2
        split at h
        · cases h
        · rename_i hc
          have hspf := spanDig_spec r
          simp only [Bool.or_eq_true, not_or, Bool.not_eq_true', Bool.not_eq_false] at hc
          have h3 : (spanDig r).2 = [] := by simpa using hc.2
          cases h
          rw [h3, List.append_nil] at hspf
          have hd : Digits (spanDig sg.2).1 := (digits_iff _).mpr ⟨by simpa using hne, hsp.2.1⟩
          have hdf : Digits (spanDig r).1 := (digits_iff _).mpr ⟨by simpa using hc.1, hspf.2.1⟩
          refine ⟨hd, hdf, ?_⟩
          rw [← hspf.1, List.append_assoc, ← h2, ← hsp.1]
          refine (sign_split s sg.1 sg.2 ?_).mp hsg
          intro r' hr'
          obtain ⟨c, cs, hcs⟩ := List.exists_cons_of_ne_nil hd.1
          have h4 : sg.2 = c :: (cs ++ (spanDig sg.2).2) := by rw [← List.cons_append, ← hcs]; exact hsp.1
          rw [hr'] at h4
          have h5 : c = '-' := by
            have := congrArg List.head? h4
            simpa using this.symm
          have := hsp.2.1 c (by rw [hcs]; simp)
          rw [h5] at this
          exact absurd this (by decide)
      · cases h
  · rintro ⟨hd, hf, rfl⟩
    have hd' := (digits_iff _).mp hd
    have hf' := (digits_iff _).mp hf
    have hs : splitSign (signStr neg ++ ip ++ '.' :: fp)
        = (neg, ip ++ '.' :: fp) := by
      refine (sign_split _ neg (ip ++ '.' :: fp) ?_).mpr (by simp)
      intro r' hr'
      obtain ⟨c, cs, rfl⟩ := List.exists_cons_of_ne_nil hd.1
      have hc : c = '-' := by
        have := congrArg List.head? hr'
        simpa using this
      exact absurd (hd'.2 c (by simp)) (by rw [hc]; decide)
    have hsp : spanDig (ip ++ '.' :: fp) = (ip, '.' :: fp) :=
      spanDig_append ip _ hd'.2 (by intro c cs h; cases h; decide)
    have hspf : spanDig fp = (fp, []) := by simpa using spanDig_append fp [] hf'.2 (by simp)
    simp only [matchNum, hs, hsp, hspf]
    rw [if_neg (by simpa using hd'.1), if_neg (by simpa using hf'.1)]

/-- A quoted string of more than two characters and its contents. -/
theorem quoted_iff (name s : List Char) (hs : s ≠ []) :
    (¬ (name.length ≤ 2 || !isString name) = true ∧ (name.drop 1).dropLast = s) ↔ name = '"' :: (s ++ ['"']) := by
  constructor
  · rintro ⟨h, rfl⟩
    simp only [isString, Bool.or_eq_true, decide_eq_true_eq, Bool.not_eq_true', not_or, Bool.not_eq_false, Bool.and_eq_true,
      beq_iff_eq, not_le] at h
    obtain ⟨h1, ⟨h2, h3⟩, h4⟩ := h
    cases name with
    | nil => simp at h1
    | cons c cs =>
      simp only [List.head?_cons, Option.some.injEq] at h3
      subst h3
      have hne : cs ≠ [] := by rintro rfl; simp at h1
      rw [List.getLast?_cons, Option.some.injEq, List.getLast?_eq_some_getLast hne, Option.getD_some] at h4
      simp only [List.drop_succ_cons, List.drop_zero]
      rw [← h4, List.dropLast_append_getLast]
  · rintro rfl
    refine ⟨?_, by simp⟩
    have hl : 1 ≤ s.length := List.length_pos_of_ne_nil hs
    simp only [isString, Bool.or_eq_true, decide_eq_true_eq, Bool.not_eq_true', not_or, Bool.not_eq_false, Bool.and_eq_true,
      beq_iff_eq, not_le, List.length_cons, List.length_append, List.length_nil, List.head?_cons, List.getLast?_cons]
    refine ⟨by omega, ⟨by omega, trivial⟩, by simp⟩

/-- C27: `as_num` reads a string as a number iff it is a quoted decimal, and the number is exactly its value. -/
theorem asNum_iff (name : List Char) (q : ℚ) : asNum name = some q ↔ Decimal name q := by
  constructor
  · intro h
    unfold asNum at h
    split at h
    · cases h
    · rename_i hq
      split at h
      · cases h
      · rename_i neg ip fp hm
        cases fp with
        | none =>
          obtain ⟨hd, hs⟩ := (matchNum_none_iff _ _ _).mp hm
          have hne : signStr neg ++ ip ≠ [] := by intro h0; exact hd.1 (List.append_eq_nil_iff.mp h0).2
          refine .int neg ip hd ((quoted_iff name _ hne).mp ⟨hq, hs⟩) ?_
          simp only [Option.some.injEq] at h
          rw [← h, readNat_eq]; rfl
        | some fp =>
          obtain ⟨hd, hf, hs⟩ := (matchNum_some_iff _ _ _ _).mp hm
          have hne : signStr neg ++ ip ++ '.' :: fp ≠ [] := by simp
          refine .frac neg ip fp hd hf ((quoted_iff name _ hne).mp ⟨hq, hs⟩) ?_
          simp only [Option.some.injEq] at h
          rw [← h, frac_value]; rfl
  · rintro (⟨neg, ip, hd, hn, hq⟩ | ⟨neg, ip, fp, hd, hf, hn, hq⟩)
    · have hne : signStr neg ++ ip ≠ [] := by intro h0; exact hd.1 (List.append_eq_nil_iff.mp h0).2
      obtain ⟨h1, h2⟩ := (quoted_iff name _ hne).mpr hn
      have h3 := (matchNum_none_iff _ neg ip).mpr ⟨hd, h2⟩
      unfold asNum
      rw [if_neg h1, h3]
      simp only [readNat_eq, hq]; rfl
    · have hne : signStr neg ++ ip ++ '.' :: fp ≠ [] := by simp
      obtain ⟨h1, h2⟩ := (quoted_iff name _ hne).mpr hn
      have h3 := (matchNum_some_iff _ neg ip fp).mpr ⟨hd, hf, h2⟩
      unfold asNum
      rw [if_neg h1, h3]
      simp only [frac_value, hq]; rfl

/-- A string that is not a quoted decimal is not a number. -/
theorem asNum_none_iff (name : List Char) : asNum name = none ↔ ¬ ∃ q, Decimal name q := by
  rw [Option.eq_none_iff_forall_not_mem]
  constructor
  · rintro h ⟨q, hq⟩; exact h q ((asNum_iff _ _).mpr hq)
  · rintro h q hq; exact h ⟨q, (asNum_iff _ _).mp hq⟩

/-- The value of a decimal is unique. -/
theorem Decimal.unique {name : List Char} {p q : ℚ} (hp : Decimal name p) (hq : Decimal name q) : p = q := by
  have h1 := (asNum_iff _ _).mpr hp
  have h2 := (asNum_iff _ _).mpr hq
  rw [h1] at h2; exact Option.some.inj h2

example : Decimal "\"-12.50\"".toList (-25 / 2) := (asNum_iff _ _).mp (by decide +kernel)
example : ¬ ∃ q, Decimal "\"1.\"".toList q := (asNum_none_iff _).mp (by decide +kernel)

end Lpx
