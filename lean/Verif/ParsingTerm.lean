import Verif.ParsingSpec

/-! # Terms: evaluation and linear expressions (C21, C22, C43) -/

namespace Lpx

theorem bind_ok {α β : Type} {x : Except Err α} {f : α → Except Err β} {b : β} :
    (x >>= f) = .ok b ↔ ∃ a, x = .ok a ∧ f a = .ok b := by
  cases x with
  | error e => simp [bind, Except.bind]
  | ok a => simp [bind, Except.bind]

theorem pure_ok {α : Type} {a b : α} : (pure a : Except Err α) = .ok b ↔ a = b := by simp [pure, Except.pure]

mutual
/-- Induction over terms. -/
theorem TTerm.ind {P : TTerm → Prop} (h1 : ∀ n, P (.number n)) (h2 : ∀ s, P (.symbol s))
    (h3 : ∀ name args, (∀ t ∈ args, P t) → P (.func name args)) (h4 : ∀ args, (∀ t ∈ args, P t) → P (.tuple args))
    (h5 : ∀ args, (∀ t ∈ args, P t) → P (.list args)) (h6 : ∀ args, (∀ t ∈ args, P t) → P (.set args)) : ∀ t, P t
  | .number n => h1 n
  | .symbol s => h2 s
  | .func name args => h3 name args (TTerm.inds h1 h2 h3 h4 h5 h6 args)
  | .tuple args => h4 args (TTerm.inds h1 h2 h3 h4 h5 h6 args)
  | .list args => h5 args (TTerm.inds h1 h2 h3 h4 h5 h6 args)
  | .set args => h6 args (TTerm.inds h1 h2 h3 h4 h5 h6 args)
theorem TTerm.inds {P : TTerm → Prop} (h1 : ∀ n, P (.number n)) (h2 : ∀ s, P (.symbol s))
    (h3 : ∀ name args, (∀ t ∈ args, P t) → P (.func name args)) (h4 : ∀ args, (∀ t ∈ args, P t) → P (.tuple args))
    (h5 : ∀ args, (∀ t ∈ args, P t) → P (.list args)) (h6 : ∀ args, (∀ t ∈ args, P t) → P (.set args)) :
    ∀ ts : List TTerm, ∀ t ∈ ts, P t
  | [], _, h => absurd h (by simp)
  | t :: ts, u, h =>
    (List.mem_cons.mp h).elim (fun e => e ▸ TTerm.ind h1 h2 h3 h4 h5 h6 t)
      (fun e => TTerm.inds h1 h2 h3 h4 h5 h6 ts u e)
end

theorem evaluates_eq (be : Backend) (ns : Bool) (ts : List TTerm) : evaluates be ns ts = ts.map (evaluate be ns) := by
  induction ts with
  | nil => rfl
  | cons t ts ih => rw [evaluates, ih]; rfl

theorem parseSums_eq (be : Backend) (ts : List TTerm) : parseSums be ts = ts.map (parseSum be) := by
  induction ts with
  | nil => rfl
  | cons t ts ih => rw [parseSums, ih]; rfl

theorem binNum_ok {f : ℚ → ℚ → Except Err ℚ} {a b : Except Err Val} {v : Val} :
    binNum f a b = .ok v ↔ ∃ x y z, a = .ok (.rat x) ∧ b = .ok (.rat y) ∧ f x y = .ok z ∧ v = .rat z := by
  unfold binNum
  split
  · simp
  · simp
  · rename_i x y
    cases h : f x y with
    | error e => simp [Except.map, h]
    | ok z => simp [Except.map, h, eq_comm]
  · rename_i h1 h2 h3
    constructor
    · intro h; cases h
    · rintro ⟨x, y, z, rfl, rfl, _⟩; exact (h3 x y rfl rfl).elim

theorem divNum_ok {be : Backend} {x y z : ℚ} : divNum be x y = .ok z ↔ y ≠ 0 ∧ z = x / y := by
  unfold divNum
  by_cases h : y = 0
  · simp [h]
  · simp [h, eq_comm]

theorem negVal_ok {a : Except Err Val} {v : Val} : negVal a = .ok v ↔
    (∃ x, a = .ok (.rat x) ∧ v = .rat (-x)) ∨
    (∃ name args pos, name ≠ [] ∧ a = .ok (.sym (.fn name args pos)) ∧ v = .sym (.fn name args !pos)) := by
  unfold negVal
  split
  · simp
  · simp [eq_comm]
  · rename_i name args pos
    by_cases h : name = []
    · simp [h]
    · rw [if_neg (by simpa using h)]
      constructor
      · intro h2; cases h2; exact .inr ⟨name, args, pos, h, rfl, rfl⟩
      · rintro (⟨x, h1, -⟩ | ⟨_, _, _, -, h1, rfl⟩)
        · cases h1
        · cases h1; rfl
  · rename_i h
    constructor
    · intro h; cases h
    · rintro (⟨x, h1, -⟩ | ⟨name, args, pos, -, h1, -⟩)
      · simp at h1
      · simp only [Except.ok.injEq, Val.sym.injEq] at h1
        exact absurd h1 (by simpa using h name args pos)

theorem asSym_ok {a : Except Err Val} {s : Symbol} : asSym a = .ok s ↔
    (∃ n : ℤ, a = .ok (.rat n) ∧ -2 ^ 31 ≤ n ∧ n < 2 ^ 31 ∧ s = .num n) ∨ a = .ok (.sym s) := by
  unfold asSym
  split
  · simp
  · rename_i x
    have hf : ∀ n : ℤ, fitsInt n = true ↔ -2 ^ 31 ≤ n ∧ n < 2 ^ 31 := by
      intro n
      simp only [fitsInt, Bool.and_eq_true, decide_eq_true_eq]
      omega
    by_cases h : x.den = 1 ∧ fitsInt x.num = true
    · rw [if_pos h]
      have hx : x = (x.num : ℚ) := (Rat.coe_int_num_of_den_eq_one h.1).symm
      have h2 := (hf _).mp h.2
      constructor
      · intro h3; cases h3
        exact .inl ⟨x.num, by rw [← hx], h2.1, h2.2, rfl⟩
      · rintro (⟨n, h3, -, -, rfl⟩ | h3)
        · simp only [Except.ok.injEq, Val.rat.injEq] at h3
          rw [h3]; simp
        · cases h3
    · rw [if_neg h]
      constructor
      · intro h3; cases h3
      · rintro (⟨n, h3, h4, h5, rfl⟩ | h3)
        · simp only [Except.ok.injEq, Val.rat.injEq] at h3
          subst h3
          exact absurd ⟨by simp, (hf _).mpr (by simpa using ⟨h4, h5⟩)⟩ h
        · cases h3
  · simp

theorem isString_iff (name : List Char) : isString name = true ↔ Quoted name := by
  constructor
  · intro h
    simp only [isString, Bool.and_eq_true, decide_eq_true_eq, beq_iff_eq] at h
    obtain ⟨⟨h1, h2⟩, h3⟩ := h
    cases name with
    | nil => simp at h1
    | cons c cs =>
      simp only [List.head?_cons, Option.some.injEq] at h2
      subst h2
      have hne : cs ≠ [] := by rintro rfl; simp at h1
      rw [List.getLast?_cons, Option.some.injEq, List.getLast?_eq_some_getLast hne, Option.getD_some] at h3
      refine ⟨cs.dropLast, ?_⟩
      rw [← h3, List.dropLast_append_getLast]
  · rintro ⟨s, rfl⟩
    simp only [isString, Bool.and_eq_true, decide_eq_true_eq, beq_iff_eq, List.length_cons, List.length_append,
      List.length_nil, List.head?_cons, List.getLast?_cons]
    refine ⟨⟨by omega, trivial⟩, by simp⟩

theorem Decimal.quoted {name : List Char} {q : ℚ} (h : Decimal name q) : Quoted name := by
  rcases h with ⟨neg, ip, -, h, -⟩ | ⟨neg, ip, fp, -, -, h, -⟩
  · exact ⟨_, h⟩
  · exact ⟨_, h⟩

theorem mkFn_ok {name : List Char} {rs : List (Except Err Val)} {v : Val} :
    mkFn name rs = .ok v ↔ ∃ ss, asSyms rs = .ok ss ∧ v = .sym (.fn name ss true) := by
  unfold mkFn
  rw [bind_ok]
  simp only [pure_ok]
  constructor
  · rintro ⟨a, h1, rfl⟩; exact ⟨a, h1, rfl⟩
  · rintro ⟨a, h1, rfl⟩; exact ⟨a, h1, rfl⟩

theorem asSyms_cons {r : Except Err Val} {rs : List (Except Err Val)} {ss : List Symbol} :
    asSyms (r :: rs) = .ok ss ↔ ∃ s ss', asSym r = .ok s ∧ asSyms rs = .ok ss' ∧ ss = s :: ss' := by
  rw [asSyms]
  simp only [bind_ok, pure_ok]
  constructor
  · rintro ⟨s, h1, ss', h2, h3⟩; exact ⟨s, ss', h1, h2, h3.symm⟩
  · rintro ⟨s, ss', h1, h2, h3⟩; exact ⟨s, h1, ss', h2, h3.symm⟩

/-- Arguments, given that the model is right on each of them. -/
theorem asSyms_ok {be : Backend} (ts : List TTerm) (ih : ∀ t ∈ ts, ∀ v, evaluate be false t = .ok v ↔ Denotes false t v) :
    ∀ ss, asSyms (evaluates be false ts) = .ok ss ↔ DenotesArgs ts ss := by
  induction ts with
  | nil =>
    intro ss
    rw [evaluates, asSyms]
    constructor
    · intro h; cases h; exact .nil
    · intro h; cases h; rfl
  | cons t ts ih2 =>
    intro ss
    have iht := ih t (by simp)
    have ihts := ih2 (fun u hu => ih u (by simp [hu]))
    rw [evaluates, asSyms_cons]
    constructor
    · rintro ⟨s, ss', h1, h2, rfl⟩
      rw [ihts] at h2
      rcases asSym_ok.mp h1 with ⟨n, h3, h4, h5, rfl⟩ | h3
      · exact .num _ _ _ _ ((iht _).mp h3) h4 h5 h2
      · exact .sym _ _ _ _ ((iht _).mp h3) h2
    · intro h
      cases h with
      | num _ _ n ss h1 h2 h3 h4 =>
        exact ⟨_, _, asSym_ok.mpr (.inl ⟨n, (iht _).mpr h1, h2, h3, rfl⟩), (ihts _).mpr h4, rfl⟩
      | sym _ _ s ss h1 h2 => exact ⟨_, _, asSym_ok.mpr (.inr ((iht _).mpr h1)), (ihts _).mpr h2, rfl⟩

theorem dropLast_quoted (s : List Char) : (('"' :: (s ++ ['"'])).drop 1).dropLast = s := by simp

/-- `evaluate` computes exactly the denotation of a term, with both number libraries. -/
theorem evaluate_iff (be : Backend) (t : TTerm) : ∀ ns v, evaluate be ns t = .ok v ↔ Denotes ns t v := by
  induction t using TTerm.ind with
  | h1 n =>
    intro ns v
    rw [evaluate]
    constructor
    · intro h; cases h; exact .number _ _
    · intro h; cases h; rfl
  | h2 name =>
    intro ns v
    rw [evaluate]
    by_cases hq : isString name = true
    · rw [if_pos hq]
      have hq' := (isString_iff _).mp hq
      obtain ⟨s, rfl⟩ := hq'
      rw [dropLast_quoted]
      constructor
      · intro h
        split at h
        · rename_i q hq2
          cases h
          cases ns with
          | false => simp at hq2
          | true => exact .decimal _ _ ((asNum_iff _ _).mp (by simpa using hq2))
        · rename_i hq2
          cases h
          refine .string _ _ ?_
          rintro rfl
          exact (asNum_none_iff _).mp (by simpa using hq2)
      · intro h
        generalize hnm : '"' :: (s ++ ['"']) = nm at h
        cases h with
        | decimal _ q hd => rw [if_pos rfl, (asNum_iff _ _).mpr hd]
        | const _ _ hn => exact absurd ⟨s, hnm.symm⟩ hn
        | string _ s2 hn =>
          have hss : s = s2 := by simpa using hnm
          subst hss
          cases ns with
          | false => rfl
          | true => rw [if_pos rfl, (asNum_none_iff _).mpr (hn rfl)]
    · rw [if_neg hq]
      have hq' : ¬ Quoted name := fun h => hq ((isString_iff _).mpr h)
      constructor
      · intro h; cases h; exact .const _ _ hq'
      · intro h
        cases h with
        | decimal _ q hd => exact absurd hd.quoted hq'
        | const _ _ hn => rfl
        | string _ s hn => exact absurd ⟨s, rfl⟩ hq'
  | h3 name args ih =>
    intro ns v
    rw [evaluate]
    have hfn : ¬ Evaluated name args.length → (mkFn name (evaluates be false args) = .ok v ↔ Denotes ns (.func name args) v) := by
      intro hne
      rw [mkFn_ok]
      constructor
      · rintro ⟨ss, h1, rfl⟩
        exact .func _ _ _ _ hne ((asSyms_ok args (fun t ht v => ih t ht false v) ss).mp h1)
      · intro h
        cases h with
        | func _ _ _ ss h1 h2 => exact ⟨ss, (asSyms_ok args (fun t ht v => ih t ht false v) ss).mpr h2, rfl⟩
        | add => exact absurd (.inl ⟨rfl, by simp⟩) hne
        | sub => exact absurd (.inl ⟨rfl, by simp⟩) hne
        | mul => exact absurd (.inl ⟨rfl, by simp⟩) hne
        | div => exact absurd (.inl ⟨rfl, by simp⟩) hne
        | neg => exact absurd (.inr ⟨rfl, rfl⟩) hne
        | cneg => exact absurd (.inr ⟨rfl, rfl⟩) hne
    match args, ih, hfn with
    | [], ih, hfn => exact hfn (by simp [Evaluated])
    | [a], ih, hfn =>
      have iha := ih a (by simp) ns
      simp only [evaluates, evalFn]
      by_cases hn : name = ['-']
      · subst hn
        rw [if_pos rfl, negVal_ok]
        constructor
        · rintro (⟨x, h1, rfl⟩ | ⟨n, as, pos, h0, h1, rfl⟩)
          · exact .neg _ _ _ ((iha _).mp h1)
          · exact .cneg _ _ _ _ _ h0 ((iha _).mp h1)
        · intro h
          cases h with
          | neg _ _ x h1 => exact .inl ⟨x, (iha _).mpr h1, rfl⟩
          | cneg _ _ n as pos h0 h1 => exact .inr ⟨n, as, pos, h0, (iha _).mpr h1, rfl⟩
          | func _ _ _ ss h1 h2 => exact absurd (.inr ⟨rfl, rfl⟩) h1
      · rw [if_neg hn]
        exact hfn (by simp [Evaluated, hn])
    | [a, b], ih, hfn =>
      have iha := ih a (by simp) ns
      have ihb := ih b (by simp) ns
      simp only [evaluates, evalFn]
      by_cases h1 : name = ['+']
      · subst h1
        rw [if_pos rfl, binNum_ok]
        constructor
        · rintro ⟨x, y, z, hx, hy, hz, rfl⟩
          cases hz
          exact .add _ _ _ _ _ ((iha _).mp hx) ((ihb _).mp hy)
        · intro h
          cases h with
          | add _ _ _ x y hx hy => exact ⟨x, y, _, (iha _).mpr hx, (ihb _).mpr hy, rfl, rfl⟩
          | func _ _ _ ss h1 h2 => exact absurd (.inl ⟨rfl, by simp⟩) h1
      rw [if_neg h1]
      by_cases h2 : name = ['-']
      · subst h2
        rw [if_pos rfl, binNum_ok]
        constructor
        · rintro ⟨x, y, z, hx, hy, hz, rfl⟩
          cases hz
          exact .sub _ _ _ _ _ ((iha _).mp hx) ((ihb _).mp hy)
        · intro h
          cases h with
          | sub _ _ _ x y hx hy => exact ⟨x, y, _, (iha _).mpr hx, (ihb _).mpr hy, rfl, rfl⟩
          | func _ _ _ ss h1 h2 => exact absurd (.inl ⟨rfl, by simp⟩) h1
      rw [if_neg h2]
      by_cases h3 : name = ['*']
      · subst h3
        rw [if_pos rfl, binNum_ok]
        constructor
        · rintro ⟨x, y, z, hx, hy, hz, rfl⟩
          cases hz
          exact .mul _ _ _ _ _ ((iha _).mp hx) ((ihb _).mp hy)
        · intro h
          cases h with
          | mul _ _ _ x y hx hy => exact ⟨x, y, _, (iha _).mpr hx, (ihb _).mpr hy, rfl, rfl⟩
          | func _ _ _ ss h1 h2 => exact absurd (.inl ⟨rfl, by simp⟩) h1
      rw [if_neg h3]
      by_cases h4 : name = ['/']
      · subst h4
        rw [if_pos rfl, binNum_ok]
        constructor
        · rintro ⟨x, y, z, hx, hy, hz, rfl⟩
          obtain ⟨hz1, rfl⟩ := divNum_ok.mp hz
          exact .div _ _ _ _ _ ((iha _).mp hx) ((ihb _).mp hy) hz1
        · intro h
          cases h with
          | div _ _ _ x y hx hy hy0 => exact ⟨x, y, _, (iha _).mpr hx, (ihb _).mpr hy, divNum_ok.mpr ⟨hy0, rfl⟩, rfl⟩
          | func _ _ _ ss h1 h2 => exact absurd (.inl ⟨rfl, by simp⟩) h1
      rw [if_neg h4]
      by_cases h5 : name = ['.', '.']
      · subst h5
        rw [if_pos rfl]
        constructor
        · intro h; cases h
        · intro h
          cases h with
          | func _ _ _ ss h1 h2 => exact absurd (.inl ⟨rfl, by simp⟩) h1
      rw [if_neg h5]
      exact hfn (by simp [Evaluated, h1, h2, h3, h4, h5])
    | a :: b :: c :: ts, ih, hfn =>
      simp only [evaluates, evalFn]
      have := hfn (by simp [Evaluated])
      simpa only [evaluates] using this
  | h4 args ih =>
    intro ns v
    rw [evaluate, mkFn_ok]
    constructor
    · rintro ⟨ss, h1, rfl⟩
      exact .tuple _ _ _ ((asSyms_ok args (fun t ht v => ih t ht false v) ss).mp h1)
    · intro h
      cases h with
      | tuple _ _ ss h1 => exact ⟨ss, (asSyms_ok args (fun t ht v => ih t ht false v) ss).mpr h1, rfl⟩
  | h5 args ih =>
    intro ns v
    rw [evaluate]
    constructor
    · intro h; cases h
    · intro h; cases h
  | h6 args ih =>
    intro ns v
    rw [evaluate]
    constructor
    · intro h; cases h
    · intro h; cases h

/-- The denotation of a term is unique. -/
theorem Denotes.unique {ns : Bool} {t : TTerm} {v w : Val} (hv : Denotes ns t v) (hw : Denotes ns t w) : v = w := by
  have h1 := (evaluate_iff .imath t ns v).mpr hv
  have h2 := (evaluate_iff .imath t ns w).mpr hw
  rw [h1] at h2; exact Except.ok.inj h2

theorem evaluateVar_iff (be : Backend) (t : TTerm) (s : Symbol) : evaluateVar be t = .ok s ↔ Denotes false t (.sym s) := by
  rw [← evaluate_iff be]
  unfold evaluateVar
  split <;> simp_all

theorem evaluateNum_iff (be : Backend) (t : TTerm) (q : ℚ) : evaluateNum be t = .ok q ↔ Denotes true t (.rat q) := by
  rw [← evaluate_iff be]
  unfold evaluateNum
  split <;> simp_all

/-- Symbols denoted by terms are never numbers. -/
theorem Denotes.userSym {ns : Bool} {t : TTerm} {s : Symbol} (h : Denotes ns t (.sym s)) : UserSym s := by
  intro n
  cases h <;> simp

theorem UserSym.invalid {s : Symbol} (h : UserSym s) : isInvalid s = false := by
  cases s with
  | num n => exact absurd rfl (h n)
  | _ => rfl

theorem UserSym.ne_cst {s : Symbol} (h : UserSym s) : s ≠ cst := h 0

theorem isInvalid_iff (s : Symbol) : isInvalid s = true ↔ s = cst := by
  cases s <;> simp [isInvalid, cst]

end Lpx
