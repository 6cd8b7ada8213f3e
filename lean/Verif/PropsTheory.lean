import Verif.Theory
import Verif.PropsUnmixed

/-!
# The theory definitions (C49, C50)
-/

set_option linter.unusedSectionVars false

namespace Lpx.Props
open Lpx Lpx.Witness

/-! ### C50: reading terms -/

/-- Tokens. -/
inductive Tok where
  | op (name : List Char)
  | term (t : TTerm)

/-- The tokens of a term as written. -/
def Unparsed.toks (u : Unparsed) : List Tok :=
  u.ops.map .op ++ [.term u.head] ++ u.rest.flatMap fun e => .op e.1 :: e.2.1.map .op ++ [.term e.2.2]

/-- The conventional grammar: `range ::= range .. sum | sum`, `sum ::= sum + product | sum - product | product`, `product ::= product * factor |
product / factor | factor`, `factor ::= - factor | operand`; the levels 0, 1, 2 and 3 stand for range, sum, product and factor. -/
inductive Reads : ℕ → List Tok → TTerm → Prop
  | operand (t) : Reads 3 [.term t] t
  | neg {ts t} : Reads 3 ts t → Reads 3 (.op ['-'] :: ts) (.func ['-'] [t])
  | mul {ts ts' a b} : Reads 2 ts a → Reads 3 ts' b → Reads 2 (ts ++ .op ['*'] :: ts') (.func ['*'] [a, b])
  | div {ts ts' a b} : Reads 2 ts a → Reads 3 ts' b → Reads 2 (ts ++ .op ['/'] :: ts') (.func ['/'] [a, b])
  | add {ts ts' a b} : Reads 1 ts a → Reads 2 ts' b → Reads 1 (ts ++ .op ['+'] :: ts') (.func ['+'] [a, b])
  | sub {ts ts' a b} : Reads 1 ts a → Reads 2 ts' b → Reads 1 (ts ++ .op ['-'] :: ts') (.func ['-'] [a, b])
  | range {ts ts' a b} : Reads 0 ts a → Reads 1 ts' b → Reads 0 (ts ++ .op ['.', '.'] :: ts') (.func ['.', '.'] [a, b])
  | up {k ts t} : Reads (k + 1) ts t → Reads k ts t

/-- One token; the flag tells whether a unary operator or an operand is expected. -/
def stepTok (ops : List OpDef) : Bool × List Item → Tok → Option (Bool × List Item)
  | (true, st), .op n => (findOp ops n true).map fun o => (true, .op o :: st)
  | (false, st), .op n => (findOp ops n false).bind fun o => (reduceWhile o st.length st).map fun st => (true, .op o :: st)
  | (_, st), .term t => some (false, .term t :: st)

/-- All tokens. -/
def runToks (ops : List OpDef) : Bool × List Item → List Tok → Option (Bool × List Item)
  | s, [] => some s
  | s, t :: ts => (stepTok ops s t).bind fun s => runToks ops s ts

theorem runToks_append (ops : List OpDef) (ts ts' : List Tok) : ∀ s, runToks ops s (ts ++ ts') = (runToks ops s ts).bind fun s => runToks ops s ts' := by
  induction ts with
  | nil => intro s; rfl
  | cons t ts ih =>
    intro s
    simp only [List.cons_append, runToks]
    cases stepTok ops s t with
    | none => rfl
    | some s' => simp [ih]

theorem pushUnary_eq (ops : List OpDef) (us : List (List Char)) (tl : List Tok) : ∀ st,
    runToks ops (true, st) (us.map .op ++ tl) = (pushUnary ops us st).bind fun st => runToks ops (true, st) tl := by
  induction us with
  | nil => intro st; rfl
  | cons u us ih =>
    intro st
    simp only [List.map_cons, List.cons_append, runToks, stepTok, pushUnary]
    cases findOp ops u true with
    | none => rfl
    | some o => simp [ih]

theorem pushRest_eq (ops : List OpDef) (es : List (List Char × List (List Char) × TTerm)) : ∀ st,
    runToks ops (false, st) (es.flatMap fun e => .op e.1 :: e.2.1.map .op ++ [.term e.2.2]) = (pushRest ops es st).map fun st => (false, st) := by
  induction es with
  | nil => intro st; rfl
  | cons e es ih =>
    intro st
    obtain ⟨b, us, t⟩ := e
    simp only [List.flatMap_cons, List.cons_append, List.append_assoc, runToks, stepTok, pushRest]
    cases findOp ops b false with
    | none => rfl
    | some o =>
      simp only [Option.bind_some, Option.bind_eq_bind]
      cases reduceWhile o st.length st with
      | none => rfl
      | some st =>
        simp only [Option.map_some, Option.bind_some]
        rw [pushUnary_eq]
        cases pushUnary ops us (.op o :: st) with
        | none => rfl
        | some st =>
          have := ih (.term t :: st)
          simp only [List.cons_append] at this
          simp [runToks, stepTok, this]

/-- The only term on the stack. -/
def topTerm : List Item → Option TTerm
  | [.term t] => some t
  | _ => none

/-- The parser in terms of tokens. -/
theorem readTerm_eq (ops : List OpDef) (u : Unparsed) : readTerm ops u =
    ((runToks ops (true, []) (Unparsed.toks u)).bind fun s => (reduceAll s.2.length s.2).bind topTerm) := by
  unfold readTerm Unparsed.toks
  rw [List.append_assoc, pushUnary_eq]
  simp only [Option.bind_eq_bind]
  cases pushUnary ops u.ops [] with
  | none => rfl
  | some st =>
    simp only [Option.bind_some, List.cons_append, List.nil_append, runToks, stepTok]
    have := pushRest_eq ops u.rest (.term u.head :: st)
    simp only [List.cons_append] at this
    rw [this]
    cases pushRest ops u.rest (.term u.head :: st) <;> rfl

theorem reduceTop_length {st st' : List Item} (h : reduceTop st = some st') : st'.length < st.length := by
  unfold reduceTop at h
  repeat' split at h
  all_goals first | (cases h; done) | skip
  all_goals
    simp only [Option.some.injEq] at h
    subst h
    simp

/-- More fuel does not change the result. -/
theorem reduceWhile_fuel (o : OpDef) : ∀ (n m : ℕ) (st : List Item), st.length ≤ n → st.length ≤ m → reduceWhile o n st = reduceWhile o m st := by
  have nil : ∀ m (st : List Item), st.length = 0 → reduceWhile o m st = some st := by
    intro m st h
    rw [List.length_eq_zero_iff] at h
    subst h
    cases m <;> simp [reduceWhile, mustReduce]
  intro n
  induction n with
  | zero => intro m st h _; rw [nil _ _ (by omega), nil _ _ (by omega)]
  | succ n ih =>
    intro m st h1 h2
    cases m with
    | zero => rw [nil _ _ (by omega), nil _ _ (by omega)]
    | succ m =>
      simp only [reduceWhile]
      split
      · cases hr : reduceTop st with
        | none => rfl
        | some st' =>
          have := reduceTop_length hr
          exact ih m st' (by omega) (by omega)
      · rfl

theorem reduceAll_fuel : ∀ (n m : ℕ) (st : List Item), st.length ≤ n → st.length ≤ m → reduceAll n st = reduceAll m st := by
  have nil : ∀ m (st : List Item), st.length = 0 → reduceAll m st = some st := by
    intro m st h
    rw [List.length_eq_zero_iff] at h
    subst h
    cases m <;> simp [reduceAll]
  intro n
  induction n with
  | zero => intro m st h _; rw [nil _ _ (by omega), nil _ _ (by omega)]
  | succ n ih =>
    intro m st h1 h2
    cases m with
    | zero => rw [nil _ _ (by omega), nil _ _ (by omega)]
    | succ m =>
      simp only [reduceAll]
      split
      · cases hr : reduceTop st with
        | none => rfl
        | some st' =>
          have := reduceTop_length hr
          exact ih m st' (by omega) (by omega)
      · rfl

/-- Reducing with enough fuel. -/
def rw' (o : OpDef) (st : List Item) : Option (List Item) := reduceWhile o st.length st
/-- Reducing everything. -/
def ra (st : List Item) : Option (List Item) := reduceAll st.length st

theorem rw'_step {o : OpDef} {st st' : List Item} (h : mustReduce o st = true) (hr : reduceTop st = some st') : rw' o st = rw' o st' := by
  have hl := reduceTop_length hr
  unfold rw'
  rw [reduceWhile_fuel o st.length (st.length + 1) st le_rfl (by omega)]
  simp only [reduceWhile, h, if_true, hr, Option.bind_some]
  exact reduceWhile_fuel o _ _ _ (by omega) le_rfl

theorem rw'_stop {o : OpDef} {st : List Item} (h : mustReduce o st = false) : rw' o st = some st := by
  unfold rw'
  cases st with
  | nil => rfl
  | cons a st => simp [reduceWhile, h]

theorem ra_step {st st' : List Item} (hr : reduceTop st = some st') : ra st = ra st' := by
  have hl := reduceTop_length hr
  have h2 : st.length > 1 := by
    unfold reduceTop at hr
    split at hr
    · simp
    · cases hr
  unfold ra
  rw [reduceAll_fuel st.length (st.length + 1) st le_rfl (by omega)]
  simp only [reduceAll, h2, if_true, hr, Option.bind_some]
  exact reduceAll_fuel _ _ _ (by omega) le_rfl

/-- A stack that expects an operand such that no binary operator of level `k` or more reduces its top. -/
def Expects (k : ℕ) : List Item → Prop
  | [] => True
  | .op o :: _ => o.prio < k ∨ k = 3
  | .term _ :: _ => False

theorem Expects.mono {k l : ℕ} (h : k ≤ l) (hl : l ≤ 3) {st : List Item} (he : Expects k st) : Expects l st := by
  cases st with
  | nil => trivial
  | cons a st =>
    cases a with
    | term t => exact he
    | op o =>
      rcases he with he | he
      · exact .inl (by omega)
      · exact .inr (by omega)

/-- Facts about a table: priorities agree with the levels. -/
structure Table (ops : List OpDef) (lo : ℕ) : Prop where
  neg : ∃ o, findOp ops ['-'] true = some o ∧ o.prio = 3 ∧ o.unary = true ∧ o.name = ['-']
  una : ∀ n o, findOp ops n true = some o → n = ['-']
  bin : ∀ n o, findOp ops n false = some o → o.name = n ∧ o.unary = false ∧ o.left = true ∧ o.prio ≤ 2 ∧ lo ≤ o.prio
  mul : ∃ o, findOp ops ['*'] false = some o ∧ o.prio = 2
  div : ∃ o, findOp ops ['/'] false = some o ∧ o.prio = 2
  add : ∃ o, findOp ops ['+'] false = some o ∧ o.prio = 1
  sub : ∃ o, findOp ops ['-'] false = some o ∧ o.prio = 1
  rng : lo = 0 → ∃ o, findOp ops ['.', '.'] false = some o ∧ o.prio = 0
  all : ∀ n o, findOp ops n false = some o → (n = ['*'] ∨ n = ['/']) ∨ (n = ['+'] ∨ n = ['-']) ∨ (lo = 0 ∧ n = ['.', '.'])

theorem findOp_mem {ops : List OpDef} {n : List Char} {b : Bool} {o : OpDef} (h : findOp ops n b = some o) : o ∈ ops ∧ o.name = n ∧ o.unary = b := by
  unfold findOp at h
  refine ⟨List.mem_of_find?_eq_some h, ?_⟩
  have := List.find?_some h
  simpa using this

theorem sumTable : Table sumTerm 1 where
  neg := ⟨_, rfl, rfl, rfl, rfl⟩
  una n o h := by
    obtain ⟨h1, h2, h3⟩ := findOp_mem h
    simp only [sumTerm, List.mem_cons, List.not_mem_nil, or_false] at h1
    rcases h1 with rfl | rfl | rfl | rfl | rfl <;> simp_all
  bin n o h := by
    obtain ⟨h1, h2, h3⟩ := findOp_mem h
    simp only [sumTerm, List.mem_cons, List.not_mem_nil, or_false] at h1
    rcases h1 with rfl | rfl | rfl | rfl | rfl <;> simp_all
  mul := ⟨_, rfl, rfl⟩
  div := ⟨_, rfl, rfl⟩
  add := ⟨_, rfl, rfl⟩
  sub := ⟨_, rfl, rfl⟩
  rng h := by cases h
  all n o h := by
    obtain ⟨h1, h2, h3⟩ := findOp_mem h
    simp only [sumTerm, List.mem_cons, List.not_mem_nil, or_false] at h1
    rcases h1 with rfl | rfl | rfl | rfl | rfl <;> simp_all

theorem domTable : Table domTerm 0 where
  neg := ⟨_, rfl, rfl, rfl, rfl⟩
  una n o h := by
    obtain ⟨h1, h2, h3⟩ := findOp_mem h
    simp only [domTerm, List.mem_cons, List.not_mem_nil, or_false] at h1
    rcases h1 with rfl | rfl | rfl | rfl | rfl | rfl <;> simp_all
  bin n o h := by
    obtain ⟨h1, h2, h3⟩ := findOp_mem h
    simp only [domTerm, List.mem_cons, List.not_mem_nil, or_false] at h1
    rcases h1 with rfl | rfl | rfl | rfl | rfl | rfl <;> simp_all
  mul := ⟨_, rfl, rfl⟩
  div := ⟨_, rfl, rfl⟩
  add := ⟨_, rfl, rfl⟩
  sub := ⟨_, rfl, rfl⟩
  rng _ := ⟨_, rfl, rfl⟩
  all n o h := by
    obtain ⟨h1, h2, h3⟩ := findOp_mem h
    simp only [domTerm, List.mem_cons, List.not_mem_nil, or_false] at h1
    rcases h1 with rfl | rfl | rfl | rfl | rfl | rfl <;> simp_all

/-- The stack after reading the tokens of a subterm of level `k` is as good as the stack with the subterm on top. -/
def Done (ops : List OpDef) (k : ℕ) (st : List Item) (ts : List Tok) (t : TTerm) : Prop :=
  ∃ st', runToks ops (true, st) ts = some (false, st') ∧ (∀ n o, findOp ops n false = some o → o.prio ≤ k → rw' o st' = rw' o (.term t :: st)) ∧
    ra st' = ra (.term t :: st)

theorem done_bin {ops : List OpDef} {lo : ℕ} (T : Table ops lo) {k : ℕ} {n : List Char} {o : OpDef} (hk : k < 3) (ho : findOp ops n false = some o)
    (hp : o.prio = k) {st : List Item} (he : Expects k st) {ts ts' : List Tok} {a b : TTerm} (h1 : Done ops k st ts a)
    (h2 : ∀ st, Expects (k + 1) st → Done ops (k + 1) st ts' b) : Done ops k st (ts ++ .op n :: ts') (.func n [a, b]) := by
  obtain ⟨hn, hu, hl, -, -⟩ := T.bin n o ho
  obtain ⟨s1, r1, w1, -⟩ := h1
  obtain ⟨s2, r2, w2, f2⟩ := h2 (.op o :: .term a :: st) (.inl (by omega))
  have hred : reduceTop (.term b :: .op o :: .term a :: st) = some (.term (.func n [a, b]) :: st) := by
    simp [reduceTop, hu, hn]
  refine ⟨s2, ?_, fun m q hq hle => ?_, ?_⟩
  · rw [runToks_append, r1]
    simp only [Option.bind_some, runToks, stepTok, ho]
    have : reduceWhile o s1.length s1 = some (.term a :: st) := by
      have := w1 n o ho hp.le
      unfold rw' at this
      rw [this]
      refine rw'_stop ?_
      unfold mustReduce
      cases st with
      | nil => rfl
      | cons x st =>
        cases x with
        | term t => exact absurd he id
        | op q =>
          rcases he with he | he
          · simp only [Bool.or_eq_false_iff, Bool.and_eq_false_iff, decide_eq_false_iff_not]
            exact ⟨by omega, .inl (by omega)⟩
          · omega
    rw [this]
    simpa using r2
  · rw [w2 m q hq (by omega)]
    refine rw'_step ?_ hred
    unfold mustReduce
    have := (T.bin m q hq).2.2.1
    simp only [Bool.or_eq_true, Bool.and_eq_true, decide_eq_true_eq, this, and_true]
    omega
  · rw [f2]; exact ra_step hred

theorem reads_done {ops : List OpDef} {lo : ℕ} (T : Table ops lo) {k : ℕ} {ts : List Tok} {t : TTerm} (h : Reads k ts t) :
    lo ≤ k → ∀ st, Expects k st → Done ops k st ts t := by
  induction h with
  | operand t => exact fun _ st _ => ⟨.term t :: st, rfl, fun _ _ _ _ => rfl, rfl⟩
  | @neg ts t _ ih =>
    intro hk st he
    obtain ⟨o, ho, hp, hu, hn⟩ := T.neg
    obtain ⟨s', r1, w1, f1⟩ := ih hk (.op o :: st) (.inr rfl)
    have hred : reduceTop (.term t :: .op o :: st) = some (.term (.func ['-'] [t]) :: st) := by simp [reduceTop, hu, hn]
    refine ⟨s', ?_, fun m q hq hle => ?_, ?_⟩
    · simp only [runToks, stepTok, ho, Option.map_some, Option.bind_some, r1]
    · rw [w1 m q hq hle]
      refine rw'_step ?_ hred
      unfold mustReduce
      have := (T.bin m q hq).2.2.2.1
      simp only [Bool.or_eq_true, Bool.and_eq_true, decide_eq_true_eq]
      omega
    · rw [f1]; exact ra_step hred
  | mul _ _ ih1 ih2 =>
    intro hk st he
    obtain ⟨o, ho, hp⟩ := T.mul
    exact done_bin T (by omega) ho hp he (ih1 hk st he) fun st hs => ih2 (by omega) st hs
  | div _ _ ih1 ih2 =>
    intro hk st he
    obtain ⟨o, ho, hp⟩ := T.div
    exact done_bin T (by omega) ho hp he (ih1 hk st he) fun st hs => ih2 (by omega) st hs
  | add _ _ ih1 ih2 =>
    intro hk st he
    obtain ⟨o, ho, hp⟩ := T.add
    exact done_bin T (by omega) ho hp he (ih1 hk st he) fun st hs => ih2 (by omega) st hs
  | sub _ _ ih1 ih2 =>
    intro hk st he
    obtain ⟨o, ho, hp⟩ := T.sub
    exact done_bin T (by omega) ho hp he (ih1 hk st he) fun st hs => ih2 (by omega) st hs
  | range _ _ ih1 ih2 =>
    intro hk st he
    obtain ⟨o, ho, hp⟩ := T.rng (by omega)
    exact done_bin T (by omega) ho hp he (ih1 hk st he) fun st hs => ih2 (by omega) st hs
  | @up k ts t h ih =>
    intro hk st he
    have h3 : k + 1 ≤ 3 := by
      clear ih he hk
      generalize hj : k + 1 = j at h
      clear hj
      induction h <;> omega
    obtain ⟨s', r1, w1, f1⟩ := ih (by omega) st (he.mono (by omega) h3)
    exact ⟨s', r1, fun n o ho hle => w1 n o ho (by omega), f1⟩

/-- A conventional reading is found. -/
theorem readTerm_of_reads {ops : List OpDef} {lo : ℕ} (T : Table ops lo) {u : Unparsed} {t : TTerm} (h : Reads lo (Unparsed.toks u) t) :
    readTerm ops u = some t := by
  obtain ⟨s', r1, -, f1⟩ := reads_done T h le_rfl [] trivial
  rw [readTerm_eq, r1]
  simp only [Option.bind_eq_bind, Option.bind_some]
  have : reduceAll s'.length s' = some [.term t] := by
    unfold ra at f1
    rw [f1]; rfl
  rw [this]
  rfl

/-! Every sequence with known operators has a reading. -/

/-- The tokens read so far end with a product that can still grow. -/
def OpenSum (ts : List Tok) : Prop :=
  ∃ pre b t, ts = pre ++ b ∧ Reads 2 b t ∧ ∀ b' t', Reads 2 b' t' → ∃ t'', Reads 1 (pre ++ b') t''

/-- The tokens read so far end with a sum that can still grow. -/
def OpenRange (ts : List Tok) : Prop := ∃ pre b, ts = pre ++ b ∧ OpenSum b ∧ ∀ b' t', Reads 1 b' t' → ∃ t'', Reads 0 (pre ++ b') t''

theorem OpenSum.reads {ts : List Tok} (h : OpenSum ts) : ∃ t, Reads 1 ts t := by
  obtain ⟨pre, b, t, rfl, h1, h2⟩ := h
  exact h2 b t h1

theorem OpenSum.start {ts : List Tok} {t : TTerm} (h : Reads 3 ts t) : OpenSum ts :=
  ⟨[], ts, t, rfl, h.up, fun _ t' h => ⟨t', h.up⟩⟩

theorem OpenSum.mul {ts ts' : List Tok} {t : TTerm} {n : List Char} (h : OpenSum ts) (hn : n = ['*'] ∨ n = ['/']) (h3 : Reads 3 ts' t) :
    OpenSum (ts ++ .op n :: ts') := by
  obtain ⟨pre, b, a, rfl, h1, h2⟩ := h
  refine ⟨pre, b ++ .op n :: ts', .func n [a, t], by simp, ?_, h2⟩
  rcases hn with rfl | rfl
  · exact h1.mul h3
  · exact h1.div h3

theorem OpenSum.add {ts ts' : List Tok} {t : TTerm} {n : List Char} (h : OpenSum ts) (hn : n = ['+'] ∨ n = ['-']) (h3 : Reads 3 ts' t) :
    OpenSum (ts ++ .op n :: ts') := by
  obtain ⟨a, ha⟩ := h.reads
  refine ⟨ts ++ [.op n], ts', t, by simp, h3.up, fun b' t' hb => ?_⟩
  rw [List.append_assoc, List.singleton_append]
  rcases hn with rfl | rfl
  · exact ⟨_, ha.add hb⟩
  · exact ⟨_, ha.sub hb⟩

theorem OpenRange.reads {ts : List Tok} (h : OpenRange ts) : ∃ t, Reads 0 ts t := by
  obtain ⟨pre, b, rfl, h1, h2⟩ := h
  obtain ⟨t, ht⟩ := h1.reads
  exact h2 b t ht

theorem OpenRange.range {ts ts' : List Tok} {t : TTerm} (h : OpenRange ts) (h3 : Reads 3 ts' t) : OpenRange (ts ++ .op ['.', '.'] :: ts') := by
  obtain ⟨a, ha⟩ := h.reads
  refine ⟨ts ++ [.op ['.', '.']], ts', by simp, .start h3, fun b' t' hb => ?_⟩
  rw [List.append_assoc, List.singleton_append]
  exact ⟨_, ha.range hb⟩

/-- Operands with unary operators. -/
theorem reads_unary {ops : List OpDef} {lo : ℕ} (T : Table ops lo) (t : TTerm) : ∀ (us : List (List Char)) (st st' : List Item),
    pushUnary ops us st = some st' → ∃ r, Reads 3 (us.map .op ++ [.term t]) r := by
  intro us
  induction us with
  | nil => intro _ _ _; exact ⟨t, .operand t⟩
  | cons u us ih =>
    intro st st' h
    simp only [pushUnary, Option.bind_eq_some_iff] at h
    obtain ⟨o, ho, h⟩ := h
    obtain ⟨r, hr⟩ := ih _ _ h
    obtain rfl := T.una u o ho
    exact ⟨_, hr.neg⟩

theorem reads_sum {ops : List OpDef} (T : Table ops 1) : ∀ (es : List (List Char × List (List Char) × TTerm)) (st st' : List Item) (ts : List Tok),
    pushRest ops es st = some st' → OpenSum ts → OpenSum (ts ++ es.flatMap fun e => .op e.1 :: e.2.1.map .op ++ [.term e.2.2]) := by
  intro es
  induction es with
  | nil => intro st st' ts _ h; simpa using h
  | cons e es ih =>
    obtain ⟨n, us, t⟩ := e
    intro st st' ts h ho
    simp only [pushRest, Option.bind_eq_bind, Option.bind_eq_some_iff] at h
    obtain ⟨o, h1, s1, h2, s2, h3, h⟩ := h
    obtain ⟨r, hr⟩ := reads_unary T t us _ _ h3
    have := ih _ _ (ts ++ .op n :: (us.map .op ++ [.term t])) h (by
      rcases T.all n o h1 with hn | hn | ⟨hn, -⟩
      · exact ho.mul hn hr
      · exact ho.add hn hr
      · cases hn)
    simpa using this

theorem reads_range {ops : List OpDef} (T : Table ops 0) : ∀ (es : List (List Char × List (List Char) × TTerm)) (st st' : List Item) (ts : List Tok),
    pushRest ops es st = some st' → OpenRange ts → OpenRange (ts ++ es.flatMap fun e => .op e.1 :: e.2.1.map .op ++ [.term e.2.2]) := by
  intro es
  induction es with
  | nil => intro st st' ts _ h; simpa using h
  | cons e es ih =>
    obtain ⟨n, us, t⟩ := e
    intro st st' ts h ho
    simp only [pushRest, Option.bind_eq_bind, Option.bind_eq_some_iff] at h
    obtain ⟨o, h1, s1, h2, s2, h3, h⟩ := h
    obtain ⟨r, hr⟩ := reads_unary T t us _ _ h3
    have := ih _ _ (ts ++ .op n :: (us.map .op ++ [.term t])) h (by
      rcases T.all n o h1 with hn | hn | ⟨-, rfl⟩
      · obtain ⟨pre, b, rfl, k1, k2⟩ := ho
        exact ⟨pre, b ++ .op n :: (us.map .op ++ [.term t]), by simp, k1.mul hn hr, k2⟩
      · obtain ⟨pre, b, rfl, k1, k2⟩ := ho
        exact ⟨pre, b ++ .op n :: (us.map .op ++ [.term t]), by simp, k1.add hn hr, k2⟩
      · exact ho.range hr)
    simpa using this

theorem readTerm_reads_sum {u : Unparsed} {t : TTerm} (h : readTerm sumTerm u = some t) : ∃ t, Reads 1 (Unparsed.toks u) t := by
  unfold readTerm at h
  simp only [Option.bind_eq_bind, Option.bind_eq_some_iff] at h
  obtain ⟨s1, h1, s2, h2, -⟩ := h
  obtain ⟨r, hr⟩ := reads_unary sumTable u.head u.ops _ _ h1
  exact (reads_sum sumTable u.rest _ _ _ h2 (.start hr)).reads

theorem readTerm_reads_range {u : Unparsed} {t : TTerm} (h : readTerm domTerm u = some t) : ∃ t, Reads 0 (Unparsed.toks u) t := by
  unfold readTerm at h
  simp only [Option.bind_eq_bind, Option.bind_eq_some_iff] at h
  obtain ⟨s1, h1, s2, h2, -⟩ := h
  obtain ⟨r, hr⟩ := reads_unary domTable u.head u.ops _ _ h1
  exact (reads_range domTable u.rest _ _ _ h2 ⟨[], _, rfl, .start hr, fun _ t' h => ⟨t', h.up⟩⟩).reads

/-- C50: terms in `&sum`, `&diff`, `&minimize` and `&maximize` are read with the conventional precedence and associativity: the
term that clingo builds from the operator table is the one of the conventional grammar, and terms without a conventional reading are rejected. -/
theorem C50_sum_terms (u : Unparsed) (t : TTerm) : readTerm sumTerm u = some t ↔ Reads 1 (Unparsed.toks u) t := by
  constructor
  · intro h
    obtain ⟨t', h'⟩ := readTerm_reads_sum h
    have := readTerm_of_reads sumTable h'
    obtain rfl := Option.some.inj (h.symm.trans this)
    exact h'
  · exact readTerm_of_reads sumTable

/-- C50: the same for `&dom`, with ranges on the outermost level. -/
theorem C50_dom_terms (u : Unparsed) (t : TTerm) : readTerm domTerm u = some t ↔ Reads 0 (Unparsed.toks u) t := by
  constructor
  · intro h
    obtain ⟨t', h'⟩ := readTerm_reads_range h
    have := readTerm_of_reads domTable h'
    obtain rfl := Option.some.inj (h.symm.trans this)
    exact h'
  · exact readTerm_of_reads domTable

/-- `- x * 2 - y / 4 - z`. -/
def sampleTerm : Unparsed :=
  ⟨[['-']], .symbol ['x'], [(['*'], [], .number 2), (['-'], [], .symbol ['y']), (['/'], [], .number 4), (['-'], [], .symbol ['z'])]⟩

/-- It is read as `(((-x) * 2) - (y / 4)) - z`, and terms with the unary plus are rejected. -/
example : readTerm sumTerm sampleTerm = some (.func ['-'] [.func ['-'] [.func ['*'] [.func ['-'] [.symbol ['x']], .number 2],
      .func ['/'] [.symbol ['y'], .number 4]], .symbol ['z']]) ∧
    readTerm sumTerm ⟨[['+']], .symbol ['x'], []⟩ = none ∧
    readTerm domTerm ⟨[], .number 1, [(['+'], [], .number 2), (['.', '.'], [], .number 4)]⟩ =
      some (.func ['.', '.'] [.func ['+'] [.number 1, .number 2], .number 4]) := ⟨rfl, rfl, rfl⟩

/-! ### C49: admitted atoms -/

section
variable {be : Backend} {mapper : ℤ → ℤ} {P : Relation → Prop} {q q' : Prog}

theorem condTerms_rels (he : P .eq) {c : ℤ} : ∀ {ts : List (Term Symbol)} {q : Prog} {r : Prog × List (Term Symbol)},
    condTerms mapper c ts q = .ok r → (∀ x ∈ q.iqs, P x.rel) → ∀ x ∈ r.1.iqs, P x.rel := by
  intro ts
  induction ts with
  | nil => intro q r h hq; rw [condTerms] at h; cases h; exact hq
  | cons t ts ih =>
    intro q r h hq
    rw [condTerms] at h
    obtain ⟨r1, h1, h⟩ := bind_ok.mp h
    obtain ⟨r2, h2, h⟩ := bind_ok.mp h
    rw [pure_ok] at h; subst h
    refine ih (r := r2) h2 ?_
    unfold condTerm at h1
    obtain ⟨n, -, h1⟩ := bind_ok.mp h1
    split at h1
    · rw [pure_ok] at h1; subst h1; exact hq
    · rw [pure_ok] at h1; subst h1
      intro x hx
      rcases List.mem_append.1 hx with hx | hx
      · exact hq x hx
      · simp only [List.mem_cons, List.not_mem_nil, or_false] at hx
        rcases hx with rfl | rfl <;> exact he

theorem parseElems_rels (he : P .eq) : ∀ {es : List Elem} {q : Prog} {r : Prog × List (Term Symbol)},
    parseElems be mapper es q = .ok r → (∀ x ∈ q.iqs, P x.rel) → ∀ x ∈ r.1.iqs, P x.rel := by
  intro es
  induction es with
  | nil => intro q r h hq; rw [parseElems] at h; cases h; exact hq
  | cons e es ih =>
    intro q r h hq
    rw [parseElems] at h
    obtain ⟨r1, h1, h⟩ := bind_ok.mp h
    obtain ⟨r2, h2, h⟩ := bind_ok.mp h
    rw [pure_ok] at h; subst h
    refine ih (r := r2) h2 ?_
    unfold parseElem at h1
    split at h1
    · obtain ⟨ts, -, h1⟩ := bind_ok.mp h1
      split at h1
      · rw [pure_ok] at h1; subst h1; exact hq
      · exact condTerms_rels he h1 hq
    · cases h1

theorem addIneq_rels {a : TAtom} {gd : String × TTerm} {lhs : List (Term Symbol)} (hg : ∀ r, evaluateCmp gd.1 = .ok r → P r)
    (h : addIneq be mapper a gd q lhs = .ok q') (hq : ∀ x ∈ q.iqs, P x.rel) : ∀ x ∈ q'.iqs, P x.rel := by
  unfold addIneq at h
  obtain ⟨t, -, h⟩ := bind_ok.mp h
  obtain ⟨rel, h2, h⟩ := bind_ok.mp h
  rw [pure_ok] at h; subst h
  intro x hx
  rcases List.mem_append.1 hx with hx | hx
  · exact hq x hx
  · rw [List.mem_singleton] at hx
    subst hx
    exact hg rel h2

/-- The relations of the constraints made from an atom. -/
theorem parseAtom_rels (he : P .eq) (hle : P .le) (hge : P .ge) {a : TAtom} (ha : ∀ gd r, a.guard = some gd → evaluateCmp gd.1 = .ok r → P r)
    (h : parseAtom be mapper q a = .ok q') (hq : ∀ x ∈ q.iqs, P x.rel) : ∀ x ∈ q'.iqs, P x.rel := by
  have obj : ∀ neg, parseObj be mapper q a neg = .ok q' → ∀ x ∈ q'.iqs, P x.rel := by
    intro neg h
    unfold parseObj at h
    obtain ⟨r, h1, h⟩ := bind_ok.mp h
    rw [pure_ok] at h; subst h
    exact parseElems_rels he h1 hq
  unfold parseAtom at h
  split at h
  · unfold parseDom at h
    repeat' split at h
    all_goals first | (cases h; done) | skip
    obtain ⟨s, h1, h⟩ := bind_ok.mp h
    obtain ⟨hi, h2, h⟩ := bind_ok.mp h
    obtain ⟨lo, h3, h⟩ := bind_ok.mp h
    rw [pure_ok] at h; subst h
    intro x hx
    rcases List.mem_append.1 hx with hx | hx
    · exact hq x hx
    · simp only [List.mem_cons, List.not_mem_nil, or_false] at hx
      rcases hx with rfl | rfl
      · exact hle
      · exact hge
  split at h
  · unfold parseDiff at h
    repeat' split at h
    all_goals first | (cases h; done) | skip
    obtain ⟨lhs, h1, h⟩ := bind_ok.mp h
    exact addIneq_rels (fun r hr => ha _ r (by assumption) hr) h hq
  split at h
  · unfold parseSumAtom at h
    split at h
    · obtain ⟨r, h1, h⟩ := bind_ok.mp h
      exact addIneq_rels (fun r hr => ha _ r (by assumption) hr) h (parseElems_rels he h1 hq)
    · cases h
  split at h
  · exact obj _ h
  split at h
  · exact obj _ h
  cases h; exact hq

theorem loaded_rels (he : P .eq) (hle : P .le) (hge : P .ge) {atoms : List TAtom} {q : Prog} (hl : Loaded be mapper atoms q)
    (ha : ∀ a ∈ atoms, ∀ gd r, a.guard = some gd → evaluateCmp gd.1 = .ok r → P r) : ∀ x ∈ q.iqs, P x.rel := by
  induction hl with
  | start => simp
  | step as bs p p' hld hev ih =>
    obtain ⟨r, h1, h2, -⟩ := evaluateTheory_cases hev
    rw [h2]
    show ∀ x ∈ r.iqs, P x.rel
    have h0 := ih fun a h => ha a (List.mem_append_left _ h)
    have hb : ∀ a ∈ bs, ∀ gd r, a.guard = some gd → evaluateCmp gd.1 = .ok r → P r := fun a h => ha a (List.mem_append_right _ h)
    clear hev h2 ih ha hld
    induction bs generalizing p with
    | nil => rw [parseAtoms] at h1; cases h1; exact h0
    | cons b bs ih =>
      rw [parseAtoms] at h1
      obtain ⟨q1, h3, h1⟩ := bind_ok.mp h1
      exact ih q1 h1 (parseAtom_rels he hle hge (hb b (by simp)) h3 h0) fun a h => hb a (by simp [h])

/-- C49: what is admitted by the theory definition is read by the parser, it is not ignored. -/
theorem C49_admitted_atoms_are_read {strict : Bool} {a : TAtom} (h : admitted strict a = true) : IsTheoryAtom a := by
  unfold admitted at h
  rw [List.any_eq_true] at h
  obtain ⟨d, hd, h⟩ := h
  rw [Bool.and_eq_true] at h
  simp only [theoryDef, List.mem_cons, List.not_mem_nil, or_false] at hd
  rcases hd with rfl | rfl | rfl | rfl | rfl
  · exact .inr (.inl ((isName_iff a "minimize").mp h.1))
  · exact .inr (.inr ((isName_iff a "maximize").mp h.1))
  · exact .inl (.inl ((isName_iff a "sum").mp (by simpa using h.1)))
  · exact .inl (.inr (.inl ((isName_iff a "diff").mp (by simpa using h.1))))
  · exact .inl (.inr (.inr ((isName_iff a "dom").mp (by simpa using h.1))))

/-- C49: `&dom` atoms are written with `=`, objectives without a guard. -/
theorem C49_guards {strict : Bool} {a : TAtom} (h : admitted strict a = true) :
    (Named a "dom" → ∀ gd, a.guard = some gd → gd.1 = "=") ∧ (Named a "minimize" ∨ Named a "maximize" → a.guard = none) := by
  have hn : ∀ {x y : String}, Named a x → Named a y → x.toList = y.toList := by
    rintro x y (h1 | h1) (h2 | h2) <;> rw [h1] at h2
    · exact TTerm.symbol.inj h2
    · cases h2
    · cases h2
    · exact (TTerm.func.inj h2).1
  unfold admitted at h
  rw [List.any_eq_true] at h
  obtain ⟨d, hd, h⟩ := h
  rw [Bool.and_eq_true] at h
  obtain ⟨h, hg⟩ := h
  simp only [theoryDef, List.mem_cons, List.not_mem_nil, or_false] at hd
  rcases hd with rfl | rfl | rfl | rfl | rfl
  · have k := (isName_iff a "minimize").mp h
    refine ⟨fun hd => absurd (hn k hd) (by decide), fun _ => ?_⟩
    cases hga : a.guard with
    | none => rfl
    | some g => rw [hga] at hg; cases hg
  · have k := (isName_iff a "maximize").mp h
    refine ⟨fun hd => absurd (hn k hd) (by decide), fun _ => ?_⟩
    cases hga : a.guard with
    | none => rfl
    | some g => rw [hga] at hg; cases hg
  · have k := (isName_iff a "sum").mp (by simpa using h)
    exact ⟨fun hd => absurd (hn k hd) (by decide), by rintro (hd | hd) <;> exact absurd (hn k hd) (by decide)⟩
  · have k := (isName_iff a "diff").mp (by simpa using h)
    exact ⟨fun hd => absurd (hn k hd) (by decide), by rintro (hd | hd) <;> exact absurd (hn k hd) (by decide)⟩
  · have k := (isName_iff a "dom").mp (by simpa using h)
    refine ⟨fun _ gd hgd => ?_, by rintro (hd | hd) <;> exact absurd (hn k hd) (by decide)⟩
    rw [hgd] at hg
    simpa using hg

/-- C49: constraints may be the head of any rule, objectives have to be facts, and nothing is allowed in bodies: whether an atom holds never
decides about other atoms of the program, and an objective does not depend on the answer set. -/
theorem C49_places {strict : Bool} {a : TAtom} :
    allowedAt strict a .body = false ∧ (allowedAt strict a .fact = true ↔ IsTheoryAtom a) ∧
    (allowedAt strict a .head = true ↔ IsTheoryAtom a ∧ ¬ Named a "minimize" ∧ ¬ Named a "maximize") := by
  have hn : ∀ {x y : String}, Named a x → Named a y → x.toList = y.toList := by
    rintro x y (h1 | h1) (h2 | h2) <;> rw [h1] at h2
    · exact TTerm.symbol.inj h2
    · cases h2
    · cases h2
    · exact (TTerm.func.inj h2).1
  have e1 : isName a.term ['s', 'u', 'm'] = true ↔ Named a "sum" := isName_iff a "sum"
  have e2 : isName a.term ['d', 'i', 'f', 'f'] = true ↔ Named a "diff" := isName_iff a "diff"
  have e3 : isName a.term ['d', 'o', 'm'] = true ↔ Named a "dom" := isName_iff a "dom"
  have e4 := isName_iff a "minimize"
  have e5 := isName_iff a "maximize"
  have hc : IsTheoryAtom a ↔ (Named a "sum" ∨ Named a "diff" ∨ Named a "dom") ∨ Named a "minimize" ∨ Named a "maximize" := Iff.rfl
  have d1 : Named a "sum" → ¬ Named a "minimize" ∧ ¬ Named a "maximize" := fun k => ⟨fun h => absurd (hn k h) (by decide), fun h => absurd (hn k h) (by decide)⟩
  have d2 : Named a "diff" → ¬ Named a "minimize" ∧ ¬ Named a "maximize" := fun k => ⟨fun h => absurd (hn k h) (by decide), fun h => absurd (hn k h) (by decide)⟩
  have d3 : Named a "dom" → ¬ Named a "minimize" ∧ ¬ Named a "maximize" := fun k => ⟨fun h => absurd (hn k h) (by decide), fun h => absurd (hn k h) (by decide)⟩
  unfold allowedAt theoryDef
  simp only [List.any_cons, List.any_nil, Bool.and_false, Bool.or_false, Bool.and_true, Bool.not_true, Bool.not_false, Bool.or_eq_true,
    Bool.false_eq_true, false_or, e1, e2, e3, e4, e5, hc, true_and]
  clear e1 e2 e3 e4 e5 hc hn
  generalize Named a "minimize" = mi at *
  generalize Named a "maximize" = ma at *
  generalize Named a "sum" = su at *
  generalize Named a "diff" = di at *
  generalize Named a "dom" = dom at *
  exact ⟨⟨fun h => by tauto, fun h => by tauto⟩, ⟨fun h => by tauto, fun h => by tauto⟩⟩

/-- `&maximize{ x }` has to be a fact, `&sum{ x } >= 1` may have a body. -/
example : allowedAt false (maxAtom "x") .fact = true ∧ allowedAt false (maxAtom "x") .head = false ∧
    allowedAt false (sumAtom "x" ">=" 1 1) .head = true := by decide +kernel

/-- C49: the relations of guards. -/
theorem admitted_rel {a : TAtom} (h : admitted false a = true) {gd : String × TTerm} (hg : a.guard = some gd) :
    gd.1 = "<=" ∨ gd.1 = "=" ∨ gd.1 = ">=" := by
  unfold admitted at h
  rw [List.any_eq_true] at h
  obtain ⟨d, hd, h⟩ := h
  rw [Bool.and_eq_true, hg] at h
  simp only [theoryDef, List.mem_cons, List.not_mem_nil, or_false] at hd
  rcases hd with rfl | rfl | rfl | rfl | rfl <;> simp at h <;> tauto

/-- C49: without strict mode, all programs admitted by clingo lead to constraints that can be represented; the assertion about strict
relations in `prepare` cannot fail. The hypothesis `Supports` of the theorems about solving is always met. -/
theorem C49_supported {atoms : List TAtom} {q : Prog} (hl : Loaded be mapper atoms q) (ha : ∀ a ∈ atoms, admitted false a = true) :
    ∀ x ∈ q.iqs, Supports ℚ x.rel := by
  refine loaded_rels (P := Supports ℚ) (by simp [Supports]) (by simp [Supports]) (by simp [Supports]) hl fun a h gd r hg hr => ?_
  rw [supports_rat]
  rw [evaluateCmp_iff] at hr
  rcases admitted_rel (ha a h) hg with hh | hh | hh <;> rw [hh] at hr <;>
    simp [relTable] at hr <;> simp [hr]

/-- The hypotheses are met by `&sum{ x } >= 1`, `&sum{ x; y } <= 5`, `&sum{ y } >= 2`, `&sum{ x } >= 4` and `&maximize{ x }`. -/
example : ∃ q : Prog, Loaded .imath id (prog4 ++ [maxAtom "x"]) q ∧ (∀ a ∈ prog4 ++ [maxAtom "x"], admitted false a = true) ∧ q.iqs.length = 4 := by
  have h : ((evaluateTheory .imath id (prog4 ++ [maxAtom "x"]) {}).toOption.any fun q => decide (q.iqs.length = 4)) = true := by decide +kernel
  cases he : evaluateTheory .imath id (prog4 ++ [maxAtom "x"]) {} with
  | error e => rw [he] at h; cases h
  | ok q =>
    rw [he] at h
    refine ⟨q, .one he, ?_, by simpa [Except.toOption] using h⟩
    have : ((prog4 ++ [maxAtom "x"]).all fun a => admitted false a) = true := by decide +kernel
    exact List.all_eq_true.1 this

/-- Strict relations are admitted in strict mode only. -/
example : admitted true (sumAtom "x" "<" 3 1) = true ∧ admitted false (sumAtom "x" "<" 3 1) = false := by decide +kernel

/-- C49: in strict mode all relations are supported. -/
theorem C49_supported_strict (q : Prog) : ∀ x ∈ q.iqs, Supports RatQ x.rel := fun x _ => supports_ratq x.rel
end

/-- C49, end to end: without strict mode, for programs of plain atoms (see C45) admitted by the theory definition, whatever happens: the reported values
themselves satisfy every true atom as written, there is no epsilon. -/
theorem C49_models_satisfy_the_program {be : Backend} {opts : Options} {Q : Restr ℚ}
    {p p0 p1 : Propagator ℚ} {g g0 g1 : Ghost ℚ} {mapper : ℤ → ℤ} {atoms more : List TAtom} {envs : ℕ → InitEnv} {n : ℕ}
    (hq : StepOK ℚ opts) (hr0 : Reach be opts Q p0 g0) (hload : Loaded be mapper atoms p0.prog)
    (hi : p0.init be mapper more envs n = .ok (p1, true)) (hn : 0 < n) (hm : ∀ c, mapper c ≠ 0)
    (h1 : Step be Q p0 g0 p1 g1) (hl : LaterInStep be Q p1 g1 p g) (hplain : ∀ a ∈ atoms ++ more, Plain a)
    (hadm : ∀ a ∈ atoms ++ more, admitted false a = true) (hcst : ∀ x ∈ p.prog.iqs, x.lhs = [] → x.rhs = 0) {th : ℕ}
    {gt : GThr} (hgt : g.thrs[th]? = some gt) (hst : gt.stuck = false) {tr : ℤ → Prop} (htr : Guaranteed p1 p gt envs tr) :
    ∀ a ∈ atoms ++ more, tr (mapper a.literal) → IsConstraint a → AtomHolds mapper tr (p.valueOf th) a := by
  have hs : ∀ x ∈ p.prog.iqs, Supports ℚ x.rel := by
    rw [hl.same.1]
    exact C49_supported (init_loaded hload hi) hadm
  obtain ⟨e, -, h⟩ := (C45_models_satisfy_the_program hq hr0 hload hi hn hm h1 hl hplain hcst hs hgt hst htr).exists
  exact fun a ha ht hc => h a ha hc ht

/-- All hypotheses are met by a run on `plainProg` with a level that is undone. -/
example : ∃ (p1 p : Propagator ℚ) (g1 g : Ghost ℚ) (gt : GThr),
    (Propagator.fresh {} : Propagator ℚ).init .imath mapLit plainProg (fun _ => env) 1 = .ok (p1, true) ∧
    Loaded .imath mapLit [] (Propagator.fresh {} : Propagator ℚ).prog ∧ Step .imath AnyLits (Propagator.fresh {}) {} p1 g1 ∧
    LaterInStep .imath AnyLits p1 g1 p g ∧ (∀ a ∈ [] ++ plainProg, Plain a) ∧ (∀ a ∈ [] ++ plainProg, admitted false a = true) ∧
    (∀ x ∈ p.prog.iqs, x.lhs = [] → x.rhs = 0) ∧ g.thrs[0]? = some gt ∧ gt.stuck = false ∧ Guaranteed p1 p gt (fun _ => env) posTrue ∧
    p.objectiveOf 0 = [(3, true)] := by
  obtain ⟨p1, p, g1, g, gt, h1, h2, h3, h4, h5, h6, h7, h8, h9, -, h11⟩ := exists_end (mode := .any) plainProg
    [.prop 0 0 [1] true, .prop 1 0 [2] true, .undo 0, .prop 1 0 [2, 3] true, .check 1 true 0] rfl
    (P := fun p => decide (p.objectiveOf 0 = [(3, true)])) (by decide +kernel)
  have hadm : (plainProg.all fun a => admitted false a) = true := by decide +kernel
  exact ⟨p1, p, g1, g, gt, h1, .start, h2, h3, plainProg_plain, List.all_eq_true.1 hadm, fun x hx h => absurd h (h4 x hx), h6, h7, h9, of_decide_eq_true h11⟩

end Lpx.Props
