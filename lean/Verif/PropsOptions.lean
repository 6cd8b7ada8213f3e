import Verif.Api

/-!
# Properties of the configuration interface (C35-C37)

Specification: tables of the documented words (README, option help texts) and what they set.
-/

namespace Lpx.Props

open Lpx

/-- A string with all letters in lower case. -/
def lowered (v : List Char) : String := String.ofList (v.map Char.toLower)

/-- Documented values of flags. -/
def boolWords : List (String × Bool) :=
  [("no", false), ("off", false), ("0", false), ("yes", true), ("on", true), ("1", true)]
/-- Documented values of `--select`. -/
def selectWords : List (String × Select) := [("none", .none), ("match", .matching), ("conflict", .conflict)]
/-- Documented values of `--propagate-bounds`. -/
def propagateWords : List (String × PMode) := [("none", .none), ("changed", .changed), ("full", .full)]
/-- Documented values of `--store`. -/
def storeWords : List (String × Store) := [("no", .no), ("partial", .part), ("total", .total)]

/-- Documented values of `--objective`: `local`, `global` (step 0), `global,e` (step epsilon), `global,<number>`. -/
inductive ObjectiveWord (rd : List Char → Option Rat) (v : List Char) : Option RatQ → Prop
  | localObj : lowered v = "local" → ObjectiveWord rd v none
  | global : lowered v = "global" → ObjectiveWord rd v (some ⟨0, 0⟩)
  | epsilon : lowered v = "global,e" → ObjectiveWord rd v (some ⟨0, 1⟩)
  | step (pre r : List Char) (q : Rat) : v = pre ++ r → lowered pre = "global," → lowered r ≠ "e" → rd r = some q →
      ObjectiveWord rd v (some ⟨q, 0⟩)

/-- What a parser that knows the words `words` has to do. -/
def expected {α : Type} (words : List (String × α)) (v : List Char) (upd : α → Theory) (th : Theory) : Outcome :=
  match words.lookup (lowered v) with
  | some a => .ret true (upd a)
  | none => .ret false th

theorem iequalsPre_spec (a b r : List Char) :
    iequalsPre a b = some r ↔ ∃ p, a = p ++ r ∧ p.map Char.toLower = b.map Char.toLower := by
  induction b generalizing a with
  | nil =>
    constructor
    · intro h
      have : a = r := by cases a <;> simpa [iequalsPre] using h
      exact ⟨[], by simp [this]⟩
    · rintro ⟨p, rfl, hp⟩
      have : p = [] := by simpa using hp
      subst this
      cases r <;> simp [iequalsPre]
  | cons y b ih =>
    cases a with
    | nil =>
      constructor
      · intro h; simp [iequalsPre] at h
      · rintro ⟨p, hp, hl⟩
        have : p = [] := by
          have := hp.symm; simp at this; exact this.1
        subst this; simp at hl
    | cons x a =>
      by_cases hxy : x.toLower = y.toLower
      · simp only [iequalsPre, hxy, ne_eq, not_true, if_false, ih]
        constructor
        · rintro ⟨p, rfl, hp⟩
          exact ⟨x :: p, by simp, by simp [hxy, hp]⟩
        · rintro ⟨p, hp, hl⟩
          cases p with
          | nil => simp at hl
          | cons z p =>
            simp only [List.cons_append, List.cons.injEq] at hp
            simp only [List.map_cons, List.cons.injEq] at hl
            exact ⟨p, hp.2, hl.2⟩
      · simp only [iequalsPre, hxy, ne_eq, not_false_iff, if_true, reduceCtorEq, false_iff]
        rintro ⟨p, hp, hl⟩
        cases p with
        | nil => simp at hl
        | cons z p =>
          simp only [List.cons_append, List.cons.injEq] at hp
          simp only [List.map_cons, List.cons.injEq] at hl
          exact hxy (hp.1 ▸ hl.1)

theorem iequals_spec (a : List Char) (w : String) (hw : w.toList.map Char.toLower = w.toList) :
    iequals a w.toList = true ↔ lowered a = w := by
  unfold iequals lowered
  rw [beq_iff_eq, iequalsPre_spec, hw]
  constructor
  · rintro ⟨p, rfl, hp⟩
    rw [List.append_nil, hp, String.ofList_toList]
  · intro h
    refine ⟨a, by simp, ?_⟩
    rw [← h, String.toList_ofList]

theorem iequals_eq (a : List Char) (w : String) (hw : w.toList.map Char.toLower = w.toList) :
    iequals a w.toList = decide (lowered a = w) := by
  rw [Bool.eq_iff_iff, iequals_spec a w hw, decide_eq_true_iff]

theorem lookup_word {α : Type} (a b : String) (x : α) (l : List (String × α)) :
    List.lookup a ((b, x) :: l) = if a = b then some x else List.lookup a l := by
  by_cases h : a = b
  · simp [h]
  · simp [List.lookup, h, beq_eq_false_iff_ne.2 h]

/-- **C36.** Flags: exactly the documented words are accepted, in any letter case; only the flag is set; on rejection
nothing changes. -/
theorem C36_bool (v : List Char) (set : Bool → Theory) (th : Theory) :
    parseBool v set th = expected boolWords v set th := by
  unfold parseBool expected boolWords
  simp only [iequals_eq v "no" (by decide), iequals_eq v "off" (by decide), iequals_eq v "0" (by decide), iequals_eq v "yes" (by decide), iequals_eq v "on" (by decide), iequals_eq v "1" (by decide), decide_eq_true_eq, Bool.or_eq_true, lookup_word, List.lookup_nil]
  by_cases h1 : lowered v = "no"
  · simp only [h1]; rfl
  by_cases h2 : lowered v = "off"
  · simp only [h2]; rfl
  by_cases h3 : lowered v = "0"
  · simp only [h3]; rfl
  by_cases h4 : lowered v = "yes"
  · simp only [h4]; rfl
  by_cases h5 : lowered v = "on"
  · simp only [h5]; rfl
  by_cases h6 : lowered v = "1"
  · simp only [h6]; rfl
  simp only [h1, h2, h3, h4, h5, h6, if_false, or_self]

/-- **C36.** `--select`. -/
theorem C36_select (v : List Char) (th : Theory) :
    parseSelect v th =
      expected selectWords v (fun a => { th with options := { th.options with select := a } }) th := by
  unfold parseSelect expected selectWords
  simp only [iequals_eq v "none" (by decide), iequals_eq v "match" (by decide), iequals_eq v "conflict" (by decide), decide_eq_true_eq, Bool.or_eq_true, lookup_word, List.lookup_nil]
  by_cases h1 : lowered v = "none"
  · simp only [h1]; rfl
  by_cases h2 : lowered v = "match"
  · simp only [h2]; rfl
  by_cases h3 : lowered v = "conflict"
  · simp only [h3]; rfl
  simp only [h1, h2, h3, if_false, or_self]

/-- **C36.** `--propagate-bounds`. -/
theorem C36_propagate (v : List Char) (th : Theory) :
    parsePropagate v th =
      expected propagateWords v (fun a => { th with options := { th.options with propagateMode := a } }) th := by
  unfold parsePropagate expected propagateWords
  simp only [iequals_eq v "none" (by decide), iequals_eq v "changed" (by decide), iequals_eq v "full" (by decide), decide_eq_true_eq, Bool.or_eq_true, lookup_word, List.lookup_nil]
  by_cases h1 : lowered v = "none"
  · simp only [h1]; rfl
  by_cases h2 : lowered v = "changed"
  · simp only [h2]; rfl
  by_cases h3 : lowered v = "full"
  · simp only [h3]; rfl
  simp only [h1, h2, h3, if_false, or_self]

/-- **C36.** `--store`. -/
theorem C36_store (v : List Char) (th : Theory) :
    parseStore v th = expected storeWords v (fun a => { th with options := { th.options with store := a } }) th := by
  unfold parseStore expected storeWords
  simp only [iequals_eq v "no" (by decide), iequals_eq v "partial" (by decide), iequals_eq v "total" (by decide), decide_eq_true_eq, Bool.or_eq_true, lookup_word, List.lookup_nil]
  by_cases h1 : lowered v = "no"
  · simp only [h1]; rfl
  by_cases h2 : lowered v = "partial"
  · simp only [h2]; rfl
  by_cases h3 : lowered v = "total"
  · simp only [h3]; rfl
  simp only [h1, h2, h3, if_false, or_self]

theorem lowered_append (a b : List Char) : lowered (a ++ b) = lowered a ++ lowered b := by
  simp [lowered]

theorem lowered_inj_iff (a b : List Char) : lowered a = lowered b ↔ a.map Char.toLower = b.map Char.toLower := by
  unfold lowered; exact String.ofList_inj

theorem lowered_toList {v : List Char} {w : String} : lowered v = w ↔ v.map Char.toLower = w.toList := by
  unfold lowered
  constructor
  · intro h; rw [← h, String.toList_ofList]
  · intro h; rw [h, String.ofList_toList]

/-- **C36.** `--objective`: accepted values are exactly the documented ones and only the objective option is set. -/
theorem C36_objective (rd : List Char → Option Rat) (v : List Char) (th th' : Theory) :
    parseObjective rd v th = .ret true th' ↔
      ∃ o, ObjectiveWord rd v o ∧ th' = { th with options := { th.options with globalObjective := o } } := by
  have hglob : "global".toList.map Char.toLower = "global".toList := by decide
  have hcomma : ",".toList.map Char.toLower = ",".toList := by decide
  unfold parseObjective
  rw [iequals_eq v "local" (by decide)]
  by_cases h1 : lowered v = "local"
  · simp only [h1, decide_true, if_true, Outcome.ret.injEq, true_and]
    constructor
    · rintro rfl; exact ⟨none, .localObj h1, rfl⟩
    · rintro ⟨o, ho, rfl⟩
      cases ho with
      | localObj _ => rfl
      | global h => rw [h1] at h; exact absurd h (by decide)
      | epsilon h => rw [h1] at h; exact absurd h (by decide)
      | step pre r q hv hp _ _ =>
        subst hv
        rw [lowered_append, hp] at h1
        have := congrArg (fun s => s.toList.head?) h1
        simp at this
  · simp only [h1, decide_false, Bool.false_eq_true, if_false]
    cases hp : iequalsPre v "global".toList with
    | none =>
      simp only [Outcome.ret.injEq, Bool.false_eq_true, false_and, false_iff]
      have hno : ∀ p r, v = p ++ r → p.map Char.toLower ≠ "global".toList := by
        intro p r hv hl
        have : iequalsPre v "global".toList = some r := (iequalsPre_spec _ _ _).2 ⟨p, hv, by rw [hl, hglob]⟩
        rw [hp] at this; cases this
      rintro ⟨o, ho, -⟩
      cases ho with
      | localObj h => exact h1 h
      | global h => exact hno v [] (by simp) (lowered_toList.1 h)
      | epsilon h =>
        have h' := lowered_toList.1 h
        refine hno (v.take 6) (v.drop 6) (by simp) ?_
        rw [List.map_take, h']; decide
      | step pre r q hv hl _ _ =>
        have h' := lowered_toList.1 hl
        refine hno (pre.take 6) (pre.drop 6 ++ r) (by rw [hv, ← List.append_assoc, List.take_append_drop]) ?_
        rw [List.map_take, h']; decide
    | some rest =>
      obtain ⟨p, hv, hpl⟩ := (iequalsPre_spec _ _ _).1 hp
      rw [hglob] at hpl
      cases rest with
      | nil =>
        rw [List.append_nil] at hv
        have hl : lowered v = "global" := lowered_toList.2 (hv ▸ hpl)
        simp only [Outcome.ret.injEq, true_and]
        constructor
        · rintro rfl; exact ⟨_, .global hl, rfl⟩
        · rintro ⟨o, ho, rfl⟩
          cases ho with
          | localObj h => exact absurd h h1
          | global h => rfl
          | epsilon h => rw [hl] at h; exact absurd h (by decide)
          | step pre r q hv' hl' _ _ =>
            exfalso
            rw [hv', lowered_append, hl'] at hl
            have := congrArg (fun s => s.toList.length) hl
            simp at this
      | cons c cs =>
        have hlen : p.length = 6 := by have := congrArg List.length hpl; simpa using this
        have hdet : ∀ pre r : List Char, v = pre ++ r → lowered pre = "global," →
            iequalsPre (c :: cs) ",".toList = some r := by
          intro pre r hv' hl
          have h' := lowered_toList.1 hl
          have hlen' : pre.length = 7 := by have := congrArg List.length h'; simpa using this
          rw [iequalsPre_spec]
          refine ⟨pre.drop 6, ?_, ?_⟩
          · have h2 : p ++ (c :: cs) = pre ++ r := hv ▸ hv'
            have h3 := congrArg (List.drop 6) h2
            rw [List.drop_append_of_le_length (by omega), List.drop_append_of_le_length (by omega), ← hlen,
              List.drop_length] at h3
            rw [← hlen]; simpa using h3
          · rw [List.map_drop, h', hcomma]; decide
        simp only
        cases hq : iequalsPre (c :: cs) ",".toList with
        | none =>
          simp only [Outcome.ret.injEq, Bool.false_eq_true, false_and, false_iff]
          rintro ⟨o, ho, -⟩
          cases ho with
          | localObj h => exact h1 h
          | global h =>
            have h' := lowered_toList.1 h
            have := congrArg List.length h'
            rw [hv] at this
            simp at this; omega
          | epsilon h =>
            have h' := lowered_toList.1 h
            have := hdet (v.take 7) (v.drop 7) (by simp) (lowered_toList.2 (by rw [List.map_take, h']; decide))
            rw [hq] at this; cases this
          | step pre r q hv' hl _ _ =>
            have := hdet pre r hv' hl
            rw [hq] at this; cases this
        | some r0 =>
          obtain ⟨p2, hv2, hpl2⟩ := (iequalsPre_spec _ _ _).1 hq
          rw [hcomma] at hpl2
          have hpre : lowered (p ++ p2) = "global," := by
            rw [lowered_toList, List.map_append, hpl, hpl2]; decide
          have hvv : v = (p ++ p2) ++ r0 := by rw [hv, hv2, List.append_assoc]
          have hr : ∀ pre r, v = pre ++ r → lowered pre = "global," → r = r0 := by
            intro pre r ha hb
            have := hdet pre r ha hb
            rw [hq] at this
            exact (Option.some.inj this).symm
          simp only
          rw [iequals_eq r0 "e" (by decide)]
          by_cases he : lowered r0 = "e"
          · simp only [he, decide_true, if_true, Outcome.ret.injEq, true_and]
            have hl : lowered v = "global,e" := by rw [hvv, lowered_append, hpre, he]; decide
            constructor
            · rintro rfl; exact ⟨_, .epsilon hl, rfl⟩
            · rintro ⟨o, ho, rfl⟩
              cases ho with
              | localObj h => exact absurd h h1
              | global h => rw [hl] at h; exact absurd h (by decide)
              | epsilon h => rfl
              | step pre r q hv' hl' hne _ => rw [hr pre r hv' hl'] at hne; exact absurd he hne
          · simp only [he, decide_false, Bool.false_eq_true, if_false]
            have hno : ∀ o, ObjectiveWord rd v o → ∃ q, rd r0 = some q ∧ o = some ⟨q, 0⟩ := by
              intro o ho
              cases ho with
              | localObj h => exact absurd h h1
              | global h =>
                exfalso
                have h' := lowered_toList.1 h
                have := congrArg List.length h'
                rw [hv] at this
                simp at this; omega
              | epsilon h =>
                exfalso
                have h' := lowered_toList.1 h
                have := hr (v.take 7) (v.drop 7) (by simp) (lowered_toList.2 (by rw [List.map_take, h']; decide))
                apply he
                rw [← this, lowered_toList, List.map_drop, h']; decide
              | step pre r q hv' hl' hne hrd => rw [hr pre r hv' hl'] at hrd; exact ⟨q, hrd, rfl⟩
            cases hrd : rd r0 with
            | none =>
              simp only [reduceCtorEq, false_iff]
              rintro ⟨o, ho, -⟩
              obtain ⟨q, hq', -⟩ := hno o ho
              rw [hrd] at hq'; cases hq'
            | some q =>
              simp only [Outcome.ret.injEq, true_and]
              constructor
              · rintro rfl; exact ⟨_, .step (p ++ p2) r0 q hvv hpre he hrd, rfl⟩
              · rintro ⟨o, ho, rfl⟩
                obtain ⟨q', hq', rfl⟩ := hno o ho
                rw [hrd] at hq'
                rw [Option.some.inj hq']

/-- **C36.** A rejected objective value changes nothing (a malformed number raises an exception), and there is no
undefined behaviour. -/
theorem C36_objective_rejected (rd : List Char → Option Rat) (v : List Char) (th : Theory) :
    (∃ th', parseObjective rd v th = .ret true th') ∨ parseObjective rd v th = .ret false th ∨
      (parseObjective rd v th = .throws ∧ ∃ pre r, v = pre ++ r ∧ lowered pre = "global," ∧ rd r = none) := by
  unfold parseObjective
  split
  · exact Or.inl ⟨_, rfl⟩
  · split
    · exact Or.inr (Or.inl rfl)
    · exact Or.inl ⟨_, rfl⟩
    · rename_i rest _ hp
      split
      · exact Or.inr (Or.inl rfl)
      · rename_i r0 hq
        split
        · exact Or.inl ⟨_, rfl⟩
        · split
          · rename_i hrd
            refine Or.inr (Or.inr ⟨rfl, ?_⟩)
            obtain ⟨p, hv, hpl⟩ := (iequalsPre_spec _ _ _).1 hp
            obtain ⟨p2, hv2, hpl2⟩ := (iequalsPre_spec _ _ _).1 hq
            refine ⟨p ++ p2, r0, by rw [hv, hv2, List.append_assoc], ?_, hrd⟩
            rw [lowered_toList, List.map_append, hpl, hpl2]; decide
          · exact Or.inl ⟨_, rfl⟩

/-- The words are accepted in any letter case. -/
example (th : Theory) : parseSelect "MaTcH".toList th = .ret true { th with options := { th.options with select := .matching } } ∧
    parseSelect "matchx".toList th = .ret false th ∧ ObjectiveWord (fun _ => some (1 / 2)) "GLOBAL,1/2".toList (some ⟨1 / 2, 0⟩) := by
  refine ⟨rfl, rfl, ?_⟩
  exact .step "GLOBAL,".toList "1/2".toList _ rfl (by decide) (by decide) rfl

/-! ## C35 -/

/-- **C35 (partial).** For every key other than `objective` and `propagate-bounds`: a documented key with a documented
value sets exactly that option and returns true; every other key or value returns false and changes nothing.
Missing: the two keys for which the property is false, see the violations below. -/
theorem C35_configure_partial (key v : List Char) (th : Theory) (h1 : key ≠ "objective".toList)
    (h2 : key ≠ "propagate-bounds".toList) :
    configure key v th =
      if key = "strict".toList then expected boolWords v (fun b => { th with strict := b }) th
      else if key = "propagate-conflicts".toList then
        expected boolWords v (fun b => { th with options := { th.options with propagateConflicts := b } }) th
      else if key = "select".toList then
        expected selectWords v (fun a => { th with options := { th.options with select := a } }) th
      else if key = "store".toList then
        expected storeWords v (fun a => { th with options := { th.options with store := a } }) th
      else .ret false th := by
  unfold configure
  rw [if_neg h1, if_neg h2, C36_bool, C36_bool, C36_select, C36_store]

/-- **C36.** On the command line exactly the documented options that take a word are known, and each sets its own value. -/
theorem C36_command_line (rd : List Char → Option Rat) (v : List Char) (th : Theory) :
    commandLine rd "propagate-bounds".toList v th =
      expected propagateWords v (fun a => { th with options := { th.options with propagateMode := a } }) th ∧
    commandLine rd "select".toList v th =
      expected selectWords v (fun a => { th with options := { th.options with select := a } }) th ∧
    commandLine rd "store".toList v th =
      expected storeWords v (fun a => { th with options := { th.options with store := a } }) th ∧
    (∀ th', commandLine rd "objective".toList v th = .ret true th' ↔
      ∃ o, ObjectiveWord rd v o ∧ th' = { th with options := { th.options with globalObjective := o } }) ∧
    ∀ key : List Char, key ∉ ["propagate-bounds".toList, "select".toList, "store".toList, "objective".toList] →
      commandLine rd key v th = .ret false th := by
  unfold commandLine
  refine ⟨?_, ?_, ?_, fun th' => ?_, fun key hk => ?_⟩
  · rw [if_pos rfl, C36_propagate]
  · rw [if_neg (by decide), if_neg (by decide), if_pos rfl, C36_select]
  · rw [if_neg (by decide), if_neg (by decide), if_neg (by decide), if_pos rfl, C36_store]
  · rw [if_neg (by decide), if_pos rfl, C36_objective]
  · simp only [List.mem_cons, List.not_mem_nil, or_false, not_or] at hk
    rw [if_neg hk.1, if_neg hk.2.2.2, if_neg hk.2.1, if_neg hk.2.2.1]

/-- **C35.** For every key and value: whenever `configure` returns false, nothing has been changed. -/
theorem C35_rejected_unchanged (key v : List Char) (th th' : Theory) (h : configure key v th = .ret false th') :
    th' = th := by
  have hb : ∀ set, parseBool v set th = .ret false th' → th' = th := by
    intro set hs
    unfold parseBool at hs
    split at hs
    · simp at hs
    · split at hs
      · simp at hs
      · simp only [Outcome.ret.injEq, true_and] at hs; exact hs.symm
  have hs : parseSelect v th = .ret false th' → th' = th := by
    intro hs; unfold parseSelect at hs
    repeat' split at hs
    all_goals first | (simp at hs; done) | (simp only [Outcome.ret.injEq, true_and] at hs; exact hs.symm)
  have hst : parseStore v th = .ret false th' → th' = th := by
    intro hs; unfold parseStore at hs
    repeat' split at hs
    all_goals first | (simp at hs; done) | (simp only [Outcome.ret.injEq, true_and] at hs; exact hs.symm)
  have hp : parsePropagate v th = .ret false th' → th' = th := by
    intro hs; unfold parsePropagate at hs
    repeat' split at hs
    all_goals first | (simp at hs; done) | (simp only [Outcome.ret.injEq, true_and] at hs; exact hs.symm)
  have hc : ∀ o, confused o = .ret false th' → o = .ret false th' := by
    intro o ho
    cases o with
    | ret ok t => cases ok <;> simp [confused] at ho ⊢ <;> exact ho
    | throws => simp [confused] at ho
    | undef => simp [confused] at ho
  unfold configure at h
  repeat' split at h
  · exact hb _ h
  · exact hb _ (hc _ h)
  · exact hb _ h
  · exact hp (hc _ h)
  · exact hs h
  · exact hst h
  · simp only [Outcome.ret.injEq, true_and] at h; exact h.symm

/-- **C35 is violated**: `configure("objective", "global")` is refused although the command line accepts
`--objective=global`; and `configure("objective", "yes")` writes a Boolean into the representation of an optional
number. -/
theorem C35_objective_violation (rd : List Char → Option Rat) (th : Theory) :
    configure "objective".toList "global".toList th = .ret false th ∧
    commandLine rd "objective".toList "global".toList th =
      .ret true { th with options := { th.options with globalObjective := some ⟨0, 0⟩ } } ∧
    configure "objective".toList "yes".toList th = .undef :=
  ⟨rfl, rfl, rfl⟩

/-- **C35 is violated**: every documented value of `propagate-bounds` makes `configure` write out of bounds. -/
theorem C35_propagate_bounds_violation (v : List Char) (m : PMode) (th : Theory)
    (h : propagateWords.lookup (lowered v) = some m) : configure "propagate-bounds".toList v th = .undef := by
  unfold configure
  rw [if_neg (by decide), if_neg (by decide), if_neg (by decide), if_pos rfl, C36_propagate]
  unfold expected
  rw [h]
  rfl

example : configure "Store".toList "total".toList {} = .ret false {} ∧
    configure "store".toList "Total".toList {} = .ret true { options := { store := .total } } := ⟨rfl, rfl⟩

/-! ## C37 -/

/-- **C37.** `validate_options` fails iff the step of the objective has an epsilon component and strict mode is off. -/
theorem C37_validate (th : Theory) :
    validateOptions th = false ↔ th.strict = false ∧ ∃ q, th.options.globalObjective = some q ∧ q.k ≠ 0 := by
  unfold validateOptions
  cases hs : th.strict <;> cases hg : th.options.globalObjective <;> simp [RatQ.isRational]

/-- **C37.** Hence with validated options the conversion of the step never throws, whichever of the two solvers is
created by `register` (clingo-lpx.cc:352-361). -/
theorem C37_step_converts (th : Theory) (h : validateOptions th = true) :
    (th.strict = false → StepOK ℚ th.options) ∧ (th.strict = true → StepOK RatQ th.options) := by
  constructor
  · intro hs q hq
    have hk : q.k = 0 := by
      by_contra hk
      have := (C37_validate th).2 ⟨hs, q, hq, hk⟩
      rw [h] at this; cases this
    exact ⟨q.c, by simp [LpFull.asValue, RatQ.asRational, RatQ.isRational, hk]⟩
  · intro _ q _
    exact ⟨q, rfl⟩

example : validateOptions { options := { globalObjective := some ⟨0, 1⟩ } } = false ∧
    validateOptions { options := { globalObjective := some ⟨0, 1⟩ }, strict := true } = true ∧
    validateOptions { options := { globalObjective := some ⟨1, 0⟩ } } = true := ⟨rfl, rfl, rfl⟩

end Lpx.Props
