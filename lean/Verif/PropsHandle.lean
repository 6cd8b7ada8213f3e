import Verif.Handle
import Verif.PropsOptions
import Verif.PropsSession

/-!
# The life cycle of a theory object (C61) and error messages (C62)

Specification: `Sets` lists which call sets which option to which value according to the documentation.
-/

set_option linter.unusedSectionVars false

namespace Lpx.Props
open Lpx Lpx.Witness

/-- An option together with a value. -/
inductive Setting where
  | strict (b : Bool)
  | conflicts (b : Bool)
  | select (s : Select)
  | store (s : Store)
  | bounds (m : PMode)
  | objective (o : Option RatQ)

/-- The documented effect of calls on options. -/
inductive Sets (rd : List Char → Option Rat) : Call → Setting → Prop
  | strict {v b} : boolWords.lookup (lowered v) = some b → Sets rd (.configure "strict".toList v) (.strict b)
  | strictFlag {b} : Sets rd (.strictFlag b) (.strict b)
  | conflicts {v b} : boolWords.lookup (lowered v) = some b → Sets rd (.configure "propagate-conflicts".toList v) (.conflicts b)
  | conflictsFlag {b} : Sets rd (.conflictsFlag b) (.conflicts b)
  | select {v s} : selectWords.lookup (lowered v) = some s → Sets rd (.configure "select".toList v) (.select s)
  | selectOption {v s} : selectWords.lookup (lowered v) = some s → Sets rd (.option "select".toList v) (.select s)
  | store {v s} : storeWords.lookup (lowered v) = some s → Sets rd (.configure "store".toList v) (.store s)
  | storeOption {v s} : storeWords.lookup (lowered v) = some s → Sets rd (.option "store".toList v) (.store s)
  | boundsOption {v m} : propagateWords.lookup (lowered v) = some m → Sets rd (.option "propagate-bounds".toList v) (.bounds m)
  | objectiveOption {v o} : ObjectiveWord rd v o → Sets rd (.option "objective".toList v) (.objective o)

/-- In the sequence of calls `cs`, the option `f` is last set to `v`, or it is never set and `v` is the default `d`. -/
def LastSet {α : Type} (rd : List Char → Option Rat) (f : α → Setting) (d : α) (cs : List Call) (v : α) : Prop :=
  (∃ l c r, cs = l ++ c :: r ∧ Sets rd c (f v) ∧ ∀ c' ∈ r, ∀ w, ¬ Sets rd c' (f w)) ∨ v = d ∧ ∀ c ∈ cs, ∀ w, ¬ Sets rd c (f w)

/-- The calls that are undefined behaviour (Finding 4). -/
inductive Misused : Call → Prop
  | objective {v b} : boolWords.lookup (lowered v) = some b → Misused (.configure "objective".toList v)
  | bounds {v m} : propagateWords.lookup (lowered v) = some m → Misused (.configure "propagate-bounds".toList v)

/-- The new state of the options. -/
def Setting.apply (th : Theory) : Setting → Theory
  | .strict b => { th with strict := b }
  | .conflicts b => { th with options := { th.options with propagateConflicts := b } }
  | .select s => { th with options := { th.options with select := s } }
  | .store s => { th with options := { th.options with store := s } }
  | .bounds m => { th with options := { th.options with propagateMode := m } }
  | .objective o => { th with options := { th.options with globalObjective := o } }

variable {rd : List Char → Option Rat}

theorem expected_cases {α : Type} {words : List (String × α)} {v : List Char} {upd : α → Theory} {th : Theory} :
    (∃ a, words.lookup (lowered v) = some a ∧ expected words v upd th = .ret true (upd a)) ∨
    words.lookup (lowered v) = none ∧ expected words v upd th = .ret false th := by
  unfold expected
  cases h : words.lookup (lowered v) with
  | some a => exact .inl ⟨a, rfl, rfl⟩
  | none => exact .inr ⟨rfl, rfl⟩

/-- What a call does with the options. -/
def Effect (rd : List Char → Option Rat) (c : Call) (a : Answer) (th th' : Theory) : Prop :=
  (∃ s, Sets rd c s ∧ th' = s.apply th ∧ a = .yes) ∨ (∀ s, ¬ Sets rd c s) ∧ th' = th ∧ ((∃ k v, c = .configure k v ∨ c = .option k v) → a ≠ .yes)

theorem after_expected {α : Type} {words : List (String × α)} {v : List Char} {upd : α → Theory} {h : Handle} {c : Call} (f : α → Setting)
    (hf : ∀ a, upd a = (f a).apply h.theory) (hs : ∀ s, Sets rd c s ↔ ∃ a, s = f a ∧ words.lookup (lowered v) = some a) :
    ∃ a h', h.after (expected words v upd h.theory) = some (a, h') ∧ h'.reg = h.reg ∧ Effect rd c a h.theory h'.theory := by
  rcases expected_cases (words := words) (v := v) (upd := upd) (th := h.theory) with ⟨a, h1, h2⟩ | ⟨h1, h2⟩
  · exact ⟨.yes, { h with theory := upd a }, by rw [h2]; rfl, rfl, .inl ⟨f a, (hs _).2 ⟨a, rfl, h1⟩, hf a, rfl⟩⟩
  · refine ⟨.no, { h with theory := h.theory }, by rw [h2]; rfl, rfl, .inr ⟨fun s k => ?_, rfl, fun _ => by decide⟩⟩
    obtain ⟨a, -, k⟩ := (hs s).1 k
    rw [h1] at k; cases k

theorem keys_ne {a b : String} (h : a.toList = b.toList) (hn : a ≠ b) : False := hn (String.toList_inj.1 h)

theorem call_configure (h : Handle) (key v : List Char) : h.call rd (.configure key v) = h.after (Lpx.configure key v h.theory) := rfl
theorem call_option (h : Handle) (key v : List Char) : h.call rd (.option key v) = h.after (commandLine rd key v h.theory) := rfl

theorem sets_configure {key v : List Char} {s : Setting} (h : Sets rd (.configure key v) s) :
    (key = "strict".toList ∧ ∃ b, s = .strict b ∧ boolWords.lookup (lowered v) = some b) ∨
    (key = "propagate-conflicts".toList ∧ ∃ b, s = .conflicts b ∧ boolWords.lookup (lowered v) = some b) ∨
    (key = "select".toList ∧ ∃ b, s = .select b ∧ selectWords.lookup (lowered v) = some b) ∨
    (key = "store".toList ∧ ∃ b, s = .store b ∧ storeWords.lookup (lowered v) = some b) := by
  generalize hc : Call.configure key v = c at h
  cases h with
  | strict h => injection hc with h1 h2; subst h2; exact .inl ⟨h1, _, rfl, h⟩
  | conflicts h => injection hc with h1 h2; subst h2; exact .inr (.inl ⟨h1, _, rfl, h⟩)
  | select h => injection hc with h1 h2; subst h2; exact .inr (.inr (.inl ⟨h1, _, rfl, h⟩))
  | store h => injection hc with h1 h2; subst h2; exact .inr (.inr (.inr ⟨h1, _, rfl, h⟩))
  | _ => cases hc

theorem sets_option {key v : List Char} {s : Setting} (h : Sets rd (.option key v) s) :
    (key = "select".toList ∧ ∃ b, s = .select b ∧ selectWords.lookup (lowered v) = some b) ∨
    (key = "store".toList ∧ ∃ b, s = .store b ∧ storeWords.lookup (lowered v) = some b) ∨
    (key = "propagate-bounds".toList ∧ ∃ b, s = .bounds b ∧ propagateWords.lookup (lowered v) = some b) ∨
    (key = "objective".toList ∧ ∃ o, s = .objective o ∧ ObjectiveWord rd v o) := by
  generalize hc : Call.option key v = c at h
  cases h with
  | selectOption h => injection hc with h1 h2; subst h2; exact .inl ⟨h1, _, rfl, h⟩
  | storeOption h => injection hc with h1 h2; subst h2; exact .inr (.inl ⟨h1, _, rfl, h⟩)
  | boundsOption h => injection hc with h1 h2; subst h2; exact .inr (.inr (.inl ⟨h1, _, rfl, h⟩))
  | objectiveOption h => injection hc with h1 h2; subst h2; exact .inr (.inr (.inr ⟨h1, _, rfl, h⟩))
  | _ => cases hc

theorem misused_configure {key v : List Char} (h : Misused (.configure key v)) :
    (key = "objective".toList ∧ ∃ b, boolWords.lookup (lowered v) = some b) ∨
    (key = "propagate-bounds".toList ∧ ∃ m, propagateWords.lookup (lowered v) = some m) := by
  generalize hc : Call.configure key v = c at h
  cases h with
  | objective h => injection hc with h1 h2; subst h2; exact .inl ⟨h1, _, h⟩
  | bounds h => injection hc with h1 h2; subst h2; exact .inr ⟨h1, _, h⟩

theorem misused_only {c : Call} (h : Misused c) : ∃ k v, c = .configure k v := by
  cases h
  · exact ⟨_, _, rfl⟩
  · exact ⟨_, _, rfl⟩

/-- A call sets at most one option, to one value. -/
theorem sets_unique {c : Call} {s s' : Setting} (h : Sets rd c s) (h' : Sets rd c s') : s = s' := by
  have hw : ∀ {α : Type} {f : α → Setting} {o : Option α}, (∃ b, s = f b ∧ o = some b) → (∃ b, s' = f b ∧ o = some b) → s = s' := by
    rintro α f o ⟨b, rfl, k⟩ ⟨b', rfl, k'⟩
    rw [k] at k'; rw [Option.some.inj k']
  cases c with
  | configure key v =>
    rcases sets_configure h with ⟨e, k⟩ | ⟨e, k⟩ | ⟨e, k⟩ | ⟨e, k⟩ <;> rcases sets_configure h' with ⟨e', k'⟩ | ⟨e', k'⟩ | ⟨e', k'⟩ | ⟨e', k'⟩
    all_goals first
      | exact hw k k'
      | exact (keys_ne (e.symm.trans e') (by decide)).elim
  | option key v =>
    have ho : (∃ o, s = .objective o ∧ ObjectiveWord rd v o) → (∃ o, s' = .objective o ∧ ObjectiveWord rd v o) → s = s' := by
      rintro ⟨o, rfl, k⟩ ⟨o', rfl, k'⟩
      have e := (C36_objective rd v {} _).2 ⟨o, k, rfl⟩
      have e' := (C36_objective rd v {} _).2 ⟨o', k', rfl⟩
      rw [e] at e'
      have e3 := congrArg (fun t : Theory => t.options.globalObjective) (Outcome.ret.inj e').2
      simp only at e3
      rw [e3]
    rcases sets_option h with ⟨e, k⟩ | ⟨e, k⟩ | ⟨e, k⟩ | ⟨e, k⟩ <;> rcases sets_option h' with ⟨e', k'⟩ | ⟨e', k'⟩ | ⟨e', k'⟩ | ⟨e', k'⟩
    all_goals first
      | exact hw k k'
      | exact ho k k'
      | exact (keys_ne (e.symm.trans e') (by decide)).elim
  | strictFlag b => cases h; cases h'; rfl
  | conflictsFlag b => cases h; cases h'; rfl
  | validate => cases h
  | register ok => cases h

/-- The answer and the state after a call that is not undefined. -/
def Defined (rd : List Char → Option Rat) (h : Handle) (c : Call) : Prop :=
  ∃ a h', h.call rd c = some (a, h') ∧ ¬ Misused c ∧ Effect rd c a h.theory h'.theory ∧ ((∀ ok, c ≠ .register ok) → h'.reg = h.reg)

theorem configure_spec (h : Handle) (key v : List Char) : (h.call rd (.configure key v) = none ∧ Misused (.configure key v)) ∨
    Defined rd h (.configure key v) := by
  have ok : ∀ {α : Type} {words : List (String × α)} {upd : α → Theory} (f : α → Setting), (∀ a, upd a = (f a).apply h.theory) →
      Lpx.configure key v h.theory = expected words v upd h.theory → ¬ Misused (.configure key v) →
      (∀ s, Sets rd (.configure key v) s ↔ ∃ a, s = f a ∧ words.lookup (lowered v) = some a) → Defined rd h (.configure key v) := by
    intro α words upd f hf he hm hs
    obtain ⟨a, h', k1, k2, k3⟩ := after_expected (rd := rd) (words := words) (v := v) (upd := upd) (h := h) f hf hs
    exact ⟨a, h', by rw [call_configure, he]; exact k1, hm, k3, fun _ => k2⟩
  by_cases k1 : key = "objective".toList
  · have hns : ∀ s, ¬ Sets rd (.configure key v) s := by
      intro s hs
      subst k1
      rcases sets_configure hs with ⟨e, -⟩ | ⟨e, -⟩ | ⟨e, -⟩ | ⟨e, -⟩ <;> exact keys_ne e (by decide)
    have he : Lpx.configure key v h.theory = confused (expected boolWords v (fun _ => h.theory) h.theory) := by
      unfold Lpx.configure
      rw [if_neg (by rw [k1]; decide), if_pos k1, C36_bool]
    rcases expected_cases (words := boolWords) (v := v) (upd := fun _ => h.theory) (th := h.theory) with ⟨a, h1, h2⟩ | ⟨h1, h2⟩
    · left
      refine ⟨by rw [call_configure, he, h2]; rfl, by rw [k1]; exact .objective h1⟩
    · right
      refine ⟨.no, { h with theory := h.theory }, by rw [call_configure, he, h2]; rfl, fun hm => ?_, .inr ⟨hns, rfl, fun _ => by decide⟩, fun _ => rfl⟩
      rcases misused_configure hm with ⟨-, b, e⟩ | ⟨e, -⟩
      · rw [h1] at e; cases e
      · rw [k1] at e; exact keys_ne e (by decide)
  by_cases k2 : key = "propagate-bounds".toList
  · have hns : ∀ s, ¬ Sets rd (.configure key v) s := by
      intro s hs
      subst k2
      rcases sets_configure hs with ⟨e, -⟩ | ⟨e, -⟩ | ⟨e, -⟩ | ⟨e, -⟩ <;> exact keys_ne e (by decide)
    have he : Lpx.configure key v h.theory = confused (parsePropagate v h.theory) := by
      unfold Lpx.configure
      rw [if_neg (by rw [k2]; decide), if_neg (by rw [k2]; decide), if_neg (by rw [k2]; decide), if_pos k2]
    rw [C36_propagate] at he
    rcases expected_cases (words := propagateWords) (v := v) (upd := fun a => { h.theory with options := { h.theory.options with propagateMode := a } })
      (th := h.theory) with ⟨a, h1, h2⟩ | ⟨h1, h2⟩
    · left
      refine ⟨by rw [call_configure, he, h2]; rfl, by rw [k2]; exact .bounds h1⟩
    · right
      refine ⟨.no, { h with theory := h.theory }, by rw [call_configure, he, h2]; rfl, fun hm => ?_, .inr ⟨hns, rfl, fun _ => by decide⟩, fun _ => rfl⟩
      rcases misused_configure hm with ⟨e, -⟩ | ⟨-, b, e⟩
      · exact k1 e
      · rw [h1] at e; cases e
  right
  have hm : ¬ Misused (.configure key v) := by
    intro hm
    rcases misused_configure hm with ⟨e, -⟩ | ⟨e, -⟩
    · exact k1 e
    · exact k2 e
  have he := C35_configure_partial key v h.theory k1 k2
  by_cases k3 : key = "strict".toList
  · rw [if_pos k3] at he
    refine ok .strict (fun _ => rfl) he hm fun s => ⟨fun hs => ?_, fun ⟨a, e, k⟩ => ?_⟩
    · subst k3
      rcases sets_configure hs with ⟨-, e⟩ | ⟨e, -⟩ | ⟨e, -⟩ | ⟨e, -⟩
      · exact e
      all_goals exact absurd e fun e => keys_ne e (by decide)
    · rw [e, k3]; exact .strict k
  rw [if_neg k3] at he
  by_cases k4 : key = "propagate-conflicts".toList
  · rw [if_pos k4] at he
    refine ok .conflicts (fun _ => rfl) he hm fun s => ⟨fun hs => ?_, fun ⟨a, e, k⟩ => ?_⟩
    · subst k4
      rcases sets_configure hs with ⟨e, -⟩ | ⟨-, e⟩ | ⟨e, -⟩ | ⟨e, -⟩
      · exact absurd e fun e => keys_ne e (by decide)
      · exact e
      all_goals exact absurd e fun e => keys_ne e (by decide)
    · rw [e, k4]; exact .conflicts k
  rw [if_neg k4] at he
  by_cases k5 : key = "select".toList
  · rw [if_pos k5] at he
    refine ok .select (fun _ => rfl) he hm fun s => ⟨fun hs => ?_, fun ⟨a, e, k⟩ => ?_⟩
    · subst k5
      rcases sets_configure hs with ⟨e, -⟩ | ⟨e, -⟩ | ⟨-, e⟩ | ⟨e, -⟩
      · exact absurd e fun e => keys_ne e (by decide)
      · exact absurd e fun e => keys_ne e (by decide)
      · exact e
      · exact absurd e fun e => keys_ne e (by decide)
    · rw [e, k5]; exact .select k
  rw [if_neg k5] at he
  by_cases k6 : key = "store".toList
  · rw [if_pos k6] at he
    refine ok .store (fun _ => rfl) he hm fun s => ⟨fun hs => ?_, fun ⟨a, e, k⟩ => ?_⟩
    · subst k6
      rcases sets_configure hs with ⟨e, -⟩ | ⟨e, -⟩ | ⟨e, -⟩ | ⟨-, e⟩
      · exact absurd e fun e => keys_ne e (by decide)
      · exact absurd e fun e => keys_ne e (by decide)
      · exact absurd e fun e => keys_ne e (by decide)
      · exact e
    · rw [e, k6]; exact .store k
  rw [if_neg k6] at he
  refine ⟨.no, { h with theory := h.theory }, by rw [call_configure, he]; rfl, hm, .inr ⟨fun s hs => ?_, rfl, fun _ => by decide⟩, fun _ => rfl⟩
  rcases sets_configure hs with ⟨e, -⟩ | ⟨e, -⟩ | ⟨e, -⟩ | ⟨e, -⟩
  · exact k3 e
  · exact k4 e
  · exact k5 e
  · exact k6 e

theorem option_spec (h : Handle) (key v : List Char) : Defined rd h (.option key v) := by
  have hm : ¬ Misused (.option key v) := by
    intro hm; obtain ⟨_, _, e⟩ := misused_only hm; cases e
  have ok : ∀ {α : Type} {words : List (String × α)} {upd : α → Theory} (f : α → Setting), (∀ a, upd a = (f a).apply h.theory) →
      commandLine rd key v h.theory = expected words v upd h.theory →
      (∀ s, Sets rd (.option key v) s ↔ ∃ a, s = f a ∧ words.lookup (lowered v) = some a) → Defined rd h (.option key v) := by
    intro α words upd f hf he hs
    obtain ⟨a, h', k1, k2, k3⟩ := after_expected (rd := rd) (words := words) (v := v) (upd := upd) (h := h) f hf hs
    exact ⟨a, h', by rw [call_option, he]; exact k1, hm, k3, fun _ => k2⟩
  obtain ⟨c1, c2, c3, c4, c5⟩ := C36_command_line rd v h.theory
  by_cases k1 : key = "propagate-bounds".toList
  · subst k1
    refine ok .bounds (fun _ => rfl) c1 fun s => ⟨fun hs => ?_, fun ⟨a, e, k⟩ => e ▸ .boundsOption k⟩
    rcases sets_option hs with ⟨e, -⟩ | ⟨e, -⟩ | ⟨-, e⟩ | ⟨e, -⟩
    · exact absurd e fun e => keys_ne e (by decide)
    · exact absurd e fun e => keys_ne e (by decide)
    · exact e
    · exact absurd e fun e => keys_ne e (by decide)
  by_cases k2 : key = "select".toList
  · subst k2
    refine ok .select (fun _ => rfl) c2 fun s => ⟨fun hs => ?_, fun ⟨a, e, k⟩ => e ▸ .selectOption k⟩
    rcases sets_option hs with ⟨-, e⟩ | ⟨e, -⟩ | ⟨e, -⟩ | ⟨e, -⟩
    · exact e
    all_goals exact absurd e fun e => keys_ne e (by decide)
  by_cases k3 : key = "store".toList
  · subst k3
    refine ok .store (fun _ => rfl) c3 fun s => ⟨fun hs => ?_, fun ⟨a, e, k⟩ => e ▸ .storeOption k⟩
    rcases sets_option hs with ⟨e, -⟩ | ⟨-, e⟩ | ⟨e, -⟩ | ⟨e, -⟩
    · exact absurd e fun e => keys_ne e (by decide)
    · exact e
    all_goals exact absurd e fun e => keys_ne e (by decide)
  by_cases k4 : key = "objective".toList
  · subst k4
    have hs1 : ∀ s, Sets rd (.option "objective".toList v) s → ∃ o, s = .objective o ∧ ObjectiveWord rd v o := by
      intro s hs
      rcases sets_option hs with ⟨e, -⟩ | ⟨e, -⟩ | ⟨e, -⟩ | ⟨-, e⟩
      · exact absurd e fun e => keys_ne e (by decide)
      · exact absurd e fun e => keys_ne e (by decide)
      · exact absurd e fun e => keys_ne e (by decide)
      · exact e
    have hno : (∀ th', commandLine rd "objective".toList v h.theory ≠ .ret true th') → ∀ s, ¬ Sets rd (.option "objective".toList v) s := by
      intro hn s hs
      obtain ⟨o, -, ho⟩ := hs1 s hs
      exact hn _ ((c4 _).2 ⟨o, ho, rfl⟩)
    cases hc : commandLine rd "objective".toList v h.theory with
    | ret b th' =>
      cases b with
      | true =>
        obtain ⟨o, ho, e⟩ := (c4 th').1 hc
        exact ⟨.yes, { h with theory := th' }, by rw [call_option, hc]; rfl, hm, .inl ⟨.objective o, .objectiveOption ho, e, rfl⟩, fun _ => rfl⟩
      | false =>
        have e : th' = h.theory := by
          have hc' := hc
          unfold commandLine at hc'
          rw [if_neg (by decide), if_pos rfl] at hc'
          rcases C36_objective_rejected rd v h.theory with ⟨t, k⟩ | k | ⟨k, -⟩ <;> rw [hc'] at k
          · cases k
          · exact (Outcome.ret.inj k).2
          · cases k
        subst e
        exact ⟨.no, { h with theory := h.theory }, by rw [call_option, hc]; rfl, hm,
          .inr ⟨hno (fun th' k => by rw [hc] at k; cases k), rfl, fun _ => by decide⟩, fun _ => rfl⟩
    | throws =>
      exact ⟨.exception, h, by rw [call_option, hc]; rfl, hm, .inr ⟨hno (fun th' k => by rw [hc] at k; cases k), rfl, fun _ => by decide⟩, fun _ => rfl⟩
    | undef =>
      unfold commandLine at hc
      rw [if_neg (by decide), if_pos rfl] at hc
      rcases C36_objective_rejected rd v h.theory with ⟨t, k⟩ | k | ⟨k, -⟩ <;> rw [hc] at k <;> cases k
  have he := c5 key (by simp only [List.mem_cons, List.not_mem_nil, or_false, not_or]; exact ⟨k1, k2, k3, k4⟩)
  refine ⟨.no, { h with theory := h.theory }, by rw [call_option, he]; rfl, hm, .inr ⟨fun s hs => ?_, rfl, fun _ => by decide⟩, fun _ => rfl⟩
  rcases sets_option hs with ⟨e, -⟩ | ⟨e, -⟩ | ⟨e, -⟩ | ⟨e, -⟩
  · exact k2 e
  · exact k3 e
  · exact k1 e
  · exact k4 e

theorem call_spec (h : Handle) (c : Call) : (h.call rd c = none ∧ Misused c) ∨ Defined rd h c := by
  have hm : (∀ k v, c ≠ .configure k v) → ¬ Misused c := fun hn hm => by
    obtain ⟨k, v, e⟩ := misused_only hm; exact hn k v e
  cases c with
  | configure key v => exact configure_spec h key v
  | option key v => exact .inr (option_spec h key v)
  | strictFlag b => exact .inr ⟨_, _, rfl, hm (fun _ _ k => by cases k), .inl ⟨_, .strictFlag, rfl, rfl⟩, fun _ => rfl⟩
  | conflictsFlag b => exact .inr ⟨_, _, rfl, hm (fun _ _ k => by cases k), .inl ⟨_, .conflictsFlag, rfl, rfl⟩, fun _ => rfl⟩
  | validate =>
    refine .inr ⟨_, _, rfl, hm (fun _ _ k => by cases k), .inr ⟨(fun s hs => by cases hs), rfl, ?_⟩, fun _ => rfl⟩
    rintro ⟨k, v, e | e⟩ <;> cases e
  | register ok =>
    have hs : ∀ s, ¬ Sets rd (.register ok) s := fun s hs => by cases hs
    have hn : (∃ k v, Call.register ok = .configure k v ∨ Call.register ok = .option k v) → False := by
      rintro ⟨k, v, e | e⟩ <;> cases e
    cases ok
    · exact .inr ⟨.no, h, rfl, hm (fun _ _ k => by cases k), .inr ⟨hs, rfl, fun k => (hn k).elim⟩, fun _ => rfl⟩
    · exact .inr ⟨.yes, { h with reg := some (facade h.theory.strict h.theory.options) }, rfl, hm (fun _ _ k => by cases k),
        .inr ⟨hs, rfl, fun k => (hn k).elim⟩, fun k => absurd rfl (k true)⟩

theorem runFrom_append (h : Handle) (as bs : List Call) :
    h.runFrom rd (as ++ bs) = (h.runFrom rd as).bind fun r => (r.2.runFrom rd bs).map fun q => (r.1 ++ q.1, q.2) := by
  induction as generalizing h with
  | nil => simp [Handle.runFrom]
  | cons c as ih =>
    simp only [List.cons_append, Handle.runFrom]
    cases h.call rd c with
    | none => rfl
    | some r =>
      simp only [Option.bind_some, ih]
      cases r.2.runFrom rd as with
      | none => rfl
      | some q =>
        simp only [Option.bind_some, Option.map_some, Option.map_map]
        congr 1

/-- C61: the program is well-defined if and only if no call is one of those in Finding 4. -/
theorem C61_defined_iff (cs : List Call) : (Handle.run rd cs).isSome = true ↔ ∀ c ∈ cs, ¬ Misused c := by
  unfold Handle.run
  generalize ({} : Handle) = h
  induction cs generalizing h with
  | nil => simp [Handle.runFrom]
  | cons c cs ih =>
    simp only [Handle.runFrom, List.forall_mem_cons]
    rcases call_spec (rd := rd) h c with ⟨k, hm⟩ | ⟨a, h', k, hm, -, -⟩
    · rw [k]; simp [hm]
    · rw [k, Option.bind_some, Option.isSome_map, ih]; simp [hm]

theorem lastSet_step {α : Type} {f : α → Setting} {get : Theory → α} (h1 : ∀ th a, get ((f a).apply th) = a)
    (h2 : ∀ th s, (∀ a, s ≠ f a) → get (s.apply th) = get th) {d : α} {cs : List Call} {c : Call} {a : Answer} {th th' : Theory}
    (he : Effect rd c a th th') (hl : LastSet rd f d cs (get th)) : LastSet rd f d (cs ++ [c]) (get th') := by
  have keep : (∀ w, ¬ Sets rd c (f w)) → LastSet rd f d (cs ++ [c]) (get th) := by
    intro hn
    rcases hl with ⟨l, c0, r, e, hs, hr⟩ | ⟨e, hs⟩
    · refine .inl ⟨l, c0, r ++ [c], by rw [e]; simp, hs, fun c' hc' => ?_⟩
      rcases List.mem_append.1 hc' with h | h
      · exact hr c' h
      · rw [List.mem_singleton.1 h]; exact hn
    · refine .inr ⟨e, fun c' hc' => ?_⟩
      rcases List.mem_append.1 hc' with h | h
      · exact hs c' h
      · rw [List.mem_singleton.1 h]; exact hn
  rcases he with ⟨s, hs, rfl, -⟩ | ⟨hn, rfl, -⟩
  · by_cases hx : ∃ v, s = f v
    · obtain ⟨v, rfl⟩ := hx
      rw [h1]
      exact .inl ⟨cs, c, [], rfl, hs, by simp⟩
    · push Not at hx
      rw [h2 _ _ hx]
      refine keep fun w hw => ?_
      exact hx w (sets_unique hs hw)
  · exact keep fun w => hn _

/-- The value set last is unique. -/
theorem lastSet_unique {α : Type} {f : α → Setting} (hf : ∀ a b, f a = f b → a = b) {d : α} {cs : List Call} {v w : α}
    (h : LastSet rd f d cs v) (h' : LastSet rd f d cs w) : v = w := by
  rcases h with ⟨l, c, r, e, hs, hn⟩ | ⟨rfl, hn⟩ <;> rcases h' with ⟨l', c', r', e', hs', hn'⟩ | ⟨rfl, hn'⟩
  · rw [e] at e'
    rcases List.append_eq_append_iff.1 e' with ⟨a, h1, h2⟩ | ⟨a, h1, h2⟩
    · cases a with
      | nil =>
        injection h2 with h2 _
        subst h2
        exact hf _ _ (sets_unique hs hs')
      | cons x xs =>
        injection h2 with _ h2
        exact absurd hs' (hn c' (by rw [h2]; simp) w)
    · cases a with
      | nil =>
        injection h2 with h2 _
        subst h2
        exact hf _ _ (sets_unique hs hs')
      | cons x xs =>
        injection h2 with _ h2
        exact absurd hs (hn' c (by rw [h2]; simp) v)
  · exact absurd hs (hn' c (by rw [e]; simp) v)
  · exact absurd hs' (hn c' (by rw [e']; simp) w)
  · rfl

/-- After the calls `cs` every option has the value it was set to last, independently of the others. -/
structure Configured (rd : List Char → Option Rat) (cs : List Call) (strict : Bool) (opts : Options) : Prop where
  strict : LastSet rd .strict false cs strict
  conflicts : LastSet rd .conflicts false cs opts.propagateConflicts
  select : LastSet rd .select .none cs opts.select
  store : LastSet rd .store .no cs opts.store
  bounds : LastSet rd .bounds .none cs opts.propagateMode
  objective : LastSet rd .objective none cs opts.globalObjective

theorem runFrom_single (h : Handle) (c : Call) : h.runFrom rd [c] = (h.call rd c).map fun r => ([r.1], r.2) := by
  simp only [Handle.runFrom]
  cases h.call rd c <;> rfl

/-- Unfolding of the last call. -/
theorem run_snoc {cs : List Call} {c : Call} {as : List Answer} {h : Handle} (hr : Handle.run rd (cs ++ [c]) = some (as, h)) :
    ∃ as' a h', Handle.run rd cs = some (as', h') ∧ h'.call rd c = some (a, h) ∧ as = as' ++ [a] := by
  unfold Handle.run at hr ⊢
  rw [runFrom_append] at hr
  obtain ⟨r, h1, h2⟩ := Option.bind_eq_some_iff.1 hr
  rw [runFrom_single, Option.map_map, Option.map_eq_some_iff] at h2
  obtain ⟨q, h3, h4⟩ := h2
  obtain ⟨e1, e2⟩ := Prod.mk.inj h4
  exact ⟨r.1, q.1, r.2, h1, by rw [h3]; exact congrArg some (Prod.ext rfl e2), e1.symm⟩

/-- C61: before registration. -/
theorem C61_settings {cs : List Call} {as : List Answer} {h : Handle} (hr : Handle.run rd cs = some (as, h)) :
    Configured rd cs h.theory.strict h.theory.options := by
  induction cs using List.reverseRecOn generalizing as h with
  | nil =>
    obtain ⟨-, rfl⟩ := Prod.mk.inj (Option.some.inj hr)
    constructor <;> exact .inr ⟨rfl, fun c hc => by cases hc⟩
  | append_singleton cs c ih =>
    obtain ⟨as', a, h', h1, h2, -⟩ := run_snoc hr
    have ih := ih h1
    rcases call_spec (rd := rd) h' c with ⟨k, -⟩ | ⟨a', h'', k, -, he, -⟩
    · rw [k] at h2; cases h2
    · rw [k] at h2
      obtain ⟨rfl, rfl⟩ := Prod.mk.inj (Option.some.inj h2)
      refine ⟨lastSet_step (get := fun t => t.strict) (fun _ _ => rfl) (fun th s hs => ?_) he ih.strict,
        lastSet_step (get := fun t => t.options.propagateConflicts) (fun _ _ => rfl) (fun th s hs => ?_) he ih.conflicts,
        lastSet_step (get := fun t => t.options.select) (fun _ _ => rfl) (fun th s hs => ?_) he ih.select,
        lastSet_step (get := fun t => t.options.store) (fun _ _ => rfl) (fun th s hs => ?_) he ih.store,
        lastSet_step (get := fun t => t.options.propagateMode) (fun _ _ => rfl) (fun th s hs => ?_) he ih.bounds,
        lastSet_step (get := fun t => t.options.globalObjective) (fun _ _ => rfl) (fun th s hs => ?_) he ih.objective⟩ <;>
        cases s <;> first | rfl | exact absurd rfl (hs _)

/-- C61: the propagator that is registered has the options set before the registration; later calls have no effect on it. Strict mode selects the
arithmetic and the theory definition; the heuristic is registered if and only if one has been selected. -/
theorem C61_registered {cs cs' : List Call} {as : List Answer} {h : Handle} (hr : Handle.run rd (cs ++ .register true :: cs') = some (as, h))
    (hl : ∀ c ∈ cs', c ≠ .register true) :
    ∃ r, h.reg = some r ∧ Configured rd cs r.epsilon r.opts ∧ r.grammar = theoryDef r.epsilon ∧ (r.decides = true ↔ r.opts.select ≠ .none) := by
  induction cs' using List.reverseRecOn generalizing as h with
  | nil =>
    obtain ⟨as', a, h', h1, h2, -⟩ := run_snoc hr
    obtain ⟨-, rfl⟩ := Prod.mk.inj (Option.some.inj h2)
    exact ⟨_, rfl, C61_settings h1, rfl, by simp [facade]⟩
  | append_singleton cs' c ih =>
    have e : cs ++ Call.register true :: (cs' ++ [c]) = (cs ++ Call.register true :: cs') ++ [c] := by simp
    rw [e] at hr
    obtain ⟨as', a, h', h1, h2, -⟩ := run_snoc hr
    have ih := ih h1 fun c hc => hl c (by simp [hc])
    have hreg : h.reg = h'.reg := by
      have hc := hl c (by simp)
      rcases call_spec (rd := rd) h' c with ⟨k, -⟩ | ⟨a', h'', k, -, -, hk⟩
      · rw [k] at h2; cases h2
      · by_cases hx : c = .register false
        · subst hx
          obtain ⟨-, rfl⟩ := Prod.mk.inj (Option.some.inj h2)
          rfl
        · rw [k] at h2
          obtain ⟨rfl, rfl⟩ := Prod.mk.inj (Option.some.inj h2)
          refine hk fun ok => ?_
          cases ok
          · exact hx
          · exact hc
    rw [hreg]; exact ih

/-- C61: without a successful registration there is no propagator. -/
theorem C61_unregistered {cs : List Call} {as : List Answer} {h : Handle} (hr : Handle.run rd cs = some (as, h))
    (hl : ∀ c ∈ cs, c ≠ .register true) : h.reg = none := by
  induction cs using List.reverseRecOn generalizing as h with
  | nil => obtain ⟨-, rfl⟩ := Prod.mk.inj (Option.some.inj hr); rfl
  | append_singleton cs c ih =>
    obtain ⟨as', a, h', h1, h2, -⟩ := run_snoc hr
    have ih := ih h1 fun c hc => hl c (by simp [hc])
    have hc := hl c (by simp)
    rcases call_spec (rd := rd) h' c with ⟨k, -⟩ | ⟨a', h'', k, -, -, hk⟩
    · rw [k] at h2; cases h2
    · by_cases hx : c = .register false
      · subst hx
        obtain ⟨-, rfl⟩ := Prod.mk.inj (Option.some.inj h2)
        exact ih
      · rw [k] at h2
        obtain ⟨rfl, rfl⟩ := Prod.mk.inj (Option.some.inj h2)
        rw [hk fun ok => by
          cases ok
          · exact hx
          · exact hc]
        exact ih

/-- C61: the answers. A configuration call returns true if and only if it sets an option, validation fails if and only if the step of the objective last
set has an epsilon part although strict mode is off, and a registration succeeds if and only if clingo accepts it. -/
theorem C61_answers {cs : List Call} {c : Call} {as : List Answer} {a : Answer} {h : Handle} (hr : Handle.run rd (cs ++ [c]) = some (as ++ [a], h)) :
    ((∃ k v, c = .configure k v ∨ c = .option k v) → (a = .yes ↔ ∃ s, Sets rd c s)) ∧
    (c = .validate → (a = .yes ∨ a = .no) ∧ (a = .no ↔ LastSet rd .strict false cs false ∧ ∃ q : RatQ, q.k ≠ 0 ∧ LastSet rd .objective none cs (some q))) ∧
    (∀ ok, c = .register ok → (a = .yes ↔ ok = true)) := by
  obtain ⟨as', a', h', h1, h2, e⟩ := run_snoc hr
  obtain ⟨-, e⟩ := List.append_inj' e rfl
  obtain rfl : a = a' := by simpa using e
  have hcfg := C61_settings h1
  refine ⟨fun hk => ?_, ?_, ?_⟩
  · rcases call_spec (rd := rd) h' c with ⟨k, -⟩ | ⟨a', h'', k, -, he, -⟩
    · rw [k] at h2; cases h2
    · rw [k] at h2
      obtain ⟨rfl, rfl⟩ := Prod.mk.inj (Option.some.inj h2)
      rcases he with ⟨s, hs, -, ha⟩ | ⟨hn, -, ha⟩
      · exact ⟨fun _ => ⟨s, hs⟩, fun _ => ha⟩
      · exact ⟨fun k => absurd k (ha hk), fun ⟨s, hs⟩ => absurd hs (hn s)⟩
  · rintro rfl
    obtain ⟨ha, -⟩ := Prod.mk.inj (Option.some.inj h2)
    have hv := C37_validate h'.theory
    have hu1 : ∀ b, LastSet rd .strict false cs b ↔ h'.theory.strict = b := fun b =>
      ⟨fun hb => lastSet_unique (fun _ _ => Setting.strict.inj) hcfg.strict hb, fun hb => hb ▸ hcfg.strict⟩
    have hu2 : ∀ b, LastSet rd .objective none cs b ↔ h'.theory.options.globalObjective = b := fun b =>
      ⟨fun hb => lastSet_unique (fun _ _ => Setting.objective.inj) hcfg.objective hb, fun hb => hb ▸ hcfg.objective⟩
    have hno : a = .no ↔ validateOptions h'.theory = false := by
      rw [← ha]
      cases validateOptions h'.theory <;> simp
    refine ⟨?_, ?_⟩
    · rw [← ha]
      cases validateOptions h'.theory <;> simp
    · rw [hno, hv, hu1]
      refine and_congr_right fun _ => exists_congr fun q => ?_
      rw [hu2, and_comm]
  · rintro ok rfl
    cases ok <;> obtain ⟨ha, -⟩ := Prod.mk.inj (Option.some.inj h2) <;> rw [← ha] <;> simp

section
variable {V : Type} [LpFull V] {be : Backend} {Q : Restr V} {p : Propagator V} {g : Ghost V}

/-- C61: in every state reachable with the registered options, the decisions are those described in C30, whether or not the callback is registered. -/
theorem C61_decisions {cs cs' : List Call} {as : List Answer} {h : Handle} (hr : Handle.run rd (cs ++ .register true :: cs') = some (as, h))
    (hl : ∀ c ∈ cs', c ≠ .register true) {r : Registered} (hh : h.reg = some r) (hreach : Reach be r.opts Q p g) {th : ℕ} {gt : GThr}
    (hgt : g.thrs[th]? = some gt) (lit : ℤ) : r.decision p th lit = p.decideLit th lit := by
  obtain ⟨r', hr', -, -, hd⟩ := C61_registered hr hl
  obtain rfl := Option.some.inj (hh.symm.trans hr')
  unfold Registered.decision
  split
  · rfl
  · rename_i hn
    have hs : r.opts.select = .none := by
      by_contra hs; exact hn (hd.2 hs)
    obtain ⟨t, ht, E0, base, hw⟩ := hreach.weak.thr th gt hgt
    rw [C30_none ht (by rw [hw.hopts]; exact hs)]

end

/-- The hypotheses are met by a typical sequence of calls: the second value of `select` counts, a misspelled word is refused, `strict` and `store` come
from the command line, `select` is changed too late. -/
example : ∃ as h r, Handle.run (fun _ => none) ([.configure "select".toList "match".toList, .configure "select".toList "mtch".toList,
      .option "select".toList "Conflict".toList, .strictFlag true, .option "store".toList "total".toList, .option "objective".toList "global,e".toList,
      .validate] ++ .register true :: [.configure "select".toList "none".toList]) = some (as, h) ∧
    as = [.yes, .no, .yes, .yes, .yes, .yes, .yes, .yes, .yes] ∧ h.reg = some r ∧ h.theory.options.select = .none ∧
    r.opts = { select := .conflict, store := .total, globalObjective := some ⟨0, 1⟩ } ∧ r.epsilon = true ∧ r.decides = true := by
  exact ⟨_, _, _, rfl, by decide, rfl, rfl, by decide, rfl, rfl⟩

/-! ### C62 -/

/-- The documented keys of `clingolpx_configure`. -/
def configureKeys : List (List Char) :=
  ["strict".toList, "objective".toList, "propagate-conflicts".toList, "propagate-bounds".toList, "select".toList, "store".toList]

/-- The error message one expects: it says whether the key or the value is wrong and quotes the key. -/
def expectedMessage (key : List Char) : List Char :=
  if key ∈ configureKeys then "invalid value for '".toList ++ key ++ ['\''] else "invalid configuration key '".toList ++ key ++ ['\'']

/-- C62, without the key `store`, for which the property is false (see below). -/
theorem C62_messages_partial (key : List Char) (hk : key ≠ "store".toList) : configureMessage key = expectedMessage key := by
  unfold configureMessage expectedMessage configureKeys
  by_cases k1 : key = "strict".toList
  · rw [if_pos k1, if_pos (by rw [k1]; simp only [List.mem_cons, true_or]), k1]
  rw [if_neg k1]
  by_cases k2 : key = "objective".toList
  · rw [if_pos k2, if_pos (by rw [k2]; simp only [List.mem_cons, true_or, or_true]), k2]
  rw [if_neg k2]
  by_cases k3 : key = "propagate-conflicts".toList
  · rw [if_pos k3, if_pos (by rw [k3]; simp only [List.mem_cons, true_or, or_true]), k3]
  rw [if_neg k3]
  by_cases k4 : key = "propagate-bounds".toList
  · rw [if_pos k4, if_pos (by rw [k4]; simp only [List.mem_cons, true_or, or_true]), k4]
  rw [if_neg k4]
  by_cases k5 : key = "select".toList
  · rw [if_pos k5, if_pos (by rw [k5]; simp only [List.mem_cons, true_or, or_true]), k5]
  rw [if_neg k5, if_neg hk, if_neg]
  simp only [List.mem_cons, List.not_mem_nil, or_false, not_or]
  exact ⟨k1, k2, k3, k4, k5, hk⟩

/-- C62 is violated: an unknown value for `store` is reported as an invalid value for `select`. -/
theorem C62_violation : ∃ v, Lpx.configure "store".toList v {} = .ret false {} ∧ configureMessage "store".toList = "invalid value for 'select'".toList ∧
    configureMessage "store".toList ≠ expectedMessage "store".toList :=
  ⟨"all".toList, rfl, by decide, by decide⟩

example : configureMessage "Store".toList = "invalid configuration key 'Store'".toList := by decide

end Lpx.Props
