import Verif.App
import Verif.PropsData
import Verif.PropsSession
import Verif.PropsUnmixed

/-!
# The output of models (C51, C63)
-/

set_option linter.unusedSectionVars false

namespace Lpx.Props
open Lpx Lpx.Witness

variable {V : Type} [LpFull V] [LpPrint V] {be : Backend} {opts : Options} {Q : Restr V} {p : Propagator V} {g : Ghost V}

/-- The line of the objective. -/
def objectiveLine : List (V × Bool) → List Char
  | [] => []
  | (v, true) :: _ => "\nOptimization: ".toList ++ LpPrint.print v ++ " [bounded]".toList
  | (v, false) :: _ => "\nOptimization: ".toList ++ LpPrint.print v ++ " [unbounded]".toList

/-- The variables of the user, each of them once. -/
def userVars (p : Propagator V) : List Symbol := p.varVec.filter fun y => !Propagator.isNumSym y

/-- These are the variables that can be looked up and were not introduced by the program for itself. -/
theorem mem_userVars (hr : Reach be opts Q p g) (y : Symbol) : y ∈ userVars p ↔ (p.apiLookup y).isSome = true ∧ UserSym y := by
  unfold userVars
  rw [List.mem_filter, Option.isSome_iff_exists]
  have hu : (!Propagator.isNumSym y) = true ↔ UserSym y := by
    cases y <;> simp [Propagator.isNumSym, UserSym]
  rw [hu]
  refine and_congr_left fun _ => ⟨fun hy => ?_, ?_⟩
  · obtain ⟨j, hj⟩ := List.mem_iff_getElem?.1 hy
    exact ⟨j + 1, (C31_lookup_inverse hr y (j + 1)).2 ⟨by omega, hj⟩⟩
  · rintro ⟨i, hi⟩
    exact List.mem_of_getElem? ((C31_lookup_inverse hr y i).1 hi).2

theorem scan_spec : ∀ (ss : List Symbol) (r), (scan ss r).1 = r.1 ++ ss.filterMap asgEntry ∧
    (scan ss r).2 = ((ss.filter fun s => (asgEntry s).isNone).filterMap objEntry).getLast?.or r.2 := by
  intro ss
  induction ss with
  | nil => intro r; simp [scan]
  | cons s ss ih =>
    intro r
    simp only [scan]
    cases h1 : asgEntry s with
    | some t =>
      obtain ⟨k1, k2⟩ := ih (r.1 ++ [t], r.2)
      simp only at k1 k2 ⊢
      rw [k1, k2]
      simp [h1]
    | none =>
      cases h2 : objEntry s with
      | some o =>
        obtain ⟨k1, k2⟩ := ih (r.1, some o)
        simp only at k1 k2 ⊢
        rw [k1, k2, List.filterMap_cons_none h1, List.filter_cons_of_pos (by simp [h1]), List.filterMap_cons_some h2]
        refine ⟨rfl, ?_⟩
        generalize ((ss.filter fun s => (asgEntry s).isNone).filterMap objEntry) = l
        cases l with
        | nil => rfl
        | cons a l => simp [List.getLast?_cons]
      | none =>
        obtain ⟨k1, k2⟩ := ih r
        simp only at k1 k2 ⊢
        rw [k1, k2]
        simp [h1, h2]

/-- C51 with the entries in the order of the theory symbols. -/
theorem model_entries (hr : Reach be opts Q p g) {th : ℕ} {t : Thr V} (ht : p.thrs[th]? = some t) (atoms : List Symbol) {theory : List Symbol}
    (hth : theory.Perm (p.extendModel th)) :
    (theory.filterMap asgEntry).Perm ((userVars p).map fun y => showSym y ++ '=' :: LpPrint.print (p.valueOf th y)) ∧
      printModel atoms theory = joined false (atoms.map showSym) ++ "\nAssignment:\n".toList ++ joined false (theory.filterMap asgEntry) ++
        objectiveLine (p.objectiveOf th) ++ ['\n'] := by
  have hm : p.extendModel th = (userVars p).map (fun y => Symbol.fn lpxName [y, .str (LpPrint.print (p.valueOf th y))] true) ++
      (p.objectiveOf th).map fun o => .fn objName [.str (LpPrint.print o.1), .num (if o.2 then 1 else 0)] true := by
    unfold Propagator.extendModel userVars
    rw [C32_model hr ht, List.map_map]
    rfl
  have hne : (objName == lpxName) = false := by decide
  have hne' : (lpxName == objName) = false := by decide
  have a1 : (p.extendModel th).filterMap asgEntry = (userVars p).map fun y => showSym y ++ '=' :: LpPrint.print (p.valueOf th y) := by
    rw [hm, List.filterMap_append, List.filterMap_map, List.filterMap_map]
    have : ((p.objectiveOf th).filterMap (asgEntry ∘ fun o => .fn objName [.str (LpPrint.print o.1), .num (if o.2 then 1 else 0)] true)) = [] := by
      rw [List.filterMap_eq_nil_iff]
      intro o _
      simp [asgEntry]
    rw [this, List.append_nil]
    induction userVars p with
    | nil => rfl
    | cons y ys ih => simp [asgEntry, ih]
  have a2 : ((p.extendModel th).filter fun s => (asgEntry s).isNone).filterMap objEntry = (p.objectiveOf th).map fun o => (LpPrint.print o.1, o.2) := by
    rw [hm, List.filter_append, List.filterMap_append]
    have e1 : (((userVars p).map (fun y => Symbol.fn lpxName [y, .str (LpPrint.print (p.valueOf th y))] true)).filter fun s => (asgEntry s).isNone) = [] := by
      rw [List.filter_eq_nil_iff]
      intro s hs
      obtain ⟨y, -, rfl⟩ := List.mem_map.1 hs
      simp [asgEntry]
    rw [e1, List.filterMap_nil, List.nil_append]
    induction p.objectiveOf th with
    | nil => rfl
    | cons o os ih =>
      rw [List.map_cons, List.map_cons, List.filter_cons_of_pos (by simp [asgEntry]), List.filterMap_cons_some (b := (LpPrint.print o.1, o.2)), ih]
      cases o.2 <;> simp [objEntry]
  refine ⟨a1 ▸ hth.filterMap asgEntry, ?_⟩
  obtain ⟨k1, k2⟩ := scan_spec theory ([], none)
  have hob : (scan theory ([], none)).2 = ((p.objectiveOf th).map fun o => (LpPrint.print o.1, o.2)).head? := by
    rw [k2]
    have hp := (hth.filter fun s => (asgEntry s).isNone).filterMap objEntry
    rw [a2] at hp
    have hl : (p.objectiveOf th).length ≤ 1 := by
      unfold Propagator.objectiveOf
      rw [ht]
      cases t.slv.getObjective <;> simp
    cases ho : p.objectiveOf th with
    | nil => rw [ho] at hp; rw [List.map_nil, List.perm_nil] at hp; rw [hp]; rfl
    | cons o os =>
      cases os with
      | nil =>
        rw [ho] at hp
        rw [List.perm_singleton.1 hp]; rfl
      | cons o' os => rw [ho] at hl; simp at hl
  unfold printModel
  have e1 : " [bounded]".toList = " [".toList ++ "bounded".toList ++ "]".toList := by decide
  have e2 : " [unbounded]".toList = " [".toList ++ "unbounded".toList ++ "]".toList := by decide
  cases ho : p.objectiveOf th with
  | nil => rw [hob, k1, ho, List.nil_append]; unfold printParts; rfl
  | cons o os =>
    obtain ⟨v, b⟩ := o
    rw [hob, k1, ho, List.nil_append, List.map_cons, List.head?_cons]
    unfold printParts
    cases b
    · unfold objectiveLine
      rw [e2]
      dsimp only
      rw [if_neg Bool.false_ne_true]
      generalize "\nOptimization: ".toList = c1
      generalize " [".toList = c2
      generalize "unbounded".toList = c3
      generalize "]".toList = c4
      simp only [List.append_assoc]
    · unfold objectiveLine
      rw [e1]
      dsimp only
      rw [if_pos rfl]
      generalize "\nOptimization: ".toList = c1
      generalize " [".toList = c2
      generalize "bounded".toList = c3
      generalize "]".toList = c4
      simp only [List.append_assoc]

/-- C51: the output for a model. Let the theory symbols of the model be those added by `extend_model`, in any order (they are sorted). Then
the text consists of the shown atoms, the assignment with one entry `variable=value` for each variable of the user and none for
others, and the line of the objective if and only if there is an objective, telling its value and whether it is bounded. -/
theorem C51_output (hr : Reach be opts Q p g) {th : ℕ} {t : Thr V} (ht : p.thrs[th]? = some t) (atoms : List Symbol) {theory : List Symbol}
    (hth : theory.Perm (p.extendModel th)) :
    ∃ entries, entries.Perm ((userVars p).map fun y => showSym y ++ '=' :: LpPrint.print (p.valueOf th y)) ∧
      printModel atoms theory = joined false (atoms.map showSym) ++ "\nAssignment:\n".toList ++ joined false entries ++
        objectiveLine (p.objectiveOf th) ++ ['\n'] := ⟨_, model_entries hr ht atoms hth⟩

theorem pyEntries_spec : ∀ ss : List Symbol, (∀ s ∈ ss, ∀ name a b pos, s = .fn name [a, b] pos → name = lpxName → pos = true ∧ ∃ v, b = .str v) →
    pyEntries ss = some (ss.filterMap asgEntry)
  | [], _ => rfl
  | s :: ss, h => by
    have ih := pyEntries_spec ss fun s' hs' => h s' (List.mem_cons_of_mem _ hs')
    have h0 := h s List.mem_cons_self
    unfold pyEntries
    split
    · cases ‹_ :: _ = []›
    · rename_i name a b ss' heq
      injection heq with h1 h2
      subst h1; subst h2
      by_cases hn : name = lpxName
      · obtain ⟨-, v, rfl⟩ := h0 name a b true rfl hn
        subst hn
        simp [asgEntry, ih]
      · have hn' : (name == lpxName) = false := by simpa using hn
        rw [hn', if_neg Bool.false_ne_true, ih, List.filterMap_cons_none]
        cases b <;> simp [asgEntry, hn]
    · rename_i ss' hne heq
      injection heq with h1 h2
      subst h1; subst h2
      rw [ih, List.filterMap_cons_none]
      unfold asgEntry
      split
      · rename_i name a v pos
        rw [if_neg]
        intro hn
        obtain ⟨rfl, -⟩ := h0 name a (.str v) pos rfl (by simpa using hn)
        exact hne _ _ _ rfl
      · rfl

/-- C63, the exception: for any theory symbols, also those of other theories, the Python application raises an exception exactly if some positive
symbol `__lpx(a,b)` has an argument `b` that is not a string. -/
theorem C63_raises_iff (atoms theory : List Symbol) :
    pyPrintModel atoms theory = none ↔ ∃ a b, Symbol.fn lpxName [a, b] true ∈ theory ∧ ∀ v, b ≠ .str v := by
  unfold pyPrintModel
  rw [Option.map_eq_none_iff]
  induction theory with
  | nil => exact ⟨fun h => (Option.some_ne_none _ h).elim, fun ⟨_, _, h, _⟩ => absurd h List.not_mem_nil⟩
  | cons s ss ih =>
    have key : ∀ name a b, s = .fn name [a, b] true → name = lpxName → (pyEntries (s :: ss) = none ↔ (∀ v, b ≠ .str v) ∨ pyEntries ss = none) := by
      rintro name a b rfl rfl
      conv_lhs => unfold pyEntries
      rw [if_pos (by simp)]
      cases b with
      | str v => simp
      | _ => simp
    by_cases hs : ∃ a b, s = .fn lpxName [a, b] true
    · obtain ⟨a, b, rfl⟩ := hs
      rw [key _ a b rfl rfl, ih]
      constructor
      · rintro (h | ⟨a', b', h, hb⟩)
        · exact ⟨a, b, List.mem_cons_self, h⟩
        · exact ⟨a', b', List.mem_cons_of_mem _ h, hb⟩
      · rintro ⟨a', b', h, hb⟩
        rcases List.mem_cons.1 h with h | h
        · injection h with h1 h2 h3
          injection h2 with h4 h5
          injection h5 with h6 h7
          subst h6
          exact Or.inl hb
        · exact Or.inr ⟨a', b', h, hb⟩
    · have e : pyEntries (s :: ss) = pyEntries ss := by
        conv_lhs => unfold pyEntries
        split
        · cases ‹_ :: _ = []›
        · rename_i name a b ss' heq
          injection heq with h1 h2
          subst h1; subst h2
          rw [if_neg]
          intro hn
          exact hs ⟨a, b, by rw [show name = lpxName by simpa using hn]⟩
        · rename_i ss' hne heq
          injection heq with h1 h2
          subst h2
          rfl
      rw [e, ih]
      constructor
      · rintro ⟨a', b', h, hb⟩
        exact ⟨a', b', List.mem_cons_of_mem _ h, hb⟩
      · rintro ⟨a', b', h, hb⟩
        rcases List.mem_cons.1 h with h | h
        · exact (hs ⟨a', b', h.symm⟩).elim
        · exact ⟨a', b', h, hb⟩

/-- Another theory may supply such a symbol. -/
example : pyPrintModel [] [.fn lpxName [.num 1, .num 2] true] = none := (C63_raises_iff _ _).2 ⟨_, _, List.mem_cons_self, fun _ h => nomatch h⟩

/-- C63: the Python application prints the text of `clingo-lpx` for the same model except for the line of the objective, and raises no exception. -/
theorem C63_python_output (hr : Reach be opts Q p g) {th : ℕ} {t : Thr V} (ht : p.thrs[th]? = some t) (atoms : List Symbol) {theory : List Symbol}
    (hth : theory.Perm (p.extendModel th)) :
    ∃ text, printModel atoms theory = text ++ objectiveLine (p.objectiveOf th) ++ ['\n'] ∧ pyPrintModel atoms theory = some (text ++ ['\n']) := by
  have hob := (model_entries hr ht atoms hth).2
  refine ⟨_, hob, ?_⟩
  unfold pyPrintModel
  rw [pyEntries_spec]
  · have e : "\nAssignment:\n".toList = ['\n'] ++ "Assignment:\n".toList := by decide
    rw [e]
    generalize "Assignment:\n".toList = c
    simp only [Option.map_some, List.append_assoc]
  · rintro s hs name a b pos rfl rfl
    have hs := hth.subset hs
    unfold Propagator.extendModel at hs
    rcases List.mem_append.1 hs with hs | hs
    · obtain ⟨e, -, he⟩ := List.mem_map.1 hs
      injection he with h1 h2 h3
      injection h2 with h4 h5
      injection h5 with h6 h7
      exact ⟨h3.symm, _, h6.symm⟩
    · obtain ⟨e, -, he⟩ := List.mem_map.1 hs
      injection he with h1 h2 h3
      exact absurd h1 (by decide)

/-- The hypotheses are met; this is the output for the maximum of `x` subject to `x >= 1`, `x + y <= 5` and `y >= 2`. -/
example : ∃ (p : Propagator ℚ) (g : Ghost ℚ) (t : Thr ℚ), Reach .imath {} Intact p g ∧ p.thrs[0]? = some t ∧
    printModel [.fn ['a'] [] true] (p.extendModel 0) = "a\nAssignment:\nx=3 y=2\nOptimization: 3 [bounded]\n".toList ∧
    pyPrintModel [.fn ['a'] [] true] (p.extendModel 0) = some "a\nAssignment:\nx=3 y=2\n".toList := by
  obtain ⟨p, g, h1, -, h2⟩ := exists_reach (V := ℚ) (be := .imath) (mode := .intact) (opts := {})
    [.init (prog4 ++ [maxAtom "x"]) 1, .prop 0 0 [1] true, .prop 1 0 [2, 3] true, .check 1 true 0]
    (P := fun p _ => p.thrs[0]?.isSome && decide (printModel [.fn ['a'] [] true] (p.extendModel 0) = "a\nAssignment:\nx=3 y=2\nOptimization: 3 [bounded]\n".toList ∧
      pyPrintModel [.fn ['a'] [] true] (p.extendModel 0) = some "a\nAssignment:\nx=3 y=2\n".toList))
    (by decide +kernel)
  rw [Bool.and_eq_true] at h2
  obtain ⟨t, ht⟩ := Option.isSome_iff_exists.1 h2.1
  exact ⟨p, g, t, h1, ht, of_decide_eq_true h2.2⟩

end Lpx.Props
