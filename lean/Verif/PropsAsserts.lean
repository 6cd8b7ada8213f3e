import Verif.AssertsSys
import Verif.Debug
import Verif.PropsUnmixed
import Verif.PropsTheory
import Verif.PropsViolations
import Verif.PropsAccept

/-!
# C52: assertions never fail

The functions `initAsserts`, `propagateAsserts`, `checkAsserts` and `undoAsserts` (Asserts.lean) return the conjunction of all assertions
evaluated by a callback. With `extra = false` these are the assertions of a debug build, with `extra = true` those of a build with
`CLINGOLPX_CROSSCHECK`. The number `fuel` of iterations considered is arbitrary, so the statements also hold for calls that do not return.
-/

set_option linter.unusedSectionVars false

namespace Lpx.Props
open Lpx Witness

section
variable {V : Type} [LpFull V] {be : Backend} {opts : Options} {Q : Restr V} {p : Propagator V} {g : Ghost V}

/-- C52: in a debug build no assertion fails, whatever clingo does: for every reachable state and every call of `propagate`, `check` and `undo`
that clingo may make next. -/
theorem C52_assertions_hold (hr : Reach be opts Q p g) (fuel : ℕ) :
    (∀ ctl th lits gt, MayPropagate Q p g ctl th lits gt → p.propagateAsserts false fuel ctl th lits = true) ∧
    (∀ ctl total th gt t, MayCheck p g ctl th gt t → p.checkAsserts false fuel ctl total th = true) ∧
    (∀ th, p.undoAsserts false th = true) :=
  ⟨fun _ _ _ _ hm => hr.weak.propagateAsserts hm fuel (by simp), fun _ _ _ _ _ hm => hr.weak.checkAsserts hm fuel (by simp), fun th => by
    unfold Propagator.undoAsserts; split <;> rfl⟩

/-- C52: no assertion fails in `init`, provided that strict relations are not used without strict mode. -/
theorem C52_init_assertions_hold (hr : Reach be opts Q p g) {extra : Bool} {mapper : ℤ → ℤ} {atoms : List TAtom} {envs : ℕ → InitEnv} {n : ℕ}
    (hsup : ∀ prog, evaluateTheory be mapper atoms p.prog = .ok prog → ∀ x ∈ prog.iqs, x.lhs ≠ [] → Supports V x.rel) :
    p.initAsserts extra be mapper atoms envs n = true :=
  hr.stat.initAsserts hsup

/-- C52 (partial: `Intact`): with crosschecks no assertion of `propagate` and `check` fails as long as backtracking has restored the limits so far (see
Finding 1). The full property does not have this restriction; `C52_crosscheck_violation` shows that it is necessary. -/
theorem C52_crosschecks_hold_partial (hq : StepOK V opts) (hr : Reach be opts Intact p g) (fuel : ℕ) :
    (∀ ctl th lits gt, MayPropagate Q p g ctl th lits gt → p.propagateAsserts true fuel ctl th lits = true) ∧
    (∀ ctl total th gt t, MayCheck p g ctl th gt t → p.checkAsserts true fuel ctl total th = true) :=
  ⟨fun _ _ _ _ hm => hr.weak.propagateAsserts hm fuel fun _ => ⟨hr.inv hq, fun h => h.elim⟩,
   fun _ _ _ _ _ hm => hr.weak.checkAsserts hm fuel fun _ => ⟨hr.inv hq, hq⟩⟩

/-- C52 (partial: `SafeEqs`): with crosschecks no assertion of `undo` fails as long as all equations are harmless (see Finding 1). The full property does
not have this restriction; `C52_crosscheck_violation` shows that it is necessary. -/
theorem C52_undo_crosscheck_partial (hq : StepOK V opts) (hr : Reach be opts SafeEqs p g) {th : ℕ} {gt : GThr} {fr : Frame} {frs : List Frame}
    (hgt : g.thrs[th]? = some gt) (hf : gt.frames = fr :: frs) (hl : fr.level ≠ 0) : p.undoAsserts true th = true :=
  letI : Hon := ⟨True⟩
  SysInv.undoAsserts hgt hf hl fun _ => ⟨hr.inv_safe hq, fun h => (h trivial).elim⟩

/-- C52: programs in which equations over a single variable are not mixed with other relations over the same variable alone pass all crosschecks, in
all histories. -/
theorem C52_crosschecks_hold_unmixed (hq : StepOK V opts) (hr : Reach be opts Q p g) (hu : Unmixed p.prog.iqs) (fuel : ℕ) :
    (∀ ctl th lits gt, MayPropagate Q p g ctl th lits gt → p.propagateAsserts true fuel ctl th lits = true) ∧
    (∀ ctl total th gt t, MayCheck p g ctl th gt t → p.checkAsserts true fuel ctl total th = true) ∧
    (∀ th gt fr frs, g.thrs[th]? = some gt → gt.frames = fr :: frs → fr.level ≠ 0 → p.undoAsserts true th = true) := by
  obtain ⟨h1, h2⟩ := C52_crosschecks_hold_partial (Q := Q) hq (hu.reach hq hr) fuel
  exact ⟨h1, h2, fun _ _ _ _ => C52_undo_crosscheck_partial hq (hu.reachSafe hr)⟩
end

/-- C52: `init` without strict mode: no assertion fails for atoms admitted by the theory definition. -/
theorem C52_init_admitted {be : Backend} {opts : Options} {Q : Restr ℚ} {p : Propagator ℚ} {g : Ghost ℚ}
    (hr : Reach be opts Q p g) {extra : Bool} {mapper : ℤ → ℤ} {atoms more : List TAtom} {envs : ℕ → InitEnv} {n : ℕ}
    (hload : Loaded be mapper atoms p.prog) (hadm : ∀ a ∈ atoms ++ more, admitted false a = true) :
    p.initAsserts extra be mapper more envs n = true :=
  C52_init_assertions_hold hr fun prog he x hx _ => C49_supported (.step atoms more _ _ hload he) hadm x hx

/-- C52: `init` in strict mode. -/
theorem C52_init_strict {be : Backend} {opts : Options} {Q : Restr RatQ} {p : Propagator RatQ} {g : Ghost RatQ}
    (hr : Reach be opts Q p g) {extra : Bool} {mapper : ℤ → ℤ} {atoms : List TAtom} {envs : ℕ → InitEnv} {n : ℕ} :
    p.initAsserts extra be mapper atoms envs n = true :=
  C52_init_assertions_hold hr fun _ _ x _ _ => supports_ratq x.rel

/-- The hypotheses are met by a history without restriction in which `propagate` pivots: `x >= 1` and then `x + y >= 5`. -/
example : ∃ (p p' : Propagator ℚ) (g : Ghost ℚ) (ctl : Ctl) (gt : GThr) (fuel : ℕ), Reach .imath {} AnyLits p g ∧
    MayPropagate AnyLits p g ctl 0 [2] gt ∧ p.propagate fuel ctl 0 [2] = some (p', true) ∧
    ∃ t ∈ p'.thrs, 0 < t.slv.pivots := by
  obtain ⟨p, g, p', gt, ok, h1, -, h2, h3, h4⟩ := exists_prop (V := ℚ) (be := .imath) (mode := .any) (opts := {})
    [.init [sumAtom "x" ">=" 1 1, sum2Atom "x" "y" ">=" 5 2] 1, .prop 0 0 [1] true] 1 0 [2] true
    (P := fun _ _ p' ok => ok && p'.thrs.any fun t => decide (0 < t.slv.pivots)) (by decide +kernel)
  simp only [Bool.and_eq_true, Bool.not_eq_true', List.any_eq_true, decide_eq_true_eq] at h4
  obtain ⟨rfl, h5⟩ := h4
  exact ⟨p, p', g, _, gt, fuel, h1, h2, h3, h5⟩

/-- The same for the crosschecks. -/
example : ∃ (p p' : Propagator ℚ) (g : Ghost ℚ) (ctl : Ctl) (gt : GThr) (fuel : ℕ), StepOK ℚ {} ∧ Reach .imath {} Intact p g ∧ Unmixed p.prog.iqs ∧
    MayPropagate Intact p g ctl 0 [2] gt ∧ p.propagate fuel ctl 0 [2] = some (p', true) ∧
    ∃ t ∈ p'.thrs, 0 < t.slv.pivots := by
  obtain ⟨p, g, p', gt, ok, h1, -, h2, h3, h4⟩ := exists_prop (V := ℚ) (be := .imath) (mode := .intact) (opts := {})
    [.init [sumAtom "x" ">=" 1 1, sum2Atom "x" "y" ">=" 5 2] 1, .prop 0 0 [1] true] 1 0 [2] true
    (P := fun p _ p' ok => ok && (p'.thrs.any fun t => decide (0 < t.slv.pivots)) && p.prog.iqs.all fun x => decide (x.rel ≠ .eq)) (by decide +kernel)
  simp only [Bool.and_eq_true, Bool.not_eq_true', List.any_eq_true, decide_eq_true_eq, List.all_eq_true] at h4
  obtain ⟨⟨rfl, h5⟩, h6⟩ := h4
  exact ⟨p, p', g, _, gt, fuel, stepOK_none rfl, h1, fun x hx _ _ _ _ _ he => absurd he (h6 x hx), h2, h3, h5⟩

/-- The assertions are not trivial: pivoting on an element that is zero, and strict relations without strict mode. -/
example : (S.initS {} 1 : S ℚ).pivotAsserts false 0 0 0 0 = false ∧
    (Propagator.fresh {} : Propagator ℚ).initAsserts false .imath id [sumAtom "x" "<" 3 1] (fun _ => env) 1 = false ∧
    (Propagator.fresh {} : Propagator ℚ).initAsserts true .imath id prog4 (fun _ => env) 2 = true := by decide +kernel

/-- C52 is violated with crosschecks: after entering a level with `x = 5` the crosscheck in `undo` fails (Finding 1). -/
theorem C52_crosscheck_violation : ∃ p g, Reach .imath {} (AnyLits (V := ℚ)) p g ∧ ∃ gt fr frs, g.thrs[0]? = some gt ∧ gt.frames = fr :: frs ∧
    fr.level ≠ 0 ∧ p.undoAsserts true 0 = false ∧ p.undoAsserts false 0 = true := by
  obtain ⟨p, g, h1, -, h2⟩ := exists_reach (V := ℚ) (be := .imath) (mode := .any) (opts := {})
    [.init prog2 1, .prop 0 0 [1, 2] true, .prop 1 0 [3] true]
    (P := fun p g => !(p.undoAsserts true 0) && p.undoAsserts false 0 && atThr g 0 fun gt => match gt.frames with | fr :: _ => decide (fr.level ≠ 0) | [] => false)
    (by decide +kernel)
  simp only [Bool.and_eq_true, Bool.not_eq_true'] at h2
  obtain ⟨⟨h3, h4⟩, h5⟩ := h2
  obtain ⟨gt, h6, h7⟩ := atThr_spec h5
  cases hf : gt.frames with
  | nil => rw [hf] at h7; cases h7
  | cons fr frs => rw [hf] at h7; exact ⟨p, g, h1, gt, fr, frs, h6, hf, of_decide_eq_true h7, h3, h4⟩

/-! ### builds with assertions

The functions `initD`, `propagateD`, `checkD` and `undoD` (Debug.lean) are the callbacks with all assertions at the places where the code has them; they
stop with `Abort.assertion` at the first assertion that fails. -/

section
variable {V : Type} [LpFull V] {be : Backend} {opts : Options} {Q : Restr V} {p : Propagator V} {g : Ghost V}

/-- C71: a debug build does the same as a release build, whatever clingo does: the same result and the same state, and it never aborts. -/
theorem C71_debug_build (hr : Reach be opts Q p g) (fuel : ℕ) :
    (∀ ctl th lits gt, MayPropagate Q p g ctl th lits gt → p.propagateD false fuel ctl th lits = ofOption (p.propagate fuel ctl th lits)) ∧
    (∀ ctl total th gt t, MayCheck p g ctl th gt t → p.checkD false fuel ctl total th = ofOption (p.check fuel ctl total th)) ∧
    (∀ th, p.undoD false th = ofOption (p.undo th)) := by
  obtain ⟨h1, h2, h3⟩ := C52_assertions_hold hr fuel
  refine ⟨fun ctl th lits gt hm => ?_, fun ctl total th gt t hm => ?_, fun th => ?_⟩
  · rw [Propagator.propagateD_eq, h1 ctl th lits gt hm, guardD_true]
  · rw [Propagator.checkD_eq, h2 ctl total th gt t hm, guardD_true]
  · rw [Propagator.undoD_eq, h3 th, guardD_true]

/-- C71: `init` in a debug build, with and without crosschecks, provided that strict relations are not used without strict mode. -/
theorem C71_debug_init (hr : Reach be opts Q p g) {extra : Bool} {mapper : ℤ → ℤ} {atoms : List TAtom} {envs : ℕ → InitEnv} {n : ℕ}
    (hsup : ∀ prog, evaluateTheory be mapper atoms p.prog = .ok prog → ∀ x ∈ prog.iqs, x.lhs ≠ [] → Supports V x.rel) :
    p.initD extra be mapper atoms envs n = .ok (p.init be mapper atoms envs n) := by
  rw [Propagator.initD_eq, C52_init_assertions_hold hr hsup]; rfl

/-- C52 (partial: `Intact`): a build with crosschecks does the same as a release build as long as backtracking has restored the limits so far (see
Finding 1). The full property does not have this restriction; `C52_crosscheck_aborts` shows that it is necessary. -/
theorem C52_crosscheck_build_partial (hq : StepOK V opts) (hr : Reach be opts Intact p g) (fuel : ℕ) :
    (∀ ctl th lits gt, MayPropagate Q p g ctl th lits gt → p.propagateD true fuel ctl th lits = ofOption (p.propagate fuel ctl th lits)) ∧
    (∀ ctl total th gt t, MayCheck p g ctl th gt t → p.checkD true fuel ctl total th = ofOption (p.check fuel ctl total th)) := by
  obtain ⟨h1, h2⟩ := C52_crosschecks_hold_partial (Q := Q) hq hr fuel
  refine ⟨fun ctl th lits gt hm => ?_, fun ctl total th gt t hm => ?_⟩
  · rw [Propagator.propagateD_eq, h1 ctl th lits gt hm, guardD_true]
  · rw [Propagator.checkD_eq, h2 ctl total th gt t hm, guardD_true]

/-- C52: for programs in which equations over a single variable are not mixed with other relations over the same variable alone, a build with crosschecks
does the same as a release build, in all histories. -/
theorem C52_crosscheck_build_unmixed (hq : StepOK V opts) (hr : Reach be opts Q p g) (hu : Unmixed p.prog.iqs) (fuel : ℕ) :
    (∀ ctl th lits gt, MayPropagate Q p g ctl th lits gt → p.propagateD true fuel ctl th lits = ofOption (p.propagate fuel ctl th lits)) ∧
    (∀ ctl total th gt t, MayCheck p g ctl th gt t → p.checkD true fuel ctl total th = ofOption (p.check fuel ctl total th)) ∧
    (∀ th gt fr frs, g.thrs[th]? = some gt → gt.frames = fr :: frs → fr.level ≠ 0 → p.undoD true th = ofOption (p.undo th)) := by
  obtain ⟨h1, h2, h3⟩ := C52_crosschecks_hold_unmixed hq hr hu fuel
  refine ⟨fun ctl th lits gt hm => ?_, fun ctl total th gt t hm => ?_, fun th gt fr frs h h' h'' => ?_⟩
  · rw [Propagator.propagateD_eq, h1 ctl th lits gt hm, guardD_true]
  · rw [Propagator.checkD_eq, h2 ctl total th gt t hm, guardD_true]
  · rw [Propagator.undoD_eq, h3 th gt fr frs h h' h'', guardD_true]

end

/-- C52 is violated with crosschecks: a build with `CLINGOLPX_CROSSCHECK` aborts when backtracking from a level with `x = 5`, where a build without returns
(Finding 1). -/
theorem C52_crosscheck_aborts : ∃ p g, Reach .imath {} (AnyLits (V := ℚ)) p g ∧ ∃ gt fr frs, g.thrs[0]? = some gt ∧ gt.frames = fr :: frs ∧
    fr.level ≠ 0 ∧ p.undoD true 0 = .error .assertion ∧ ∃ p', p.undoD false 0 = .ok p' := by
  obtain ⟨p, g, h1, gt, fr, frs, h2, h3, h4, h5, h6⟩ := C52_crosscheck_violation
  refine ⟨p, g, h1, gt, fr, frs, h2, h3, h4, by rw [Propagator.undoD_eq, h5, guardD_false], ?_⟩
  rw [Propagator.undoD_eq, h6, guardD_true]
  unfold Propagator.undoAsserts at h5
  unfold Propagator.undo
  cases ht : p.thrs[0]? with
  | none => rw [ht] at h5; cases h5
  | some t => exact ⟨_, rfl⟩

/-- C71: strings as clingo writes them contain only escape sequences that a debug build accepts. -/
theorem C71_debug_strings (s : List Char) : unquoteD (quote s) = .ok (unquote (quote s)) := by
  rw [unquote_quote]
  unfold unquoteD
  induction s with
  | nil => rfl
  | cons c cs ih =>
    rw [quote]
    split
    · rename_i h; subst h; rw [unquoteLoopD, if_pos rfl, unquoteLoopD, if_pos rfl, ih]; rfl
    split
    · rename_i h; subst h; rw [unquoteLoopD, if_pos rfl, unquoteLoopD, if_neg (by decide), if_pos rfl, ih]; rfl
    split
    · rename_i h; subst h; rw [unquoteLoopD, if_pos rfl, unquoteLoopD, if_neg (by decide), if_neg (by decide), if_pos rfl, ih]; rfl
    rename_i h1 h2 h3
    rw [unquoteLoopD, if_neg h2, ih]; rfl

/-- A debug build would abort for other escape sequences. -/
example : (match unquoteD ['a', '\\', 't'] with | .error .assertion => true | _ => false) = true ∧
    (match unquoteD (quote ['a', '"', '\n', '\\']) with | .ok r => r == ['a', '"', '\n', '\\'] | _ => false) = true := by decide +kernel

/-- Builds with assertions abort in states that are not reachable: a strict relation without strict mode and a wrong index. -/
example : (match (Propagator.fresh {} : Propagator ℚ).initD false .imath id [sumAtom "x" "<" 3 1] (fun _ => env) 1 with
      | .error .assertion => true | _ => false) = true ∧
    (match (S.initS {} 1 : S ℚ).pivotD false 0 0 0 0 with | .error .assertion => true | _ => false) = true := by decide +kernel

/-! ### the assertions notice damage -/

/-- Change the solvers of all threads. -/
def damage (f : S ℚ → S ℚ) (p : Propagator ℚ) : Propagator ℚ := { p with thrs := p.thrs.map fun t => { t with slv := f t.slv } }

/-- `x >= 1`, `x + y >= 5`, `x + y <= 7`, `x <= 4`, `y <= 4`, `&maximize{ x }`, where all but the third hold. -/
def damageRun : List Ev := [.init [sumAtom "x" ">=" 1 1, sum2Atom "x" "y" ">=" 5 2, sum2Atom "x" "y" "<=" 7 3, sumAtom "x" "<=" 4 5, sumAtom "y" "<=" 4 6, maxAtom "x"] 1,
  .prop 0 0 [1] true, .prop 1 0 [2, 5, 6] true]

/-- Whether the assertions of `propagate` of the third constraint and of `check` hold after the solver has been changed. -/
def damageTest (opts : Options) (extra : Bool) (f : S ℚ → S ℚ) : Option (Bool × Bool) :=
  (runs .imath .intact damageRun (start opts)).map fun s =>
    ((damage f s.1).propagateAsserts extra 50 (ctlOf 2 [] true) 0 [3], (damage f s.1).checkAsserts extra 50 (ctlOf 2 [] true) true 0)

/-- Nothing fails without damage; the crosschecks notice a wrong value of a variable, the plain assertions a wrong index and a wrong cell of the
tableau. -/
example : damageTest {} true id = some (true, true) ∧ damageTest { propagateMode := .full } false id = some (true, true) ∧
    damageTest {} true (fun s => { s with value := Function.update s.value 0 77 }) = some (false, false) ∧
    damageTest {} true (fun s => { s with value := Function.update s.value s.obj.var 77 }) = some (false, false) ∧
    damageTest {} false (fun s => { s with rindex := fun _ => 0 }) = some (true, false) ∧
    damageTest {} false (fun s => { s with index := fun _ => 0, conflicts := [2] }) = some (false, true) ∧
    damageTest { propagateMode := .full } false (fun s => { s with tab := { s.tab with rows := fun i => { s.tab.rows i with cells := [⟨100, 1⟩] } } }) =
      some (false, true) ∧
    damageTest { propagateMode := .changed } false (fun s => { s with tab := { s.tab with rows := fun i => { s.tab.rows i with cells := [⟨100, 1⟩] } } }) =
      some (false, true) ∧
    damageTest { propagateMode := .changed } true (fun s => { s with tab := { s.tab with rows := fun i => { s.tab.rows i with cells := [] } } }) =
      some (false, false) := by decide +kernel

end Lpx.Props
