import Verif.Quiet
import Verif.SysSpec
import Verif.Examples

/-!
# C53: callbacks stop after a rejected clause

After `add_clause(..)` or the following `propagate()` returned false, a propagator must return from the callback without adding further
clauses (clingo's documentation of both functions). The theorems hold for every state of the propagator, reachable or not, and for every
behaviour of clingo: `ctl.ok cs` is clingo's answer after the clauses `cs`.
-/

set_option linter.unusedSectionVars false

namespace Lpx.Props
open Lpx Witness

variable {V : Type} [LpFull V]

/-- Going from the clauses `out` to `out'`: every clause that was followed by another one was accepted, and if the callback did not break off,
then so was the last one. -/
def StopsAtRejection (accepted : List (List ℤ) → Bool) (out out' : List (List ℤ)) (finished : Bool) : Prop :=
  (∃ new, out' = out ++ new) ∧
  (∀ pre c c' suf, out' = out ++ (pre ++ c :: c' :: suf) → accepted (out ++ (pre ++ [c])) = true) ∧
  (∀ pre c, out' = out ++ (pre ++ [c]) → finished = true → accepted out' = true)

theorem stopsAt {accepted : List (List ℤ) → Bool} {out out' : List (List ℤ)} {r : Bool} (h : S.Stops accepted out out' r) : StopsAtRejection accepted out out' r := by
  obtain ⟨cs, rfl, h2, h3⟩ := h
  refine ⟨⟨cs, rfl⟩, ?_, ?_⟩
  · intro pre c c' suf he
    have he := List.append_cancel_left he
    subst he
    have := h2 (pre.length + 1) (by omega) (by simp)
    rwa [show (pre ++ c :: c' :: suf).take (pre.length + 1) = pre ++ [c] by
      rw [show pre ++ c :: c' :: suf = (pre ++ [c]) ++ c' :: suf by simp, List.take_append_of_le_length (by simp), List.take_of_length_le (by simp)]] at this
  · intro pre c he hr
    have he := List.append_cancel_left he
    subst he
    exact h3 hr (by simp)

theorem clausesOf_set {p : Propagator V} {th : ℕ} {t t' : Thr V} (ht : p.thrs[th]? = some t) : (p.setThr th t').clausesOf th = t'.slv.out := by
  have hlt := (List.getElem?_eq_some_iff.1 ht).1
  simp [Propagator.clausesOf, Propagator.setThr, hlt]

theorem clausesOf_get {p : Propagator V} {th : ℕ} {t : Thr V} (ht : p.thrs[th]? = some t) : p.clausesOf th = t.slv.out := by
  simp [Propagator.clausesOf, ht]

/-- C53 for `propagate`. -/
theorem C53_propagate {fuel : ℕ} {ctl : Ctl} {th : ℕ} {lits : List ℤ} {p p' : Propagator V} {ok : Bool}
    (h : p.propagate fuel ctl th lits = some (p', ok)) : StopsAtRejection ctl.ok (p.clausesOf th) (p'.clausesOf th) ok := by
  unfold Propagator.propagate at h
  generalize hp0 : (if ctl.dl = 0 ∧ th = 0 then { p with facts := p.facts ++ lits } else p) = p0 at h
  have e0 : p0.thrs = p.thrs := by subst hp0; split <;> rfl
  have e1 : p.clausesOf th = p0.clausesOf th := by unfold Propagator.clausesOf; rw [e0]
  dsimp only at h
  rw [e1]
  cases ht : p0.thrs[th]? with
  | none => rw [ht] at h; cases h
  | some t =>
    rw [ht] at h
    dsimp only at h
    cases hs : t.slv.solve ctl fuel lits with
    | none => rw [hs] at h; cases h
    | some r =>
      rw [hs] at h
      obtain ⟨rfl, rfl⟩ := Prod.mk.inj (Option.some.inj h)
      rw [clausesOf_set ht, clausesOf_get ht]
      exact stopsAt (S.stops_solve hs)

theorem stops_checkFacts {fuel : ℕ} {ctl : Ctl} {th : ℕ} {p p' : Propagator V} {ok : Bool} (h : p.checkFacts fuel ctl th = some (p', ok)) :
    S.Stops ctl.ok (p.clausesOf th) (p'.clausesOf th) ok := by
  unfold Propagator.checkFacts at h
  cases ht : p.thrs[th]? with
  | none => rw [ht] at h; cases h
  | some t =>
    rw [ht] at h
    dsimp only at h
    split at h
    · cases hs : t.slv.solve ctl fuel (p.factSpan t) with
      | none => rw [hs] at h; cases h
      | some r =>
        rw [hs] at h
        obtain ⟨rfl, rfl⟩ := Prod.mk.inj (Option.some.inj h)
        rw [clausesOf_set ht, clausesOf_get ht]
        exact S.stops_solve hs
    · obtain ⟨rfl, rfl⟩ := Prod.mk.inj (Option.some.inj h)
      exact S.Stops.refl _ _

theorem stops_pcheckObj {fuel : ℕ} {ctl : Ctl} {total : Bool} {th : ℕ} {p p' : Propagator V} {ok : Bool} (h : p.checkObj fuel ctl total th = some (p', ok)) :
    S.Stops ctl.ok (p.clausesOf th) (p'.clausesOf th) ok := by
  unfold Propagator.checkObj at h
  cases ht : p.thrs[th]? with
  | none => rw [ht] at h; cases h
  | some t =>
    rw [ht] at h
    dsimp only at h
    cases hs : t.slv.checkObj ctl fuel total p.obj with
    | none => rw [hs] at h; cases h
    | some r =>
      rw [hs] at h
      obtain ⟨rfl, rfl⟩ := Prod.mk.inj (Option.some.inj h)
      rw [clausesOf_set ht, clausesOf_get ht]
      exact S.stops_checkObj hs

/-- C53 for `check`. -/
theorem C53_check {fuel : ℕ} {ctl : Ctl} {total : Bool} {th : ℕ} {p p' : Propagator V} {ok : Bool}
    (h : p.check fuel ctl total th = some (p', ok)) : StopsAtRejection ctl.ok (p.clausesOf th) (p'.clausesOf th) ok := by
  unfold Propagator.check at h
  cases hf : p.checkFacts fuel ctl th with
  | none => rw [hf] at h; cases h
  | some r =>
    obtain ⟨p1, ok1⟩ := r
    rw [hf] at h
    dsimp only at h
    split at h
    · rename_i hk
      subst hk
      exact stopsAt ((stops_checkFacts hf).trans (stops_pcheckObj h))
    · obtain ⟨rfl, rfl⟩ := Prod.mk.inj (Option.some.inj h)
      exact stopsAt (stops_checkFacts hf)

theorem initThrs_stops (envs : ℕ → InitEnv) (opts : Options) (idx : Symbol → Option ℕ) (size : ℕ) (prog : Prog) (k : ℕ) : ∀ i,
    ∀ (j : ℕ) (t : Thr V), (initThrs envs opts idx size prog k i).1[j]? = some t →
      S.Stops (envs (i + j)).ok [] t.slv.out ((initThrs (V := V) envs opts idx size prog k i).2 || decide (j + 1 < (initThrs (V := V) envs opts idx size prog k i).1.length)) := by
  induction k with
  | zero => intro i j t h; simp [initThrs] at h
  | succ k ih =>
    intro i j t
    rw [initThrs]
    have h1 : S.StopsR (envs i).ok (S.initS opts size (envs i).order : S V) (S.prepare (envs i) opts idx size prog.iqs prog.objective (i == 0)) := S.stops_prepare _ _ _ _ _ _ _
    change S.Stops (envs i).ok [] _ _ at h1
    dsimp only
    split
    · rename_i hk
      cases j with
      | zero =>
        intro h
        obtain rfl := Option.some.inj h
        rw [hk] at h1
        cases hb : ((initThrs (V := V) envs opts idx size prog k (i + 1)).2 || decide (0 + 1 < ((⟨0, (S.prepare (envs i) opts idx size prog.iqs prog.objective (i == 0)).1⟩ : Thr V) :: (initThrs (V := V) envs opts idx size prog k (i + 1)).1).length)) with
        | true => exact h1
        | false => exact h1.weaken
      | succ j =>
        intro h
        have := ih (i + 1) j t (by simpa using h)
        rw [show i + 1 + j = i + (j + 1) by omega] at this
        simpa using this
    · intro h
      cases j with
      | zero => obtain rfl := Option.some.inj h; simpa using h1.weaken
      | succ j => simp at h

/-- C53 for `init`: in each thread, and after a rejected clause no further thread is prepared. -/
theorem C53_init {be : Backend} {mapper : ℤ → ℤ} {atoms : List TAtom} {envs : ℕ → InitEnv} {nthreads : ℕ} {p p' : Propagator V} {ok : Bool}
    (h : p.init be mapper atoms envs nthreads = .ok (p', ok)) (th : ℕ) (hth : th < p'.thrs.length) :
    StopsAtRejection (envs th).ok [] (p'.clausesOf th) (ok || decide (th + 1 < p'.thrs.length)) := by
  unfold Propagator.init at h
  dsimp only at h
  cases he : evaluateTheory be mapper atoms p.prog with
  | error e => rw [he] at h; cases h
  | ok prog =>
    rw [he] at h
    obtain ⟨rfl, rfl⟩ := Prod.mk.inj (Except.ok.inj h)
    dsimp only at hth ⊢
    obtain ⟨t, ht⟩ : ∃ t, (initThrs (V := V) envs p.opts (fun x => (gatherProg (p.varMap, p.varVec) prog).1.lookup x) (gatherProg (p.varMap, p.varVec) prog).1.length prog nthreads 0).1[th]? = some t :=
      ⟨_, List.getElem?_eq_getElem hth⟩
    have := initThrs_stops envs p.opts (fun x => (gatherProg (p.varMap, p.varVec) prog).1.lookup x) (gatherProg (p.varMap, p.varVec) prog).1.length prog nthreads 0 th t ht
    rw [Nat.zero_add] at this
    rw [clausesOf_get (p := { p with prog := prog, varMap := _, varVec := _, factsOffset := _, thrs := _, obj := _, watches := _, checkBoth := _ }) ht]
    exact stopsAt this

/-- Four constraints, two of which are implied by the others: `x <= 1`, `x + y >= 5`, `x + y >= 6`, `y <= 1`. -/
def progStop : List TAtom := [sumAtom "x" "<=" 1 1, sum2Atom "x" "y" ">=" 5 2, sum2Atom "x" "y" ">=" 6 3, sumAtom "y" "<=" 1 4]

/-- Bound propagation adds two clauses if clingo accepts the first one, and only one if clingo rejects it. -/
example : (∃ (p p' : Propagator ℚ) (g : Ghost ℚ) (ctl : Ctl) (gt : GThr) (c c' : List ℤ), Reach .imath { propagateMode := .full } AnyLits p g ∧
      MayPropagate AnyLits p g ctl 0 [1, 4] gt ∧ p.propagate fuel ctl 0 [1, 4] = some (p', true) ∧ p'.clausesOf 0 = p.clausesOf 0 ++ ([] ++ c :: c' :: [])) ∧
    ∃ (p p' : Propagator ℚ) (g : Ghost ℚ) (ctl : Ctl) (gt : GThr) (c : List ℤ), Reach .imath { propagateMode := .full } AnyLits p g ∧
      MayPropagate AnyLits p g ctl 0 [1, 4] gt ∧ p.propagate fuel ctl 0 [1, 4] = some (p', false) ∧ p'.clausesOf 0 = p.clausesOf 0 ++ ([] ++ [c]) ∧
      ctl.ok (p'.clausesOf 0) = false := by
  constructor
  · obtain ⟨p, g, p', gt, ok, h1, -, h2, h3, h4⟩ := exists_prop (V := ℚ) (be := .imath) (mode := .any) (opts := { propagateMode := .full })
      [.init progStop 1] 1 0 [1, 4] true
      (P := fun p _ p' ok => ok && decide (p.clausesOf 0 = []) && match p'.clausesOf 0 with | [_, _] => true | _ => false) (by decide +kernel)
    simp only [Bool.and_eq_true, decide_eq_true_eq] at h4
    obtain ⟨⟨rfl, h5⟩, h6⟩ := h4
    split at h6
    · rename_i c c' hc
      exact ⟨p, p', g, _, gt, c, c', h1, h2, h3, by rw [hc, h5]; rfl⟩
    · cases h6
  · obtain ⟨p, g, p', gt, ok, h1, -, h2, h3, h4⟩ := exists_prop (V := ℚ) (be := .imath) (mode := .any) (opts := { propagateMode := .full })
      [.init progStop 1] 1 0 [1, 4] false
      (P := fun p _ p' ok => !ok && decide (p.clausesOf 0 = []) && match p'.clausesOf 0 with | [_] => true | _ => false) (by decide +kernel)
    simp only [Bool.and_eq_true, Bool.not_eq_true', decide_eq_true_eq] at h4
    obtain ⟨⟨rfl, h5⟩, h6⟩ := h4
    split at h6
    · rename_i c hc
      exact ⟨p, p', g, _, gt, c, h1, h2, h3, by rw [hc, h5]; rfl, rfl⟩
    · cases h6

/-- `x >= 1`, `x <= 0`, `x <= -1`: with `propagate-conflicts`, `init` adds two clauses, or just one if clingo rejects it; in the latter case the
second of two threads is not prepared. -/
example : (match (Propagator.fresh { propagateConflicts := true } : Propagator ℚ).init .imath mapLit [sumAtom "x" ">=" 1 1, sumAtom "x" "<=" 0 2, sumAtom "x" "<=" (-1) 3] (fun _ => env) 2 with
      | .ok (p', ok) => decide (ok = true ∧ p'.clausesOf 0 = [[-1, -2], [-1, -3]] ∧ p'.thrs.length = 2)
      | .error _ => false) = true ∧
    (match (Propagator.fresh { propagateConflicts := true } : Propagator ℚ).init .imath mapLit [sumAtom "x" ">=" 1 1, sumAtom "x" "<=" 0 2, sumAtom "x" "<=" (-1) 3] (fun _ => { env with ok := fun _ => false }) 2 with
      | .ok (p', ok) => decide (ok = false ∧ p'.clausesOf 0 = [[-1, -2]] ∧ p'.thrs.length = 1)
      | .error _ => false) = true := by
  constructor <;> decide +kernel

/-- `check` with a better objective value found by another thread: a cut is added, and it is the only clause. -/
example : ∃ (p p' : Propagator ℚ) (g : Ghost ℚ) (ctl : Ctl) (gt : GThr) (t : Thr ℚ) (c : List ℤ), Reach .imath { globalObjective := some ⟨1, 0⟩ } AnyLits p g ∧
    MayCheck p g ctl 0 gt t ∧ p.check fuel ctl true 0 = some (p', true) ∧ p'.clausesOf 0 = p.clausesOf 0 ++ ([] ++ [c]) := by
  obtain ⟨p, g, gt, t, p', ok, h1, -, h2, h3, h4⟩ := exists_check (V := ℚ) (be := .imath) (mode := .any) (opts := { globalObjective := some ⟨1, 0⟩ })
    [.init [maxAtom "x", sumAtom "x" "<=" 3 1] 1, .prop 0 0 [1] true, .check 0 true 0, .model 0] 0 0 true
    (P := fun p _ _ _ p' ok => ok && decide (p.clausesOf 0 = []) && match p'.clausesOf 0 with | [_] => true | _ => false) (by decide +kernel)
  simp only [Bool.and_eq_true, decide_eq_true_eq] at h4
  obtain ⟨⟨rfl, h5⟩, h6⟩ := h4
  split at h6
  · rename_i c hc
    exact ⟨p, p', g, _, gt, t, c, h1, h2, h3, by rw [hc, h5]; rfl⟩
  · cases h6

end Lpx.Props
