import Verif.Prepare
import Verif.WeakSolve

/-!
# Satisfied bounds are asserted without a change of the assignment

If the values of a solver are within its limits and satisfy the bounds of the asserted literals, then `solve` succeeds without changing values and without pivots.
-/

set_option linter.unusedSectionVars false

namespace Lpx
open Lpx
variable {V : Type} [LpValue V]
namespace S

/-- Everything that matters for the assignment is unchanged, and the values are within the limits (solving.cc:665-710 in the case without a violation). -/
structure Idle (s s' : S V) : Prop where
  value : s'.value = s.value
  bounds : s'.bounds = s.bounds
  opts : s'.opts = s.opts
  pivots : s'.pivots = s.pivots
  out : s'.out = s.out
  win : (∀ v, s.Win v) → ∀ v, s'.Win v

theorem Idle.refl (s : S V) : Idle s s := ⟨rfl, rfl, rfl, rfl, rfl, id⟩
theorem Idle.trans {a b c : S V} (h : Idle a b) (k : Idle b c) : Idle a c :=
  ⟨k.value.trans h.value, k.bounds.trans h.bounds, k.opts.trans h.opts, k.pivots.trans h.pivots, k.out.trans h.out, fun w => k.win (h.win w)⟩

theorem win_loLeUp {s : S V} {v : ℕ} (h : s.Win v) : s.loLeUp v = true := by
  unfold loLeUp
  unfold Win Within at h
  split
  · rename_i l u hl hu
    exact decide_eq_true ((h.1 l hl).trans (h.2 u hu))
  · rfl

theorem win_of {s : S V} {v : ℕ} (h : s.Win v) : s.belowLo v = false ∧ s.aboveUp v = false := by
  have := (hasConflict_iff s v).not_left.2 h
  unfold hasConflict at this
  simpa using this

theorem updateUpper_idle (ctl : Ctl) {s : S V} {b : ℕ} {bd : Bound V} (hb : s.bounds[b]? = some bd) (hw : ∀ v, s.Win v) (hv : s.value bd.var ≤ bd.value) :
    Idle s (updateUpper ctl s b bd).1 ∧ (updateUpper ctl s b bd).2 = true := by
  have key : Idle s (updateUpper ctl s b bd).1 := by
    unfold updateUpper
    simp only
    split
    · have hwin : ∀ (s' : S V), s'.value = s.value → s'.bounds = s.bounds → s'.lower = s.lower → s'.upper = Function.update s.upper bd.var (some b) → ∀ v, s'.Win v := by
        intro s' h1 h2 h3 h4 v
        have h := hw v
        unfold Win Within lo up bval at *
        rw [h1, h2, h3, h4]
        refine ⟨h.1, fun u hu => ?_⟩
        by_cases hx : v = bd.var
        · subst hx
          rw [Function.update_self] at hu
          simp only [Option.bind_some, hb, Option.map_some, Option.some.injEq] at hu
          rw [← hu]; exact hv
        · rw [Function.update_of_ne hx] at hu
          exact h.2 u hu
      split
      · exact ⟨rfl, rfl, rfl, rfl, rfl, fun _ => hwin _ rfl rfl rfl rfl⟩
      · exact ⟨rfl, rfl, rfl, rfl, rfl, fun _ => hwin _ rfl rfl rfl rfl⟩
    · exact Idle.refl s
  exact ⟨key, win_loLeUp (key.win hw bd.var)⟩

theorem updateLower_idle (ctl : Ctl) {s : S V} {b : ℕ} {bd : Bound V} (hb : s.bounds[b]? = some bd) (hw : ∀ v, s.Win v) (hv : bd.value ≤ s.value bd.var) :
    Idle s (updateLower ctl s b bd).1 ∧ (updateLower ctl s b bd).2 = true := by
  have key : Idle s (updateLower ctl s b bd).1 := by
    unfold updateLower
    simp only
    split
    · have hwin : ∀ (s' : S V), s'.value = s.value → s'.bounds = s.bounds → s'.upper = s.upper → s'.lower = Function.update s.lower bd.var (some b) → ∀ v, s'.Win v := by
        intro s' h1 h2 h3 h4 v
        have h := hw v
        unfold Win Within lo up bval at *
        rw [h1, h2, h3, h4]
        refine ⟨fun l hl => ?_, h.2⟩
        by_cases hx : v = bd.var
        · subst hx
          rw [Function.update_self] at hl
          simp only [Option.bind_some, hb, Option.map_some, Option.some.injEq] at hl
          rw [← hl]; exact hv
        · rw [Function.update_of_ne hx] at hl
          exact h.1 l hl
      split
      · split
        · exact ⟨rfl, rfl, rfl, rfl, rfl, fun _ => hwin _ rfl rfl rfl rfl⟩
        · split
          · exact ⟨rfl, rfl, rfl, rfl, rfl, fun _ => hwin _ rfl rfl rfl rfl⟩
          · exact ⟨rfl, rfl, rfl, rfl, rfl, fun _ => hwin _ rfl rfl rfl rfl⟩
      · exact ⟨rfl, rfl, rfl, rfl, rfl, fun _ => hwin _ rfl rfl rfl rfl⟩
    · exact Idle.refl s
  exact ⟨key, win_loLeUp (key.win hw bd.var)⟩

theorem updateVar_idle (ctl : Ctl) {s : S V} {b : ℕ} {bd : Bound V} (hb : s.bounds[b]? = some bd) (hw : ∀ v, s.Win v) (hv : bd.Holds s.value) :
    Idle s (updateVar ctl s b bd).1 ∧ (updateVar ctl s b bd).2 = true := by
  unfold updateVar
  unfold Bound.Holds at hv
  split
  · rename_i h; rw [h] at hv; exact updateUpper_idle ctl hb hw hv
  · rename_i h; rw [h] at hv; exact updateLower_idle ctl hb hw hv
  · rename_i h; rw [h] at hv
    obtain ⟨h1, h2⟩ := updateUpper_idle ctl hb hw (le_of_eq hv)
    simp only [h2, if_true]
    obtain ⟨h3, h4⟩ := updateLower_idle ctl (by rw [h1.bounds]; exact hb) (h1.win hw) (le_of_eq (by rw [h1.value]; exact hv.symm))
    exact ⟨h1.trans h3, h4⟩

theorem enqueue_idle (s : S V) (i : ℕ) : Idle s (s.enqueue i) := by
  refine ⟨?_, ?_, ?_, ?_, ?_, fun h v => ?_⟩
  · exact (enqueue_same s i).2.2.2.1
  · unfold enqueue; simp only; split <;> split <;> rfl
  · unfold enqueue; simp only; split <;> split <;> rfl
  · exact (enqueue_same s i).2.2.2.2.2.2.1
  · unfold enqueue; simp only; split <;> split <;> rfl
  · exact (win_congr (enqueue_keep s i) (by rw [(enqueue_same s i).2.2.2.1])).2 (h v)

theorem updateBound_idle (ctl : Ctl) {s : S V} {b : ℕ} {bd : Bound V} (hb : s.bounds[b]? = some bd) (hw : ∀ v, s.Win v) (hv : bd.Holds s.value) :
    Idle s (updateBound ctl s b bd).1 ∧ (updateBound ctl s b bd).2 = true := by
  obtain ⟨h1, h2⟩ := updateVar_idle ctl hb hw hv
  obtain ⟨h3, h4⟩ := win_of (h1.win hw bd.var)
  unfold updateBound
  simp only [h2, h3, h4, Bool.not_true, Bool.false_eq_true, if_false]
  split
  · exact ⟨h1, rfl⟩
  · exact ⟨h1.trans (enqueue_idle _ _), rfl⟩

theorem updateBounds_idle (ctl : Ctl) (L : List (ℕ × Bound V)) : ∀ {s : S V}, (∀ e ∈ L, s.bounds[e.1]? = some e.2 ∧ e.2.Holds s.value) → (∀ v, s.Win v) →
    Idle s (updateBounds ctl L s).1 ∧ (updateBounds ctl L s).2 = true := by
  induction L with
  | nil => exact fun _ _ => ⟨Idle.refl _, rfl⟩
  | cons e L ih =>
    intro s h hw
    obtain ⟨h1, h2⟩ := h e (by simp)
    obtain ⟨h3, h4⟩ := updateBound_idle ctl h1 hw h2
    rw [updateBounds]
    simp only [h4, if_true]
    obtain ⟨h5, h6⟩ := ih (s := (updateBound ctl s e.1 e.2).1) (fun e' he' => by rw [h3.bounds, h3.value]; exact h e' (by simp [he'])) (h3.win hw)
    exact ⟨h3.trans h5, h6⟩

theorem updateLits_idle (ctl : Ctl) (L : List ℤ) : ∀ {s : S V}, (∀ bd ∈ s.bounds, bd.lit ∈ L → bd.Holds s.value) → (∀ v, s.Win v) →
    Idle s (updateLits ctl L s).1 ∧ (updateLits ctl L s).2 = true := by
  induction L with
  | nil => exact fun _ _ => ⟨Idle.refl _, rfl⟩
  | cons l L ih =>
    intro s h hw
    obtain ⟨h3, h4⟩ := updateBounds_idle ctl (s.boundsOf l) (s := s) (fun e he => by
      obtain ⟨k1, k2⟩ := mem_boundsOf.1 he
      exact ⟨k1, h e.2 (List.mem_of_getElem? k1) (by simp [k2])⟩) hw
    rw [updateLits]
    simp only [h4, if_true]
    obtain ⟨h5, h6⟩ := ih (s := (updateBounds ctl (s.boundsOf l) s).1) (fun bd hbd hl => by
      rw [h3.bounds] at hbd; rw [h3.value]; exact h bd hbd (by simp [hl])) (h3.win hw)
    exact ⟨h3.trans h5, h6⟩

theorem selectLoop_idle (L : List ℕ) : ∀ {s : S V}, (∀ v, s.Win v) → Idle s (selectLoop L s).1 ∧ (selectLoop L s).2 = .sat := by
  induction L with
  | nil => exact fun _ => ⟨⟨rfl, rfl, rfl, rfl, rfl, id⟩, rfl⟩
  | cons ii L ih =>
    intro s hw
    have hi : Idle s { s with queued := Function.update s.queued ii false } := ⟨rfl, rfl, rfl, rfl, rfl, id⟩
    obtain ⟨h1, h2⟩ := ih (hi.win hw)
    obtain ⟨h3, h4⟩ := win_of (hi.win hw ii)
    rw [selectLoop]
    simp only [h3, h4, Bool.false_eq_true, if_false]
    split
    · exact ⟨hi.trans h1, h2⟩
    · exact ⟨hi.trans h1, h2⟩

/-- If the values satisfy all bounds that are asserted, `solve` keeps them and does not pivot; it succeeds unless a clause of the bound propagation is rejected. -/
theorem solve_idle (ctl : Ctl) (fuel : ℕ) {s s' : S V} {lits : List ℤ} {ok : Bool} (hb : ∀ bd ∈ s.bounds, bd.lit ∈ lits → bd.Holds s.value) (hw : ∀ v, s.Win v)
    (h : s.solve ctl fuel lits = some (s', ok)) :
    s'.value = s.value ∧ s'.pivots = s.pivots ∧ (s.opts.propagateMode = .none → ok = true ∧ s'.out = s.out) := by
  obtain ⟨o, ho⟩ := pushOff_stay ctl s
  obtain ⟨h1, h2⟩ := updateLits_idle ctl lits (s := s.pushOff ctl) (by rw [ho]; exact hb) (by rw [ho]; exact hw)
  have hw1 := h1.win (by rw [ho]; exact hw)
  unfold solve at h
  simp only [h2, if_true] at h
  generalize (updateLits ctl lits (s.pushOff ctl)).1 = t at *
  have hv : t.value = s.value ∧ t.pivots = s.pivots ∧ t.opts = s.opts ∧ t.out = s.out := by
    rw [h1.value, h1.pivots, h1.opts, h1.out, ho]; exact ⟨rfl, rfl, rfl, rfl⟩
  cases fuel with
  | zero => cases h
  | succ fuel =>
    obtain ⟨k1, k2⟩ := selectLoop_idle t.conflicts hw1
    rw [solveLoop, select] at h
    simp only [k2, Option.some.injEq] at h
    generalize (selectLoop t.conflicts t).1 = r at *
    have hq : ∀ r' : S V, r'.value = r.value → r'.pivots = r.pivots → r'.opts = r.opts → r'.out = r.out → r'.propagate ctl = (s', ok) →
        s'.value = s.value ∧ s'.pivots = s.pivots ∧ (s.opts.propagateMode = .none → ok = true ∧ s'.out = s.out) := by
      intro r' e1 e2 e3 e4 he
      have hf := propagate_form ctl r'
      rw [he] at hf
      obtain ⟨o', p', q', c', u', hf⟩ := hf
      dsimp only at hf
      refine ⟨?_, ?_, fun hm => ?_⟩
      · rw [show s'.value = r'.value by rw [hf], e1, k1.value, hv.1]
      · rw [show s'.pivots = r'.pivots by rw [hf], e2, k1.pivots, hv.2.1]
      · have hm' : r'.opts.propagateMode = .none := by rw [e3, k1.opts, hv.2.2.1]; exact hm
        unfold S.propagate at he
        rw [hm'] at he
        obtain ⟨rfl, rfl⟩ := Prod.mk.inj he
        exact ⟨rfl, by rw [e4, k1.out, hv.2.2.2]⟩
    split at h
    · exact hq r.storeSat rfl rfl rfl rfl h
    · exact hq r rfl rfl rfl rfl h

/-! ### the values after `prepare` -/

variable {Sym : Type}

theorem newRow_value (s : S V) (row : List (ℕ × ℚ)) : (s.newRow row).value = s.value := rfl

theorem prepIneq_value (env : InitEnv) (idx : Sym → Option ℕ) (master : Bool) (s : S V) (x : Ineq Sym) : (prepIneq env idx master s x).1.value = s.value := by
  unfold prepIneq
  split
  · rfl
  · split
    · rfl
    · split
      · rfl
      · split <;> rfl
    · split <;> rfl
    · rfl

theorem prepIneqs_value (env : InitEnv) (idx : Sym → Option ℕ) (master : Bool) (xs : List (Ineq Sym)) : ∀ s : S V, (prepIneqs env idx master xs s).1.value = s.value := by
  induction xs with
  | nil => intro s; rfl
  | cons x xs ih =>
    intro s
    unfold prepIneqs
    simp only
    split
    · rw [ih, prepIneq_value]
    · exact prepIneq_value ..

theorem prepObjective_value (idx : Sym → Option ℕ) (o : List (Term Sym)) (s : S V) : (prepObjective idx o s).value = s.value := by
  unfold prepObjective
  split
  · rfl
  · split
    · rfl
    · simp only
      split <;> rfl

theorem confInner_value (env : InitEnv) (ba : Bound V) (bs : List ℕ) : ∀ s : S V, (confInner env ba bs s).1.value = s.value := by
  induction bs with
  | nil => intro s; rfl
  | cons b bs ih =>
    intro s
    unfold confInner
    split
    · rfl
    · split
      · simp only
        split
        · rw [ih]
        · rfl
      · exact ih s

theorem confVar_value (env : InitEnv) (as : List ℕ) : ∀ s : S V, (confVar env as s).1.value = s.value := by
  induction as with
  | nil => intro s; rfl
  | cons a as ih =>
    intro s
    unfold confVar
    split
    · rfl
    · simp only
      split
      · rw [ih, confInner_value]
      · exact confInner_value ..

theorem confVars_value (env : InitEnv) (vs : List ℕ) : ∀ s : S V, (confVars env vs s).1.value = s.value := by
  induction vs with
  | nil => intro s; rfl
  | cons v vs ih =>
    intro s
    unfold confVars
    simp only
    split
    · rw [ih, confVar_value]
    · exact confVar_value ..

theorem prepare_value (env : InitEnv) (opts : Options) (idx : Sym → Option ℕ) (size : ℕ) (iqs : List (Ineq Sym)) (o : List (Term Sym)) (master : Bool) :
    (prepare (V := V) env opts idx size iqs o master).1.value = fun _ => 0 := by
  have henq : ∀ (L : List ℕ) (s : S V), (L.foldl (fun s i => s.enqueue i) s).value = s.value := by
    intro L
    induction L with
    | nil => intro s; rfl
    | cons a L ih =>
      intro s
      rw [List.foldl_cons, ih]
      unfold enqueue
      simp only
      repeat' split
      all_goals rfl
  have h0 := prepIneqs_value env idx master iqs (initS (V := V) opts size env.order)
  unfold prepare
  simp only
  split
  · exact h0
  · have h1 : ∀ s : S V, s.fillBounds.value = s.value := fun s => rfl
    split
    · rw [confVars_value, h1, henq, prepObjective_value]; exact h0
    · show (fillBounds _).value = _
      rw [h1, henq, prepObjective_value]; exact h0

end S
end Lpx
