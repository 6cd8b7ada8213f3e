import Verif.SolverProp
import Verif.WeakSolve

/-!
# Bound propagation misses nothing a row implies

The values a row can take within the limits of its non-basic variables form an interval; `propagate_row` computes its ends.
-/

set_option linter.unusedSectionVars false

namespace Lpx
open Finset

variable {V : Type} [LpValue V]

/-- A point in the intersection of two intervals. -/
theorem exists_between {l u l' u' : Option V} (h1 : ∀ x ∈ l, ∀ y ∈ u, x ≤ y) (h2 : ∀ x ∈ l', ∀ y ∈ u', x ≤ y) (h3 : ∀ x ∈ l, ∀ y ∈ u', x ≤ y)
    (h4 : ∀ x ∈ l', ∀ y ∈ u, x ≤ y) : ∃ c : V, (∀ x ∈ l, x ≤ c) ∧ (∀ x ∈ l', x ≤ c) ∧ (∀ y ∈ u, c ≤ y) ∧ ∀ y ∈ u', c ≤ y := by
  simp only [Option.mem_def] at *
  cases l with
  | some a =>
    cases l' with
    | some b => exact ⟨max a b, by simp, by simp, fun y hy => max_le (h1 a rfl y hy) (h4 b rfl y hy), fun y hy => max_le (h3 a rfl y hy) (h2 b rfl y hy)⟩
    | none => exact ⟨a, by simp, by simp, fun y hy => h1 a rfl y hy, fun y hy => h3 a rfl y hy⟩
  | none =>
    cases l' with
    | some b => exact ⟨b, by simp, by simp, fun y hy => h4 b rfl y hy, fun y hy => h2 b rfl y hy⟩
    | none =>
      cases u with
      | some a =>
        cases u' with
        | some b => exact ⟨min a b, by simp, by simp, by simp, by simp⟩
        | none => exact ⟨a, by simp, by simp, by simp, by simp⟩
      | none =>
        cases u' with
        | some b => exact ⟨b, by simp, by simp, by simp, by simp⟩
        | none => exact ⟨0, by simp, by simp, by simp, by simp⟩

/-- The sum of all elements if none is missing. -/
def optSum : List (Option V) → Option V
  | [] => some 0
  | o :: os => o.bind fun x => (optSum os).map fun y => x + y

theorem optSum_some {L : List (Option V)} (h : ∀ o ∈ L, o.isSome = true) : optSum L = some (L.map fun o => o.getD 0).sum := by
  induction L with
  | nil => rfl
  | cons o os ih =>
    obtain ⟨x, rfl⟩ := Option.isSome_iff_exists.1 (h o (by simp))
    simp [optSum, ih fun o ho => h o (by simp [ho])]

theorem optSum_none {L : List (Option V)} (h : ¬ ∀ o ∈ L, o.isSome = true) : optSum L = none := by
  induction L with
  | nil => simp at h
  | cons o os ih =>
    cases o with
    | none => rfl
    | some x =>
      simp only [optSum, Option.bind_some, Option.map_eq_none_iff]
      refine ih fun h' => h fun o ho => ?_
      rcases List.mem_cons.1 ho with rfl | ho
      · rfl
      · exact h' o ho

/-- The ends of the interval of an entry of a row. -/
def colLo (lo up : ℕ → Option V) (e : ℕ × ℤ × ℤ) : Option V :=
  (if (decide (e.2.1 > 0) == decide (e.2.2 > 0)) then lo e.1 else up e.1).map fun x => mulDiv x e.2.1 e.2.2
def colUp (lo up : ℕ → Option V) (e : ℕ × ℤ × ℤ) : Option V :=
  (if (decide (e.2.1 > 0) == decide (e.2.2 > 0)) then up e.1 else lo e.1).map fun x => mulDiv x e.2.1 e.2.2

theorem mulDiv_inv {c : V} {a d : ℤ} (ha : a ≠ 0) (hd : d ≠ 0) : mulDiv (mulDiv c d a) a d = c := by
  unfold mulDiv
  rw [smul_smul]
  have : (a : ℚ) / d * (d / a) = 1 := by
    have h1 : (a : ℚ) ≠ 0 := by exact_mod_cast ha
    have h2 : (d : ℚ) ≠ 0 := by exact_mod_cast hd
    field_simp
  rw [this, one_smul]

/-- Contributions within the ends come from values within the limits, and vice versa. -/
theorem ent_iff {lo up : ℕ → Option V} {e : ℕ × ℤ × ℤ} (ha : e.2.1 ≠ 0) (hd : e.2.2 ≠ 0) (x : V) :
    ((∀ y ∈ colLo lo up e, y ≤ mulDiv x e.2.1 e.2.2) ∧ ∀ y ∈ colUp lo up e, mulDiv x e.2.1 e.2.2 ≤ y) ↔
      (∀ y ∈ lo e.1, y ≤ x) ∧ ∀ y ∈ up e.1, x ≤ y := by
  unfold colLo colUp
  have hp := S.pos_iff ha hd
  have hk : (e.2.1 : ℚ) / e.2.2 ≠ 0 := div_ne_zero (by exact_mod_cast ha) (by exact_mod_cast hd)
  by_cases h : (decide (e.2.1 > 0) == decide (e.2.2 > 0)) = true
  · have hk' := hp.1 h
    simp only [h, if_true, Option.mem_def, Option.map_eq_some_iff, forall_exists_index, and_imp, forall_apply_eq_imp_iff₂]
    unfold mulDiv
    simp only [smul_le_smul_iff_of_pos_left hk']
  · have hk' : (e.2.1 : ℚ) / e.2.2 < 0 := lt_of_le_of_ne (not_lt.1 fun h' => h (hp.2 h')) hk
    simp only [h, Option.mem_def, Option.map_eq_some_iff, forall_exists_index, and_imp, forall_apply_eq_imp_iff₂]
    unfold mulDiv
    simp only [smul_le_smul_iff_of_neg_left hk', Bool.false_eq_true, if_false]
    exact and_comm

/-- The lower end is at most the upper end. -/
theorem ent_le {lo up : ℕ → Option V} {L : List (ℕ × ℤ × ℤ)} (hnz : ∀ e ∈ L, e.2.1 ≠ 0 ∧ e.2.2 ≠ 0) {f0 : ℕ → V}
    (h0 : ∀ l, (∀ y ∈ lo l, y ≤ f0 l) ∧ ∀ y ∈ up l, f0 l ≤ y) :
    ∀ x ∈ optSum (L.map (colLo lo up)), ∀ y ∈ optSum (L.map (colUp lo up)), x ≤ y := by
  induction L with
  | nil =>
    intro x hx y hy
    obtain rfl := Option.some.inj hx
    obtain rfl := Option.some.inj hy
    exact le_rfl
  | cons e es ih2 =>
    intro x hx y hy
    obtain ⟨ha, hd⟩ := hnz e (by simp)
    obtain ⟨i1, i2⟩ := (ent_iff (lo := lo) (up := up) ha hd (f0 e.1)).2 (h0 e.1)
    simp only [List.map_cons, optSum, Option.mem_def, Option.bind_eq_some_iff, Option.map_eq_some_iff] at hx hy
    obtain ⟨a, ha', b, hb, rfl⟩ := hx
    obtain ⟨c, hc, d, hd', rfl⟩ := hy
    exact add_le_add ((i1 a ha').trans (i2 c hc)) (ih2 (fun e he => hnz e (by simp [he])) b hb d hd')

/-- Every value between the sums of the ends is the sum of contributions within the limits. -/
theorem reach_sum {lo up : ℕ → Option V} (L : List (ℕ × ℤ × ℤ)) (hnd : (L.map (·.1)).Nodup) (hnz : ∀ e ∈ L, e.2.1 ≠ 0 ∧ e.2.2 ≠ 0)
    (f0 : ℕ → V) (h0 : ∀ l, (∀ y ∈ lo l, y ≤ f0 l) ∧ ∀ y ∈ up l, f0 l ≤ y) (y : V)
    (h1 : ∀ x ∈ optSum (L.map (colLo lo up)), x ≤ y) (h2 : ∀ x ∈ optSum (L.map (colUp lo up)), y ≤ x) :
    ∃ f : ℕ → V, (∀ l, (∀ y ∈ lo l, y ≤ f l) ∧ ∀ y ∈ up l, f l ≤ y) ∧ (L.map fun e => mulDiv (f e.1) e.2.1 e.2.2).sum = y := by
  induction L generalizing y with
  | nil =>
    refine ⟨f0, h0, ?_⟩
    have a := h1 0 rfl
    have b := h2 0 rfl
    simpa using le_antisymm a b
  | cons e es ih =>
    obtain ⟨ha, hd⟩ := hnz e (by simp)
    rw [List.map_cons, List.nodup_cons] at hnd
    have hrest := ent_le (lo := lo) (up := up) (f0 := f0) (L := es) (fun e he => hnz e (by simp [he])) h0
    obtain ⟨i1, i2⟩ := (ent_iff (lo := lo) (up := up) ha hd (f0 e.1)).2 (h0 e.1)
    obtain ⟨c, c1, c2, c3, c4⟩ := exists_between (l := colLo lo up e) (u := colUp lo up e)
      (l' := (optSum (es.map (colUp lo up))).map fun x => y - x) (u' := (optSum (es.map (colLo lo up))).map fun x => y - x)
      (fun x hx z hz => (i1 x hx).trans (i2 z hz))
      (by
        simp only [Option.mem_def, Option.map_eq_some_iff]
        rintro _ ⟨x, hx, rfl⟩ _ ⟨z, hz, rfl⟩
        exact sub_le_sub_left (hrest z hz x hx) y)
      (by
        simp only [Option.mem_def, Option.map_eq_some_iff]
        rintro x hx _ ⟨z, hz, rfl⟩
        have := h1 (x + z) (by simp [optSum, hx, hz])
        exact le_sub_iff_add_le.2 this)
      (by
        simp only [Option.mem_def, Option.map_eq_some_iff]
        rintro _ ⟨z, hz, rfl⟩ x hx
        have := h2 (x + z) (by simp [optSum, hx, hz])
        exact sub_le_iff_le_add.2 this)
    obtain ⟨f, hf1, hf2⟩ := ih hnd.2 (fun e he => hnz e (by simp [he])) (y - c)
      (fun x hx => le_sub_comm.1 (c4 _ (by simp only [Option.mem_def, Option.map_eq_some_iff]; exact ⟨x, hx, rfl⟩)))
      (fun x hx => sub_le_comm.1 (c2 _ (by simp only [Option.mem_def, Option.map_eq_some_iff]; exact ⟨x, hx, rfl⟩)))
    have hc := (ent_iff (lo := lo) (up := up) ha hd (mulDiv c e.2.2 e.2.1)).1 (by rw [mulDiv_inv ha hd]; exact ⟨c1, c3⟩)
    refine ⟨Function.update f e.1 (mulDiv c e.2.2 e.2.1), ?_, ?_⟩
    · intro l
      by_cases h : l = e.1
      · subst h; rw [Function.update_self]; exact hc
      · rw [Function.update_of_ne h]; exact hf1 l
    · rw [List.map_cons, List.sum_cons, Function.update_self, mulDiv_inv ha hd]
      have : (es.map fun e' => mulDiv (Function.update f e.1 (mulDiv c e.2.2 e.2.1) e'.1) e'.2.1 e'.2.2) = es.map fun e' => mulDiv (f e'.1) e'.2.1 e'.2.2 := by
        apply List.map_congr_left
        intro e' he'
        rw [Function.update_of_ne]
        intro h
        exact hnd.1 (List.mem_map.2 ⟨e', he', h⟩)
      rw [this, hf2]; abel

namespace S

/-- The value is within the current limits of the variable. -/
def InLimits (s : S V) (asg : ℕ → V) (v : ℕ) : Prop := (∀ x, s.lo v = some x → x ≤ asg v) ∧ ∀ x, s.up v = some x → asg v ≤ x

/-- The values satisfy the equation of row `i`. -/
def RowEq (s : S V) (i : ℕ) (asg : ℕ → V) : Prop := asg (s.index (i + s.n)) = ∑ j ∈ range s.n, s.tab.coef i j • asg (s.index j)

/-- The equation of row `i` refutes the bound: there are values within the limits of the other variables of the equation, and the bound is
violated for all of them. -/
structure RefutedBy (s : S V) (i : ℕ) (bd : Bound V) : Prop where
  var : bd.var = s.index (i + s.n)
  inhabited : ∃ asg, ∀ j, j < s.n → s.InLimits asg (s.index j)
  refuted : ∀ asg, s.RowEq i asg → (∀ j, j < s.n → s.InLimits asg (s.index j)) → ¬ bd.Holds asg

theorem rowBound_val {s : S V} {i : ℕ} {useUp : Bool → Bool}
    (h : ∀ e ∈ s.tab.rowEntries i, (s.bval (if useUp (decide (e.2.1 > 0) == decide (e.2.2 > 0)) then s.upper (s.index e.1) else s.lower (s.index e.1))).isSome = true) :
    optSum ((s.tab.rowEntries i).map fun e =>
      (if useUp (decide (e.2.1 > 0) == decide (e.2.2 > 0)) then s.up (s.index e.1) else s.lo (s.index e.1)).map fun x => mulDiv x e.2.1 e.2.2) =
      some (s.rowBound i useUp).1 := by
  rw [rowBound_eq]
  have key : ∀ (L : List (ℕ × ℤ × ℤ)) (acc : V × List ℤ),
      (∀ e ∈ L, (s.bval (if useUp (decide (e.2.1 > 0) == decide (e.2.2 > 0)) then s.upper (s.index e.1) else s.lower (s.index e.1))).isSome = true) →
      (optSum (L.map fun e => (if useUp (decide (e.2.1 > 0) == decide (e.2.2 > 0)) then s.up (s.index e.1) else s.lo (s.index e.1)).map fun x => mulDiv x e.2.1 e.2.2)).map
        (fun y => acc.1 + y) = some (L.foldl (rbStep s useUp) acc).1 := by
    intro L
    induction L with
    | nil => intro acc _; simp [optSum]
    | cons e es ih =>
      intro acc h
      have he := h e (by simp)
      have h1 := ih (rbStep s useUp acc e) fun e he => h e (by simp [he])
      rw [List.foldl_cons, ← h1]
      obtain ⟨x, hx⟩ := Option.isSome_iff_exists.1 he
      have hx' : (if useUp (decide (e.2.1 > 0) == decide (e.2.2 > 0)) then s.up (s.index e.1) else s.lo (s.index e.1)) = some x := by
        rw [← hx]; unfold S.up S.lo; split <;> rfl
      obtain ⟨b, bd, h3, h4, h5⟩ := bvalOf_some hx
      have hst : rbStep s useUp acc e = (acc.1 + mulDiv x e.2.1 e.2.2, acc.2 ++ [-bd.lit]) := by
        unfold rbStep; dsimp only; rw [hx, blit_of h3 h4]
      rw [List.map_cons, hst]
      dsimp only
      rw [hx']
      simp only [optSum, Option.map_some, Option.bind_some, Option.map_map]
      congr 1
      funext y
      simp [add_assoc]
  have := key (s.tab.rowEntries i) (0, []) h
  simpa using this

/-- A bound refuted by a row fails one of the tests of `propagate_row`. -/
theorem refuted_test {s : S V} (hs : Struct s) {i : ℕ} (hi : i < s.m) {bd : Bound V} (h : s.RefutedBy i bd) :
    (s.rowHasUpper i = true ∧ bd.rel ≠ .le ∧ (s.rowBound i (fun pos => pos)).1 < bd.value) ∨
      (s.rowHasLower i = true ∧ bd.rel ≠ .ge ∧ bd.value < (s.rowBound i (fun pos => !pos)).1) := by
  obtain ⟨hvar, ⟨asg0, h0⟩, hno⟩ := h
  by_contra hc
  push Not at hc
  obtain ⟨hc1, hc2⟩ := hc
  -- limits of the columns
  let lo : ℕ → Option V := fun l => if l < s.n then s.lo (s.index l) else none
  let up : ℕ → Option V := fun l => if l < s.n then s.up (s.index l) else none
  have hlt : ∀ e ∈ s.tab.rowEntries i, e.1 < s.n := rowEntries_lt hs i
  have hlo : ∀ e ∈ s.tab.rowEntries i, lo e.1 = s.lo (s.index e.1) := fun e he => if_pos (hlt e he)
  have hup : ∀ e ∈ s.tab.rowEntries i, up e.1 = s.up (s.index e.1) := fun e he => if_pos (hlt e he)
  have hf0 : ∀ l, (∀ y ∈ lo l, y ≤ asg0 (s.index l)) ∧ ∀ y ∈ up l, asg0 (s.index l) ≤ y := by
    intro l
    by_cases h : l < s.n
    · simp only [lo, up, if_pos h]; exact h0 l h
    · simp [lo, up, if_neg h]
  have hup1 : optSum ((s.tab.rowEntries i).map (colUp lo up)) = if s.rowHasUpper i = true then some (s.rowBound i (fun pos => pos)).1 else none := by
    have e1 : (s.tab.rowEntries i).map (colUp lo up) = (s.tab.rowEntries i).map fun e =>
        (if (decide (e.2.1 > 0) == decide (e.2.2 > 0)) then s.up (s.index e.1) else s.lo (s.index e.1)).map fun x => mulDiv x e.2.1 e.2.2 := by
      apply List.map_congr_left
      intro e he
      unfold colUp; rw [hlo e he, hup e he]
    rw [e1]
    split
    · rename_i h
      refine rowBound_val (useUp := fun pos => pos) fun e he => ?_
      have := List.all_eq_true.1 h e he
      revert this
      unfold S.lo S.up
      split <;> exact id
    · rename_i h
      exact optSum_none fun hall => h (List.all_eq_true.2 fun e he => by
        have := hall _ (List.mem_map.2 ⟨e, he, rfl⟩)
        rw [Option.isSome_map] at this
        revert this; split <;> exact id)
  have hlo1 : optSum ((s.tab.rowEntries i).map (colLo lo up)) = if s.rowHasLower i = true then some (s.rowBound i (fun pos => !pos)).1 else none := by
    have e1 : (s.tab.rowEntries i).map (colLo lo up) = (s.tab.rowEntries i).map fun e =>
        (if !(decide (e.2.1 > 0) == decide (e.2.2 > 0)) then s.up (s.index e.1) else s.lo (s.index e.1)).map fun x => mulDiv x e.2.1 e.2.2 := by
      apply List.map_congr_left
      intro e he
      unfold colLo; rw [hlo e he, hup e he]
      cases (decide (e.2.1 > 0) == decide (e.2.2 > 0)) <;> rfl
    rw [e1]
    split
    · rename_i h
      refine rowBound_val (useUp := fun pos => !pos) fun e he => ?_
      have := List.all_eq_true.1 h e he
      revert this
      unfold S.lo S.up
      cases (decide (e.2.1 > 0) == decide (e.2.2 > 0)) <;> exact id
    · rename_i h
      exact optSum_none fun hall => h (List.all_eq_true.2 fun e he => by
        have := hall _ (List.mem_map.2 ⟨e, he, rfl⟩)
        rw [Option.isSome_map] at this
        revert this
        cases (decide (e.2.1 > 0) == decide (e.2.2 > 0)) <;> exact id)
  have hnd : ((s.tab.rowEntries i).map (·.1)).Nodup := (Tableau.rowEntries_sorted hs.wf i).imp (fun h => Nat.ne_of_lt h)
  have hnz : ∀ e ∈ s.tab.rowEntries i, e.2.1 ≠ 0 ∧ e.2.2 ≠ 0 := fun e he => by
    obtain ⟨-, h2, h3, -⟩ := Tableau.rowEntries_coef hs.wf (j := e.1) (a := e.2.1) (d := e.2.2) he
    exact ⟨h2, h3⟩
  -- a point in the interval that satisfies the bound
  have hpt : ∃ y : V, (∀ x ∈ optSum ((s.tab.rowEntries i).map (colLo lo up)), x ≤ y) ∧ (∀ x ∈ optSum ((s.tab.rowEntries i).map (colUp lo up)), y ≤ x) ∧
      (bd.rel ≠ .ge → y ≤ bd.value) ∧ (bd.rel ≠ .le → bd.value ≤ y) := by
    obtain ⟨c, c1, c2, c3, c4⟩ := exists_between (l := optSum ((s.tab.rowEntries i).map (colLo lo up))) (u := optSum ((s.tab.rowEntries i).map (colUp lo up)))
      (l' := if bd.rel ≠ .le then some bd.value else none) (u' := if bd.rel ≠ .ge then some bd.value else none)
      (ent_le hnz hf0)
      (by intro x hx y hy; split at hx <;> split at hy <;> simp_all)
      (by
        intro x hx y hy
        rw [hlo1] at hx
        split at hx
        · rename_i h
          split at hy
          · rename_i h'
            obtain rfl := Option.some.inj hx
            obtain rfl := Option.some.inj hy
            exact hc2 h h'
          · cases hy
        · cases hx)
      (by
        intro x hx y hy
        rw [hup1] at hy
        split at hy
        · rename_i h
          split at hx
          · rename_i h'
            obtain rfl := Option.some.inj hx
            obtain rfl := Option.some.inj hy
            exact hc1 h h'
          · cases hx
        · cases hy)
    exact ⟨c, c1, c3, fun h => c4 _ (by rw [if_pos h]; rfl), fun h => c2 _ (by rw [if_pos h]; rfl)⟩
  obtain ⟨y, y1, y2, y3, y4⟩ := hpt
  obtain ⟨f, hf1, hf2⟩ := reach_sum (s.tab.rowEntries i) hnd hnz _ hf0 y y1 y2
  have hne : ∀ j, j < s.n → s.index j ≠ s.index (i + s.n) := fun j hj he => by
    have h1 := hs.ri j (by rw [hs.nv]; omega)
    have h2 := hs.ri (i + s.n) (by rw [hs.nv]; omega)
    rw [he, h2] at h1; omega
  have hri : ∀ j, j < s.n → s.rindex (s.index j) = j := fun j hj => hs.ri j (by rw [hs.nv]; omega)
  obtain ⟨asg, ha1, ha2⟩ : ∃ asg : ℕ → V, asg (s.index (i + s.n)) = y ∧ ∀ j, j < s.n → asg (s.index j) = f j :=
    ⟨fun v => if v = s.index (i + s.n) then y else f (s.rindex v), if_pos rfl, fun j hj => by dsimp only; rw [if_neg (hne _ hj), hri _ hj]⟩
  refine hno asg ?_ ?_ ?_
  · unfold RowEq
    rw [row_sum hs, ha1, ← hf2]
    congr 1
    apply List.map_congr_left
    intro e he
    rw [ha2 _ (hlt e he)]
  · intro j hj
    unfold InLimits
    rw [ha2 _ hj]
    have := hf1 j
    simp only [lo, up, if_pos hj] at this
    exact this
  · apply Bound.holds_of
    · intro h; rw [hvar, ha1]; exact y3 h
    · intro h; rw [hvar, ha1]; exact y4 h

/-- The literal of a bound was false when `propagate_` came across it, or a clause was added that consists of the negations of literals setting
current limits, followed by the negation of the literal. -/
def Settled (ctl : Ctl) (s : S V) (o o' : List (List ℤ)) (lit : ℤ) : Prop :=
  (∃ O, o <+: O ∧ O <+: o' ∧ ctl.isFalse O lit = true) ∨
  ∃ O front, o <+: O ∧ O ++ [front ++ [-lit]] <+: o' ∧
    ∀ l ∈ front, ∃ v b bd, (s.lower v = some b ∨ s.upper v = some b) ∧ s.bounds[b]? = some bd ∧ l = -bd.lit

theorem Settled.mono {ctl : Ctl} {s : S V} {o o' o1 o1' : List (List ℤ)} {lit : ℤ} (h : Settled ctl s o o' lit) (h1 : o1 <+: o) (h2 : o' <+: o1') :
    Settled ctl s o1 o1' lit := by
  rcases h with ⟨O, a, b, c⟩ | ⟨O, front, a, b, c⟩
  · exact .inl ⟨O, h1.trans a, b.trans h2, c⟩
  · exact .inr ⟨O, front, h1.trans a, b.trans h2, c⟩

theorem propBounds_complete (ctl : Ctl) (clause : List ℤ) (test : Bound V → Bool) (L : List ℕ) :
    ∀ (s : S V), (∀ b ∈ L, ∃ bd, s.bounds[b]? = some bd) →
      (∀ l ∈ clause, ∃ v b bd, (s.lower v = some b ∨ s.upper v = some b) ∧ s.bounds[b]? = some bd ∧ l = -bd.lit) →
      PForm s (propBounds ctl clause test L s).1 ∧ s.out <+: (propBounds ctl clause test L s).1.out ∧
      ((propBounds ctl clause test L s).2 = true → ∀ b ∈ L, ∀ bd, s.bounds[b]? = some bd → test bd = true →
        Settled ctl s s.out (propBounds ctl clause test L s).1.out bd.lit) := by
  induction L with
  | nil => intro s _ _; exact ⟨PForm.refl s, List.prefix_rfl, fun _ b hb => by simp at hb⟩
  | cons b bs ih =>
    intro s h hc
    unfold propBounds
    obtain ⟨bd, h1⟩ := h b (by simp)
    rw [h1]
    simp only
    have hrest : ∀ b ∈ bs, ∃ bd, s.bounds[b]? = some bd := fun b hb => h b (by simp [hb])
    split
    · have hf : PForm s { (s.emit (clause ++ [-bd.lit])) with props := (s.emit (clause ++ [-bd.lit])).props + 1 } := ⟨_, s.prop, s.pqueue, _, rfl⟩
      have hpre : s.out <+: (s.emit (clause ++ [-bd.lit])).out := ⟨[clause ++ [-bd.lit]], rfl⟩
      split
      · obtain ⟨i1, i2, i3⟩ := ih { (s.emit (clause ++ [-bd.lit])) with props := (s.emit (clause ++ [-bd.lit])).props + 1 } hrest hc
        refine ⟨hf.trans i1, hpre.trans i2, fun hok b' hb' bd' hbd' ht' => ?_⟩
        rcases List.mem_cons.1 hb' with rfl | hb'
        · rw [h1] at hbd'
          obtain rfl := Option.some.inj hbd'
          exact .inr ⟨s.out, clause, List.prefix_rfl, i2, hc⟩
        · exact (i3 hok b' hb' bd' hbd' ht').mono hpre List.prefix_rfl
      · exact ⟨hf, hpre, fun hok => by simp at hok⟩
    · rename_i ht
      obtain ⟨i1, i2, i3⟩ := ih s hrest hc
      refine ⟨i1, i2, fun hok b' hb' bd' hbd' ht' => ?_⟩
      rcases List.mem_cons.1 hb' with rfl | hb'
      · rw [h1] at hbd'
        obtain rfl := Option.some.inj hbd'
        simp only [ht', Bool.true_and, Bool.not_eq_true', Bool.not_eq_false] at ht
        exact .inl ⟨s.out, List.prefix_rfl, i2, ht⟩
      · exact i3 hok b' hb' bd' hbd' ht'

theorem rowBound_front {s : S V} (useUp : Bool → Bool) (i : ℕ) :
    ∀ l ∈ (s.rowBound i useUp).2, ∃ v b bd, (s.lower v = some b ∨ s.upper v = some b) ∧ s.bounds[b]? = some bd ∧ l = -bd.lit := by
  intro l hl
  obtain ⟨bd, ⟨e, he, b, hb, hbd⟩, hl⟩ := (rowBound_lits useUp l).1 hl
  refine ⟨s.index e.1, b, bd, ?_, hbd, hl⟩
  split at hb
  · exact .inr hb
  · exact .inl hb

/-- Everything about bounds that follows from row `i` has been settled. -/
def RowDone (ctl : Ctl) (s : S V) (o o' : List (List ℤ)) (i : ℕ) : Prop :=
  ∀ b ∈ s.vbounds (s.index (i + s.n)), ∀ bd, s.bounds[b]? = some bd → s.RefutedBy i bd → Settled ctl s o o' bd.lit

theorem RowDone.mono {ctl : Ctl} {s : S V} {o o' o1 o1' : List (List ℤ)} {i : ℕ} (h : RowDone ctl s o o' i) (h1 : o1 <+: o) (h2 : o' <+: o1') :
    RowDone ctl s o1 o1' i := fun b hb bd hbd hr => (h b hb bd hbd hr).mono h1 h2

theorem propRow_complete (ctl : Ctl) (s : S V) (hs : Struct s) (hvb : VB s) {i : ℕ} (hi : i < s.m) :
    PForm s (propRow ctl s i).1 ∧ s.out <+: (propRow ctl s i).1.out ∧
      ((propRow ctl s i).2 = true → RowDone ctl s s.out (propRow ctl s i).1.out i) := by
  unfold propRow
  simp only
  set s1 : S V := { s with prop := Function.update s.prop i false } with hs1
  have hf1 : PForm s s1 := ⟨s.out, _, s.pqueue, s.props, rfl⟩
  have hvb1 : ∀ b ∈ s1.vbounds (s1.index (i + s1.n)), ∃ bd, s1.bounds[b]? = some bd := fun b hb => by
    obtain ⟨bd, h, -⟩ := hvb _ b hb; exact ⟨bd, h⟩
  have htest := fun bd h => refuted_test (s := s1) (bd := bd) ⟨hs.nv, hs.idx_lt, hs.ridx_lt, hs.ir, hs.ri, hs.wf, hs.shape, hs.low⟩ (show i < s1.m from hi) h
  by_cases hh : (!s1.rowHasUpper i && !s1.rowHasLower i) = true
  · rw [if_pos hh]
    simp only [Bool.and_eq_true, Bool.not_eq_true'] at hh
    refine ⟨hf1, List.prefix_rfl, fun _ b hb bd hbd hr => ?_⟩
    rcases htest bd ⟨hr.var, hr.inhabited, hr.refuted⟩ with ⟨h, -⟩ | ⟨h, -⟩
    · rw [hh.1] at h; simp at h
    · rw [hh.2] at h; simp at h
  · rw [if_neg hh]
    -- the upper end
    have hu := propBounds_complete ctl (s1.rowBound i (fun pos => pos)).2
        (fun bd => decide (bd.rel ≠ .le) && decide ((s1.rowBound i (fun pos => pos)).1 < bd.value)) (s1.vbounds (s1.index (i + s1.n))) s1
        hvb1 (rowBound_front _ _)
    generalize propBounds ctl (s1.rowBound i (fun pos => pos)).2
        (fun bd => decide (bd.rel ≠ .le) && decide ((s1.rowBound i (fun pos => pos)).1 < bd.value)) (s1.vbounds (s1.index (i + s1.n))) s1 = r at *
    obtain ⟨r', hr', q1, q2, q3⟩ : ∃ r', (if s1.rowHasUpper i = true then r else (s1, true)) = r' ∧ PForm s1 r'.1 ∧ s1.out <+: r'.1.out ∧
        (r'.2 = true → s1.rowHasUpper i = true → ∀ b ∈ s1.vbounds (s1.index (i + s1.n)), ∀ bd, s1.bounds[b]? = some bd → bd.rel ≠ .le →
          (s1.rowBound i (fun pos => pos)).1 < bd.value → Settled ctl s1 s1.out r'.1.out bd.lit) := by
      refine ⟨_, rfl, ?_⟩
      split
      · exact ⟨hu.1, hu.2.1, fun hok _ b hb bd hbd h1 h2 => hu.2.2 hok b hb bd hbd (by simp [h1, h2])⟩
      · rename_i h
        exact ⟨PForm.refl s1, List.prefix_rfl, fun _ h' => absurd h' h⟩
    rw [hr']
    by_cases hok : r'.2 = true
    · simp only [hok, Bool.not_true, Bool.false_eq_true, if_false]
      -- the lower end
      have e : ∃ o pr q c, r'.1 = { s1 with out := o, prop := pr, pqueue := q, props := c } := q1
      have hl := propBounds_complete ctl (s1.rowBound i (fun pos => !pos)).2
        (fun bd => decide (bd.rel ≠ .ge) && decide (bd.value < (s1.rowBound i (fun pos => !pos)).1)) (s1.vbounds (s1.index (i + s1.n))) r'.1
        (by obtain ⟨_, _, _, _, e⟩ := e; rw [e]; exact hvb1) (by obtain ⟨_, _, _, _, e⟩ := e; rw [e]; exact rowBound_front _ _)
      generalize propBounds ctl (s1.rowBound i (fun pos => !pos)).2
        (fun bd => decide (bd.rel ≠ .ge) && decide (bd.value < (s1.rowBound i (fun pos => !pos)).1)) (s1.vbounds (s1.index (i + s1.n))) r'.1 = w at *
      split
      · refine ⟨hf1.trans (q1.trans hl.1), q2.trans hl.2.1, fun hw b hb bd hbd hr => ?_⟩
        rcases htest bd ⟨hr.var, hr.inhabited, hr.refuted⟩ with ⟨h, h1, h2⟩ | ⟨h, h1, h2⟩
        · exact (q3 hok h b hb bd hbd h1 h2).mono List.prefix_rfl hl.2.1
        · have hset := hl.2.2 hw b hb bd (by obtain ⟨_, _, _, _, e⟩ := e; rw [e]; exact hbd) (by simp [h1, h2])
          have : Settled ctl s1 r'.1.out w.1.out bd.lit := by
            obtain ⟨_, _, _, _, e⟩ := e
            rw [e] at hset ⊢
            exact hset
          exact this.mono q2 List.prefix_rfl
      · rename_i hlo
        refine ⟨hf1.trans q1, q2, fun _ b hb bd hbd hr => ?_⟩
        rcases htest bd ⟨hr.var, hr.inhabited, hr.refuted⟩ with ⟨h, h1, h2⟩ | ⟨h, h1, h2⟩
        · exact q3 hok h b hb bd hbd h1 h2
        · exact absurd h hlo
    · simp only [Bool.not_eq_true] at hok
      simp only [hok, Bool.not_false, if_true]
      exact ⟨hf1.trans q1, q2, fun h => by simp at h⟩

theorem PForm.rowDone {s s' : S V} (h : PForm s s') {ctl : Ctl} {o o' : List (List ℤ)} {i : ℕ} (hd : RowDone ctl s' o o' i) : RowDone ctl s o o' i := by
  obtain ⟨_, _, _, _, rfl⟩ := h; exact fun b hb bd hbd hr => hd b hb bd hbd ⟨hr.var, hr.inhabited, hr.refuted⟩

theorem propRows_complete (ctl : Ctl) (L : List ℕ) : ∀ (s : S V), Struct s → VB s → (∀ i ∈ L, i < s.m) →
    PForm s (propRows ctl L s).1 ∧ s.out <+: (propRows ctl L s).1.out ∧
      ((propRows ctl L s).2 = true → ∀ i ∈ L, RowDone ctl s s.out (propRows ctl L s).1.out i) := by
  induction L with
  | nil => intro s _ _ _; exact ⟨PForm.refl s, List.prefix_rfl, fun _ b hb => by simp at hb⟩
  | cons i is ih =>
    intro s hs hvb hlt
    unfold propRows
    simp only
    obtain ⟨h1, h2, h3⟩ := propRow_complete ctl s hs hvb (hlt i (by simp))
    split
    · rename_i hok
      have h1' := h1
      obtain ⟨_, _, _, _, e⟩ := h1'
      obtain ⟨k1, k2, k3⟩ := ih (propRow ctl s i).1 (by rw [e]; exact ⟨hs.nv, hs.idx_lt, hs.ridx_lt, hs.ir, hs.ri, hs.wf, hs.shape, hs.low⟩) (by rw [e]; exact hvb)
        (by rw [e]; exact fun i hi => hlt i (by simp [hi]))
      refine ⟨h1.trans k1, h2.trans k2, fun hw j hj => ?_⟩
      rcases List.mem_cons.1 hj with rfl | hj
      · exact (h3 hok).mono List.prefix_rfl k2
      · exact (h1.rowDone (k3 hw j hj)).mono h2 List.prefix_rfl
    · rename_i hok
      exact ⟨h1, h2, fun h => absurd h hok⟩

theorem propQueue_complete (ctl : Ctl) (L : List ℕ) : ∀ (s : S V), Struct s → VB s → (∀ i ∈ L, i < s.m) →
    PForm s (propQueue ctl L s).1 ∧ s.out <+: (propQueue ctl L s).1.out ∧
      ((propQueue ctl L s).2 = true → ∀ i ∈ L, RowDone ctl s s.out (propQueue ctl L s).1.out i) := by
  induction L with
  | nil => intro s _ _ _; exact ⟨PForm.refl s, List.prefix_rfl, fun _ b hb => by simp at hb⟩
  | cons i is ih =>
    intro s hs hvb hlt
    unfold propQueue
    simp only
    have h0 : PForm s { s with pqueue := is } := ⟨s.out, s.prop, is, s.props, rfl⟩
    have hs0 : Struct { s with pqueue := is } := ⟨hs.nv, hs.idx_lt, hs.ridx_lt, hs.ir, hs.ri, hs.wf, hs.shape, hs.low⟩
    obtain ⟨h1, h2, h3⟩ := propRow_complete ctl { s with pqueue := is } hs0 hvb (hlt i (by simp))
    split
    · rename_i hok
      have h1' := h1
      obtain ⟨_, _, _, _, e⟩ := h1'
      obtain ⟨k1, k2, k3⟩ := ih (propRow ctl { s with pqueue := is } i).1 (by rw [e]; exact ⟨hs.nv, hs.idx_lt, hs.ridx_lt, hs.ir, hs.ri, hs.wf, hs.shape, hs.low⟩)
        (by rw [e]; exact hvb) (by rw [e]; exact fun i hi => hlt i (by simp [hi]))
      refine ⟨h0.trans (h1.trans k1), h2.trans k2, fun hw j hj => ?_⟩
      rcases List.mem_cons.1 hj with rfl | hj
      · exact h0.rowDone ((h3 hok).mono List.prefix_rfl k2)
      · exact h0.rowDone ((h1.rowDone (k3 hw j hj)).mono h2 List.prefix_rfl)
    · rename_i hok
      exact ⟨h0.trans h1, h2, fun h => absurd h hok⟩

end S
end Lpx
