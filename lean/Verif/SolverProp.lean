import Verif.SolverAssert

/-! # Bound propagation: `propagate_` -/

set_option linter.unusedSectionVars false

namespace Lpx
open Finset

variable {V : Type} [LpValue V]

namespace S

/-- The lists of bounds stored per variable are valid. -/
def VB (s : S V) : Prop := ∀ v, ∀ b ∈ s.vbounds v, ∃ bd, s.bounds[b]? = some bd ∧ bd.var = v

/-- The sum over a row as a sum over its entries. -/
theorem row_sum {s : S V} (hs : Struct s) (i : ℕ) (asg : ℕ → V) :
    ∑ l ∈ range s.n, s.tab.coef i l • asg (s.index l) =
      ((s.tab.rowEntries i).map fun e => mulDiv (asg (s.index e.1)) e.2.1 e.2.2).sum := by
  have hnd : ((s.tab.rowEntries i).map (·.1)).Nodup :=
    (Tableau.rowEntries_sorted hs.wf i).imp (fun h => Nat.ne_of_lt h)
  have h1 : ((s.tab.rowEntries i).map fun e => mulDiv (asg (s.index e.1)) e.2.1 e.2.2) =
      ((s.tab.rowEntries i).map (·.1)).map (fun l => s.tab.coef i l • asg (s.index l)) := by
    rw [List.map_map]
    apply List.map_congr_left
    intro e he
    have := (Tableau.rowEntries_coef hs.wf (j := e.1) (a := e.2.1) (d := e.2.2) he).1
    simp only [Function.comp]; unfold mulDiv; rw [this]
  rw [h1, ← List.sum_toFinset _ hnd]
  symm
  apply sum_subset
  · intro l hl
    rw [List.mem_toFinset] at hl
    obtain ⟨e, he, rfl⟩ := List.mem_map.1 hl
    exact mem_range.2 (rowEntries_lt hs i e he)
  · intro l _ hl
    rw [List.mem_toFinset, Tableau.mem_rowEntries_fst hs.wf, not_not] at hl
    rw [hl, zero_smul]

/-- One step of the second loop of `propagate_row`. -/
def rbStep (s : S V) (useUp : Bool → Bool) (acc : V × List ℤ) (e : ℕ × ℤ × ℤ) : V × List ℤ :=
  let p := if useUp (decide (e.2.1 > 0) == decide (e.2.2 > 0)) then s.upper (s.index e.1) else s.lower (s.index e.1)
  match s.bval p, s.blit p with
  | some x, some l => (acc.1 + mulDiv x e.2.1 e.2.2, acc.2 ++ [-l])
  | _, _ => acc

theorem rowBound_eq (s : S V) (i : ℕ) (useUp : Bool → Bool) :
    s.rowBound i useUp = (s.tab.rowEntries i).foldl (rbStep s useUp) (0, []) := rfl

/-- The bounds named in the clause of a row. -/
def RowBd (s : S V) (useUp : Bool → Bool) (L : List (ℕ × ℤ × ℤ)) (bd : Bound V) : Prop :=
  ∃ e ∈ L, ∃ b, (if useUp (decide (e.2.1 > 0) == decide (e.2.2 > 0)) then s.upper (s.index e.1) else s.lower (s.index e.1)) = some b ∧
    s.bounds[b]? = some bd

theorem rowBd_cons {s : S V} {useUp : Bool → Bool} {e : ℕ × ℤ × ℤ} {es : List (ℕ × ℤ × ℤ)} {bd : Bound V} :
    RowBd s useUp (e :: es) bd ↔ RowBd s useUp [e] bd ∨ RowBd s useUp es bd := by
  simp only [RowBd, List.mem_cons, List.not_mem_nil, or_false, exists_eq_left, exists_eq_or_imp]

/-- The computed bound of a row is implied by the bounds named in the clause. -/
theorem rbStep_fold {s : S V} (hp : PtrOK s) (useUp : Bool → Bool) (σ : ℚ) (asg : ℕ → V) (L : List (ℕ × ℤ × ℤ))
    (hdef : ∀ e ∈ L, ∃ x, s.bval (if useUp (decide (e.2.1 > 0) == decide (e.2.2 > 0)) then s.upper (s.index e.1) else s.lower (s.index e.1)) = some x)
    (hsg : ∀ e ∈ L, if useUp (decide (e.2.1 > 0) == decide (e.2.2 > 0)) then 0 ≤ σ * ((e.2.1 : ℚ) / e.2.2) else σ * ((e.2.1 : ℚ) / e.2.2) ≤ 0)
    (acc : V × List ℤ) :
    (∀ bd, RowBd s useUp L bd → bd.Holds asg) →
      σ • acc.1 + σ • (L.map fun e => mulDiv (asg (s.index e.1)) e.2.1 e.2.2).sum ≤ σ • (L.foldl (rbStep s useUp) acc).1 := by
  induction L generalizing acc with
  | nil => simp [RowBd]
  | cons e es ih =>
    simp only [List.foldl_cons]
    obtain ⟨x, hx⟩ := hdef e (by simp)
    have hsge := hsg e (by simp)
    have ih2 := ih (fun y hy => hdef y (by simp [hy])) (fun y hy => hsg y (by simp [hy])) (rbStep s useUp acc e)
    have hstep : ∃ bd, (∀ bd', RowBd s useUp [e] bd' ↔ bd' = bd) ∧ rbStep s useUp acc e = (acc.1 + mulDiv x e.2.1 e.2.2, acc.2 ++ [-bd.lit]) ∧
        (bd.Holds asg → σ • mulDiv (asg (s.index e.1)) e.2.1 e.2.2 ≤ σ • mulDiv x e.2.1 e.2.2) := by
      unfold rbStep
      simp only
      cases hu : useUp (decide (e.2.1 > 0) == decide (e.2.2 > 0))
      · simp only [hu, Bool.false_eq_true, if_false] at hx hsge ⊢
        obtain ⟨b, bd, h1, h2, h3⟩ := bvalOf_some hx
        obtain ⟨bd', h4, h5, h6⟩ := hp.lo _ _ h1
        rw [h2] at h4; simp only [Option.some.injEq] at h4; subst h4
        refine ⟨bd, fun bd' => by
          simp only [RowBd, List.mem_singleton, exists_eq_left, hu, Bool.false_eq_true, if_false, h1, Option.some.injEq, exists_eq_left']
          rw [h2, Option.some.injEq, eq_comm], by rw [hx, blit_of h1 h2], fun hh => ?_⟩
        have hle := hh.ge h6
        rw [h5, h3] at hle
        unfold mulDiv
        rw [smul_smul, smul_smul]
        exact smul_le_smul_of_nonpos_left hle hsge
      · simp only [hu, if_true] at hx hsge ⊢
        obtain ⟨b, bd, h1, h2, h3⟩ := bvalOf_some hx
        obtain ⟨bd', h4, h5, h6⟩ := hp.up _ _ h1
        rw [h2] at h4; simp only [Option.some.injEq] at h4; subst h4
        refine ⟨bd, fun bd' => by
          simp only [RowBd, List.mem_singleton, exists_eq_left, hu, if_true, h1, Option.some.injEq, exists_eq_left']
          rw [h2, Option.some.injEq, eq_comm], by rw [hx, blit_of h1 h2], fun hh => ?_⟩
        have hle := hh.le h6
        rw [h5, h3] at hle
        unfold mulDiv
        rw [smul_smul, smul_smul]
        exact smul_le_smul_of_nonneg_left hle hsge
    obtain ⟨bd, hbm, hst, hval⟩ := hstep
    rw [hst] at ih2 ⊢
    intro hall
    have h1 := ih2 fun bd' h => hall bd' (rowBd_cons.2 (Or.inr h))
    have h2 := hval (hall bd (rowBd_cons.2 (Or.inl ((hbm bd).2 rfl))))
    simp only [List.map_cons, List.sum_cons, smul_add] at h1 ⊢
    refine le_trans ?_ h1
    have : σ • acc.1 + (σ • mulDiv (asg (s.index e.1)) e.2.1 e.2.2 + σ • (es.map fun e => mulDiv (asg (s.index e.1)) e.2.1 e.2.2).sum) ≤
        σ • acc.1 + (σ • mulDiv x e.2.1 e.2.2 + σ • (es.map fun e => mulDiv (asg (s.index e.1)) e.2.1 e.2.2).sum) := by
      gcongr
    refine this.trans (le_of_eq ?_)
    rw [add_assoc]

theorem rowBound_up {s : S V} (hs : Struct s) (hp : PtrOK s) {i : ℕ} (hi : i < s.m) (hdef : s.rowHasUpper i = true)
    (asg : ℕ → V) (hE : TabEq s asg)
    (hall : ∀ bd, RowBd s (fun pos => pos) (s.tab.rowEntries i) bd → bd.Holds asg) :
    asg (s.index (i + s.n)) ≤ (s.rowBound i (fun pos => pos)).1 := by
  have hfold := (rbStep_fold hp (fun pos => pos) 1 asg (s.tab.rowEntries i) ?_ ?_ (0, []))
  · rw [rowBound_eq]
    have := hfold hall
    simp only [smul_zero, zero_add, one_smul] at this
    rw [hE i hi, row_sum hs]; exact this
  · intro e he
    unfold rowHasUpper at hdef
    have := List.all_eq_true.1 hdef e he
    cases hpos : (decide (e.2.1 > 0) == decide (e.2.2 > 0))
    · rw [hpos] at this; simp only [Bool.false_eq_true, if_false] at this ⊢
      exact Option.isSome_iff_exists.1 this
    · rw [hpos] at this; simp only [if_true] at this ⊢
      exact Option.isSome_iff_exists.1 this
  · intro e he
    obtain ⟨h1, h2, h3, h4⟩ := Tableau.rowEntries_coef hs.wf (j := e.1) (a := e.2.1) (d := e.2.2) he
    have hps := pos_iff h2 h3
    split
    · rename_i h; rw [one_mul]; exact (hps.1 h).le
    · rename_i h; rw [one_mul]; exact not_lt.1 (fun h' => h (hps.2 h'))

theorem rowBound_lo {s : S V} (hs : Struct s) (hp : PtrOK s) {i : ℕ} (hi : i < s.m) (hdef : s.rowHasLower i = true)
    (asg : ℕ → V) (hE : TabEq s asg)
    (hall : ∀ bd, RowBd s (fun pos => !pos) (s.tab.rowEntries i) bd → bd.Holds asg) :
    (s.rowBound i (fun pos => !pos)).1 ≤ asg (s.index (i + s.n)) := by
  have hfold := (rbStep_fold hp (fun pos => !pos) (-1) asg (s.tab.rowEntries i) ?_ ?_ (0, []))
  · rw [rowBound_eq]
    have := hfold hall
    simp only [smul_zero, zero_add, neg_smul, one_smul, neg_le_neg_iff] at this
    rw [hE i hi, row_sum hs]; exact this
  · intro e he
    unfold rowHasLower at hdef
    have := List.all_eq_true.1 hdef e he
    cases hpos : (decide (e.2.1 > 0) == decide (e.2.2 > 0))
    · rw [hpos] at this; simp only [Bool.false_eq_true, if_false, Bool.not_false, if_true] at this ⊢
      exact Option.isSome_iff_exists.1 this
    · rw [hpos] at this; simp only [if_true, Bool.not_true, Bool.false_eq_true, if_false] at this ⊢
      exact Option.isSome_iff_exists.1 this
  · intro e he
    obtain ⟨h1, h2, h3, h4⟩ := Tableau.rowEntries_coef hs.wf (j := e.1) (a := e.2.1) (d := e.2.2) he
    have hps := pos_iff h2 h3
    cases hpos : (decide (e.2.1 > 0) == decide (e.2.2 > 0))
    · simp only [Bool.not_false, if_true]
      have : (e.2.1 : ℚ) / e.2.2 ≤ 0 := not_lt.1 (fun h' => by rw [hps.2 h'] at hpos; simp at hpos)
      linarith
    · simp only [Bool.not_true, Bool.false_eq_true, if_false]
      have := (hps.1 hpos).le
      linarith

/-- The clause consists of the negated literals of the bounds. -/
theorem rowBound_lits {s : S V} (useUp : Bool → Bool) {i : ℕ} (l : ℤ) :
    l ∈ (s.rowBound i useUp).2 ↔ ∃ bd, RowBd s useUp (s.tab.rowEntries i) bd ∧ l = -bd.lit := by
  rw [rowBound_eq]
  have key : ∀ (L : List (ℕ × ℤ × ℤ)) (acc : V × List ℤ),
      l ∈ (L.foldl (rbStep s useUp) acc).2 ↔ l ∈ acc.2 ∨ ∃ bd, RowBd s useUp L bd ∧ l = -bd.lit := by
    intro L
    induction L with
    | nil => intro acc; simp [RowBd]
    | cons e es ih =>
      intro acc
      rw [List.foldl_cons, ih]
      have hst : l ∈ (rbStep s useUp acc e).2 ↔ l ∈ acc.2 ∨ ∃ bd, RowBd s useUp [e] bd ∧ l = -bd.lit := by
        simp only [RowBd, List.mem_singleton, exists_eq_left, rbStep]
        generalize (if useUp (decide (e.2.1 > 0) == decide (e.2.2 > 0)) then s.upper (s.index e.1) else s.lower (s.index e.1)) = q
        cases q with
        | none => simp [bval]
        | some b =>
          cases hb : s.bounds[b]? with
          | none => simp [bval, hb]
          | some bd => simp [bval, blit, hb]
      rw [hst, or_assoc]
      refine or_congr_right ⟨?_, ?_⟩
      · rintro (⟨bd, h1, h2⟩ | ⟨bd, h1, h2⟩)
        · exact ⟨bd, rowBd_cons.2 (Or.inl h1), h2⟩
        · exact ⟨bd, rowBd_cons.2 (Or.inr h1), h2⟩
      · rintro ⟨bd, h1, h2⟩
        rcases rowBd_cons.1 h1 with h1 | h1
        · exact Or.inl ⟨bd, h1, h2⟩
        · exact Or.inr ⟨bd, h1, h2⟩
  rw [key]; simp

/-- A bound refuted by a row, together with the bounds of the row, explains the clause. -/
theorem row_explains {E0 : (ℕ → V) → Prop} {s : S V} (hs : Struct s) (hp : PtrOK s) (hE : ∀ asg, TabEq s asg ↔ E0 asg) (useUp : Bool → Bool) {i : ℕ}
    {bd : Bound V} (hbd : bd ∈ s.bounds) (hv : bd.var = s.index (i + s.n))
    (hun : ∀ asg, E0 asg → (∀ bd', RowBd s useUp (s.tab.rowEntries i) bd' → bd'.Holds asg) → ¬ bd.Holds asg) :
    ClauseValid s.bounds E0 ((s.rowBound i useUp).2 ++ [-bd.lit]) := by
  set R := RowBd s useUp (s.tab.rowEntries i) with hR
  -- the values of the bounds
  set f : ℕ → V := fun j => (if useUp (decide (0 < s.tab.coef i j)) then s.up (s.index j) else s.lo (s.index j)).getD 0 with hf
  have hval : ∀ e ∈ s.tab.rowEntries i, ∀ b bd', (if useUp (decide (e.2.1 > 0) == decide (e.2.2 > 0)) then s.upper (s.index e.1) else s.lower (s.index e.1)) = some b →
      s.bounds[b]? = some bd' → bd'.var = s.index e.1 ∧ bd'.value = f e.1 := by
    intro e he b bd' h1 h2
    obtain ⟨c1, c2, c3, c4⟩ := Tableau.rowEntries_coef hs.wf (j := e.1) (a := e.2.1) (d := e.2.2) he
    have hps := pos_iff c2 c3
    rw [c1] at hps
    have hd : decide (0 < s.tab.coef i e.1) = (decide (e.2.1 > 0) == decide (e.2.2 > 0)) := by
      rw [Bool.eq_iff_iff, hps, decide_eq_true_eq]
    rw [hf]
    simp only [hd]
    cases hu : useUp (decide (e.2.1 > 0) == decide (e.2.2 > 0))
    · simp only [hu, Bool.false_eq_true, if_false] at h1 ⊢
      obtain ⟨bd2, k1, k2, -⟩ := hp.lo _ _ h1
      rw [h2] at k1; obtain rfl := Option.some.inj k1
      exact ⟨k2, by rw [show s.lo (s.index e.1) = some bd'.value from bval_of h1 h2]; rfl⟩
    · simp only [hu, if_true] at h1 ⊢
      obtain ⟨bd2, k1, k2, -⟩ := hp.up _ _ h1
      rw [h2] at k1; obtain rfl := Option.some.inj k1
      exact ⟨k2, by rw [show s.up (s.index e.1) = some bd'.value from bval_of h1 h2]; rfl⟩
  have hof : ∀ {bd' : Bound V} {asg : ℕ → V}, asg bd'.var = bd'.value → bd'.Holds asg := fun h => Bound.holds_of (fun _ => h.le) (fun _ => h.ge)
  refine ⟨fun bd' => bd' = bd ∨ R bd', ?_, ?_, ?_, Or.inr ?_⟩
  · rintro bd' (rfl | ⟨e, he, b', k1, k2⟩)
    · exact hbd
    · exact List.mem_of_getElem? k2
  · intro l
    rw [List.mem_append, List.mem_singleton, rowBound_lits]
    constructor
    · rintro (⟨bd', h1, h2⟩ | h)
      · exact ⟨bd', Or.inr h1, h2⟩
      · exact ⟨bd, Or.inl rfl, h⟩
    · rintro ⟨bd', rfl | h1, h2⟩
      · exact Or.inr h2
      · exact Or.inl ⟨bd', h1, h2⟩
  · exact fun asg ha hall => hun asg ha (fun bd' h => hall bd' (Or.inr h)) (hall bd (Or.inl rfl))
  · rintro bd0 (rfl | ⟨e0, he0, b0, k01, k02⟩)
    · obtain ⟨asg, h1, h2⟩ := exists_tabEq hs f
      refine ⟨asg, (hE asg).1 h1, ?_⟩
      rintro bd' (rfl | ⟨e, he, b', k1, k2⟩) hne
      · exact absurd rfl hne
      · obtain ⟨h3, h4⟩ := hval e he b' bd' k1 k2
        exact hof (by rw [h3, h2 _ (rowEntries_lt hs i e he), h4])
    · obtain ⟨asg, h1, h2, h3⟩ := exists_row hs (Tableau.rowEntries_coef hs.wf (j := e0.1) (a := e0.2.1) (d := e0.2.2) he0).2.2.2 f bd.value
      refine ⟨asg, (hE asg).1 h1, ?_⟩
      rintro bd' (rfl | ⟨e, he, b', k1, k2⟩) hne
      · exact hof (by rw [hv, h2])
      · obtain ⟨h4, h5⟩ := hval e he b' bd' k1 k2
        refine hof ?_
        rw [h4, h3 _ (rowEntries_lt hs i e he), h5]
        intro heq
        apply hne
        have hnd : ((s.tab.rowEntries i).map (·.1)).Nodup := (Tableau.rowEntries_sorted hs.wf i).imp (fun h => Nat.ne_of_lt h)
        obtain rfl := List.inj_on_of_nodup_map hnd he he0 heq
        rw [k01] at k1; obtain rfl := Option.some.inj k1
        rw [k02] at k2; exact (Option.some.inj k2).symm

/-- Bound propagation only changes bookkeeping and the output. -/
def PForm (s s' : S V) : Prop := ∃ o p q c, s' = { s with out := o, prop := p, pqueue := q, props := c }

theorem PForm.refl (s : S V) : PForm s s := ⟨s.out, s.prop, s.pqueue, s.props, rfl⟩
theorem PForm.trans {a b c : S V} (h : PForm a b) (k : PForm b c) : PForm a c := by
  obtain ⟨_, _, _, _, rfl⟩ := h
  obtain ⟨o, p, q, n, rfl⟩ := k
  exact ⟨o, p, q, n, rfl⟩

/-- The outputs of a step are valid clauses. -/
structure OutOK (E0 : (ℕ → V) → Prop) (s s' : S V) : Prop where
  form : PForm s s'
  out : ∃ cs, s'.out = s.out ++ cs ∧ ∀ c ∈ cs, ClauseValid s.bounds E0 c

theorem OutOK.refl (E0 : (ℕ → V) → Prop) (s : S V) : OutOK E0 s s := ⟨PForm.refl s, [], by simp, by simp⟩
theorem OutOK.trans {E0 : (ℕ → V) → Prop} {a b c : S V} (h : OutOK E0 a b) (k : OutOK E0 b c) : OutOK E0 a c := by
  refine ⟨h.form.trans k.form, ?_⟩
  obtain ⟨cs, h1, h2⟩ := h.out
  obtain ⟨ds, k1, k2⟩ := k.out
  have hb : b.bounds = a.bounds := by obtain ⟨_, _, _, _, rfl⟩ := h.form; rfl
  refine ⟨cs ++ ds, by rw [k1, h1, List.append_assoc], ?_⟩
  intro c hc
  rcases List.mem_append.1 hc with hc | hc
  · exact h2 c hc
  · rw [← hb]; exact k2 c hc

theorem propBounds_spec {E0 : (ℕ → V) → Prop} (ctl : Ctl) (clause : List ℤ) (test : Bound V → Bool) (L : List ℕ) :
    ∀ (s : S V), (∀ b ∈ L, ∃ bd, s.bounds[b]? = some bd ∧ (test bd = true → ClauseValid s.bounds E0 (clause ++ [-bd.lit]))) →
    OutOK E0 s (propBounds ctl clause test L s).1 := by
  induction L with
  | nil => intro s _; exact OutOK.refl E0 s
  | cons b bs ih =>
    intro s h
    unfold propBounds
    obtain ⟨bd, h1, h2⟩ := h b (by simp)
    rw [h1]
    simp only
    have hrest : ∀ b ∈ bs, ∃ bd, s.bounds[b]? = some bd ∧ (test bd = true → ClauseValid s.bounds E0 (clause ++ [-bd.lit])) :=
      fun b hb => h b (by simp [hb])
    split
    · rename_i ht
      simp only [Bool.and_eq_true] at ht
      have hstep : OutOK E0 s { (s.emit (clause ++ [-bd.lit])) with props := (s.emit (clause ++ [-bd.lit])).props + 1 } :=
        ⟨⟨_, s.prop, s.pqueue, _, rfl⟩, [clause ++ [-bd.lit]], rfl, by simpa using h2 ht.1⟩
      split
      · exact hstep.trans (ih _ hrest)
      · exact hstep
    · exact ih s hrest

theorem propRow_spec {E0 : (ℕ → V) → Prop} (ctl : Ctl) (s : S V) (hs : Struct s) (hp : PtrOK s)
    (hE : ∀ asg, TabEq s asg ↔ E0 asg) (hvb : VB s) {i : ℕ} (hi : i < s.m) :
    OutOK E0 s (propRow ctl s i).1 := by
  have hs0 : OutOK E0 s { s with prop := Function.update s.prop i false } :=
    ⟨⟨s.out, _, s.pqueue, s.props, rfl⟩, [], by simp, by simp⟩
  unfold propRow
  simp only
  set s1 : S V := { s with prop := Function.update s.prop i false } with hs1
  have hst1 : Struct s1 := ⟨hs.nv, hs.idx_lt, hs.ridx_lt, hs.ir, hs.ri, hs.wf, hs.shape, hs.low⟩
  have hp1 : PtrOK s1 := ⟨hp.up, hp.lo⟩
  have hE1 : ∀ asg, TabEq s1 asg ↔ E0 asg := hE
  split
  · exact hs0
  · -- the first group
    have hu : s1.rowHasUpper i = true → OutOK E0 s1 (propBounds ctl (s1.rowBound i (fun pos => pos)).2
        (fun bd => decide (bd.rel ≠ .le) && decide ((s1.rowBound i (fun pos => pos)).1 < bd.value)) (s1.vbounds (s1.index (i + s1.n))) s1).1 := by
      intro hdef
      apply propBounds_spec
      intro b hb
      obtain ⟨bd, h1, h2⟩ := hvb _ b hb
      refine ⟨bd, h1, fun ht => ?_⟩
      simp only [Bool.and_eq_true, decide_eq_true_eq] at ht
      refine row_explains hst1 hp1 hE1 _ (List.mem_of_getElem? h1) h2 fun asg hasg hall hbd => ?_
      have hle := rowBound_up hst1 hp1 hi hdef asg ((hE1 asg).2 hasg) hall
      have hge := hbd.ge ht.1
      rw [h2] at hge
      exact absurd (hge.trans hle) (not_le.2 ht.2)
    have hl : s1.rowHasLower i = true → ∀ t, OutOK E0 s1 t → OutOK E0 t (propBounds ctl (s1.rowBound i (fun pos => !pos)).2
        (fun bd => decide (bd.rel ≠ .ge) && decide (bd.value < (s1.rowBound i (fun pos => !pos)).1)) (s1.vbounds (s1.index (i + s1.n))) t).1 := by
      intro hdef t ht
      have hb' : t.bounds = s1.bounds := by obtain ⟨_, _, _, _, rfl⟩ := ht.form; rfl
      apply propBounds_spec
      rw [hb']
      intro b hb
      obtain ⟨bd, h1, h2⟩ := hvb _ b hb
      refine ⟨bd, h1, fun ht => ?_⟩
      simp only [Bool.and_eq_true, decide_eq_true_eq] at ht
      refine row_explains hst1 hp1 hE1 _ (List.mem_of_getElem? h1) h2 fun asg hasg hall hbd => ?_
      have hle := rowBound_lo hst1 hp1 hi hdef asg ((hE1 asg).2 hasg) hall
      have hge := hbd.le ht.1
      rw [h2] at hge
      exact absurd (hle.trans hge) (not_le.2 ht.2)
    by_cases hhu : s1.rowHasUpper i = true
    · simp only [hhu, if_true]
      have h1 := hu hhu
      generalize propBounds ctl (s1.rowBound i (fun pos => pos)).2
        (fun bd => decide (bd.rel ≠ .le) && decide ((s1.rowBound i (fun pos => pos)).1 < bd.value)) (s1.vbounds (s1.index (i + s1.n))) s1 = r at *
      split
      · exact hs0.trans h1
      · split
        · rename_i hhl
          exact hs0.trans (h1.trans (hl hhl _ h1))
        · exact hs0.trans h1
    · simp only [hhu, if_false, Bool.not_true, Bool.false_eq_true]
      split
      · rename_i hhl
        exact hs0.trans (hl hhl _ (OutOK.refl E0 s1))
      · exact hs0

/-- What propagation needs from a state; preserved by `PForm`. -/
structure PropCtx (E0 : (ℕ → V) → Prop) (s : S V) : Prop where
  struct : Struct s
  ptr : PtrOK s
  eqv : ∀ asg, TabEq s asg ↔ E0 asg
  vb : VB s

theorem PropCtx.form {E0 : (ℕ → V) → Prop} {s s' : S V} (h : PropCtx E0 s) (hf : PForm s s') : PropCtx E0 s' := by
  obtain ⟨_, _, _, _, rfl⟩ := hf
  exact ⟨⟨h.struct.nv, h.struct.idx_lt, h.struct.ridx_lt, h.struct.ir, h.struct.ri, h.struct.wf, h.struct.shape, h.struct.low⟩,
    ⟨h.ptr.up, h.ptr.lo⟩, h.eqv, h.vb⟩

theorem propQueue_spec {E0 : (ℕ → V) → Prop} (ctl : Ctl) (L : List ℕ) : ∀ (s : S V), PropCtx E0 s → (∀ i ∈ L, i < s.m) →
    OutOK E0 s (propQueue ctl L s).1 := by
  induction L with
  | nil => intro s _ _; exact OutOK.refl E0 s
  | cons i is ih =>
    intro s hc hlt
    unfold propQueue
    simp only
    have h0 : PForm s { s with pqueue := is } := ⟨s.out, s.prop, is, s.props, rfl⟩
    have hc0 := hc.form h0
    have h1 := propRow_spec ctl _ hc0.struct hc0.ptr hc0.eqv hc0.vb (i := i) (hlt i (by simp))
    have h01 : OutOK E0 s { s with pqueue := is } := ⟨h0, [], by simp, by simp⟩
    have hm : (propRow ctl { s with pqueue := is } i).1.m = s.m := by
      obtain ⟨_, _, _, _, he⟩ := h1.form; rw [he]
    split
    · exact h01.trans (h1.trans (ih _ (hc0.form h1.form) (fun j hj => by rw [hm]; exact hlt j (by simp [hj]))))
    · exact h01.trans h1

theorem propRows_spec {E0 : (ℕ → V) → Prop} (ctl : Ctl) (L : List ℕ) : ∀ (s : S V), PropCtx E0 s → (∀ i ∈ L, i < s.m) →
    OutOK E0 s (propRows ctl L s).1 := by
  induction L with
  | nil => intro s _ _; exact OutOK.refl E0 s
  | cons i is ih =>
    intro s hc hlt
    unfold propRows
    simp only
    have h1 := propRow_spec ctl _ hc.struct hc.ptr hc.eqv hc.vb (i := i) (hlt i (by simp))
    have hm : (propRow ctl s i).1.m = s.m := by
      obtain ⟨_, _, _, _, he⟩ := h1.form; rw [he]
    split
    · exact h1.trans (ih _ (hc.form h1.form) (fun j hj => by rw [hm]; exact hlt j (by simp [hj])))
    · exact h1

theorem propagate_spec {E0 : (ℕ → V) → Prop} (ctl : Ctl) (s : S V) (hc : PropCtx E0 s) (hq : PQ s) :
    OutOK E0 s (propagate ctl s).1 := by
  unfold propagate
  split
  · exact OutOK.refl E0 s
  · exact propQueue_spec ctl _ s hc hq
  · exact propRows_spec ctl _ s hc (fun i hi => List.mem_range.1 hi)

/-! ### propagated clauses are unit or conflicting -/

/-- A clause added when the clauses `O` had been added before: its last literal negates a bound that is not false yet, the others
negate bounds that are true. -/
def UnitAt (ctl : Ctl) (bounds : List (Bound V)) (F : List Frame) (O : List (List ℤ)) (c : List ℤ) : Prop :=
  ∃ front, ∃ bd ∈ bounds, c = front ++ [-bd.lit] ∧ FromAct bounds F front ∧ ctl.isFalse O bd.lit = false

/-- All clauses added to `O` one after the other are of this form. -/
def Units (ctl : Ctl) (bounds : List (Bound V)) (F : List Frame) (O cs : List (List ℤ)) : Prop :=
  ∀ pre c suf, cs = pre ++ c :: suf → UnitAt ctl bounds F (O ++ pre) c

theorem Units.nil (ctl : Ctl) (bounds : List (Bound V)) (F : List Frame) (O : List (List ℤ)) : Units ctl bounds F O [] :=
  fun pre c suf h => by simp at h

theorem Units.append {ctl : Ctl} {bounds : List (Bound V)} {F : List Frame} {O cs ds : List (List ℤ)} (h : Units ctl bounds F O cs)
    (k : Units ctl bounds F (O ++ cs) ds) : Units ctl bounds F O (cs ++ ds) := by
  intro pre c suf e
  rcases List.append_eq_append_iff.1 e with ⟨as, h1, h2⟩ | ⟨bs, h1, h2⟩
  · have := k as c suf h2
    rw [h1, ← List.append_assoc]; exact this
  · cases bs with
    | nil =>
      have h2' : ds = [] ++ c :: suf := h2.symm
      have := k [] c suf h2'
      rw [List.append_nil] at h1
      rw [← h1]; simpa using this
    | cons b bs =>
      rw [List.cons_append] at h2
      obtain ⟨rfl, h2⟩ := List.cons.inj h2
      exact h pre c bs h1

theorem Units.single {ctl : Ctl} {bounds : List (Bound V)} {F : List Frame} {O : List (List ℤ)} {c : List ℤ} (h : UnitAt ctl bounds F O c) :
    Units ctl bounds F O [c] := by
  intro pre d suf e
  cases pre with
  | nil =>
    obtain ⟨rfl, -⟩ := List.cons.inj e
    simpa using h
  | cons a pre => simp at e

/-- The clauses added by a step of bound propagation. -/
def OutU (ctl : Ctl) (F : List Frame) (s s' : S V) : Prop :=
  PForm s s' ∧ ∃ cs, s'.out = s.out ++ cs ∧ Units ctl s.bounds F s.out cs

theorem OutU.refl (ctl : Ctl) (F : List Frame) (s : S V) : OutU ctl F s s := ⟨PForm.refl s, [], by simp, Units.nil _ _ _ _⟩

theorem OutU.quiet {ctl : Ctl} {F : List Frame} {s s' : S V} (h : PForm s s') (ho : s'.out = s.out) : OutU ctl F s s' :=
  ⟨h, [], by simp [ho], Units.nil _ _ _ _⟩

theorem OutU.trans {ctl : Ctl} {F : List Frame} {a b c : S V} (h : OutU ctl F a b) (k : OutU ctl F b c) : OutU ctl F a c := by
  obtain ⟨hf, cs, h1, h2⟩ := h
  obtain ⟨kf, ds, k1, k2⟩ := k
  have hb : b.bounds = a.bounds := by obtain ⟨_, _, _, _, rfl⟩ := hf; rfl
  refine ⟨hf.trans kf, cs ++ ds, by rw [k1, h1, List.append_assoc], h2.append ?_⟩
  rw [← hb, ← h1]; exact k2

theorem rowBound_from {s : S V} {F : List Frame} (hp : PtrAct s.bounds F s.lower s.upper) (useUp : Bool → Bool) (i : ℕ) :
    FromAct s.bounds F (s.rowBound i useUp).2 := by
  rw [rowBound_eq]
  have : ∀ (L : List (ℕ × ℤ × ℤ)) (acc : V × List ℤ), FromAct s.bounds F acc.2 → FromAct s.bounds F (L.foldl (rbStep s useUp) acc).2 := by
    intro L
    induction L with
    | nil => exact fun _ h => h
    | cons e es ih =>
      intro acc h
      rw [List.foldl_cons]
      apply ih
      have key : ∀ q : Option ℕ, (∀ b, q = some b → ∃ bd, s.bounds[b]? = some bd ∧ Act F bd.lit) →
          FromAct s.bounds F (match s.bval q, s.blit q with
            | some x, some l => (acc.1 + mulDiv x e.2.1 e.2.2, acc.2 ++ [-l])
            | _, _ => acc).2 := by
        intro q hq
        cases q with
        | none => exact h
        | some b =>
          obtain ⟨bd, h1, h2⟩ := hq b rfl
          have e1 : s.bval (some b) = some bd.value := by unfold bval; simp [h1]
          rw [e1, blit_of rfl h1]
          intro l hl
          rcases List.mem_append.1 hl with hl | hl
          · exact h l hl
          · rw [List.mem_singleton] at hl
            exact ⟨bd, List.mem_of_getElem? h1, hl, h2⟩
      refine key _ fun b hb => ?_
      by_cases hc : useUp (decide (e.2.1 > 0) == decide (e.2.2 > 0)) = true
      · rw [if_pos hc] at hb
        obtain ⟨bd, h1, -, -, h2⟩ := hp.up _ b hb; exact ⟨bd, h1, h2⟩
      · rw [if_neg hc] at hb
        obtain ⟨bd, h1, -, -, h2⟩ := hp.lo _ b hb; exact ⟨bd, h1, h2⟩
  exact this _ _ (fun l hl => by simp at hl)

theorem propBounds_unit {F : List Frame} (ctl : Ctl) (clause : List ℤ) (test : Bound V → Bool) (L : List ℕ) :
    ∀ (s : S V), (∀ b ∈ L, ∃ bd, s.bounds[b]? = some bd) → FromAct s.bounds F clause → OutU ctl F s (propBounds ctl clause test L s).1 := by
  induction L with
  | nil => intro s _ _; exact OutU.refl ctl F s
  | cons b bs ih =>
    intro s h hc
    unfold propBounds
    obtain ⟨bd, h1⟩ := h b (by simp)
    rw [h1]
    simp only
    have hrest : ∀ b ∈ bs, ∃ bd, s.bounds[b]? = some bd := fun b hb => h b (by simp [hb])
    split
    · rename_i ht
      simp only [Bool.and_eq_true, Bool.not_eq_true'] at ht
      have hstep : OutU ctl F s { (s.emit (clause ++ [-bd.lit])) with props := (s.emit (clause ++ [-bd.lit])).props + 1 } :=
        ⟨⟨_, s.prop, s.pqueue, _, rfl⟩, [clause ++ [-bd.lit]], rfl, Units.single ⟨clause, bd, List.mem_of_getElem? h1, rfl, hc, ht.2⟩⟩
      split
      · exact hstep.trans (ih _ hrest hc)
      · exact hstep
    · exact ih s hrest hc

theorem propRow_unit {F : List Frame} (ctl : Ctl) (s : S V) (hp : PtrAct s.bounds F s.lower s.upper) (hvb : VB s) (i : ℕ) :
    OutU ctl F s (propRow ctl s i).1 := by
  have hs0 : OutU ctl F s { s with prop := Function.update s.prop i false } := OutU.quiet ⟨s.out, _, s.pqueue, s.props, rfl⟩ rfl
  unfold propRow
  simp only
  set s1 : S V := { s with prop := Function.update s.prop i false } with hs1
  have hp1 : PtrAct s1.bounds F s1.lower s1.upper := hp
  have hvb1 : ∀ b ∈ s1.vbounds (s1.index (i + s1.n)), ∃ bd, s1.bounds[b]? = some bd := fun b hb => by
    obtain ⟨bd, h, -⟩ := hvb _ b hb; exact ⟨bd, h⟩
  split
  · exact hs0
  · have hl : ∀ t, OutU ctl F s1 t → OutU ctl F t (propBounds ctl (s1.rowBound i (fun pos => !pos)).2
        (fun bd => decide (bd.rel ≠ .ge) && decide (bd.value < (s1.rowBound i (fun pos => !pos)).1)) (s1.vbounds (s1.index (i + s1.n))) t).1 := by
      intro t ht
      have hb' : t.bounds = s1.bounds := by obtain ⟨⟨_, _, _, _, rfl⟩, -⟩ := ht; rfl
      apply propBounds_unit
      · rw [hb']; exact hvb1
      · rw [hb']; exact rowBound_from hp1 _ _
    have hu := propBounds_unit (F := F) ctl (s1.rowBound i (fun pos => pos)).2
        (fun bd => decide (bd.rel ≠ .le) && decide ((s1.rowBound i (fun pos => pos)).1 < bd.value)) (s1.vbounds (s1.index (i + s1.n))) s1
        hvb1 (rowBound_from hp1 _ _)
    generalize propBounds ctl (s1.rowBound i (fun pos => pos)).2
        (fun bd => decide (bd.rel ≠ .le) && decide ((s1.rowBound i (fun pos => pos)).1 < bd.value)) (s1.vbounds (s1.index (i + s1.n))) s1 = r at *
    have hr : OutU ctl F s1 (if s1.rowHasUpper i = true then r else (s1, true)).1 := by
      split
      · exact hu
      · exact OutU.refl ctl F s1
    generalize (if s1.rowHasUpper i = true then r else (s1, true)) = r' at *
    split
    · exact hs0.trans hr
    · split
      · exact hs0.trans (hr.trans (hl _ hr))
      · exact hs0.trans hr

theorem propQueue_unit {F : List Frame} (ctl : Ctl) (L : List ℕ) : ∀ (s : S V), PtrAct s.bounds F s.lower s.upper → VB s →
    OutU ctl F s (propQueue ctl L s).1 := by
  induction L with
  | nil => intro s _ _; exact OutU.refl ctl F s
  | cons i is ih =>
    intro s hc hvb
    unfold propQueue
    simp only
    have h0 : OutU ctl F s { s with pqueue := is } := OutU.quiet ⟨s.out, s.prop, is, s.props, rfl⟩ rfl
    have h1 := propRow_unit (F := F) ctl { s with pqueue := is } hc hvb i
    have hf := h1.1
    split
    · refine h0.trans (h1.trans (ih _ ?_ ?_))
      · obtain ⟨_, _, _, _, he⟩ := hf; rw [he]; exact hc
      · obtain ⟨_, _, _, _, he⟩ := hf; rw [he]; exact hvb
    · exact h0.trans h1

theorem propRows_unit {F : List Frame} (ctl : Ctl) (L : List ℕ) : ∀ (s : S V), PtrAct s.bounds F s.lower s.upper → VB s →
    OutU ctl F s (propRows ctl L s).1 := by
  induction L with
  | nil => intro s _ _; exact OutU.refl ctl F s
  | cons i is ih =>
    intro s hc hvb
    unfold propRows
    simp only
    have h1 := propRow_unit (F := F) ctl s hc hvb i
    have hf := h1.1
    split
    · refine h1.trans (ih _ ?_ ?_)
      · obtain ⟨_, _, _, _, he⟩ := hf; rw [he]; exact hc
      · obtain ⟨_, _, _, _, he⟩ := hf; rw [he]; exact hvb
    · exact h1

theorem propagate_unit {F : List Frame} (ctl : Ctl) (s : S V) (hp : PtrAct s.bounds F s.lower s.upper) (hvb : VB s) :
    OutU ctl F s (propagate ctl s).1 := by
  unfold propagate
  split
  · exact OutU.refl ctl F s
  · exact propQueue_unit ctl _ s hp hvb
  · exact propRows_unit ctl _ s hp hvb

end S
end Lpx
