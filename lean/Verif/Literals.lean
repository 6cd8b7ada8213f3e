import Verif.Counters

/-!
# The literals of the clauses

The clauses added by `solve` consist of negated literals of bounds. No invariant is needed.
-/

set_option linter.unusedSectionVars false

namespace Lpx
namespace S
variable {V : Type} [LpValue V]

/-- The clause consists of negated literals of the bounds. -/
def NegB (bs : List (Bound V)) (c : List ℤ) : Prop := ∀ l ∈ c, ∃ bd ∈ bs, l = -bd.lit

theorem NegB.append {bs : List (Bound V)} {c d : List ℤ} (h : NegB bs c) (k : NegB bs d) : NegB bs (c ++ d) := fun l hl =>
  (List.mem_append.1 hl).elim (h l) (k l)
theorem negB_nil (bs : List (Bound V)) : NegB bs [] := fun l hl => by cases hl
theorem negB_single {bs : List (Bound V)} {bd : Bound V} (h : bd ∈ bs) : NegB bs [-bd.lit] := fun l hl => ⟨bd, h, List.mem_singleton.1 hl⟩

/-- Only clauses with negated literals of bounds have been added, and no empty clause. -/
structure Neg (s t : S V) : Prop where
  bounds : t.bounds = s.bounds
  out : ∃ cs, t.out = s.out ++ cs ∧ ∀ c ∈ cs, c ≠ [] ∧ NegB s.bounds c

theorem Moves.neg {k : ℕ} {s t : S V} (h : Moves k s t) : Neg s t := ⟨h.bounds, [], by simp [h.out], by simp⟩
theorem Neg.refl (s : S V) : Neg s s := (Calm.refl s).neg
theorem Neg.trans {a b c : S V} (h : Neg a b) (k : Neg b c) : Neg a c := by
  obtain ⟨x, hx, hx'⟩ := h.out
  obtain ⟨y, hy, hy'⟩ := k.out
  refine ⟨k.bounds.trans h.bounds, x ++ y, by rw [hy, hx, List.append_assoc], fun c hc => ?_⟩
  rcases List.mem_append.1 hc with hc | hc
  · exact hx' c hc
  · rw [← h.bounds]; exact hy' c hc
theorem neg_emit {s : S V} {c : List ℤ} (hc : c ≠ []) (h : NegB s.bounds c) : Neg s (s.emit c) := ⟨rfl, [c], rfl, by simpa using ⟨hc, h⟩⟩

theorem blit_mem {s : S V} {b : Option ℕ} {l : ℤ} (h : s.blit b = some l) : ∃ bd ∈ s.bounds, l = bd.lit := by
  unfold blit at h
  obtain ⟨i, -, hi⟩ := Option.bind_eq_some_iff.1 h
  obtain ⟨bd, hbd, rfl⟩ := Option.map_eq_some_iff.1 hi
  exact ⟨bd, List.mem_of_getElem? hbd, rfl⟩

theorem blit_of_bval {s : S V} {b : Option ℕ} {v : V} (h : s.bval b = some v) : ∃ bd ∈ s.bounds, (s.blit b).getD 0 = bd.lit := by
  unfold bval at h
  obtain ⟨i, rfl, hi⟩ := Option.bind_eq_some_iff.1 h
  obtain ⟨bd, hbd, -⟩ := Option.map_eq_some_iff.1 hi
  exact ⟨bd, List.mem_of_getElem? hbd, by simp [blit, hbd]⟩

theorem atUp_lit {s : S V} {v : ℕ} (h : s.atUp v = true) : ∃ bd ∈ s.bounds, (s.blit (s.upper v)).getD 0 = bd.lit := by
  unfold atUp at h
  cases hu : s.up v with
  | none => rw [hu] at h; cases h
  | some x => exact blit_of_bval hu

theorem atLo_lit {s : S V} {v : ℕ} (h : s.atLo v = true) : ∃ bd ∈ s.bounds, (s.blit (s.lower v)).getD 0 = bd.lit := by
  unfold atLo at h
  cases hu : s.lo v with
  | none => rw [hu] at h; cases h
  | some x => exact blit_of_bval hu

theorem neg_updateBound (ctl : Ctl) (s : S V) (b : ℕ) (bd : Bound V) : Neg s (updateBound ctl s b bd).1 := by
  unfold updateBound
  dsimp only
  have h0 := calm_updateVar ctl s b bd
  generalize updateVar ctl s b bd = r at h0
  refine h0.neg.trans ?_
  split
  · split
    · rename_i u l hu hl
      obtain ⟨x, hx, rfl⟩ := blit_mem hu
      obtain ⟨y, hy, rfl⟩ := blit_mem hl
      exact ⟨rfl, _, rfl, by
        intro c hc
        rw [List.mem_singleton] at hc
        subst hc
        exact ⟨by simp, (negB_single hx).append (negB_single hy)⟩⟩
    · exact ⟨rfl, [], by simp, by simp⟩
  · split
    · split
      · split
        · exact (calm_update _ _ _ _).neg
        · exact Neg.refl _
      · split
        · split
          · exact (calm_update _ _ _ _).neg
          · exact Neg.refl _
        · exact Neg.refl _
    · exact (calm_enqueue _ _).neg

theorem neg_updateBounds (ctl : Ctl) (bs : List (ℕ × Bound V)) : ∀ s : S V, Neg s (updateBounds ctl bs s).1 := by
  induction bs with
  | nil => exact fun s => Neg.refl s
  | cons b bs ih =>
    intro s
    rw [updateBounds]
    have h1 := neg_updateBound ctl s b.1 b.2
    split
    · exact h1.trans (ih _)
    · exact h1

theorem neg_updateLits (ctl : Ctl) (ls : List ℤ) : ∀ s : S V, Neg s (updateLits ctl ls s).1 := by
  induction ls with
  | nil => exact fun s => Neg.refl s
  | cons l ls ih =>
    intro s
    rw [updateLits]
    have h1 := neg_updateBounds ctl (s.boundsOf l) s
    split
    · exact h1.trans (ih _)
    · exact h1

theorem negB_rowBound (s : S V) (i : ℕ) (f : Bool → Bool) : NegB s.bounds (s.rowBound i f).2 := by
  unfold rowBound
  suffices h : ∀ (es : List (ℕ × ℤ × ℤ)) (acc : V × List ℤ), NegB s.bounds acc.2 → NegB s.bounds (es.foldl (fun acc (e : ℕ × ℤ × ℤ) =>
    let jj := s.index e.1
    let p := if f (decide (e.2.1 > 0) == decide (e.2.2 > 0)) then s.upper jj else s.lower jj
    match s.bval p, s.blit p with
    | some x, some l => (acc.1 + mulDiv x e.2.1 e.2.2, acc.2 ++ [-l])
    | _, _ => acc) acc).2 from h _ _ (negB_nil _)
  intro es
  induction es with
  | nil => exact fun acc h => h
  | cons e es ih =>
    intro acc h
    rw [List.foldl_cons]
    refine ih _ ?_
    dsimp only
    split
    · rename_i x l hx hl
      obtain ⟨bd, hbd, rfl⟩ := blit_mem hl
      exact h.append (negB_single hbd)
    · exact h

theorem neg_propBounds (ctl : Ctl) (cl : List ℤ) (test : Bound V → Bool) (bs : List ℕ) :
    ∀ s : S V, NegB s.bounds cl → Neg s (propBounds ctl cl test bs s).1 := by
  induction bs with
  | nil => exact fun s _ => Neg.refl _
  | cons b bs ih =>
    intro s hcl
    rw [propBounds]
    cases hb : s.bounds[b]? with
    | none => exact ⟨rfl, [], by simp, by simp⟩
    | some bd =>
      dsimp only
      split
      · have h1 : Neg s ({ s.emit (cl ++ [-bd.lit]) with props := (s.emit (cl ++ [-bd.lit])).props + 1 } : S V) :=
          ⟨rfl, [cl ++ [-bd.lit]], rfl, by
            intro c hc
            rw [List.mem_singleton] at hc
            subst hc
            exact ⟨by simp, hcl.append (negB_single (List.mem_of_getElem? hb))⟩⟩
        split
        · exact h1.trans (ih _ hcl)
        · exact h1
      · exact ih s hcl

theorem neg_propRow (ctl : Ctl) (s : S V) (i : ℕ) : Neg s (propRow ctl s i).1 := by
  unfold propRow
  generalize hs0 : ({ s with prop := Function.update s.prop i false } : S V) = s0
  have h0 : Neg s s0 := by subst hs0; exact Moves.neg (k := 0) ⟨rfl, rfl, rfl, Piv.refl _ _⟩
  dsimp only
  split
  · exact h0
  · generalize hr : (if s0.rowHasUpper i = true then propBounds ctl _ _ _ s0 else (s0, true)) = r
    have h1 : Neg s0 r.1 := by
      subst hr
      split
      · exact neg_propBounds ctl _ _ _ s0 (negB_rowBound _ _ _)
      · exact Neg.refl _
    split
    · exact h0.trans h1
    · split
      · exact (h0.trans h1).trans (neg_propBounds ctl _ _ _ r.1 (by rw [h1.bounds]; exact negB_rowBound _ _ _))
      · exact h0.trans h1

theorem neg_propQueue (ctl : Ctl) (is : List ℕ) : ∀ s : S V, Neg s (propQueue ctl is s).1 := by
  induction is with
  | nil => exact fun s => Neg.refl _
  | cons i is ih =>
    intro s
    rw [propQueue]
    have h0 : Neg s { s with pqueue := is } := Moves.neg (k := 0) ⟨rfl, rfl, rfl, Piv.refl _ _⟩
    have h1 := h0.trans (neg_propRow ctl { s with pqueue := is } i)
    split
    · exact h1.trans (ih _)
    · exact h1

theorem neg_propRows (ctl : Ctl) (is : List ℕ) : ∀ s : S V, Neg s (propRows ctl is s).1 := by
  induction is with
  | nil => exact fun s => Neg.refl _
  | cons i is ih =>
    intro s
    rw [propRows]
    have h1 := neg_propRow ctl s i
    split
    · exact h1.trans (ih _)
    · exact h1

theorem neg_propagate (ctl : Ctl) (s : S V) : Neg s (s.propagate ctl).1 := by
  unfold S.propagate
  split
  · exact Neg.refl _
  · exact neg_propQueue _ _ _
  · exact neg_propRows _ _ _

theorem negB_selectEntries (s : S V) (i : ℕ) (lower : Bool) (bnd : V) (es : List (ℕ × ℤ × ℤ)) :
    ∀ st : SelSt V, st.clause ≠ [] ∧ NegB s.bounds st.clause →
      (es.foldl (selectEntry s i lower bnd) st).clause ≠ [] ∧ NegB s.bounds (es.foldl (selectEntry s i lower bnd) st).clause := by
  induction es with
  | nil => exact fun st h => h
  | cons e es ih =>
    intro st h
    rw [List.foldl_cons]
    refine ih _ ?_
    unfold selectEntry
    dsimp only
    split
    · exact h
    · generalize (lower == (decide (e.2.1 > 0) == decide (e.2.2 > 0))) = up
      cases up
      · simp only [Bool.false_eq_true, if_false]
        split
        · rename_i ha
          obtain ⟨bd, hbd, e'⟩ := atLo_lit ha
          rw [e']
          exact ⟨by simp, h.2.append (negB_single hbd)⟩
        · exact h
      · simp only [if_true]
        split
        · rename_i ha
          obtain ⟨bd, hbd, e'⟩ := atUp_lit ha
          rw [e']
          exact ⟨by simp, h.2.append (negB_single hbd)⟩
        · exact h

theorem negB_select (l : List ℕ) : ∀ s t : S V, selectLoop l s = (t, .unsat) → t.clause ≠ [] ∧ NegB s.bounds t.clause := by
  induction l with
  | nil => intro s t h; rw [selectLoop] at h; cases h
  | cons ii rest ih =>
    intro s t h
    rw [selectLoop] at h
    generalize hs0 : ({ s with queued := Function.update s.queued ii false } : S V) = s0 at h
    have hb : s0.bounds = s.bounds := by subst hs0; rfl
    dsimp only at h
    rw [← hb]
    split at h
    · exact ih _ _ h
    · split at h
      · exact ih _ _ h
      · rename_i bnd hbnd
        have h0 : ∃ bd ∈ s0.bounds, (s0.blit (if s0.belowLo ii then s0.lower ii else s0.upper ii)).getD 0 = bd.lit := by
          split at hbnd
          · rename_i hl
            rw [if_pos hl]
            exact blit_of_bval hbnd
          · rename_i hl
            rw [if_neg hl]
            split at hbnd
            · exact blit_of_bval hbnd
            · cases hbnd
        obtain ⟨bd, hbd, e⟩ := h0
        split at h
        · obtain ⟨rfl, -⟩ := Prod.mk.inj h
          dsimp only
          refine negB_selectEntries _ _ _ _ _ _ ?_
          dsimp only
          rw [e]
          exact ⟨by simp, negB_single hbd⟩
        · cases h

theorem neg_solveLoop (ctl : Ctl) (fuel : ℕ) : ∀ (s : S V) (r : S V × Bool), solveLoop ctl fuel s = some r → Neg s r.1 := by
  induction fuel with
  | zero => intro s r h; cases h
  | succ k ih =>
    intro s r h
    rw [solveLoop] at h
    have hq := calm_select s.conflicts s
    change Calm s s.select.1 at hq
    have hu : ∀ t, s.select = (t, .unsat) → t.clause ≠ [] ∧ NegB s.bounds t.clause := fun t ht => negB_select s.conflicts s t ht
    generalize s.select = sel at h hq hu
    obtain ⟨t, x⟩ := sel
    dsimp only at h hq
    cases x with
    | sat =>
      dsimp only at h
      obtain rfl := Option.some.inj h
      have h1 : Calm s (if t.opts.store = .part then t.storeSat else t) := by
        split
        · exact hq.trans (calm_storeSat t)
        · exact hq
      exact h1.neg.trans (neg_propagate ctl _)
    | unsat =>
      obtain rfl := Option.some.inj h
      obtain ⟨h1, h2⟩ := hu t rfl
      exact hq.neg.trans (neg_emit h1 (by rw [hq.bounds]; exact h2))
    | unknown i j v => exact (Moves.trans hq (moves_pivot t ctl.dl i j v)).neg.trans (ih _ _ h)

theorem neg_solve {ctl : Ctl} {fuel : ℕ} {s : S V} {lits : List ℤ} {r : S V × Bool} (h : s.solve ctl fuel lits = some r) : Neg s r.1 := by
  unfold S.solve at h
  have h1 := (calm_pushOff ctl s).neg.trans (neg_updateLits ctl lits (s.pushOff ctl))
  dsimp only at h
  split at h
  · exact h1.trans (neg_solveLoop ctl fuel _ _ h)
  · obtain rfl := Option.some.inj h
    exact h1

end S
end Lpx
