import Verif.PropsStats
import Verif.PropsViolations

/-!
# Clauses are unit or conflicting (C64)
-/

set_option linter.unusedSectionVars false

namespace Lpx.Props
open Lpx Lpx.Witness

variable {V : Type} [LpFull V] {be : Backend} {opts : Options} {p : Propagator V} {g : Ghost V}

/-- The literal is the negation of the literal of a constraint of the program or of a cut of the thread. -/
def Negates (p : Propagator V) (th : ℕ) (l : ℤ) : Prop := (∃ x ∈ p.prog.iqs, -l = x.lit) ∨ ∃ u ∈ p.cutsOf th, -l = u.1

/-- A clause that is false, or all of whose literals but the last one are false and the last one is not true, where `false'` tells which literals
are false and `true'` which are true. -/
def UnitOrFalse (false' true' : ℤ → Prop) (c : List ℤ) : Prop :=
  (∀ l ∈ c, false' l) ∨ ∃ front l, c = front ++ [l] ∧ (∀ k ∈ front, false' k) ∧ ¬ true' l

theorem prefix_mid {α : Type} {a O t cs : List α} {c : α} (ha : a <+: O) (hO : O ++ [c] <+: t) (e : t = a ++ cs) :
    ∃ pre suf, O = a ++ pre ∧ cs = pre ++ c :: suf := by
  obtain ⟨pre, rfl⟩ := ha
  obtain ⟨suf, rfl⟩ := hO
  refine ⟨pre, suf, rfl, ?_⟩
  rw [List.append_assoc, List.append_assoc] at e
  have := List.append_cancel_left e
  rw [← this]; simp

/-- The clauses added by `solve`. -/
theorem solveRes_units {E0 : (ℕ → V) → Prop} {F : List Frame} {ctl : Ctl} {s s' : S V} {ok : Bool} (h : S.SolveRes E0 F ctl s (s', ok))
    {O : List (List ℤ)} {c : List ℤ} (hO : s.out <+: O) (hc : O ++ [c] <+: s'.out) :
    (∀ l ∈ c, ∃ bd ∈ s.bounds, l = -bd.lit) ∧
      UnitOrFalse (fun l => Act F (-l)) (fun l => ctl.isFalse O (-l) = true) c := by
  generalize hok : (s', ok) = r at h
  cases h with
  | sat t1 ok1 _ _ hout _ _ =>
    obtain ⟨rfl, rfl⟩ := Prod.mk.inj hok
    obtain ⟨cs, ho, -, hu⟩ := hout
    obtain ⟨pre, suf, rfl, e⟩ := prefix_mid hO hc ho
    obtain ⟨front, bd, hbd, rfl, hfr, hnf⟩ := hu pre c suf e
    constructor
    · intro l hl
      rcases List.mem_append.1 hl with hl | hl
      · obtain ⟨b, hb, h1, -⟩ := hfr l hl
        exact ⟨b, hb, h1⟩
      · exact ⟨bd, hbd, List.mem_singleton.1 hl⟩
    · refine Or.inr ⟨front, -bd.lit, rfl, fun k hk => ?_, ?_⟩
      · obtain ⟨b, hb, rfl, h2⟩ := hfr k hk
        show Act F (- -b.lit)
        rw [neg_neg]; exact h2
      · show ¬ ctl.isFalse _ (- -bd.lit) = true
        rw [neg_neg, hnf]; exact Bool.false_ne_true
  | unsat t1 c' _ _ _ hout _ hfrom =>
    obtain ⟨rfl, -⟩ := Prod.mk.inj hok
    obtain ⟨pre, suf, rfl, e⟩ := prefix_mid hO hc hout
    obtain rfl : c = c' := by
      cases pre with
      | nil => simpa using (List.cons.inj e).1.symm
      | cons a pre => simp at e
    refine ⟨fun l hl => ?_, Or.inl fun l hl => ?_⟩
    · obtain ⟨b, hb, h1, -⟩ := hfrom l hl
      exact ⟨b, hb, h1⟩
    · obtain ⟨b, hb, rfl, h2⟩ := hfrom l hl
      show Act F (- -b.lit)
      rw [neg_neg]; exact h2

theorem UnitOrFalse.mono {f f' t : ℤ → Prop} {c : List ℤ} (h : UnitOrFalse f t c) (hf : ∀ l, f l → f' l) : UnitOrFalse f' t c := by
  rcases h with h | ⟨front, l, rfl, h1, h2⟩
  · exact Or.inl fun l hl => hf l (h l hl)
  · exact Or.inr ⟨front, l, rfl, fun k hk => hf k (h1 k hk), h2⟩

theorem negates_of {p : Propagator V} {th : ℕ} {t : Thr V} (ht : p.thrs[th]? = some t) {bd : Bound V} (hbd : bd ∈ t.slv.bounds) :
    Negates p th (-bd.lit) := by
  unfold Negates
  rw [neg_neg]
  by_cases hx : ∃ x ∈ p.prog.iqs, bd.lit = x.lit
  · exact Or.inl hx
  · push Not at hx
    exact Or.inr ⟨(bd.lit, bd.value), (mem_cutsOf ht).2 ⟨bd, hbd, fun x hx' => (hx x hx').symm, rfl⟩, rfl⟩

/-- C64 for `propagate` (partial: `Intact`). A clause added by `propagate` when the thread had added the clauses `O` consists of negated literals of
constraints and cuts; all its literals are false, or all but the last one, which is not true (after the clauses `O`). -/
theorem C64_propagate_partial (hq : StepOK V opts) (hr : Reach be opts Intact p g) {ctl : Ctl} {th : ℕ} {lits : List ℤ}
    {gt : GThr} (hm : MayPropagate Intact p g ctl th lits gt) {fuel : ℕ} {p' : Propagator V} {ok : Bool}
    (hc : p.propagate fuel ctl th lits = some (p', ok)) {O : List (List ℤ)} {c : List ℤ} (hO : p.clausesOf th <+: O)
    (hcl : O ++ [c] <+: p'.clausesOf th) :
    (∀ l ∈ c, Negates p th l) ∧ UnitOrFalse (fun l => -l ∈ lits ∨ Act gt.frames (-l)) (fun l => ctl.isFalse O (-l) = true) c := by
  obtain ⟨t, s', E0, base, hu, h1, h2, h3, h4⟩ := (hr.inv hq).call hm hc
  rw [clausesOf_eq hu.ht] at hO
  rw [clausesOf_eq h4] at hcl
  obtain ⟨k1, k2⟩ := solveRes_units h1 hO hcl
  refine ⟨fun l hl => ?_, k2.mono fun l hl => act_nextFrames.1 hl⟩
  obtain ⟨bd, hbd, rfl⟩ := k1 l hl
  exact negates_of hu.ht hbd

/-- The hypotheses are met: `x >= 1` and `y >= 2` imply that `x + y <= 2` is false; the clause has two false literals and a third one that is not true. -/
example : ∃ (p p' : Propagator ℚ) (g : Ghost ℚ) (ctl : Ctl) (gt : GThr) (fuel : ℕ), Reach .imath { propagateMode := .full } Intact p g ∧
    MayPropagate Intact p g ctl 0 [3] gt ∧ p.propagate fuel ctl 0 [3] = some (p', true) ∧
    p.clausesOf 0 <+: [] ∧ [] ++ [[-1, -3, -2]] <+: p'.clausesOf 0 := by
  obtain ⟨p, g, p', gt, ok, h1, -, h2, h3, h4⟩ := exists_prop (V := ℚ) (be := .imath) (mode := .intact) (opts := { propagateMode := .full })
    [.init [sumAtom "x" ">=" 1 1, sum2Atom "x" "y" "<=" 2 2, sumAtom "y" ">=" 2 3] 1, .prop 0 0 [1] true] 1 0 [3] true
    (P := fun p _ p' ok => ok && decide (p.clausesOf 0 = []) && decide (p'.clausesOf 0 = [[-1, -3, -2]])) (by decide +kernel)
  simp only [Bool.and_eq_true, decide_eq_true_eq] at h4
  obtain ⟨⟨rfl, h6⟩, h7⟩ := h4
  exact ⟨p, p', g, _, gt, fuel, h1, h2, h3, by rw [h6], by rw [h7]; exact List.prefix_rfl⟩

/-- C64 for `check` (partial: `Intact`). The clauses added by `check` are of the same form, where the facts of earlier steps count as true, or consist of
the new literal of an objective cut. -/
theorem C64_check_partial (hq : StepOK V opts) (hr : Reach be opts Intact p g) {ctl : Ctl} {total : Bool} {th : ℕ}
    {gt : GThr} {t : Thr V} (hm : MayCheck p g ctl th gt t) {fuel : ℕ} {p' : Propagator V} {ok : Bool}
    (hc : p.check fuel ctl total th = some (p', ok)) {O : List (List ℤ)} {c : List ℤ} (hO : p.clausesOf th <+: O)
    (hcl : O ++ [c] <+: p'.clausesOf th) :
    ((∀ l ∈ c, Negates p th l) ∧
      UnitOrFalse (fun l => -l ∈ p.pendingFacts ctl t ∨ Act gt.frames (-l)) (fun l => ctl.isFalse O (-l) = true) c) ∨
    ∃ l v O', c = [l] ∧ (l, v) ∈ p'.cutsOf th ∧ l = ctl.newLit O' := by
  have hi := hr.inv hq
  obtain ⟨t1, ht1, hti⟩ := hi.thr th gt hm.thr
  have ht := hm.slv
  rw [ht] at ht1; cases ht1
  obtain ⟨E0, base, hd⟩ := hti.dyn
  rw [clausesOf_eq ht] at hO
  have hA : ∀ {p1 ok1}, p.checkFacts fuel ctl th = some (p1, ok1) → p1.prog = p.prog ∧ ∃ t1 cs, p1.thrs[th]? = some t1 ∧ t1.slv.out = t.slv.out ++ cs ∧
      (O ++ [c] <+: t1.slv.out → (∀ l ∈ c, Negates p th l) ∧
        UnitOrFalse (fun l => -l ∈ p.pendingFacts ctl t ∨ Act gt.frames (-l)) (fun l => ctl.isFalse O (-l) = true) c) := by
    intro p1 ok1 hf
    unfold Propagator.checkFacts at hf
    simp only [ht] at hf
    by_cases hn : p.needFacts ctl t
    · rw [if_pos hn] at hf
      have hdead := hm.dead
      have hlv := hm.lvl
      unfold Propagator.checkFrames at hlv
      unfold Propagator.pendingFacts at hdead ⊢
      rw [if_pos hn] at hlv hdead
      rw [if_pos hn]
      cases hsol : t.slv.solve ctl fuel (p.factSpan t) with
      | none => rw [hsol] at hf; cases hf
      | some r =>
        rw [hsol] at hf
        obtain ⟨s', b⟩ := r
        obtain ⟨rfl, rfl⟩ := Prod.mk.inj (Option.some.inj hf)
        obtain ⟨-, hres, hfx⟩ := hd.solve hm.ready ctl _ hm.dl hlv hdead (fun _ => Or.inl hn.1) hsol
        obtain ⟨-, -, cs, hcs, -⟩ := S.cnt_solve hsol
        refine ⟨rfl, _, cs, setThr_same ht, hcs, fun hpre => ?_⟩
        obtain ⟨k1, k2⟩ := solveRes_units hres hO hpre
        refine ⟨fun l hl => ?_, k2.mono fun l hl => act_nextFrames.1 hl⟩
        obtain ⟨bd, hbd, rfl⟩ := k1 l hl
        exact negates_of ht hbd
    · rw [if_neg hn] at hf
      obtain ⟨rfl, rfl⟩ := Prod.mk.inj (Option.some.inj hf)
      refine ⟨rfl, t, [], ht, (List.append_nil _).symm, fun hpre => ?_⟩
      have h1 := hpre.length_le
      have h2 := hO.length_le
      rw [List.length_append, List.length_singleton] at h1
      omega
  unfold Propagator.check at hc
  cases hf : p.checkFacts fuel ctl th with
  | none => rw [hf] at hc; cases hc
  | some r =>
    obtain ⟨p1, ok1⟩ := r
    rw [hf] at hc
    dsimp only at hc
    obtain ⟨hp1, t1, cs, ht1, ho1, hun⟩ := hA hf
    split at hc
    · unfold Propagator.checkObj at hc
      rw [ht1] at hc
      dsimp only at hc
      cases hs : t1.slv.checkObj ctl fuel total p1.obj with
      | none => rw [hs] at hc; cases hc
      | some r =>
        rw [hs] at hc
        obtain ⟨rfl, rfl⟩ := Prod.mk.inj (Option.some.inj hc)
        obtain ⟨b1, b2, cuts, b3, bs, b4, b5, b6⟩ := S.cut_checkObj hs
        rw [clausesOf_set ht1] at hcl
        obtain ⟨pre, suf, rfl, e⟩ := prefix_mid hO hcl (by rw [b3, ho1, List.append_assoc])
        rcases List.append_eq_append_iff.1 e with ⟨as, h1, h2⟩ | ⟨as, h1, h2⟩
        · have hcm : c ∈ cuts := by rw [h2]; simp
          rw [b5, List.mem_map] at hcm
          obtain ⟨bd, hbd, rfl⟩ := hcm
          obtain ⟨O', hO'⟩ := b6 bd hbd
          refine Or.inr ⟨bd.lit, bd.value, O', rfl, ?_, hO'⟩
          refine (mem_cutsOf (setThr_same ht1)).2 ⟨bd, ?_, fun x hx => ?_, rfl⟩
          · dsimp only; rw [b4]; exact List.mem_append_right _ hbd
          · rw [hO']
            exact (hm.fresh.iqs O' x (by rw [← hp1]; exact hx)).1
        · cases as with
          | nil =>
            have hcm : c ∈ cuts := by
              have h2' : c :: suf = cuts := h2
              rw [← h2']; simp
            rw [b5, List.mem_map] at hcm
            obtain ⟨bd, hbd, rfl⟩ := hcm
            obtain ⟨O', hO'⟩ := b6 bd hbd
            refine Or.inr ⟨bd.lit, bd.value, O', rfl, ?_, hO'⟩
            refine (mem_cutsOf (setThr_same ht1)).2 ⟨bd, ?_, fun x hx => ?_, rfl⟩
            · dsimp only; rw [b4]; exact List.mem_append_right _ hbd
            · rw [hO']
              exact (hm.fresh.iqs O' x (by rw [← hp1]; exact hx)).1
          | cons a as =>
            rw [List.cons_append] at h2
            obtain ⟨rfl, h2⟩ := List.cons.inj h2
            refine Or.inl (hun ⟨as, ?_⟩)
            rw [ho1, h1]; simp
    · obtain ⟨rfl, rfl⟩ := Prod.mk.inj (Option.some.inj hc)
      rw [clausesOf_eq ht1] at hcl
      exact Or.inl (hun hcl)

/-- The hypotheses are met: in thread 1 the facts of the first step are asserted by `check`, which propagates that `x + y <= 2` is false. -/
example : ∃ (p p' : Propagator ℚ) (g : Ghost ℚ) (ctl : Ctl) (gt : GThr) (t : Thr ℚ) (fuel : ℕ) (ok : Bool), Reach .imath { propagateMode := .full } Intact p g ∧
    MayCheck p g ctl 1 gt t ∧ p.check fuel ctl false 1 = some (p', ok) ∧ p.clausesOf 1 <+: [] ∧ [] ++ [[-1, -3, -2]] <+: p'.clausesOf 1 := by
  obtain ⟨p, g, gt, t, p', ok, h1, -, h2, h3, h4⟩ := exists_check (V := ℚ) (be := .imath) (mode := .intact) (opts := { propagateMode := .full })
    [.init [sumAtom "x" ">=" 1 1, sum2Atom "x" "y" "<=" 2 2, sumAtom "y" ">=" 2 3] 1, .prop 0 0 [1, 3] true,
     .init [] 2] 0 1 false
    (P := fun p _ _ _ p' _ => decide (p.clausesOf 1 = []) && decide (p'.clausesOf 1 = [[-1, -3, -2]])) (by decide +kernel)
  simp only [Bool.and_eq_true, decide_eq_true_eq] at h4
  exact ⟨p, p', g, _, gt, t, fuel, ok, h1, h2, h3, by rw [h4.1], by rw [h4.2]; exact List.prefix_rfl⟩

/-- C64 is violated without the restriction: `propagate` adds a clause two literals of which are not false. -/
theorem C64_violation : ∃ p g, Reach .imath { propagateMode := .full } (AnyLits (V := ℚ)) p g ∧ ∃ ctl gt p' ok fuel,
    MayPropagate AnyLits p g ctl 0 [6] gt ∧ p.propagate fuel ctl 0 [6] = some (p', ok) ∧
    ∃ c, p'.clausesOf 0 = p.clausesOf 0 ++ [c] ∧
      ¬ UnitOrFalse (fun l => -l ∈ [6] ∨ Act gt.frames (-l)) (fun l => ctl.isFalse (p.clausesOf 0) (-l) = true) c := by
  obtain ⟨p, g, p', gt, ok, h1, -, h2, h3, h4⟩ := exists_prop (V := ℚ) (be := .imath) (mode := .any) (opts := { propagateMode := .full })
    [.init (prog10 ++ [sum2Atom "x" "y" "<=" 2 5, sumAtom "y" ">=" 3 6]) 1, .prop 1 0 [1, 2, 3] true, .undo 0] 1 0 [6] true
    (P := fun p g p' _ => decide (p'.clausesOf 0 = p.clausesOf 0 ++ [[-3, -6, -5]]) && atThr g 0 fun gt => decide (¬ Act gt.frames 3))
    (by decide +kernel)
  simp only [Bool.and_eq_true, decide_eq_true_eq] at h4
  obtain ⟨h5, h7⟩ := h4
  obtain ⟨gt', h8, h9⟩ := atThr_spec h7
  rw [h2.thr] at h8
  obtain rfl := Option.some.inj h8
  have hno : ¬ (-(-3 : ℤ) ∈ [(6 : ℤ)] ∨ Act gt.frames (-(-3))) := by
    rintro (h | h)
    · simp at h
    · exact of_decide_eq_true h9 h
  refine ⟨p, g, h1, _, gt, p', ok, fuel, h2, h3, [-3, -6, -5], h5, ?_⟩
  rintro (h | ⟨front, l, e, h, -⟩)
  · exact hno (h (-3) (by simp))
  · refine hno (h (-3) ?_)
    have e' : [-3, -6] ++ [(-5 : ℤ)] = front ++ [l] := e
    rw [← (List.append_inj' e' rfl).1]
    simp

end Lpx.Props
