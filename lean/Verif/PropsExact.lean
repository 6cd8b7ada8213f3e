import Verif.Quiet
import Verif.PropsUnmixed
import Verif.PropsViolations

/-!
# C06: exactly when are limits restored?

`SafeEqs` excludes equations that are not harmless (`EqSafe`). Here we show that nothing less will do: if a level is entered with an equation
over a single variable, then leaving the level again restores the limits of all variables if and only if the equation is harmless.
-/

set_option linter.unusedSectionVars false

namespace Lpx
namespace S
variable {V : Type} [LpValue V]

theorem bval_eq (s : S V) {b : ℕ} {bd : Bound V} (h : s.bounds[b]? = some bd) : s.bval (some b) = some bd.value := by simp [bval, h]

/-- An equation that tightens both limits, the old ones being older: a single entry of the trail, with the old upper bound. -/
theorem updateVar_eq (ctl : Ctl) (s : S V) (b : ℕ) (bd : Bound V) (hb : s.bounds[b]? = some bd) (hr : bd.rel = .eq)
    (hu : s.tightensUp bd.var bd.value = true) (hl : s.tightensLo bd.var bd.value = true)
    (hou : s.olderBound ctl (s.upper bd.var) = true) (hol : s.olderBound ctl (s.lower bd.var) = true) :
    updateVar ctl s b bd = ({ s with
      btrail := s.btrail ++ [(bd.var, .eq, s.upper bd.var)]
      upper := Function.update s.upper bd.var (some b)
      lower := Function.update s.lower bd.var (some b) }, true) := by
  have e1 : updateUpper ctl s b bd = ({ s with
      btrail := s.btrail ++ [(bd.var, .le, s.upper bd.var)]
      upper := Function.update s.upper bd.var (some b) }, true) := by
    unfold updateUpper
    simp only [hu, hou, if_true]
    refine Prod.ext rfl ?_
    unfold loLeUp lo up
    simp only [Function.update_self, bval, Option.bind_some, hb, Option.map_some]
    unfold tightensLo lo bval at hl
    split at hl
    · rename_i hn; rw [hn]
    · rename_i l hn
      rw [hn]
      simpa using (of_decide_eq_true hl).le
  unfold updateVar
  rw [hr]
  simp only [e1, if_true]
  unfold updateLower
  have hl' : ({ s with btrail := s.btrail ++ [(bd.var, .le, s.upper bd.var)], upper := Function.update s.upper bd.var (some b) } : S V).tightensLo bd.var bd.value = true := hl
  have hol' : ({ s with btrail := s.btrail ++ [(bd.var, .le, s.upper bd.var)], upper := Function.update s.upper bd.var (some b) } : S V).olderBound ctl (s.lower bd.var) = true := hol
  simp only [hl', hol', if_true, Function.update_self, ne_eq, not_true_eq_false, if_false, List.append_eq_nil_iff, List.cons_ne_self, and_false, markBackEq_append]
  refine Prod.ext rfl ?_
  unfold loLeUp lo up
  simp [bval, hb]

/-- An equation for a variable that already has these limits. -/
theorem updateVar_same (ctl : Ctl) (s : S V) (b : ℕ) (bd : Bound V) (hr : bd.rel = .eq) (hu : s.up bd.var = some bd.value) (hl : s.lo bd.var = some bd.value) :
    updateVar ctl s b bd = (s, true) := by
  have hll : s.loLeUp bd.var = true := by unfold loLeUp; rw [hu, hl]; simp
  have e1 : updateUpper ctl s b bd = (s, true) := by
    unfold updateUpper
    simp [tightensUp, hu, hll]
  unfold updateVar
  rw [hr]
  simp only [e1, if_true]
  unfold updateLower
  simp [tightensLo, hl, hll]

/-- After the limits have been set, `update_bound_` changes values only. -/
theorem updateBound_held (ctl : Ctl) (s s' : S V) (b : ℕ) (bd : Bound V) (h : updateVar ctl s b bd = (s', true)) :
    (updateBound ctl s b bd).2 = true ∧ Held s' (updateBound ctl s b bd).1 := by
  unfold updateBound
  simp only [h, Bool.not_true, Bool.false_eq_true, if_false]
  split
  · split
    · refine ⟨rfl, ?_⟩
      dsimp only
      split
      · exact (quiet_update _ _ _ _).held
      · exact Held.refl _
    · split
      · refine ⟨rfl, ?_⟩
        dsimp only
        split
        · exact (quiet_update _ _ _ _).held
        · exact Held.refl _
      · exact ⟨rfl, Held.refl _⟩
  · exact ⟨rfl, (quiet_enqueue _ _).held⟩

theorem updateBounds_same (ctl : Ctl) {j : ℕ} {w : V} (L : List (ℕ × Bound V)) : ∀ s : S V,
    (∀ e ∈ L, e.2.var = j ∧ e.2.rel = .eq ∧ e.2.value = w) → s.up j = some w → s.lo j = some w →
    (updateBounds ctl L s).2 = true ∧ Held s (updateBounds ctl L s).1 := by
  induction L with
  | nil => exact fun s _ _ _ => ⟨rfl, Held.refl _⟩
  | cons e L ih =>
    intro s hL hu hl
    obtain ⟨h1, h2, h3⟩ := hL e (by simp)
    have hv := updateVar_same ctl s e.1 e.2 h2 (by rw [h1, h3, hu]) (by rw [h1, h3, hl])
    obtain ⟨k1, k2⟩ := updateBound_held ctl s s e.1 e.2 hv
    rw [updateBounds]
    simp only [k1, if_true]
    obtain ⟨m1, m2⟩ := ih (updateBound ctl s e.1 e.2).1 (fun e' he' => hL e' (by simp [he']))
      (by unfold up bval at hu ⊢; rw [k2.bounds, k2.upper]; exact hu) (by unfold lo bval at hl ⊢; rw [k2.bounds, k2.lower]; exact hl)
    exact ⟨m1, k2.trans m2⟩

/-- The effect of entering a level with such an equation and leaving it: the lower limit becomes the old upper one (or, were the trails broken,
stays as it is). -/
theorem eq_corrupts {ctl : Ctl} {fuel : ℕ} {s : S V} {l : ℤ} {r : S V × Bool} {j : ℕ} {w : V} (hs : s.solve ctl fuel [l] = some r)
    (hoff : ∀ o os, s.offs = o :: os → o.level < ctl.dl)
    (hL : ∀ bd ∈ s.bounds, bd.lit = l → bd.var = j ∧ bd.rel = .eq ∧ bd.value = w) (hne : ∃ bd ∈ s.bounds, bd.lit = l)
    (hu : s.tightensUp j w = true) (hl : s.tightensLo j w = true)
    (hou : s.olderBound ctl (s.upper j) = true) (hol : s.olderBound ctl (s.lower j) = true) :
    r.1.undo.lo j = some w ∨ r.1.undo.lo j = s.up j := by
  have hpo : ∃ a, s.pushOff ctl = { s with offs := ⟨ctl.dl, s.btrail.length, a⟩ :: s.offs } := by
    unfold pushOff
    split
    · rename_i h; exact ⟨s.atrail.length, by rw [h]⟩
    · rename_i o os h; exact ⟨s.atrail.length, by rw [if_pos (hoff o os h)]⟩
  obtain ⟨a, hpo⟩ := hpo
  unfold S.solve at hs
  rw [hpo, updateLits] at hs
  generalize hs0 : ({ s with offs := ⟨ctl.dl, s.btrail.length, a⟩ :: s.offs } : S V) = s0 at hs
  have hb0 : s0.boundsOf l = s.boundsOf l := by subst hs0; rfl
  have hmem : ∀ e ∈ s.boundsOf l, s.bounds[e.1]? = some e.2 ∧ e.2.lit = l := by
    intro e he
    exact S.mem_boundsOf.1 he
  have hLs : ∀ e ∈ s.boundsOf l, e.2.var = j ∧ e.2.rel = .eq ∧ e.2.value = w := fun e he =>
    hL e.2 (List.mem_of_getElem? (hmem e he).1) (hmem e he).2
  have hne' : s.boundsOf l ≠ [] := by
    obtain ⟨bd, h1, h2⟩ := hne
    obtain ⟨i, hi⟩ := List.mem_iff_getElem?.1 h1
    intro h
    have : (i, bd) ∈ s.boundsOf l := S.mem_boundsOf.2 ⟨hi, h2⟩
    rw [h] at this; cases this
  rw [hb0] at hs
  cases hLL : s.boundsOf l with
  | nil => exact absurd hLL hne'
  | cons e L =>
    rw [hLL] at hs hLs
    obtain ⟨h1, h2, h3⟩ := hLs e (by simp)
    have hbe := (hmem e (by rw [hLL]; simp)).1
    have hv := updateVar_eq ctl s0 e.1 e.2 (by subst hs0; exact hbe) h2 (by subst hs0; rw [h1, h3]; exact hu) (by subst hs0; rw [h1, h3]; exact hl)
      (by subst hs0; rw [h1]; exact hou) (by subst hs0; rw [h1]; exact hol)
    generalize hs1 : ({ s0 with btrail := s0.btrail ++ [(e.2.var, .eq, s0.upper e.2.var)], upper := Function.update s0.upper e.2.var (some e.1), lower := Function.update s0.lower e.2.var (some e.1) } : S V) = s1 at hv
    obtain ⟨k1, k2⟩ := updateBound_held ctl s0 s1 e.1 e.2 hv
    have hup1 : (updateBound ctl s0 e.1 e.2).1.up j = some w := by
      unfold up bval; rw [k2.bounds, k2.upper]; subst hs1; subst hs0; simp [← h1, hbe, h3]
    have hlo1 : (updateBound ctl s0 e.1 e.2).1.lo j = some w := by
      unfold lo bval; rw [k2.bounds, k2.lower]; subst hs1; subst hs0; simp [← h1, hbe, h3]
    obtain ⟨m1, m2⟩ := updateBounds_same ctl L (updateBound ctl s0 e.1 e.2).1 (fun e' he' => hLs e' (by simp [he'])) hup1 hlo1
    rw [updateBounds] at hs
    simp only [k1, if_true, m1, updateLits] at hs
    have hh : Held s1 r.1 := (k2.trans m2).trans (held_solveLoop ctl fuel _ _ hs)
    clear hs m2 m1 hlo1 hup1 k1 k2 hv
    have hbd : r.1.bounds = s.bounds := by rw [hh.bounds]; subst hs1; subst hs0; rfl
    have hlow : r.1.lower j = some e.1 := by rw [hh.lower]; subst hs1; subst hs0; simp [← h1]
    have hbt : r.1.btrail = s.btrail ++ [(j, .eq, s.upper j)] := by rw [hh.btrail]; subst hs1; subst hs0; rw [h1]
    have hof : r.1.offs.map (fun o => (o.level, o.bound)) = (ctl.dl, s.btrail.length) :: s.offs.map (fun o => (o.level, o.bound)) := by
      rw [hh.offs]; subst hs1; subst hs0; rfl
    have hstay : r.1.lo j = some w := by unfold lo bval; rw [hbd, hlow]; simp [hbe, h3]
    unfold S.undo
    split
    · left; exact hstay
    · rename_i o os ho
      rw [ho] at hof
      simp only [List.map_cons, List.cons.injEq, Prod.mk.injEq] at hof
      split
      · left; exact hstay
      · right
        unfold lo up
        dsimp only
        rw [hbt, hof.1.2, List.drop_left]
        simp [undoBound, bval, hbd]

end S
end Lpx

namespace Lpx.Props
open Lpx Lpx.Witness

variable {V : Type} [LpFull V]

theorem add_eps_lt {p q : ℚ} (hs : LpSem.strict V = true) (h : p < q) : (LpValue.ofRat p + LpValue.eps : V) < LpValue.ofRat q := by
  have h1 := LpSem.eps_small (V := V) hs (q - p) (sub_pos.2 h)
  have h2 : (LpValue.ofRat q : V) = LpValue.ofRat p + LpValue.ofRat (q - p) := by rw [← LpValue.ofRat_add]; congr 1; ring
  rw [h2]
  exact add_lt_add_right h1 _

theorem lt_sub_eps {p q : ℚ} (hs : LpSem.strict V = true) (h : p < q) : (LpValue.ofRat p : V) < LpValue.ofRat q - LpValue.eps :=
  lt_sub_iff_add_lt.2 (add_eps_lt hs h)

/-- The limits stated by a constraint that an equation leaves slack. -/
theorem loose_limits {x x' : Ineq Symbol} {y : Symbol} {a b : ℚ} (hs : Supports V x'.rel) (hx : x.lhs = [⟨a, y⟩]) (ha : a ≠ 0)
    (hx' : x'.lhs = [⟨b, y⟩]) (hb : b ≠ 0) (he : x.rel = .eq) (h : Loose x x') :
    (∀ m : V, lowerOf x' y = some m → m < LpValue.ofRat (x.rhs / a)) ∧ (∀ m : V, upperOf x' y = some m → LpValue.ofRat (x.rhs / a) < m) := by
  obtain ⟨f, h1, h2⟩ := h
  have h1 : f y = x.rhs / a := by
    unfold Ineq.holds at h1
    rw [he, hx, evalTerms_single] at h1
    change a * f y = x.rhs at h1
    field_simp
    linarith
  unfold HasSlack at h2
  rw [hx', evalTerms_single, h1] at h2
  generalize x.rhs / a = w at h2
  unfold lowerOf upperOf
  rw [hx']
  simp only [if_true]
  rcases lt_or_gt_of_ne hb with hneg | hpos
  · simp only [hneg, if_true]
    cases hr : x'.rel <;> rw [hr] at h2 hs <;> simp only [Relation.invert] <;> refine ⟨fun m hm => ?_, fun m hm => ?_⟩ <;>
      first | cases hm; done | (obtain rfl := Option.some.inj hm)
    · exact LpValue.ofRat_lt _ _ ((div_lt_iff_of_neg hneg).2 (by linarith))
    · exact LpValue.ofRat_lt _ _ ((lt_div_iff_of_neg hneg).2 (by linarith))
    · exact h2.elim
    · exact h2.elim
    · exact add_eps_lt (hs (by simp)) ((div_lt_iff_of_neg hneg).2 (by linarith))
    · exact lt_sub_eps (hs (by simp)) ((lt_div_iff_of_neg hneg).2 (by linarith))
  · simp only [not_lt.2 hpos.le, if_false]
    cases hr : x'.rel <;> rw [hr] at h2 hs <;> simp only <;> refine ⟨fun m hm => ?_, fun m hm => ?_⟩ <;>
      first | cases hm; done | (obtain rfl := Option.some.inj hm)
    · exact LpValue.ofRat_lt _ _ ((lt_div_iff₀ hpos).2 (by linarith))
    · exact LpValue.ofRat_lt _ _ ((div_lt_iff₀ hpos).2 (by linarith))
    · exact h2.elim
    · exact h2.elim
    · exact lt_sub_eps (hs (by simp)) ((lt_div_iff₀ hpos).2 (by linarith))
    · exact add_eps_lt (hs (by simp)) ((div_lt_iff₀ hpos).2 (by linarith))

theorem loose_some {x x' : Ineq Symbol} {y : Symbol} {b : ℚ} (hx' : x'.lhs = [⟨b, y⟩]) (h : Loose x x') :
    (∃ m : V, lowerOf x' y = some m) ∨ ∃ m : V, upperOf x' y = some m := by
  obtain ⟨f, -, h2⟩ := h
  unfold HasSlack at h2
  unfold lowerOf upperOf
  rw [hx']
  simp only [if_true]
  by_cases hb : b < 0
  · simp only [hb, if_true]
    cases hr : x'.rel <;> rw [hr] at h2 <;> simp_all [Relation.invert]
  · simp only [hb, if_false]
    cases hr : x'.rel <;> rw [hr] at h2 <;> simp_all

variable {be : Backend} {opts : Options} {p p1 p2 : Propagator V} {g : Ghost V}

/-- C06: exactly when a level with an equation over a single variable restores the limits. A level is entered with such an equation (whose
literal belongs to no other constraint), whatever the outcome, and left again: the limits of all variables are those from before if and only
if the equation is harmless. -/
theorem C06_restored_iff (hq : StepOK V opts) (hr : Reach be opts SafeEqs p g) (hs : ∀ x ∈ p.prog.iqs, Supports V x.rel)
    {fuel : ℕ} {ctl : Ctl} {th : ℕ} {gt : GThr} {x : Ineq Symbol} {y : Symbol} {ok : Bool} (hm : MayPropagate AnyLits p g ctl th [x.lit] gt)
    (hx : x ∈ p.prog.iqs) (he : x.rel = .eq) (ho : OnVar x y) (hone : ∀ x' ∈ p.prog.iqs, x'.lit = x.lit → x' = x)
    (hdl : ctl.dl ≠ 0) (hnew : ∀ fr ∈ gt.frames, fr.level < ctl.dl)
    (hp : p.propagate fuel ctl th [x.lit] = some (p1, ok)) (hu : p1.undo th = some p2) :
    (∀ z, lowerLimit p2 th z = lowerLimit p th z ∧ upperLimit p2 th z = upperLimit p th z) ↔
      EqSafe p.prog.iqs (Act gt.frames) (Act (nextFrames ctl.dl [x.lit] gt.frames)) x := by
  have hi := (hr.intact hq).inv hq
  obtain ⟨t, E0, base, hun⟩ := hi.unpack hm.thr
  have hst := hm.ready
  have hsi := hun.dyn.sinv hst
  obtain ⟨hsame1, hsame2, hsame3⟩ := propagate_same hp
  obtain ⟨hsame4, hsame5, hsame6⟩ := undo_same hu
  have hlook : p2.lookup = p.lookup := by funext z; unfold Propagator.lookup; rw [hsame5, hsame2]
  have hnf : nextFrames ctl.dl [x.lit] gt.frames = ⟨ctl.dl, [x.lit]⟩ :: gt.frames := by
    unfold nextFrames
    split
    · rename_i hf; rw [hf]
    · rename_i fr frs hf
      rw [if_pos (hnew fr (by rw [hf]; simp)), hf]
  constructor
  · intro hlim
    by_contra hns
    unfold EqSafe at hns
    push Not at hns
    obtain ⟨-, y', ho', ⟨x1, hx1, ho1, ha1, hl1⟩, hall⟩ := hns
    obtain ⟨a, ho⟩ := ho
    obtain rfl : y' = y := by
      obtain ⟨a', ho'⟩ := ho'
      rw [ho] at ho'
      simp only [List.cons.injEq, Term.mk.injEq, and_true] at ho'
      exact ho'.2.symm
    have hb1 : Act gt.frames x1.lit := by
      rcases act_nextFrames.1 ha1 with h | h
      · simp only [List.mem_singleton] at h
        obtain rfl := hone x1 hx1 h
        obtain ⟨f, -, hf⟩ := hl1
        unfold HasSlack at hf
        rw [he] at hf
        exact hf.elim
      · exact h
    -- bounds of the equation
    have hcov : ∃ bd ∈ t.slv.bounds, Represents p.lookup p.varMap.length E0 x bd := by
      rcases hun.dyn.set.cov x hx (by rw [ho]; simp) with ⟨bd, h1, h2⟩ | h1
      · exact ⟨bd, hun.baseMem h1, h2⟩
      · exact absurd h1 (hm.dead _ (by simp))
    obtain ⟨bd0, hbd0, hrep0⟩ := hcov
    have hsingle : ∀ x' bd, Represents p.lookup p.varMap.length E0 x' bd → ∀ b, x'.lhs = [⟨b, y'⟩] → b ≠ 0 ∧
        ∃ j, p.lookup y' = some j ∧ bd.var = j ∧ bd.value = boundVal (x'.rhs / b) (if b < 0 then x'.rel.invert else x'.rel) := by
      intro x' bd hrep b hb
      cases hrep with
      | row hl2 => rw [hb] at hl2; simp at hl2
      | single a z hl1 ha hlit hvar hval hrel =>
        rw [hb] at hl1
        simp only [List.cons.injEq, Term.mk.injEq, and_true] at hl1
        obtain ⟨rfl, rfl⟩ := hl1
        obtain ⟨j, h1, h2⟩ := hvar
        exact ⟨ha, j, h1, h2, hval⟩
    obtain ⟨ha, j, hj, -, -⟩ := hsingle x bd0 hrep0 a ho
    have hjs := hi.idxLt y' j hj
    have hL : ∀ bd ∈ t.slv.bounds, bd.lit = x.lit → bd.var = j ∧ bd.rel = .eq ∧ bd.value = LpValue.ofRat (x.rhs / a) := by
      intro bd hbd hlit
      obtain ⟨cs, hcs, hcut⟩ := hun.dyn.cuts
      rw [hcs] at hbd
      rcases List.mem_append.1 hbd with hbd | hbd
      · obtain ⟨x', hx', hrep⟩ := hun.dyn.set.src bd hbd
        obtain rfl := hone x' hx' (by rw [← hrep.lit, hlit])
        obtain ⟨-, j', hj', h2, h3⟩ := hsingle x' bd hrep a ho
        rw [hj] at hj'
        obtain rfl := Option.some.inj hj'
        refine ⟨h2, hrep.rel_eq.2 he, ?_⟩
        rw [h3, he]
        split <;> rfl
      · exact absurd hlit.symm ((hcut bd hbd).lit x hx).1
    -- limits before
    obtain ⟨hlo, hup⟩ := C06_limits_partial hq hr hm.thr hst (y := y') (by rw [hj]; rfl)
    have hlims : ∀ x' ∈ p.prog.iqs, Act gt.frames x'.lit → (∃ b, x'.lhs = [⟨b, y'⟩]) →
        (∀ m : V, lowerOf x' y' = some m → m < LpValue.ofRat (x.rhs / a)) ∧ (∀ m : V, upperOf x' y' = some m → LpValue.ofRat (x.rhs / a) < m) := by
      rintro x' hx' hact ⟨b, hb⟩
      obtain ⟨bd, -, hrep⟩ := hun.bound (mem_withVars.2 ⟨hx', by rw [hb]; simp⟩) hact
      exact loose_limits (hs x' hx') ho ha hb (hsingle x' bd hrep b hb).1 he (hall x' hx' ⟨b, hb⟩ hact)
    have hon : ∀ x' : Ineq Symbol, ((∃ m : V, lowerOf x' y' = some m) ∨ ∃ m : V, upperOf x' y' = some m) → ∃ b, x'.lhs = [⟨b, y'⟩] := by
      intro x' hh
      unfold lowerOf upperOf at hh
      split at hh
      · rename_i t' ht'
        by_cases hv : t'.var = y'
        · exact ⟨t'.co, by rw [ht', ← hv]⟩
        · simp [hv] at hh
      · simp at hh
    have hlo' : ∀ m, lowerLimit p th y' = some m → m < LpValue.ofRat (x.rhs / a) := by
      intro m h
      rw [h] at hlo
      obtain ⟨⟨x', hx', hact, hv⟩, -⟩ := hlo
      exact (hlims x' hx' hact (hon x' (.inl ⟨m, hv⟩))).1 m hv
    have hup' : ∀ m, upperLimit p th y' = some m → LpValue.ofRat (x.rhs / a) < m := by
      intro m h
      rw [h] at hup
      obtain ⟨⟨x', hx', hact, hv⟩, -⟩ := hup
      exact (hlims x' hx' hact (hon x' (.inr ⟨m, hv⟩))).2 m hv
    have hsome : lowerLimit p th y' ≠ none ∨ upperLimit p th y' ≠ none := by
      obtain ⟨b, hb⟩ := ho1
      rcases loose_some (V := V) hb hl1 with ⟨m, h⟩ | ⟨m, h⟩
      · left; intro hn; rw [hn] at hlo; exact hlo m ⟨x1, hx1, hb1, h⟩
      · right; intro hn; rw [hn] at hup; exact hup m ⟨x1, hx1, hb1, h⟩
    have el : lowerLimit p th y' = t.slv.lo j := by unfold lowerLimit; rw [hun.ht, hj]; rfl
    have eu : upperLimit p th y' = t.slv.up j := by unfold upperLimit; rw [hun.ht, hj]; rfl
    -- the call
    obtain ⟨s', hsol, rfl⟩ := (propagate_eq hun.ht).1 hp
    have hlev : ∀ l, Act gt.frames l → ctl.lvl l < ctl.dl := by
      rintro l ⟨fr, h1, h2⟩
      rw [hm.lvl fr (by rw [hnf]; simp [h1]) l h2]
      exact hnew fr h1
    have hcor := S.eq_corrupts (j := j) (w := LpValue.ofRat (x.rhs / a)) hsol ?_ hL ⟨bd0, hbd0, hrep0.lit⟩ ?_ ?_ ?_ ?_
    · have e2 : lowerLimit p2 th y' = s'.undo.lo j := by
        unfold lowerLimit
        rw [hlook, hj]
        unfold Propagator.undo at hu
        rw [List.getElem?_set_self (List.getElem?_eq_some_iff.1 hun.ht).1] at hu
        obtain rfl := Option.some.inj hu
        unfold Propagator.setThr
        dsimp only
        rw [List.getElem?_set_self (by rw [List.length_set]; exact (List.getElem?_eq_some_iff.1 hun.ht).1)]
        rfl
      have e3 := (hlim y').1
      rw [e2] at e3
      dsimp only at hcor
      rw [e3] at hcor
      rcases hcor with h | h
      · exact lt_irrefl _ (hlo' _ h)
      · rw [← eu] at h
        rcases hsome with hk | hk
        · obtain ⟨m, hm'⟩ := Option.ne_none_iff_exists'.1 hk
          exact lt_asymm (hlo' m hm') (hup' m (h ▸ hm'))
        · obtain ⟨m, hm'⟩ := Option.ne_none_iff_exists'.1 hk
          exact lt_asymm (hlo' m (h.trans hm')) (hup' m hm')
    · intro o os hoo
      have hch := hsi.chain
      cases hf : gt.frames with
      | nil =>
        rw [hf] at hch
        have : t.slv.offs = [] := hch.1
        rw [this] at hoo; cases hoo
      | cons fr frs =>
        rw [hf] at hch
        obtain ⟨o', os', h1, h2, -⟩ := hch
        have h1 : t.slv.offs = o' :: os' := h1
        rw [h1] at hoo
        obtain ⟨rfl, -⟩ := List.cons.inj hoo
        rw [h2]
        exact hnew fr (by rw [hf]; simp)
    · unfold S.tightensUp
      rw [← eu]
      split
      · rfl
      · rename_i m hm'; exact decide_eq_true (hup' m hm')
    · unfold S.tightensLo
      rw [← el]
      split
      · rfl
      · rename_i m hm'; exact decide_eq_true (hlo' m hm')
    · unfold S.olderBound
      split
      · rfl
      · rename_i l hl
        refine decide_eq_true (hlev l ?_)
        unfold S.blit at hl
        cases hpt : t.slv.upper j with
        | none => rw [hpt] at hl; cases hl
        | some b =>
          obtain ⟨bd, h1, h2, h3, h4⟩ := hsi.good.ptr.up j b hpt
          rw [hpt] at hl
          simp only [Option.bind_some, h1, Option.map_some, Option.some.injEq] at hl
          rw [← hl]; exact h4
    · unfold S.olderBound
      split
      · rfl
      · rename_i l hl
        refine decide_eq_true (hlev l ?_)
        unfold S.blit at hl
        cases hpt : t.slv.lower j with
        | none => rw [hpt] at hl; cases hl
        | some b =>
          obtain ⟨bd, h1, h2, h3, h4⟩ := hsi.good.ptr.lo j b hpt
          rw [hpt] at hl
          simp only [Option.bind_some, h1, Option.map_some, Option.some.injEq] at hl
          rw [← hl]; exact h4
  · intro hsafe z
    have hm' : MayPropagate SafeEqs p g ctl th [x.lit] gt :=
      ⟨hm.thr, hm.ready, hm.dl, hm.lvl, hm.dead, .inr fun x' hx' hl => by
        simp only [List.mem_singleton] at hl
        obtain rfl := hone x' hx' hl
        exact hsafe⟩
    have st1 := Step.propagate (be := be) (Q := SafeEqs) fuel ctl th [x.lit] hm' hp
    have l1 := LaterInStep.step .refl st1 rfl
    have l2 := LaterInStep.step l1 (.undo th (gt := { gt with frames := nextFrames ctl.dl [x.lit] gt.frames, stuck := !ok, checked := false })
      (fr := ⟨ctl.dl, [x.lit]⟩) (frs := gt.frames) (getElem?_set_some hm.thr) hnf hdl hu trivial) rfl
    cases hz : p.lookup z with
    | some j =>
      exact C06_backtracking_restores_limits_partial hq hr hm.thr hm.ready l2
        (getElem?_set_some (getElem?_set_some hm.thr)) rfl rfl (by rw [hz]; rfl)
    | none =>
      unfold lowerLimit upperLimit
      rw [hlook, hz]
      constructor
      · cases p2.thrs[th]? <;> cases p.thrs[th]? <;> rfl
      · cases p2.thrs[th]? <;> cases p.thrs[th]? <;> rfl

/-- The hypotheses are met both ways: with `x >= 0` and `x <= 10` on level 0, a level with `x = 5` changes the limits; with `x >= 5` on level 0,
it does not. -/
example : (∃ (p p1 p2 : Propagator ℚ) (g : Ghost ℚ) (ctl : Ctl) (gt : GThr) (x : Ineq Symbol) (ok : Bool), StepOK ℚ {} ∧ Reach .imath {} SafeEqs p g ∧
    (∀ x ∈ p.prog.iqs, Supports ℚ x.rel) ∧ MayPropagate AnyLits p g ctl 0 [x.lit] gt ∧ x ∈ p.prog.iqs ∧ x.rel = .eq ∧ OnVar x symX ∧
    (∀ x' ∈ p.prog.iqs, x'.lit = x.lit → x' = x) ∧ ctl.dl ≠ 0 ∧ (∀ fr ∈ gt.frames, fr.level < ctl.dl) ∧
    p.propagate fuel ctl 0 [x.lit] = some (p1, ok) ∧ p1.undo 0 = some p2 ∧ lowerLimit p2 0 symX ≠ lowerLimit p 0 symX) ∧
    ∃ (p p1 p2 : Propagator ℚ) (g : Ghost ℚ) (ctl : Ctl) (gt : GThr) (x : Ineq Symbol) (ok : Bool), StepOK ℚ {} ∧ Reach .imath {} SafeEqs p g ∧
    (∀ x ∈ p.prog.iqs, Supports ℚ x.rel) ∧ MayPropagate AnyLits p g ctl 0 [x.lit] gt ∧ x ∈ p.prog.iqs ∧ x.rel = .eq ∧ OnVar x symX ∧
    (∀ x' ∈ p.prog.iqs, x'.lit = x.lit → x' = x) ∧ ctl.dl ≠ 0 ∧ (∀ fr ∈ gt.frames, fr.level < ctl.dl) ∧
    p.propagate fuel ctl 0 [x.lit] = some (p1, ok) ∧ p1.undo 0 = some p2 ∧ EqSafe p.prog.iqs (Act gt.frames) (Act (nextFrames ctl.dl [x.lit] gt.frames)) x ∧
    lowerLimit p 0 symX = some 5 ∧ upperLimit p 0 symX = none := by
  constructor
  · obtain ⟨p, g, p1, gt, ok, h1, -, h2, h3, h4⟩ := exists_prop_any (V := ℚ) (be := .imath) (mode := .safe) (mode' := .any) (opts := {})
      [.init prog2 1, .prop 0 0 [1, 2] true] 1 0 [3] true
      (P := fun p g p1 _ => noStrict p.prog && (atThr g 0 fun gt => gt.frames.all fun fr => decide (fr.level < 1)) &&
        decide ((⟨[⟨1, symX⟩], 5, .eq, 3⟩ : Ineq Symbol) ∈ p.prog.iqs ∧ ∀ x' ∈ p.prog.iqs, x'.lit = 3 → x' = ⟨[⟨1, symX⟩], 5, .eq, 3⟩) &&
        (p1.undo 0).any fun p2 => decide (lowerLimit p2 0 symX ≠ lowerLimit p 0 symX)) (by decide +kernel)
    simp only [Bool.and_eq_true] at h4
    obtain ⟨⟨⟨k1, k2⟩, k3⟩, k4⟩ := h4
    obtain ⟨k3, k5⟩ := of_decide_eq_true k3
    obtain ⟨gt', hg, k2⟩ := atThr_spec k2
    rw [h2.thr] at hg
    obtain rfl := Option.some.inj hg
    simp only [List.all_eq_true, decide_eq_true_eq] at k2
    cases hu : p1.undo 0 with
    | none => rw [hu] at k4; cases k4
    | some p2 =>
      rw [hu] at k4
      exact ⟨p, p1, p2, g, _, gt, ⟨[⟨1, symX⟩], 5, .eq, 3⟩, ok, stepOK_none rfl, h1, noStrict_spec k1, h2, k3, rfl, ⟨1, rfl⟩, k5, one_ne_zero, k2, h3, hu, of_decide_eq_true k4⟩
  · obtain ⟨p, g, p1, gt, ok, h1, -, h2, h3, h4⟩ := exists_prop_any (V := ℚ) (be := .imath) (mode := .safe) (mode' := .safe) (opts := {})
      [.init [sumAtom "x" ">=" 5 1, sumAtom "x" "=" 5 3] 1, .prop 0 0 [1] true] 1 0 [3] true
      (P := fun p g p1 _ => noStrict p.prog && (atThr g 0 fun gt => gt.frames.all fun fr => decide (fr.level < 1)) &&
        decide ((⟨[⟨1, symX⟩], 5, .eq, 3⟩ : Ineq Symbol) ∈ p.prog.iqs ∧ ∀ x' ∈ p.prog.iqs, x'.lit = 3 → x' = ⟨[⟨1, symX⟩], 5, .eq, 3⟩) &&
        (p1.undo 0).any fun _ => decide (lowerLimit p 0 symX = some 5 ∧ upperLimit p 0 symX = none)) (by decide +kernel)
    simp only [Bool.and_eq_true] at h4
    obtain ⟨⟨⟨k1, k2⟩, k3⟩, k4⟩ := h4
    obtain ⟨k3, k5⟩ := of_decide_eq_true k3
    obtain ⟨gt', hg, k2⟩ := atThr_spec k2
    rw [h2.thr] at hg
    obtain rfl := Option.some.inj hg
    simp only [List.all_eq_true, decide_eq_true_eq] at k2
    cases hu : p1.undo 0 with
    | none => rw [hu] at k4; cases k4
    | some p2 =>
      rw [hu] at k4
      obtain ⟨k6, k7⟩ := of_decide_eq_true k4
      refine ⟨p, p1, p2, g, _, gt, ⟨[⟨1, symX⟩], 5, .eq, 3⟩, ok, stepOK_none rfl, h1, noStrict_spec k1, ⟨h2.thr, h2.ready, h2.dl, h2.lvl, h2.dead, trivial⟩,
        k3, rfl, ⟨1, rfl⟩, k5, one_ne_zero, k2, h3, hu, ?_, k6, k7⟩
      rcases h2.restr with h | h
      · exact absurd h one_ne_zero
      · exact h _ k3 (by simp)

/-- C06: the condition on the literals propagated (`SafeEqs`: equations over a single variable are harmless when they become true above level 0)
implies the condition on the limits left by backtracking (`Intact`), under which the `_partial` theorems of the other properties are stated. So they
all hold for histories in `SafeEqs`, too. -/
theorem C06_harmless_equations_partial (hq : StepOK V opts) (hr : Reach be opts SafeEqs p g) : Reach be opts Intact p g := hr.intact hq

/-- A history in `SafeEqs` in which an equation becomes true on level 1, is undone, and becomes true again on level 1. -/
example : ∃ (p : Propagator ℚ) (g : Ghost ℚ), StepOK ℚ {} ∧ Reach .imath {} SafeEqs p g ∧ p.valueOf 0 symX = 5 ∧
    (∃ x ∈ p.prog.iqs, x.rel = .eq ∧ ∃ gt, g.thrs[0]? = some gt ∧ ⟨1, [x.lit]⟩ ∈ gt.frames) := by
  obtain ⟨p, g, h1, -, h2⟩ := exists_reach (V := ℚ) (be := .imath) (mode := .safe) (opts := {})
    [.init [sumAtom "x" ">=" 5 1, sumAtom "x" "=" 5 3] 1, .prop 0 0 [1] true, .prop 1 0 [3] true, .undo 0, .prop 1 0 [3] true]
    (P := fun p g => decide ((⟨[⟨1, symX⟩], 5, .eq, 3⟩ : Ineq Symbol) ∈ p.prog.iqs ∧ p.valueOf 0 symX = 5) &&
      atThr g 0 fun gt => gt.frames.any fun fr : Frame => decide (fr.level = 1 ∧ fr.lits = [3]))
    (by decide +kernel)
  simp only [Bool.and_eq_true, decide_eq_true_eq] at h2
  obtain ⟨⟨k1, k2⟩, k3⟩ := h2
  obtain ⟨gt, hgt, k4⟩ := atThr_spec k3
  obtain ⟨fr, hfr, hfe⟩ := List.any_eq_true.1 k4
  have hfe := of_decide_eq_true hfe
  refine ⟨p, g, stepOK_none rfl, h1, k2, _, k1, rfl, gt, hgt, ?_⟩
  cases fr
  dsimp only at hfe
  rw [← hfe.1, ← hfe.2]
  exact hfr

/-- `Intact` allows more than `SafeEqs`: a history in which `x = 5` becomes true on level 1 while `x >= 0` and `x <= 10` are true, which is not harmless,
and level 2 ends in a conflict and is undone. All theorems with `Intact` apply. -/
example : ∃ (p : Propagator ℚ) (g : Ghost ℚ) (gt : GThr) (x : Ineq Symbol), StepOK ℚ {} ∧ Reach .imath {} Intact p g ∧ (∀ x ∈ p.prog.iqs, Supports ℚ x.rel) ∧
    g.thrs[0]? = some gt ∧ gt.stuck = false ∧ gt.frames = [⟨1, [3]⟩, ⟨0, [1, 2]⟩] ∧ x ∈ p.prog.iqs ∧ x.lit = 3 ∧
    ¬ EqSafe p.prog.iqs (Act [⟨0, [1, 2]⟩]) (Act gt.frames) x ∧ p.clausesOf 0 ≠ [] ∧ p.valueOf 0 symX = 5 := by
  obtain ⟨p, g, h1, -, h2⟩ := exists_reach (V := ℚ) (be := .imath) (mode := .intact) (opts := {})
    [.init (prog2 ++ [sumAtom "x" ">=" 6 5]) 1, .prop 0 0 [1, 2] true, .prop 1 0 [3] true, .prop 2 0 [5] true, .undo 0]
    (P := fun p g => noStrict p.prog && decide (p.prog.iqs = [⟨[⟨1, symX⟩], 0, .ge, 1⟩, ⟨[⟨1, symX⟩], 10, .le, 2⟩, ⟨[⟨1, symX⟩], 5, .eq, 3⟩,
      ⟨[⟨1, symX⟩], 5, .le, 4⟩, ⟨[⟨1, symX⟩], 6, .ge, 5⟩] ∧ p.clausesOf 0 ≠ [] ∧ p.valueOf 0 symX = 5) && atThr g 0 fun gt => !gt.stuck &&
      decide (gt.frames.map (fun fr => (fr.level, fr.lits)) = [(1, [3]), (0, [1, 2])]))
    (by decide +kernel)
  simp only [Bool.and_eq_true, decide_eq_true_eq] at h2
  obtain ⟨⟨k1, k2, k3, k4⟩, k5⟩ := h2
  obtain ⟨gt, hgt, k6⟩ := atThr_spec k5
  rw [Bool.and_eq_true, Bool.not_eq_true', decide_eq_true_eq] at k6
  have hfr : gt.frames = [⟨1, [3]⟩, ⟨0, [1, 2]⟩] :=
    List.map_injective_iff.2 (fun a b h => by cases a; cases b; simp only [Prod.mk.injEq] at h; simp [h.1, h.2]) k6.2
  refine ⟨p, g, gt, ⟨[⟨1, symX⟩], 5, .eq, 3⟩, stepOK_none rfl, h1, noStrict_spec k1, hgt, k6.1, hfr, by rw [k2]; simp, rfl, fun hs => ?_, k3, k4⟩
  have hl1 : Loose ⟨[⟨1, symX⟩], 5, .eq, 3⟩ ⟨[⟨1, symX⟩], 0, .ge, 1⟩ := ⟨fun _ => 5, by simp [Ineq.holds, evalTerms, Relation.holds], by simp [HasSlack, evalTerms]⟩
  have hl2 : Loose ⟨[⟨1, symX⟩], 5, .eq, 3⟩ ⟨[⟨1, symX⟩], 10, .le, 2⟩ := ⟨fun _ => 5, by simp [Ineq.holds, evalTerms, Relation.holds], by norm_num [HasSlack, evalTerms]⟩
  rcases hs rfl symX ⟨1, rfl⟩ with hs | ⟨x', hx', -, ⟨fr, hfr', hl⟩, hne⟩
  · exact hs ⟨[⟨1, symX⟩], 0, .ge, 1⟩ (by rw [k2]; simp) ⟨1, rfl⟩ ⟨⟨0, [1, 2]⟩, by rw [hfr]; simp, by simp⟩ hl1
  · rw [k2] at hx'
    simp only [List.mem_singleton] at hfr'
    subst hfr'
    simp only [List.mem_cons, List.not_mem_nil, or_false] at hx' hl
    rcases hx' with rfl | rfl | rfl | rfl | rfl
    · exact hne hl1
    · exact hne hl2
    all_goals simp at hl

end Lpx.Props
