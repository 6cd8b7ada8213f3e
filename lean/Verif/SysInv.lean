import Verif.SysSafe
import Verif.SysSpec

/-! # Invariants of one thread -/

set_option linter.unusedSectionVars false

namespace Lpx
open Finset

variable {V : Type} [LpFull V] [Hon]

omit [Hon] in
theorem ClauseValid.append {bounds : List (Bound V)} {E0 : (ℕ → V) → Prop} {c : List ℤ} (h : ClauseValid bounds E0 c)
    (l : List (Bound V)) : ClauseValid (bounds ++ l) E0 c := by
  obtain ⟨R, hR⟩ := h
  exact ⟨R, fun bd hb => List.mem_append_left _ (hR.sub bd hb), hR.lits, hR.unsat, hR.min⟩

/-- What is known about the bounds and equations created by `prepare`; `ov` and `bv` are the variables of the objective. -/
structure Setup (opts : Options) (idx : Symbol → Option ℕ) (size : ℕ) (prog : Prog) (dead : ℤ → Prop) (E0 : (ℕ → V) → Prop)
    (base : List (Bound V)) (ov bv : ℕ) : Prop where
  src : ∀ bd ∈ base, ∃ x ∈ prog.iqs, Represents idx size E0 x bd
  cov : ∀ x ∈ prog.iqs, x.lhs ≠ [] → (∃ bd ∈ base, Represents idx size E0 x bd) ∨ dead x.lit
  uniq : ∀ b1 ∈ base, ∀ b2 ∈ base, b1.var = b2.var → size ≤ b1.var → b1 = b2
  ovar : prog.objective ≠ [] → (∀ bd ∈ base, bd.var ≠ ov) ∧ ∀ asg, E0 asg → asg ov = evalV (fun y => asg (ix idx y)) prog.objective
  bvar : prog.objective ≠ [] → opts.globalObjective.isSome = true → bv ≠ ov ∧ (∀ bd ∈ base, bd.var ≠ bv) ∧
    (∀ asg, E0 asg → asg bv = evalV (fun y => asg (ix idx y)) prog.objective)
  bnew : prog.objective ≠ [] → opts.globalObjective.isSome = true → size ≤ bv
  ext : ∀ g : ℕ → V, ∃ asg, E0 asg ∧ ∀ j, j < size → asg j = g j

/-- Where the values of the cuts come from. -/
def CutVal (opts : Options) (reported : List (V × Bool)) (x : V) : Prop :=
  (∃ q d v, opts.globalObjective = some q ∧ LpFull.asValue q = some d ∧ (v, true) ∈ reported ∧ x = v + d) ∨
  ∃ v, (v, false) ∈ reported

/-- A bound on the objective added while solving. -/
structure IsCut (opts : Options) (prog : Prog) (reported : List (V × Bool)) (bv : ℕ) (bd : Bound V) : Prop where
  var : bd.var = bv
  rel : bd.rel = .ge
  val : CutVal opts reported bd.value
  obj : prog.objective ≠ []
  glob : opts.globalObjective.isSome = true
  lit : ∀ x ∈ prog.iqs, x.lit ≠ bd.lit ∧ x.lit ≠ -bd.lit

/-- Where the clauses come from. -/
inductive OutOK (opts : Options) (prog : Prog) (reported : List (V × Bool)) (bv : ℕ) (bounds : List (Bound V))
    (E0 : (ℕ → V) → Prop) (c : List ℤ) : Prop
  | valid : ClauseValid bounds E0 c → OutOK opts prog reported bv bounds E0 c
  | const (x : Ineq Symbol) : x ∈ prog.iqs → x.lhs = [] → constTest x.rel x.rhs = true → c = [-x.lit] → OutOK opts prog reported bv bounds E0 c
  | cut (bd : Bound V) : bd ∈ bounds → IsCut opts prog reported bv bd → c = [bd.lit] → OutOK opts prog reported bv bounds E0 c

/-- The value of the objective is optimal. -/
def OptAt (E0 : (ℕ → V) → Prop) (frames : List Frame) (s : S V) : Prop :=
  s.obj.active = true →
    (s.obj.bounded = true → ∀ asg, E0 asg → (∀ bd ∈ s.bounds, Act frames bd.lit → bd.Holds asg) → asg s.obj.var ≤ s.value s.obj.var) ∧
    (s.obj.bounded = false → ∀ q : ℚ, ∃ asg, E0 asg ∧ (∀ bd ∈ s.bounds, Act frames bd.lit → bd.Holds asg) ∧
      LpValue.ofRat q < asg s.obj.var)

/-- Invariant of a thread. -/
structure TDyn (opts : Options) (idx : Symbol → Option ℕ) (size : ℕ) (prog : Prog) (reported : List (V × Bool)) (gen : ℕ)
    (gt : GThr) (E0 : (ℕ → V) → Prop) (base : List (Bound V)) (s : S V) : Prop where
  set : Setup opts idx size prog gt.dead E0 base s.obj.var s.obj.boundVar
  cuts : ∃ cs, s.bounds = base ++ cs ∧ ∀ bd ∈ cs, IsCut opts prog reported s.obj.boundVar bd
  sinv : gt.stuck = false → S.SInv E0 gt.frames s
  cinv : S.CInv E0 gt.frames s
  vb : S.VB s
  hopts : s.opts = opts
  n : s.n = size
  active : s.obj.active = !prog.objective.isEmpty
  bvlt : prog.objective ≠ [] → opts.globalObjective.isSome = true → s.obj.boundVar < s.nvars
  hgen : s.obj.generation ≤ gen
  disc : s.obj.discardBounded = true → ∃ v, (v, false) ∈ reported
  out : ∀ c ∈ s.out, OutOK opts prog reported s.obj.boundVar s.bounds E0 c
  live : ∀ l, Act gt.frames l → ¬ gt.dead l
  optm : gt.checked = true → OptAt E0 gt.frames s

omit [Hon] in
theorem CutVal.mono {opts : Options} {r r' : List (V × Bool)} {x : V} (h : CutVal opts r x) (hr : ∀ y ∈ r, y ∈ r') :
    CutVal opts r' x := by
  rcases h with ⟨q, d, v, h1, h2, h3, h4⟩ | ⟨v, h⟩
  · exact Or.inl ⟨q, d, v, h1, h2, hr _ h3, h4⟩
  · exact Or.inr ⟨v, hr _ h⟩

omit [Hon] in
theorem IsCut.mono {opts : Options} {prog : Prog} {r r' : List (V × Bool)} {bv : ℕ} {bd : Bound V} (h : IsCut opts prog r bv bd)
    (hr : ∀ y ∈ r, y ∈ r') : IsCut opts prog r' bv bd := ⟨h.var, h.rel, h.val.mono hr, h.obj, h.glob, h.lit⟩

omit [Hon] in
theorem OutOK.mono {opts : Options} {prog : Prog} {r r' : List (V × Bool)} {bv : ℕ} {bounds : List (Bound V)} {E0 : (ℕ → V) → Prop}
    {c : List ℤ} (h : OutOK opts prog r bv bounds E0 c) (hr : ∀ y ∈ r, y ∈ r') (l : List (Bound V)) : OutOK opts prog r' bv (bounds ++ l) E0 c := by
  cases h with
  | valid h => exact .valid (h.append l)
  | const x h1 h2 h3 h4 => exact .const x h1 h2 h3 h4
  | cut bd h1 h2 h3 => exact .cut bd (List.mem_append_left _ h1) (h2.mono hr) h3

/-- Other threads may report models. -/
theorem TDyn.mono {opts : Options} {idx : Symbol → Option ℕ} {size : ℕ} {prog : Prog} {r r' : List (V × Bool)} {gen gen' : ℕ}
    {gt : GThr} {E0 : (ℕ → V) → Prop} {base : List (Bound V)} {s : S V} (h : TDyn opts idx size prog r gen gt E0 base s)
    (hr : ∀ y ∈ r, y ∈ r') (hg : gen ≤ gen') : TDyn opts idx size prog r' gen' gt E0 base s := by
  obtain ⟨cs, hc1, hc2⟩ := h.cuts
  exact ⟨h.set, ⟨cs, hc1, fun bd hbd => (hc2 bd hbd).mono hr⟩, h.sinv, h.cinv, h.vb, h.hopts, h.n, h.active, h.bvlt,
    h.hgen.trans hg, fun hd => by obtain ⟨v, hv⟩ := h.disc hd; exact ⟨v, hr _ hv⟩,
    fun c hc => by have := (h.out c hc).mono hr []; rwa [List.append_nil] at this, h.live, h.optm⟩

/-! ### solve -/

omit [Hon] in
theorem boundRel_eq_iff (r : Relation) (a : ℚ) : boundRel (if a < 0 then r.invert else r) = .eq ↔ r = .eq := by
  split <;> cases r <;> simp [boundRel, Relation.invert]

omit [Hon] in
theorem Represents.rel_eq {idx : Symbol → Option ℕ} {size : ℕ} {E : (ℕ → V) → Prop} {x : Ineq Symbol} {bd : Bound V}
    (h : Represents idx size E x bd) : bd.rel = .eq ↔ x.rel = .eq := by
  cases h with
  | single a y hl ha hlit hvar hval hrel => rw [hrel, boundRel_eq_iff]
  | row hl hn hlit hval hrel hvar => rw [hrel]; have := boundRel_eq_iff x.rel 0; simpa using this

omit [Hon] in
theorem evalTerms_single (g : Symbol → ℚ) (a : ℚ) (y : Symbol) : evalTerms g [⟨a, y⟩] = a * g y := by simp [evalTerms]

omit [Hon] in
/-- Equations that leave no slack, in terms of bounds. -/
theorem tight_of {idx : Symbol → Option ℕ} {size : ℕ} {E E' : (ℕ → V) → Prop} {x x' : Ineq Symbol} {bd bd' : Bound V} {y : Symbol}
    (hr : Represents idx size E x bd) (hr' : Represents idx size E' x' bd') (ho : OnVar x y) (ho' : OnVar x' y) (he : x.rel = .eq)
    (hl : ¬ Loose x x') : Tight bd.value bd' := by
  obtain ⟨a0, ho⟩ := ho
  obtain ⟨a0', ho'⟩ := ho'
  cases hr with
  | row hl2 => rw [ho] at hl2; simp at hl2
  | single a z hl1 ha hlit hvar hval hrel =>
    cases hr' with
    | row hl2 => rw [ho'] at hl2; simp at hl2
    | single a' z' hl1' ha' hlit' hvar' hval' hrel' =>
      rw [ho] at hl1
      rw [ho'] at hl1'
      simp only [List.cons.injEq, Term.mk.injEq, and_true] at hl1 hl1'
      obtain ⟨rfl, rfl⟩ := hl1
      obtain ⟨rfl, rfl⟩ := hl1'
      have hv : bd.value = LpValue.ofRat (x.rhs / a0) := by
        rw [hval, he]
        split <;> rfl
      have hns : ¬ HasSlack (fun _ => x.rhs / a0) x' := by
        refine fun hs => hl ⟨_, ?_, hs⟩
        unfold Ineq.holds
        rw [he, ho, evalTerms_single]
        show a0 * (x.rhs / a0) = x.rhs
        field_simp
      unfold HasSlack at hns
      rw [ho', evalTerms_single] at hns
      have mono : ∀ p q : ℚ, p ≤ q → (LpValue.ofRat p : V) ≤ LpValue.ofRat q := by
        intro p q h
        rcases h.lt_or_eq with h | h
        · exact (LpValue.ofRat_lt _ _ h).le
        · rw [h]
      have hsub : ∀ p : V, p - LpValue.eps ≤ p := fun p => sub_le_self _ LpValue.eps_nonneg
      have hadd : ∀ p : V, p ≤ p + LpValue.eps := fun p => le_add_of_nonneg_right LpValue.eps_nonneg
      unfold Tight
      rw [hv, hval', hrel']
      rcases lt_or_gt_of_ne ha' with hneg | hpos
      · simp only [hneg, if_true]
        cases hx : x'.rel <;> rw [hx] at hns <;> simp only [Relation.invert, boundRel, boundVal] <;> refine ⟨fun h => ?_, fun h => ?_⟩ <;>
          first | cases h | skip
        · exact mono _ _ ((le_div_iff_of_neg hneg).2 (by linarith [not_lt.1 hns]))
        · exact mono _ _ ((div_le_iff_of_neg hneg).2 (by linarith [not_lt.1 hns]))
        · exact (mono _ _ ((le_div_iff_of_neg hneg).2 (by linarith [not_lt.1 hns]))).trans (hadd _)
        · exact (hsub _).trans (mono _ _ ((div_le_iff_of_neg hneg).2 (by linarith [not_lt.1 hns])))
      · simp only [not_lt.2 hpos.le, if_false]
        cases hx : x'.rel <;> rw [hx] at hns <;> simp only [boundRel, boundVal] <;> refine ⟨fun h => ?_, fun h => ?_⟩ <;>
          first | cases h | skip
        · exact mono _ _ ((div_le_iff₀ hpos).2 (by linarith [not_lt.1 hns]))
        · exact mono _ _ ((le_div_iff₀ hpos).2 (by linarith [not_lt.1 hns]))
        · exact (hsub _).trans (mono _ _ ((div_le_iff₀ hpos).2 (by linarith [not_lt.1 hns])))
        · exact (mono _ _ ((le_div_iff₀ hpos).2 (by linarith [not_lt.1 hns]))).trans (hadd _)

/-- Harmless equations are safe. -/
theorem TDyn.safe {opts : Options} {idx : Symbol → Option ℕ} {size : ℕ} {prog : Prog} {r : List (V × Bool)} {gen : ℕ}
    {gt : GThr} {E0 : (ℕ → V) → Prop} {base : List (Bound V)} {s : S V} (h : TDyn opts idx size prog r gen gt E0 base s)
    (hinj : IdxInj idx) (hlt : ∀ y j, idx y = some j → j < size) {act : ℤ → Prop} {lits : List ℤ}
    (hs : ∀ x ∈ prog.iqs, x.lit ∈ lits → EqSafe prog.iqs (Act gt.frames) act x) :
    ∀ bd ∈ s.bounds, bd.lit ∈ lits → SafeEq s.bounds (Act gt.frames) act bd := by
  obtain ⟨cs, hc1, hc2⟩ := h.cuts
  intro bd hbd hl heq
  rw [hc1] at hbd
  rcases List.mem_append.1 hbd with hbd | hbd
  swap
  · have := (hc2 bd hbd).rel; rw [heq] at this; cases this
  have hcs : ∀ bd' ∈ s.bounds, bd'.var = bd.var → bd' ∈ base := by
    intro bd' hb' hv
    rw [hc1] at hb'
    rcases List.mem_append.1 hb' with hb' | hb'
    · exact hb'
    · have hcut := hc2 bd' hb'
      have := (h.set.bvar hcut.obj hcut.glob).2.1 bd hbd
      exact absurd (hv.symm.trans hcut.var) this
  obtain ⟨x, hx, hrep⟩ := h.set.src bd hbd
  have hxeq : x.rel = .eq := hrep.rel_eq.1 heq
  have hxl : x.lit ∈ lits := by rw [← hrep.lit]; exact hl
  by_cases hsz : size ≤ bd.var
  · left
    intro bd' hb' hv _
    have := h.set.uniq bd' (hcs bd' hb' hv) bd hbd hv (by omega)
    rw [this]
    exact ⟨(fun h => by rw [heq] at h), (fun h => by rw [heq] at h)⟩
  · have hrep0 := hrep
    cases hrep with
    | row hl2 hn hlit hval hrel hvar => omega
    | single a y hl1 ha hlit hvar hval hrel =>
      obtain ⟨j, hj, hjv⟩ := hvar
      rcases hs x hx hxl hxeq y ⟨a, hl1⟩ with h1 | ⟨x', hx', ho', hb', hn⟩
      · left
        intro bd' hb' hv ha'
        obtain ⟨x', hx', hr'⟩ := h.set.src bd' (hcs bd' hb' hv)
        have ho : OnVar x' y := by
          cases hr' with
          | row hl2 hn hlit hval hrel hvar => omega
          | single a' y' hl1' ha' hlit' hvar' hval' hrel' =>
            obtain ⟨j', hj', hjv'⟩ := hvar'
            have : j' = j := by omega
            subst this
            rw [hinj y y' j' hj hj']
            exact ⟨a', hl1'⟩
        exact tight_of hrep0 hr' ⟨a, hl1⟩ ho hxeq (h1 x' hx' ho (by rw [← hr'.lit]; exact ha'))
      · right
        obtain ⟨a', ho'⟩ := ho'
        rcases h.set.cov x' hx' (by rw [ho']; simp) with ⟨bd', hbd', hr'⟩ | hdead
        · refine ⟨bd', by (rw [hc1]; exact List.mem_append_left _ hbd'), ?_, by (rw [hr'.lit]; exact hb'), tight_of hrep0 hr' ⟨a, hl1⟩ ⟨a', ho'⟩ hxeq hn⟩
          cases hr' with
          | row hl2 => rw [ho'] at hl2; simp at hl2
          | single a2 y2 hl2 _ _ hvar2 =>
            rw [ho'] at hl2
            simp only [List.cons.injEq, Term.mk.injEq, and_true] at hl2
            obtain ⟨rfl, rfl⟩ := hl2
            obtain ⟨j2, hj2, hjv2⟩ := hvar2
            rw [hj] at hj2
            obtain rfl := Option.some.inj hj2
            rw [hjv, hjv2]
        · exact absurd hdead (h.live _ hb')

/-- `solve` keeps the invariant. -/
theorem TDyn.solve {opts : Options} {idx : Symbol → Option ℕ} {size : ℕ} {prog : Prog} {r : List (V × Bool)} {gen : ℕ}
    {gt : GThr} {E0 : (ℕ → V) → Prop} {base : List (Bound V)} {s : S V} (h : TDyn opts idx size prog r gen gt E0 base s)
    (hst : gt.stuck = false) (ctl : Ctl) (lits : List ℤ) (hdl : ∀ fr ∈ gt.frames, fr.level ≤ ctl.dl)
    (hlv : LvlOK ctl (nextFrames ctl.dl lits gt.frames)) (hdead : ∀ l ∈ lits, ¬ gt.dead l)
    (hsafe : Hon.hon → ctl.dl = 0 ∨ ∀ bd ∈ s.bounds, bd.lit ∈ lits → SafeEq s.bounds (Act gt.frames) (Act (nextFrames ctl.dl lits gt.frames)) bd)
    {fuel : ℕ} {t : S V} {ok : Bool} (hr : S.solve ctl fuel s lits = some (t, ok)) :
    TDyn opts idx size prog r gen { gt with frames := nextFrames ctl.dl lits gt.frames, stuck := !ok, checked := false } E0 base t ∧
      S.SolveRes E0 (nextFrames ctl.dl lits gt.frames) ctl s (t, ok) ∧ S.Fix s t := by
  have hinv := h.sinv hst
  have hsl : Hon.hon → S.SafeLits ctl lits (s.pushOff ctl) := by
    intro hh
    refine S.safe_of_eq hinv ctl lits hdl hlv fun bd hbd hl => ?_
    rcases hsafe hh with h0 | h1
    · exact Or.inl h0
    · exact Or.inr (h1 bd hbd hl)
  have hres := S.solve_spec hinv ctl lits hdl hlv hsl hr
  have hlive : ∀ l, Act (nextFrames ctl.dl lits gt.frames) l → ¬ gt.dead l := by
    intro l hl
    rcases act_nextFrames.1 hl with hl | hl
    · exact hdead l hl
    · exact h.live l hl
  have main : ∀ {t : S V} {ok : Bool}, S.Fix s t → S.CInv E0 (nextFrames ctl.dl lits gt.frames) t →
      (ok = true → S.SInv E0 (nextFrames ctl.dl lits gt.frames) t) → (∀ c ∈ t.out, c ∈ s.out ∨ ClauseValid s.bounds E0 c) →
      TDyn opts idx size prog r gen { gt with frames := nextFrames ctl.dl lits gt.frames, stuck := !ok, checked := false } E0 base t := by
    intro t ok hf hc hsi ho
    refine ⟨by rw [hf.obj]; exact h.set, by rw [hf.bounds, hf.obj]; exact h.cuts, fun hk => hsi (by simpa using hk), hc, ?_,
      hf.opts.trans h.hopts, hf.n.trans h.n, by rw [hf.obj]; exact h.active, by rw [hf.obj, hf.nvars]; exact h.bvlt,
      by rw [hf.obj]; exact h.hgen, by rw [hf.obj]; exact h.disc, ?_, hlive, by simp⟩
    · intro v b hb; rw [hf.vbounds] at hb; rw [hf.bounds]; exact h.vb v b hb
    · intro c hc
      rw [hf.bounds, hf.obj]
      rcases ho c hc with ho | ho
      · exact h.out c ho
      · exact .valid ho
  refine ⟨?_, hres, ?_⟩
  · cases hres with
    | sat _ _ h1 h2 h3 _ _ =>
      obtain ⟨cs, h4, h5⟩ := h3
      refine main h2 (S.CInv.of h1) (fun _ => h1) fun c hc => ?_
      rw [h4] at hc
      rcases List.mem_append.1 hc with hc | hc
      · exact Or.inl hc
      · exact Or.inr (h5.1 c hc)
    | unsat _ c h1 h2 h3 h4 h5 h6 =>
      refine main h3 h1 (by simp) fun c' hc => ?_
      rw [h4] at hc
      rcases List.mem_append.1 hc with hc | hc
      · exact Or.inl hc
      · simp only [List.mem_singleton] at hc; subst hc; exact Or.inr h5
  · cases hres with
    | sat _ _ h1 h2 h3 _ _ => exact h2
    | unsat _ c h1 h2 h3 h4 h5 h6 => exact h3

/-- `undo` keeps the invariant. -/
theorem TDyn.undo {opts : Options} {idx : Symbol → Option ℕ} {size : ℕ} {prog : Prog} {r : List (V × Bool)} {gen : ℕ}
    {gt : GThr} {E0 : (ℕ → V) → Prop} {base : List (Bound V)} {s : S V} (h : TDyn opts idx size prog r gen gt E0 base s)
    {fr : Frame} {frs : List Frame} (hf : gt.frames = fr :: frs) (hl : fr.level ≠ 0)
    (hright : ¬ Hon.hon → RightLimits s.bounds frs s.undo.lower s.undo.upper) :
    TDyn opts idx size prog r gen { gt with frames := frs, stuck := false, checked := false } E0 base s.undo ∧ S.Fix s s.undo := by
  have hc := h.cinv
  rw [hf] at hc
  obtain ⟨h1, h2, h3, h4⟩ := S.undo_spec hc h.vb hl hright
  refine ⟨⟨by rw [h3.obj]; exact h.set, by rw [h3.bounds, h3.obj]; exact h.cuts, fun _ => h1, S.CInv.of h1, h1.vb,
    h3.opts.trans h.hopts, h3.n.trans h.n, by rw [h3.obj]; exact h.active, by rw [h3.obj, h3.nvars]; exact h.bvlt,
    by rw [h3.obj]; exact h.hgen, by rw [h3.obj]; exact h.disc, ?_, ?_, by simp⟩, h3⟩
  · rw [h4, h3.bounds, h3.obj]; exact h.out
  · rintro l ⟨f, hf1, hf2⟩
    exact h.live l ⟨f, by rw [hf]; simp [hf1], hf2⟩

/-! ### check -/

/-- Adding a cut. -/
theorem TDyn.assertBound {opts : Options} {idx : Symbol → Option ℕ} {size : ℕ} {prog : Prog} {r : List (V × Bool)} {gen : ℕ}
    {gt : GThr} {E0 : (ℕ → V) → Prop} {base : List (Bound V)} {s : S V} (h : TDyn opts idx size prog r gen gt E0 base s)
    (hst : gt.stuck = false) (ctl : Ctl) (x : V) (hobj : prog.objective ≠ []) (hg : opts.globalObjective.isSome = true)
    (hv : CutVal opts r x) (hfa : ∀ O, ¬ Act gt.frames (ctl.newLit O))
    (hfi : ∀ O, ∀ x ∈ prog.iqs, x.lit ≠ ctl.newLit O ∧ x.lit ≠ -ctl.newLit O) :
    TDyn opts idx size prog r gen gt E0 base (S.assertBound ctl s x).1 := by
  have hinv := h.sinv hst
  obtain ⟨cs, hc1, hc2⟩ := h.cuts
  obtain ⟨hb1, hb2, hb3⟩ := h.set.bvar hobj hg
  have hlt := h.bvlt hobj hg
  have hcut : IsCut opts prog r s.obj.boundVar ({ value := x, var := s.obj.boundVar, lit := ctl.newLit s.out, rel := .ge } : Bound V) :=
    ⟨rfl, rfl, hv, hobj, hg, hfi _⟩
  have hinv' := hinv.addBound (bd := { value := x, var := s.obj.boundVar, lit := ctl.newLit s.out, rel := .ge })
    (hfa _) hlt hb1 [ctl.newLit s.out] (s.out ++ [[ctl.newLit s.out]])
  have heq : (S.assertBound ctl s x).1 = { s with bounds := s.bounds ++ [({ value := x, var := s.obj.boundVar, lit := ctl.newLit s.out, rel := .ge } : Bound V)], clause := [ctl.newLit s.out], out := s.out ++ [[ctl.newLit s.out]] } := rfl
  rw [heq]
  refine ⟨h.set, ⟨cs ++ [_], by rw [hc1, List.append_assoc], ?_⟩, fun _ => hinv', S.CInv.of hinv', hinv'.vb, h.hopts, h.n,
    h.active, h.bvlt, h.hgen, h.disc, ?_, h.live, ?_⟩
  · intro bd hbd
    rcases List.mem_append.1 hbd with hbd | hbd
    · exact hc2 bd hbd
    · simp only [List.mem_singleton] at hbd; subst hbd; exact hcut
  · intro c hc
    rcases List.mem_append.1 hc with hc | hc
    · exact (h.out c hc).mono (fun _ h => h) _
    · simp only [List.mem_singleton] at hc
      exact .cut _ (List.mem_append_right _ (List.mem_singleton.2 rfl)) hcut hc
  · intro hch ha
    obtain ⟨o1, o2⟩ := h.optm hch ha
    refine ⟨fun hb asg hE hall => o1 hb asg hE fun bd hbd => hall bd (List.mem_append_left _ hbd), fun hb q => ?_⟩
    obtain ⟨asg, hE, hall, hq⟩ := o2 hb q
    refine ⟨asg, hE, fun bd hbd hact => ?_, hq⟩
    rcases List.mem_append.1 hbd with hbd | hbd
    · exact hall bd hbd hact
    · simp only [List.mem_singleton] at hbd; subst hbd; exact absurd hact (hfa _)

/-- Changing flags of the objective. -/
theorem TDyn.setObj {opts : Options} {idx : Symbol → Option ℕ} {size : ℕ} {prog : Prog} {r : List (V × Bool)} {gen : ℕ}
    {gt : GThr} {E0 : (ℕ → V) → Prop} {base : List (Bound V)} {s : S V} (h : TDyn opts idx size prog r gen gt E0 base s)
    (hst : gt.stuck = false) {o : Obj} (ha : o.active = s.obj.active) (hv : o.var = s.obj.var) (hb : o.boundVar = s.obj.boundVar)
    (hbd : o.bounded = s.obj.bounded)
    (hg : o.generation ≤ gen) (hd : o.discardBounded = true → ∃ v, (v, false) ∈ r) :
    TDyn opts idx size prog r gen gt E0 base { s with obj := o } := by
  have hinv := (h.sinv hst).setObj ha hv
  exact ⟨by show Setup _ _ _ _ _ _ _ o.var o.boundVar; rw [hv, hb]; exact h.set,
    by show ∃ cs, s.bounds = base ++ cs ∧ ∀ bd ∈ cs, IsCut opts prog r o.boundVar bd
       rw [hb]; exact h.cuts, fun _ => hinv, S.CInv.of hinv, hinv.vb, h.hopts, h.n, ha.trans h.active,
    by show _ → _ → o.boundVar < _; rw [hb]; exact h.bvlt, hg, hd,
    by show ∀ c ∈ s.out, OutOK opts prog r o.boundVar s.bounds E0 c
       rw [hb]; exact h.out, h.live, by
      intro hch
      have := h.optm hch
      unfold OptAt at this ⊢
      show o.active = true → _
      simp only [ha, hv, hbd]
      exact this⟩

end Lpx
