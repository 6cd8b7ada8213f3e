import Verif.SysSem

/-! # Results of single callbacks -/

set_option linter.unusedSectionVars false

namespace Lpx
open Finset

variable {V : Type} [LpFull V] [Hon]

omit [Hon] in
theorem ifFacts (p : Propagator V) (c : Prop) [Decidable c] (lits : List ℤ) :
    (if c then { p with facts := p.facts ++ lits } else p) = { p with facts := if c then p.facts ++ lits else p.facts } := by
  split <;> rfl

omit [Hon] in
/-- `propagate` calls `solve` of the thread. -/
theorem propagate_eq {p p' : Propagator V} {fuel : ℕ} {ctl : Ctl} {th : ℕ} {lits : List ℤ} {ok : Bool} {t : Thr V}
    (ht : p.thrs[th]? = some t) :
    p.propagate fuel ctl th lits = some (p', ok) ↔ ∃ s', t.slv.solve ctl fuel lits = some (s', ok) ∧
      p' = { p with facts := if ctl.dl = 0 ∧ th = 0 then p.facts ++ lits else p.facts, thrs := p.thrs.set th { t with slv := s' } } := by
  unfold Propagator.propagate
  rw [ifFacts]
  simp only [ht]
  cases hs : t.slv.solve ctl fuel lits with
  | none => simp
  | some r =>
    obtain ⟨s', b⟩ := r
    simp only [Option.some.injEq, Prod.mk.injEq]
    constructor
    · rintro ⟨rfl, rfl⟩; exact ⟨s', ⟨rfl, rfl⟩, rfl⟩
    · rintro ⟨s2, ⟨rfl, rfl⟩, rfl⟩; exact ⟨rfl, rfl⟩

omit [Hon] in
theorem getElem?_set_some {α : Type} {l : List α} {i : ℕ} {a b : α} (h : l[i]? = some a) : (l.set i b)[i]? = some b :=
  List.getElem?_set_self (List.getElem?_eq_some_iff.1 h).1

/-- All we know about a call of `propagate`. -/
theorem SysInv.call {opts : Options} {p p' : Propagator V} {g : Ghost V} (h : SysInv opts p g) {fuel : ℕ} {ctl : Ctl} {th : ℕ}
    {lits : List ℤ} {gt : GThr} {ok : Bool} {Q : Restr V} [Trust Q] (hm : MayPropagate Q p g ctl th lits gt) (hr : p.propagate fuel ctl th lits = some (p', ok)) :
    ∃ t s' E0 base, Unpacked opts p g gt th t E0 base ∧
      S.SolveRes E0 (nextFrames ctl.dl lits gt.frames) ctl t.slv (s', ok) ∧ S.Fix t.slv s' ∧
      p' = { p with facts := if ctl.dl = 0 ∧ th = 0 then p.facts ++ lits else p.facts, thrs := p.thrs.set th { t with slv := s' } } ∧
      p'.thrs[th]? = some { t with slv := s' } := by
  obtain ⟨t, E0, base, hu⟩ := h.unpack hm.thr
  obtain ⟨s', hs, hp⟩ := (propagate_eq hu.ht).1 hr
  have hsafe : Hon.hon → ctl.dl = 0 ∨ ∀ bd ∈ t.slv.bounds, bd.lit ∈ lits → SafeEq t.slv.bounds (Act gt.frames) (Act (nextFrames ctl.dl lits gt.frames)) bd := by
    intro hh
    rcases Trust.prop hh _ _ _ _ hm.restr with hs | hs
    · exact Or.inl hs
    · exact Or.inr (hu.dyn.safe h.inj h.idxLt hs)
  obtain ⟨-, h2, h3⟩ := hu.dyn.solve hm.ready ctl lits hm.dl hm.lvl hm.dead hsafe hs
  exact ⟨t, s', E0, base, hu, h2, h3, hp, by rw [hp]; exact getElem?_set_some hu.ht⟩

omit [Hon] in
theorem clausesOf_eq {p : Propagator V} {th : ℕ} {t : Thr V} (ht : p.thrs[th]? = some t) : p.clausesOf th = t.slv.out := by
  unfold Propagator.clausesOf; rw [ht]

omit [Hon] in
theorem cutsOf_congr {p p' : Propagator V} {th : ℕ} {t t' : Thr V} (ht : p.thrs[th]? = some t) (ht' : p'.thrs[th]? = some t')
    (hp : p'.prog = p.prog) (hb : t'.slv.bounds = t.slv.bounds) : p'.cutsOf th = p.cutsOf th := by
  unfold Propagator.cutsOf; simp only [ht, ht', hp, hb]

/-! ### fuel -/

omit [Hon] in
theorem solve_mono {ctl : Ctl} {fuel fuel' : ℕ} {s : S V} {lits : List ℤ} {r : S V × Bool} (h : s.solve ctl fuel lits = some r)
    (hle : fuel ≤ fuel') : s.solve ctl fuel' lits = some r := by
  unfold S.solve at h ⊢
  simp only at h ⊢
  split at h
  · rename_i hk; rw [if_pos hk]; exact S.solveLoop_mono ctl h _ hle
  · rename_i hk; rw [if_neg hk]; exact h

omit [Hon] in
theorem optimize_mono {fuel fuel' : ℕ} {s t : S V} (h : s.optimize fuel = some t) (hle : fuel ≤ fuel') : s.optimize fuel' = some t := by
  unfold S.optimize at h ⊢
  split at h
  · rename_i ha; rw [if_pos ha]; exact S.optLoop_mono h hle
  · rename_i ha; rw [if_neg ha]; exact h

omit [Hon] in
theorem propagate_mono {p : Propagator V} {fuel fuel' : ℕ} {ctl : Ctl} {th : ℕ} {lits : List ℤ} {r : Propagator V × Bool}
    (h : p.propagate fuel ctl th lits = some r) (hle : fuel ≤ fuel') : p.propagate fuel' ctl th lits = some r := by
  obtain ⟨p', ok⟩ := r
  cases ht : p.thrs[th]? with
  | none =>
    unfold Propagator.propagate at h
    rw [ifFacts] at h
    simp [ht] at h
  | some t =>
    obtain ⟨s', hs, hp⟩ := (propagate_eq ht).1 h
    exact (propagate_eq ht).2 ⟨s', solve_mono hs hle, hp⟩

omit [Hon] in
theorem checkFacts_mono {p : Propagator V} {fuel fuel' : ℕ} {ctl : Ctl} {th : ℕ} {r : Propagator V × Bool}
    (h : p.checkFacts fuel ctl th = some r) (hle : fuel ≤ fuel') : p.checkFacts fuel' ctl th = some r := by
  unfold Propagator.checkFacts at h ⊢
  split at h
  · cases h
  · rename_i t ht
    split at h
    · rename_i hn
      rw [if_pos hn]
      cases hs : t.slv.solve ctl fuel (p.factSpan t) with
      | none => rw [hs] at h; cases h
      | some r1 =>
        rw [hs] at h; rw [solve_mono hs hle]; exact h
    · rename_i hn; rw [if_neg hn]; exact h

omit [Hon] in
theorem checkTotal_mono {s : S V} {fuel fuel' : ℕ} {ctl : Ctl} {r : S V × Bool} (h : s.checkTotal ctl fuel = some r) (hle : fuel ≤ fuel') :
    s.checkTotal ctl fuel' = some r := by
  unfold S.checkTotal at h ⊢
  cases ho : s.optimize fuel with
  | none => rw [ho] at h; cases h
  | some t => rw [ho] at h; rw [optimize_mono ho hle]; exact h

omit [Hon] in
theorem check_mono {p : Propagator V} {fuel fuel' : ℕ} {ctl : Ctl} {total : Bool} {th : ℕ} {r : Propagator V × Bool}
    (h : p.check fuel ctl total th = some r) (hle : fuel ≤ fuel') : p.check fuel' ctl total th = some r := by
  unfold Propagator.check at h ⊢
  cases h1 : p.checkFacts fuel ctl th with
  | none => rw [h1] at h; cases h
  | some r1 =>
    rw [h1] at h
    rw [checkFacts_mono h1 hle]
    simp only at h ⊢
    split at h
    · rename_i hk
      rw [if_pos hk]
      unfold Propagator.checkObj at h ⊢
      cases ht : r1.1.thrs[th]? with
      | none => rw [ht] at h; cases h
      | some t =>
        rw [ht] at h
        simp only at h ⊢
        have key : ∀ x, t.slv.checkObj ctl fuel total r1.1.obj = some x → t.slv.checkObj ctl fuel' total r1.1.obj = some x := by
          intro x hx
          unfold S.checkObj at hx ⊢
          simp only at hx ⊢
          split at hx
          · rename_i hb; rw [if_pos hb]; exact hx
          · rename_i hb
            rw [if_neg hb]
            split at hx
            · rename_i ht; rw [if_pos ht]; exact checkTotal_mono hx hle
            · rename_i ht; rw [if_neg ht]; exact hx
        cases hs : t.slv.checkObj ctl fuel total r1.1.obj with
        | none => rw [hs] at h; cases h
        | some x => rw [hs] at h; rw [key x hs]; exact h
    · rename_i hk; rw [if_neg hk]; exact h

end Lpx
