import Verif.SysCalls
import Verif.SysStat

/-!
# Harmless equations keep the limits right

The theorems about the propagator assume histories in which every `undo` left the right limits (`Intact`, see Finding 1 in DESIGN.md). This is
so whenever all equations propagated are harmless (`SafeEqs`).
-/

set_option linter.unusedSectionVars false

namespace Lpx
open Finset

variable {V : Type} [LpFull V]

/-- The invariant says that the limits are right. -/
theorem SysInv.limitsRight [Hon] {opts : Options} {p : Propagator V} {g : Ghost V} (h : SysInv opts p g) {th : ℕ} {gt : GThr}
    (hgt : g.thrs[th]? = some gt) (hst : gt.stuck = false) : LimitsRight p th gt.frames := by
  obtain ⟨t, E0, base, hu⟩ := h.unpack hgt
  intro t' ht'
  rw [hu.ht] at ht'
  obtain rfl := Option.some.inj ht'
  have hg := (hu.dyn.sinv hst).good
  refine ⟨hg.ptr.up, hg.ptr.lo, fun bd hbd ha => ?_⟩
  have := hg.enf bd hbd ha
  unfold Enf at this
  simp only [S.up_eq, S.lo_eq]
  exact this

/-- The bound trail is not trusted: backtracking is assumed to have restored the limits. -/
instance untrusted : Hon := ⟨False⟩

instance : Trust (Intact : Restr V) := ⟨fun h => h.elim, fun _ _ _ _ h => h⟩

/-- The invariant for histories with harmless equations. -/
theorem Reach.inv_safe {be : Backend} {opts : Options} (hq : StepOK V opts) {p : Propagator V} {g : Ghost V} (h : Reach be opts SafeEqs p g) :
    @SysInv V _ ⟨True⟩ opts p g :=
  letI : Hon := ⟨True⟩
  letI : Trust (SafeEqs : Restr V) := ⟨fun _ _ _ _ _ h => h, fun h => (h trivial).elim⟩
  h.inv hq

/-- With harmless equations every callback leaves the right limits. -/
theorem Step.intact {be : Backend} {opts : Options} (hq : StepOK V opts) {p p' : Propagator V} {g g' : Ghost V} (hr : Reach be opts SafeEqs p g)
    (h : Step be SafeEqs p g p' g') : Step be Intact p g p' g' := by
  have hi := (Reach.step hr h).inv_safe hq
  cases h with
  | init mapper atoms envs n h0 => exact .init mapper atoms envs n h0
  | fail mapper atoms envs n h0 ha => exact .fail mapper atoms envs n h0 ha
  | propagate fuel ctl th lits hm hr => exact .propagate fuel ctl th lits ⟨hm.thr, hm.ready, hm.dl, hm.lvl, hm.dead, trivial⟩ hr
  | check fuel ctl total th hm hr => exact .check fuel ctl total th hm hr
  | undo th hgt hf hl hu _ =>
    refine .undo th hgt hf hl hu ?_
    letI : Hon := ⟨True⟩
    exact hi.limitsRight (List.getElem?_set_self (List.getElem?_eq_some_iff.1 hgt).1) rfl
  | model th hgt hst hr => exact .model th hgt hst hr

/-- Histories in which all equations are harmless are histories in which backtracking restores the limits. -/
theorem Reach.intact {be : Backend} {opts : Options} (hq : StepOK V opts) {p : Propagator V} {g : Ghost V} (h : Reach be opts SafeEqs p g) :
    Reach be opts Intact p g := by
  induction h with
  | start => exact .start
  | step h1 hs ih => exact ih.step (hs.intact hq h1)

/-- Forgetting a restriction. -/
theorem Step.any {be : Backend} {Q : Restr V} {p p' : Propagator V} {g g' : Ghost V} (h : Step be Q p g p' g') : Step be AnyLits p g p' g' := by
  cases h with
  | init mapper atoms envs n h0 => exact .init mapper atoms envs n h0
  | fail mapper atoms envs n h0 ha => exact .fail mapper atoms envs n h0 ha
  | propagate fuel ctl th lits hm hr => exact .propagate fuel ctl th lits ⟨hm.thr, hm.ready, hm.dl, hm.lvl, hm.dead, trivial⟩ hr
  | check fuel ctl total th hm hr => exact .check fuel ctl total th hm hr
  | undo th hgt hf hl hu _ => exact .undo th hgt hf hl hu trivial
  | model th hgt hst hr => exact .model th hgt hst hr

theorem Reach.any {be : Backend} {opts : Options} {Q : Restr V} {p : Propagator V} {g : Ghost V} (h : Reach be opts Q p g) :
    Reach be opts AnyLits p g := by
  induction h with
  | start => exact .start
  | step _ hs ih => exact ih.step hs.any

theorem LaterInStep.reach {be : Backend} {opts : Options} {Q : Restr V} {p p' : Propagator V} {g g' : Ghost V} (hr : Reach be opts Q p g)
    (h : LaterInStep be Q p g p' g') : Reach be opts Q p' g' := by
  induction h with
  | refl => exact hr
  | step _ hs _ ih => exact ih.step hs

theorem Later.intact {be : Backend} {opts : Options} (hq : StepOK V opts) {p p' : Propagator V} {g g' : Ghost V} (hr : Reach be opts SafeEqs p g)
    (h : Later be SafeEqs p g p' g') : Later be Intact p g p' g' := by
  induction h with
  | refl => exact .refl
  | step h1 hs ih => exact ih.step (hs.intact hq (h1.reach hr))

theorem LaterInStep.intact {be : Backend} {opts : Options} (hq : StepOK V opts) {p p' : Propagator V} {g g' : Ghost V}
    (hr : Reach be opts SafeEqs p g) (h : LaterInStep be SafeEqs p g p' g') : LaterInStep be Intact p g p' g' := by
  induction h with
  | refl => exact .refl
  | step h1 hs he ih => exact ih.step (hs.intact hq (h1.reach hr)) he

theorem MayPropagate.intact {Q : Restr V} {p : Propagator V} {g : Ghost V} {ctl : Ctl} {th : ℕ} {lits : List ℤ} {gt : GThr}
    (h : MayPropagate Q p g ctl th lits gt) : MayPropagate Intact p g ctl th lits gt :=
  ⟨h.thr, h.ready, h.dl, h.lvl, h.dead, trivial⟩

end Lpx
