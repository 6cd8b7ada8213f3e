import Verif.SolverLoop

/-! # Backtracking: what the trails store

`Frame`s are ghost state: for each entry of `trail_offset_`, the level and the literals propagated on it. `Chain` says
that undoing the frames one after the other leads to states in which exactly the remaining literals are enforced and
satisfied. -/

set_option linter.unusedSectionVars false

namespace Lpx
open Finset

/-- Overwriting entries, in order. -/
def rest {α : Type} (seg : List (ℕ × α)) (f : ℕ → α) : ℕ → α :=
  seg.foldl (fun f (e : ℕ × α) => Function.update f e.1 e.2) f

theorem rest_cons {α : Type} (e : ℕ × α) (seg : List (ℕ × α)) (f : ℕ → α) :
    rest (e :: seg) f = rest seg (Function.update f e.1 e.2) := rfl

theorem rest_append {α : Type} (a b : List (ℕ × α)) (f : ℕ → α) : rest (a ++ b) f = rest b (rest a f) := by
  unfold rest; rw [List.foldl_append]

theorem rest_not_mem {α : Type} {seg : List (ℕ × α)} {f : ℕ → α} {v : ℕ} (h : v ∉ seg.map (·.1)) : rest seg f v = f v := by
  induction seg generalizing f with
  | nil => rfl
  | cons e es ih =>
    simp only [List.map_cons, List.mem_cons, not_or] at h
    rw [rest_cons, ih h.2, Function.update_of_ne h.1]

/-- The overwritten values do not matter. -/
theorem rest_update_mem {α : Type} {seg : List (ℕ × α)} {f : ℕ → α} {v : ℕ} (h : v ∈ seg.map (·.1)) (x : α) :
    rest seg (Function.update f v x) = rest seg f := by
  induction seg generalizing f with
  | nil => simp at h
  | cons e es ih =>
    rw [rest_cons, rest_cons]
    by_cases he : e.1 = v
    · subst he; simp
    · have : v ∈ es.map (·.1) := by
        simp only [List.map_cons, List.mem_cons] at h
        rcases h with h | h
        · exact absurd h.symm he
        · exact h
      rw [Function.update_comm (Ne.symm he), ih this]

theorem rest_update_not_mem {α : Type} {seg : List (ℕ × α)} {f : ℕ → α} {v : ℕ} (h : v ∉ seg.map (·.1)) (x : α) :
    rest seg (Function.update f v x) = Function.update (rest seg f) v x := by
  induction seg generalizing f with
  | nil => rfl
  | cons e es ih =>
    simp only [List.map_cons, List.mem_cons, not_or] at h
    rw [rest_cons, rest_cons, Function.update_comm h.1, ih h.2]

/-- Recording the old value of `v` before changing it. -/
theorem rest_push {α : Type} {seg : List (ℕ × α)} {f : ℕ → α} {v : ℕ} (h : v ∉ seg.map (·.1)) (x : α) :
    rest (seg ++ [(v, f v)]) (Function.update f v x) = rest seg f := by
  rw [rest_append, rest_update_not_mem h]
  show Function.update (Function.update (rest seg f) v x) v (f v) = _
  rw [Function.update_idem, ← rest_not_mem h (f := f), Function.update_eq_self]

/-- The entries of the bound trail restoring upper bounds. -/
def segU (seg : List (ℕ × BRel × Option ℕ)) : List (ℕ × Option ℕ) :=
  (seg.filter (fun e => decide (e.2.1 ≠ .ge))).map (fun e => (e.1, e.2.2))
/-- The entries of the bound trail restoring lower bounds. -/
def segL (seg : List (ℕ × BRel × Option ℕ)) : List (ℕ × Option ℕ) :=
  (seg.filter (fun e => decide (e.2.1 ≠ .le))).map (fun e => (e.1, e.2.2))

theorem segU_append (a b : List (ℕ × BRel × Option ℕ)) : segU (a ++ b) = segU a ++ segU b := by unfold segU; simp
theorem segL_append (a b : List (ℕ × BRel × Option ℕ)) : segL (a ++ b) = segL a ++ segL b := by unfold segL; simp

theorem undo_fold (seg : List (ℕ × BRel × Option ℕ)) (l u : ℕ → Option ℕ) :
    seg.foldl S.undoBound (l, u) = (rest (segL seg) l, rest (segU seg) u) := by
  induction seg generalizing l u with
  | nil => rfl
  | cons e es ih =>
    obtain ⟨v, r, p⟩ := e
    simp only [List.foldl_cons]
    cases r <;> simp [S.undoBound, ih, segU, segL, rest_cons]

variable {V : Type} [LpValue V]

/-- Dereferencing a bound pointer. -/
def bvalOf (bounds : List (Bound V)) (p : Option ℕ) : Option V := p.bind fun i => (bounds[i]?).map Bound.value

/-- The part of the state that is saved on the trails. -/
structure View (V : Type) where
  lower : ℕ → Option ℕ
  upper : ℕ → Option ℕ
  value : ℕ → V
  level : ℕ → ℕ
  btrail : List (ℕ × BRel × Option ℕ)
  atrail : List (ℕ × ℕ × V)
  offs : List Off

def S.view (s : S V) : View V := ⟨s.lower, s.upper, s.value, s.level, s.btrail, s.atrail, s.offs⟩

/-- The effect of `undo` on the saved part. -/
def View.pop (w : View V) : View V :=
  match w.offs with
  | [] => w
  | o :: os =>
    ⟨rest (segL (w.btrail.drop o.bound)) w.lower, rest (segU (w.btrail.drop o.bound)) w.upper,
      S.restV (w.atrail.drop o.asg) w.value, S.restL (w.atrail.drop o.asg) w.level,
      w.btrail.take o.bound, w.atrail.take o.asg, os⟩

/-- Ghost state: a level and the literals propagated on it. -/
structure Frame where
  level : ℕ
  lits : List ℤ

/-- A literal is active (true and seen by the solver). -/
def Act (frames : List Frame) (l : ℤ) : Prop := ∃ fr ∈ frames, l ∈ fr.lits

/-- A bound is enforced by the current bound pointers. -/
def Enf (bounds : List (Bound V)) (lower upper : ℕ → Option ℕ) (bd : Bound V) : Prop :=
  (bd.rel ≠ .ge → ∃ y, bvalOf bounds (upper bd.var) = some y ∧ y ≤ bd.value) ∧
  (bd.rel ≠ .le → ∃ y, bvalOf bounds (lower bd.var) = some y ∧ bd.value ≤ y)

/-- Bound pointers are valid and belong to active literals. -/
structure PtrAct (bounds : List (Bound V)) (frames : List Frame) (lower upper : ℕ → Option ℕ) : Prop where
  up : ∀ v b, upper v = some b → ∃ bd, bounds[b]? = some bd ∧ bd.var = v ∧ bd.rel ≠ .ge ∧ Act frames bd.lit
  lo : ∀ v b, lower v = some b → ∃ bd, bounds[b]? = some bd ∧ bd.var = v ∧ bd.rel ≠ .le ∧ Act frames bd.lit

/-- The bounds enforced are those of the active literals, and the values satisfy them and the equations. -/
structure Good (E0 : (ℕ → V) → Prop) (bounds : List (Bound V)) (frames : List Frame) (w : View V) : Prop where
  ptr : PtrAct bounds frames w.lower w.upper
  enf : ∀ bd ∈ bounds, Act frames bd.lit → Enf bounds w.lower w.upper bd
  val : E0 w.value
  win : ∀ v, Within (bvalOf bounds (w.lower v)) (bvalOf bounds (w.upper v)) (w.value v)

/-- The pointer belongs to a literal in `lits`. -/
def InL (bounds : List (Bound V)) (lits : List ℤ) (p : Option ℕ) : Prop :=
  ∃ b bd, p = some b ∧ bounds[b]? = some bd ∧ bd.lit ∈ lits

/-- The old bounds of exactly those variables are stored whose current bound belongs to `lits`. -/
structure BSeg (bounds : List (Bound V)) (k : ℕ) (lits : List ℤ) (bt : List (ℕ × BRel × Option ℕ))
    (lower upper : ℕ → Option ℕ) : Prop where
  le : k ≤ bt.length
  up : ∀ v, v ∈ (segU (bt.drop k)).map (·.1) ↔ InL bounds lits (upper v)
  lo : ∀ v, v ∈ (segL (bt.drop k)).map (·.1) ↔ InL bounds lits (lower v)

/-- `S.J` on views. -/
def View.J (k lvl : ℕ) (w : View V) : Prop :=
  k ≤ w.atrail.length ∧ ∀ v, w.level v = lvl ↔ v ∈ (w.atrail.drop k).map (·.2.1)

/-- Whether the bound trail is trusted. The invariants are established twice: once for histories in which the trail is able to record all
bounds (`SafeEqs`), and once without any assumption about the trail, for histories in which each `undo` happened to restore the limits
(`Intact`). -/
class Hon where
  hon : Prop

/-- Views that agree on everything apart from the limits; the bound trails have the same length. -/
structure View.Like (a b : View V) : Prop where
  value : a.value = b.value
  level : a.level = b.level
  atrail : a.atrail = b.atrail
  offs : a.offs = b.offs
  len : a.btrail.length = b.btrail.length

theorem View.Like.refl (w : View V) : w.Like w := ⟨rfl, rfl, rfl, rfl, rfl⟩
theorem View.Like.trans {a b c : View V} (h : a.Like b) (k : b.Like c) : a.Like c :=
  ⟨h.value.trans k.value, h.level.trans k.level, h.atrail.trans k.atrail, h.offs.trans k.offs, h.len.trans k.len⟩
theorem View.Like.symm {a b : View V} (h : a.Like b) : b.Like a :=
  ⟨h.value.symm, h.level.symm, h.atrail.symm, h.offs.symm, h.len.symm⟩

theorem View.Like.pop {a b : View V} (h : a.Like b) : a.pop.Like b.pop := by
  unfold View.pop
  rw [h.offs]
  cases b.offs with
  | nil => exact h
  | cons o os => exact ⟨by simp only [h.atrail, h.value], by simp only [h.atrail, h.level], by simp only [h.atrail], rfl, by simp only [List.length_take, h.len]⟩

variable [Hon]

/-- The trails lead back through states that are `Good` for the remaining frames. Level 0 is never undone. If the bound trail is not trusted,
these states are only known to exist: they agree with the trails on everything apart from the limits. -/
def Chain (E0 : (ℕ → V) → Prop) (bounds : List (Bound V)) : List Frame → View V → Prop
  | [], w => w.offs = [] ∧ w.btrail = [] ∧ w.atrail = [] ∧ ∀ v, w.level v = 0
  | fr :: frs, w => ∃ o os, w.offs = o :: os ∧ o.level = fr.level ∧ (w.btrail = [] → ∀ v, w.upper v = none) ∧
    if fr.level = 0 then
      frs = [] ∧ os = [] ∧ o.asg = 0 ∧ w.atrail = [] ∧ (∀ v, w.level v = 0)
    else
      o.bound ≤ w.btrail.length ∧ View.J o.asg fr.level w ∧ (∀ fr' ∈ frs, fr'.level < fr.level) ∧
      ∃ w1 : View V, w1.Like w.pop ∧ (Hon.hon → BSeg bounds o.bound fr.lits w.btrail w.lower w.upper ∧ w1 = w.pop) ∧
        Good E0 bounds frs w1 ∧ Chain E0 bounds frs w1

/-- clingo's levels agree with the frames. -/
def LvlOK (ctl : Ctl) (frames : List Frame) : Prop := ∀ fr ∈ frames, ∀ l ∈ fr.lits, ctl.lvl l = fr.level

/-- Levels of variables do not exceed the top level. -/
theorem Chain.level_le {E0 : (ℕ → V) → Prop} {bounds : List (Bound V)} : ∀ {frames : List Frame} {w : View V},
    Chain E0 bounds frames w → ∀ v, w.level v = 0 ∨ ∃ fr ∈ frames, w.level v = fr.level ∧ v ∈ w.atrail.map (·.2.1) := by
  intro frames
  induction frames with
  | nil => intro w h v; exact Or.inl (h.2.2.2 v)
  | cons fr frs ih =>
    rintro w ⟨o, os, ho, hl, -, h⟩ v
    split at h
    · exact Or.inl (h.2.2.2.2 v)
    · obtain ⟨-, hJ, -, w1, hw1, -, -, hc⟩ := h
      by_cases hv : w.level v = fr.level
      · refine Or.inr ⟨fr, by simp, hv, ?_⟩
        have := (hJ.2 v).1 hv
        obtain ⟨e, he, he2⟩ := List.mem_map.1 this
        exact List.mem_map.2 ⟨e, List.mem_of_mem_drop he, he2⟩
      · have hnm : v ∉ (w.atrail.drop o.asg).map (·.2.1) := fun h => hv ((hJ.2 v).2 h)
        have hpl : w1.level v = w.level v := by rw [hw1.level]; unfold View.pop; rw [ho]; exact S.restL_not_mem hnm
        rcases ih hc v with h0 | ⟨fr', h1, h2, h3⟩
        · left; rw [← hpl]; exact h0
        · right
          refine ⟨fr', by simp [h1], by rw [← hpl]; exact h2, ?_⟩
          have : w1.atrail = w.atrail.take o.asg := by rw [hw1.atrail]; unfold View.pop; rw [ho]
          rw [this] at h3
          obtain ⟨e, he, he2⟩ := List.mem_map.1 h3
          exact List.mem_map.2 ⟨e, List.mem_of_mem_take he, he2⟩

/-- Changing the top segment only. -/
theorem Chain.top {E0 : (ℕ → V) → Prop} {bounds : List (Bound V)} {fr fr' : Frame} {frs : List Frame} {w w' : View V}
    (h : Chain E0 bounds (fr :: frs) w) (hlev : fr'.level = fr.level) (hoffs : w'.offs = w.offs)
    (hk : (w.btrail = [] → ∀ v, w.upper v = none) → w'.btrail = [] → ∀ v, w'.upper v = none)
    (h0 : fr.level = 0 → w.atrail = [] → (∀ v, w.level v = 0) → w'.atrail = [] ∧ (∀ v, w'.level v = 0))
    (h1 : fr.level ≠ 0 → ∀ o os, w.offs = o :: os → o.bound ≤ w.btrail.length → View.J o.asg fr.level w →
      o.bound ≤ w'.btrail.length ∧ View.J o.asg fr.level w' ∧ w'.pop.Like w.pop)
    (h2 : fr.level ≠ 0 → ∀ o os, w.offs = o :: os → Hon.hon → BSeg bounds o.bound fr.lits w.btrail w.lower w.upper →
      View.J o.asg fr.level w → BSeg bounds o.bound fr'.lits w'.btrail w'.lower w'.upper ∧ w'.pop = w.pop) :
    Chain E0 bounds (fr' :: frs) w' := by
  obtain ⟨o, os, ho, hl, hK, h⟩ := h
  refine ⟨o, os, by rw [hoffs, ho], by rw [hlev, hl], hk hK, ?_⟩
  rw [hlev]
  split
  · rename_i hz
    rw [if_pos hz] at h
    obtain ⟨a1, a2, a3, a4, a5⟩ := h
    obtain ⟨b1, b2⟩ := h0 hz a4 a5
    exact ⟨a1, a2, a3, b1, b2⟩
  · rename_i hz
    rw [if_neg hz] at h
    obtain ⟨a1, a2, a3, w1, a4, a5, a6, a7⟩ := h
    obtain ⟨b1, b2, b3⟩ := h1 hz o os ho a1 a2
    refine ⟨b1, b2, a3, w1, a4.trans b3.symm, fun hh => ?_, a6, a7⟩
    obtain ⟨c1, c2⟩ := a5 hh
    obtain ⟨d1, d2⟩ := h2 hz o os ho hh c1 a2
    exact ⟨d1, by rw [d2]; exact c2⟩

namespace S

theorem Chain.vstep {E0 : (ℕ → V) → Prop} {bounds : List (Bound V)} {fr : Frame} {frs : List Frame} {s s' : S V}
    (h : Chain E0 bounds (fr :: frs) s.view) (hk : Keep s s') (hv : VStep fr.level s s') :
    Chain E0 bounds (fr :: frs) s'.view := by
  refine h.top rfl (by show s'.offs = s.offs; exact hk.offs) ?_ ?_ ?_ ?_
  · show (s.btrail = [] → ∀ v, s.upper v = none) → s'.btrail = [] → ∀ v, s'.upper v = none
    rw [hk.btrail, hk.upper]; exact id
  · intro hz h1 h2
    obtain ⟨f1, f2⟩ := hv.flat (fun v => by rw [hz]; exact h2 v)
    exact ⟨by show s'.atrail = []; rw [f1]; exact h1, fun v => by show s'.level v = 0; rw [f2]; exact h2 v⟩
  · intro hz o os ho hb hJ
    obtain ⟨v1, v2, v3, v4⟩ := hv.seg o.asg hJ
    have ho' : s.offs = o :: os := ho
    refine ⟨by show o.bound ≤ s'.btrail.length; rw [hk.btrail]; exact hb, v1, ?_⟩
    have : s'.view.pop = s.view.pop := by
      unfold View.pop view
      simp only
      rw [hk.offs, ho']
      simp only
      rw [hk.btrail, hk.lower, hk.upper, v2, v3, v4]
    rw [this]; exact View.Like.refl _
  · intro hz o os ho _ hb hJ
    obtain ⟨v1, v2, v3, v4⟩ := hv.seg o.asg hJ
    refine ⟨?_, ?_⟩
    · show BSeg bounds o.bound fr.lits s'.btrail s'.lower s'.upper
      rw [hk.btrail, hk.lower, hk.upper]; exact hb
    · have ho' : s.offs = o :: os := ho
      unfold View.pop view
      simp only
      rw [hk.offs, ho']
      simp only
      rw [hk.btrail, hk.lower, hk.upper, v2, v3, v4]

end S
end Lpx
