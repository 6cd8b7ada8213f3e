import Verif.SolverOptMain

/-! # Invariants of the solver that hold for all literals

The bounds may be wrong (see Finding 1): nothing is known about which bounds are enforced, and values may be outside of
them. What remains: the tableau, the equations, the queue and the trail of values, which is able to restore values that
satisfy the equations. -/

set_option linter.unusedSectionVars false

namespace Lpx
open Finset

variable {V : Type} [LpValue V]

/-- The part of the state stored on the assignment trail. -/
structure AView (V : Type) where
  value : ℕ → V
  level : ℕ → ℕ
  atrail : List (ℕ × ℕ × V)
  offs : List Off

def S.av (s : S V) : AView V := ⟨s.value, s.level, s.atrail, s.offs⟩

/-- The effect of `undo`. -/
def AView.pop (w : AView V) : AView V :=
  match w.offs with
  | [] => w
  | o :: os => ⟨S.restV (w.atrail.drop o.asg) w.value, S.restL (w.atrail.drop o.asg) w.level, w.atrail.take o.asg, os⟩

def AView.J (k lvl : ℕ) (w : AView V) : Prop :=
  (k ≤ w.atrail.length ∧ ((w.atrail.drop k).map (·.2.1)).Nodup) ∧ ∀ v, w.level v = lvl ↔ v ∈ (w.atrail.drop k).map (·.2.1)

/-- The trails lead back through values that satisfy the equations. -/
def WChain (E0 : (ℕ → V) → Prop) : List ℕ → AView V → Prop
  | [], w => w.offs = [] ∧ w.atrail = [] ∧ ∀ v, w.level v = 0
  | l :: ls, w => ∃ o os, w.offs = o :: os ∧ o.level = l ∧
    if l = 0 then ls = [] ∧ os = [] ∧ o.asg = 0 ∧ w.atrail = [] ∧ ∀ v, w.level v = 0
    else AView.J o.asg l w ∧ (∀ l' ∈ ls, l' < l) ∧ E0 w.pop.value ∧ WChain E0 ls w.pop

theorem WChain.level_le {E0 : (ℕ → V) → Prop} : ∀ {L : List ℕ} {w : AView V}, WChain E0 L w →
    ∀ v, w.level v = 0 ∨ w.level v ∈ L ∧ v ∈ w.atrail.map (·.2.1) := by
  intro L
  induction L with
  | nil => intro w h v; exact Or.inl (h.2.2 v)
  | cons l ls ih =>
    rintro w ⟨o, os, ho, hl, h⟩ v
    split at h
    · exact Or.inl (h.2.2.2.2 v)
    · obtain ⟨hJ, -, -, hc⟩ := h
      by_cases hv : w.level v = l
      · refine Or.inr ⟨by rw [hv]; simp, ?_⟩
        obtain ⟨e, he, he2⟩ := List.mem_map.1 ((hJ.2 v).1 hv)
        exact List.mem_map.2 ⟨e, List.mem_of_mem_drop he, he2⟩
      · have hnm : v ∉ (w.atrail.drop o.asg).map (·.2.1) := fun h => hv ((hJ.2 v).2 h)
        have hpl : w.pop.level v = w.level v := by unfold AView.pop; rw [ho]; exact S.restL_not_mem hnm
        rcases ih hc v with h0 | ⟨h2, h3⟩
        · left; rw [← hpl]; exact h0
        · right
          refine ⟨by rw [← hpl]; exact List.mem_cons_of_mem _ h2, ?_⟩
          have : w.pop.atrail = w.atrail.take o.asg := by unfold AView.pop; rw [ho]
          rw [this] at h3
          obtain ⟨e, he, he2⟩ := List.mem_map.1 h3
          exact List.mem_map.2 ⟨e, List.mem_of_mem_take he, he2⟩

theorem WChain.sorted {E0 : (ℕ → V) → Prop} {l : ℕ} {ls : List ℕ} {w : AView V} (h : WChain E0 (l :: ls) w) : ∀ l' ∈ ls, l' < l := by
  obtain ⟨o, os, -, -, h⟩ := h
  split at h
  · rw [h.1]; simp
  · exact h.2.1

/-- The levels after `solve` on decision level `dl`. -/
def nextLevels (dl : ℕ) : List ℕ → List ℕ
  | [] => [dl]
  | l :: ls => if l < dl then dl :: l :: ls else l :: ls

theorem nextFrames_levels (dl : ℕ) (lits : List ℤ) (frames : List Frame) :
    (nextFrames dl lits frames).map (·.level) = nextLevels dl (frames.map (·.level)) := by
  cases frames with
  | nil => rfl
  | cons f fs =>
    rw [nextFrames, List.map_cons, nextLevels]
    split <;> rfl

theorem nextLevels_head {dl : ℕ} {L : List ℕ} (h : ∀ l ∈ L, l ≤ dl) : (nextLevels dl L).headD 0 = dl := by
  cases L with
  | nil => rfl
  | cons l ls =>
    rw [nextLevels]
    split
    · rfl
    · have := h l (by simp); simp; omega

theorem WChain.push {E0 : (ℕ → V) → Prop} {L : List ℕ} {w : AView V} {dl b : ℕ} (h : WChain E0 L w) (hg : E0 w.value)
    (hlt : ∀ l ∈ L, l < dl) : WChain E0 (dl :: L) { w with offs := ⟨dl, b, w.atrail.length⟩ :: w.offs } := by
  refine ⟨_, _, rfl, rfl, ?_⟩
  split
  · rename_i hz
    have hnil : L = [] := by
      cases L with
      | nil => rfl
      | cons l ls => have := hlt l (by simp); omega
    subst hnil
    obtain ⟨h1, h3, h4⟩ := h
    exact ⟨rfl, h1, by rw [h3]; rfl, h3, h4⟩
  · rename_i hz
    have hpop : AView.pop { w with offs := ⟨dl, b, w.atrail.length⟩ :: w.offs } = w := by
      unfold AView.pop
      simp only [List.drop_length, List.take_length]
      rfl
    refine ⟨⟨⟨le_refl _, by simp⟩, ?_⟩, hlt, ?_, ?_⟩
    · intro v
      simp only [List.drop_length]
      refine iff_of_false ?_ (by simp)
      intro hv
      rcases h.level_le v with h0 | ⟨h1, -⟩
      · exact hz (hv.symm.trans h0)
      · have := hlt _ h1; omega
    · rw [hpop]; exact hg
    · rw [hpop]; exact h

theorem WChain.vstep {E0 : (ℕ → V) → Prop} {L : List ℕ} {s s' : S V} (h : WChain E0 L s.av) (ho : s'.offs = s.offs)
    (hv : S.VStep (L.headD 0) s s') : WChain E0 L s'.av := by
  cases L with
  | nil =>
    obtain ⟨h1, h3, h4⟩ := h
    obtain ⟨f1, f2⟩ := hv.flat h4
    exact ⟨ho.trans h1, f1.trans h3, fun v => by show s'.level v = 0; rw [f2]; exact h4 v⟩
  | cons l ls =>
    obtain ⟨o, os, hof, hl, h⟩ := h
    have hof' : s.offs = o :: os := hof
    refine ⟨o, os, by show s'.offs = _; rw [ho, hof'], hl, ?_⟩
    simp only [List.headD_cons] at hv
    split
    · rename_i hz
      rw [if_pos hz] at h
      obtain ⟨a1, a2, a3, a4, a5⟩ := h
      obtain ⟨f1, f2⟩ := hv.flat (fun v => by rw [hz]; exact a5 v)
      exact ⟨a1, a2, a3, f1.trans a4, fun v => by show s'.level v = 0; rw [f2]; exact a5 v⟩
    · rename_i hz
      rw [if_neg hz] at h
      obtain ⟨a1, a2, a3, a4⟩ := h
      obtain ⟨v1, v2, v3, v4⟩ := hv.seg o.asg ⟨a1.1.1, a1.2⟩
      have v5 := hv.nd o.asg ⟨a1.1.1, a1.2⟩ a1.1.2
      have hpop : s'.av.pop = s.av.pop := by
        unfold AView.pop S.av
        simp only
        rw [ho, hof']
        simp only
        rw [v2, v3, v4]
      exact ⟨⟨⟨v1.1, v5⟩, v1.2⟩, a2, by rw [hpop]; exact a3, by rw [hpop]; exact a4⟩

/-- `store_sat_assignment`. -/
def AView.store (w : AView V) : AView V := ⟨w.value, fun _ => 0, [], w.offs.map fun o => { o with asg := 0 }⟩

theorem WChain.store {E0 : (ℕ → V) → Prop} : ∀ {L : List ℕ} {w : AView V}, WChain E0 L w → ∀ x, E0 x →
    WChain E0 L { w with value := x }.store := by
  intro L
  induction L with
  | nil =>
    rintro w ⟨h1, h3, h4⟩ x _
    refine ⟨?_, rfl, fun _ => rfl⟩
    unfold AView.store; simp [h1]
  | cons l ls ih =>
    rintro w ⟨o, os, ho, hl, h⟩ x hx
    refine ⟨{ o with asg := 0 }, os.map fun o => { o with asg := 0 }, ?_, hl, ?_⟩
    · unfold AView.store; simp [ho]
    split
    · rename_i hz
      rw [if_pos hz] at h
      obtain ⟨a1, a2, a3, a4, a5⟩ := h
      exact ⟨a1, by rw [a2]; rfl, rfl, rfl, fun _ => rfl⟩
    · rename_i hz
      rw [if_neg hz] at h
      obtain ⟨b2, b3, b4, b5⟩ := h
      have hpop : AView.pop (AView.store { w with value := x }) = AView.store { w.pop with value := x } := by
        unfold AView.pop AView.store
        simp only [ho, List.map_cons]
        simp [restV_nil, restL_nil]
      refine ⟨⟨⟨Nat.zero_le _, by unfold AView.store; simp⟩, fun v => ?_⟩, b3, ?_, ?_⟩
      · refine iff_of_false (fun h => hz h.symm) ?_
        unfold AView.store; simp
      · rw [hpop]; exact hx
      · rw [hpop]; exact ih b5 x hx

theorem WChain.zeroOffs {E0 : (ℕ → V) → Prop} : ∀ {L : List ℕ} {w : AView V},
    WChain E0 L w → S.zeroOffs w.offs = w.offs.map (fun o => { o with asg := 0 }) ∧
      ∀ k, w.atrail.length ≤ k → ∀ o ∈ w.offs, o.asg ≤ k := by
  intro L
  induction L with
  | nil => rintro w ⟨h1, -⟩; rw [h1]; simp [S.zeroOffs]
  | cons l ls ih =>
    rintro w ⟨o, os, ho, hl, h⟩
    rw [ho]
    split at h
    · obtain ⟨a1, a2, a3, -⟩ := h
      subst a2
      refine ⟨?_, ?_⟩
      · simp [S.zeroOffs, a3]; cases o; simp_all
      · intro k _ o' ho'; simp at ho'; subst ho'; omega
    · obtain ⟨hJ, -, -, hc⟩ := h
      obtain ⟨i1, i2⟩ := ih hc
      have hpo : w.pop.offs = os := by unfold AView.pop; rw [ho]
      have hpa : w.pop.atrail = w.atrail.take o.asg := by unfold AView.pop; rw [ho]
      rw [hpo] at i1 i2
      have hle : ∀ o' ∈ os, o'.asg ≤ o.asg := by
        apply i2; rw [hpa]; simp
      refine ⟨?_, ?_⟩
      · unfold S.zeroOffs
        by_cases hz : o.asg > 0
        · rw [if_pos hz, i1]; rfl
        · rw [if_neg hz]
          simp only [List.map_cons, List.cons.injEq]
          have h0 : o.asg = 0 := by omega
          refine ⟨by cases o; simp_all, ?_⟩
          symm
          conv_rhs => rw [← List.map_id os]
          apply List.map_congr_left
          intro o' ho'
          have := hle o' ho'
          cases o'; simp_all
      · intro k hk o' ho'
        have h0 := hJ.1.1
        rcases List.mem_cons.1 ho' with h | h
        · subst h; omega
        · have := hle o' h; omega

namespace S

/-- Entries of the bound trail belong to variables with a bound, and point to bounds of their variable. -/
def TrailVar (s : S V) : Prop := ∀ e ∈ s.btrail, (∃ bd ∈ s.bounds, bd.var = e.1) ∧ ∀ b, e.2.2 = some b → ∃ bd, s.bounds[b]? = some bd ∧ bd.var = e.1

/-- The offsets stay inside the bound trail. -/
def OffB (s : S V) : Prop := s.offs.Pairwise (fun a b => b.bound ≤ a.bound) ∧ ∀ o ∈ s.offs, o.bound ≤ s.btrail.length

/-- Invariant of the solver for any literals; `L` are the levels of the trail offsets. -/
structure WInv (E0 : (ℕ → V) → Prop) (L : List ℕ) (s : S V) : Prop where
  struct : Struct s
  ptr : PtrVar s
  trail : TrailVar s
  offb : OffB s
  eqv : ∀ asg, TabEq s asg ↔ E0 asg
  val : TabEq s s.value
  qi : QI s
  pq : PQ s
  ob : ObjB s
  bvar : ∀ bd ∈ s.bounds, bd.var < s.nvars
  chain : WChain E0 L s.av
  /-- only variables of the solver are on the assignment trail -/
  inr : ∀ e ∈ s.atrail, e.2.1 < s.nvars

theorem WInv.wcore {E0 : (ℕ → V) → Prop} {L : List ℕ} {s : S V} (h : WInv E0 L s) : WCore E0 (fun _ => True) s :=
  ⟨h.struct, h.ptr, h.eqv, h.val, fun _ _ h => absurd trivial h, fun _ _ h => absurd trivial h, h.qi, fun _ _ h => absurd trivial h,
    h.pq, h.ob⟩

theorem WInv.e0 {E0 : (ℕ → V) → Prop} {L : List ℕ} {s : S V} (h : WInv E0 L s) : E0 s.value := (h.eqv _).1 h.val

theorem WInv.topLevel {E0 : (ℕ → V) → Prop} {L : List ℕ} {s : S V} (h : WInv E0 L s) : s.topLevel = L.headD 0 := by
  unfold S.topLevel
  have := h.chain
  cases L with
  | nil => have ho : s.offs = [] := this.1; rw [ho]; rfl
  | cons l ls => obtain ⟨o, os, ho, hl, -⟩ := this; have ho : s.offs = o :: os := ho; rw [ho]; exact hl

/-- Value changes and pivots. -/
theorem WInv.move {E0 : (ℕ → V) → Prop} {L : List ℕ} {s t : S V} (h : WInv E0 L s) (hk : Keep s t) (hv : VStep (L.headD 0) s t)
    (hst : Struct t) (heq : ∀ asg, TabEq t asg ↔ TabEq s asg) (hval : TabEq t t.value) (hqi : QI t) (hpq : PQ t) (hob : ObjB t) :
    WInv E0 L t := by
  refine ⟨hst, hk.ptrVar h.ptr, ?_, ?_, fun asg => by rw [heq, h.eqv], hval, hqi, hpq, hob, ?_, h.chain.vstep hk.offs hv, hv.inr h.inr⟩
  · unfold TrailVar; rw [hk.btrail, hk.bounds]; exact h.trail
  · unfold OffB; rw [hk.btrail, hk.offs]; exact h.offb
  · rw [hk.bounds, hk.nvars]; exact h.bvar

/-! ### asserting bounds -/

/-- What `Variable::update` changes. -/
structure WForm (s s' : S V) : Prop where
  form : ∃ L U B u, s' = { s with lower := L, upper := U, btrail := B, ub := u }
  ptr : PtrVar s'
  trail : TrailVar s'
  len : s.btrail.length ≤ s'.btrail.length

theorem markBackEq_mem : ∀ {l : List (ℕ × BRel × Option ℕ)} {e : ℕ × BRel × Option ℕ}, e ∈ markBackEq l →
    ∃ e' ∈ l, e'.1 = e.1 ∧ e'.2.2 = e.2.2
  | [], e, h => by simp [markBackEq] at h
  | [(v, r, p)], e, h => by
    simp only [markBackEq, List.mem_singleton] at h; subst h; exact ⟨(v, r, p), by simp, rfl, rfl⟩
  | a :: b :: es, e, h => by
    simp only [markBackEq, List.mem_cons] at h
    rcases h with h | h
    · exact ⟨a, by simp, by rw [h], by rw [h]⟩
    · obtain ⟨e', h1, h2⟩ := markBackEq_mem (l := b :: es) h
      exact ⟨e', List.mem_cons_of_mem _ h1, h2⟩

theorem updateUpper_weak {s : S V} (hp : PtrVar s) (ht : TrailVar s) (ctl : Ctl) {b : ℕ} {bd : Bound V} (hb : s.bounds[b]? = some bd) :
    WForm s (updateUpper ctl s b bd).1 ∧ (updateUpper ctl s b bd).2 = (updateUpper ctl s b bd).1.loLeUp bd.var := by
  unfold updateUpper
  simp only
  refine ⟨?_, trivial⟩
  have hup : ∀ v c, Function.update s.upper bd.var (some b) v = some c → ∃ bd, s.bounds[c]? = some bd ∧ bd.var = v := by
    intro v c hc
    by_cases hv : v = bd.var
    · subst hv; rw [Function.update_self] at hc; obtain rfl := Option.some.inj hc; exact ⟨bd, hb, rfl⟩
    · rw [Function.update_of_ne hv] at hc; exact hp.up v c hc
  split
  · split
    · refine ⟨⟨_, _, _, _, rfl⟩, ⟨hup, hp.lo⟩, ?_, by simp⟩
      intro e he
      simp only [List.mem_append, List.mem_singleton] at he
      rcases he with he | rfl
      · exact ht e he
      · exact ⟨⟨bd, List.mem_of_getElem? hb, rfl⟩, fun c hc => hp.up _ c hc⟩
    · exact ⟨⟨_, _, _, _, rfl⟩, ⟨hup, hp.lo⟩, ht, le_refl _⟩
  · exact ⟨⟨_, _, _, _, rfl⟩, hp, ht, le_refl _⟩

theorem updateLower_weak {s : S V} (hp : PtrVar s) (ht : TrailVar s) (ctl : Ctl) {b : ℕ} {bd : Bound V} (hb : s.bounds[b]? = some bd) :
    WForm s (updateLower ctl s b bd).1 ∧ (updateLower ctl s b bd).2 = (updateLower ctl s b bd).1.loLeUp bd.var := by
  unfold updateLower
  simp only
  refine ⟨?_, trivial⟩
  have hlo : ∀ v c, Function.update s.lower bd.var (some b) v = some c → ∃ bd, s.bounds[c]? = some bd ∧ bd.var = v := by
    intro v c hc
    by_cases hv : v = bd.var
    · subst hv; rw [Function.update_self] at hc; obtain rfl := Option.some.inj hc; exact ⟨bd, hb, rfl⟩
    · rw [Function.update_of_ne hv] at hc; exact hp.lo v c hc
  split
  · split
    · split
      · refine ⟨⟨_, _, _, _, rfl⟩, ⟨hp.up, hlo⟩, ?_, by simp⟩
        intro e he
        simp only [List.mem_append, List.mem_singleton] at he
        rcases he with he | rfl
        · exact ht e he
        · exact ⟨⟨bd, List.mem_of_getElem? hb, rfl⟩, fun c hc => hp.lo _ c hc⟩
      · split
        · exact ⟨⟨_, _, _, _, rfl⟩, ⟨hp.up, hlo⟩, ht, le_refl _⟩
        · refine ⟨⟨_, _, _, _, rfl⟩, ⟨hp.up, hlo⟩, ?_, by simp only [markBackEq_length]; exact le_refl _⟩
          intro e he
          obtain ⟨e', h1, h2, h3⟩ := markBackEq_mem he
          rw [← h2, ← h3]; exact ht e' h1
    · exact ⟨⟨_, _, _, _, rfl⟩, ⟨hp.up, hlo⟩, ht, le_refl _⟩
  · exact ⟨⟨_, _, _, _, rfl⟩, hp, ht, le_refl _⟩

theorem WForm.trans {a b c : S V} (h : WForm a b) (k : WForm b c) : WForm a c := by
  refine ⟨?_, k.ptr, k.trail, h.len.trans k.len⟩
  obtain ⟨_, _, _, _, rfl⟩ := h.form
  obtain ⟨_, _, _, _, rfl⟩ := k.form
  exact ⟨_, _, _, _, rfl⟩

theorem WForm.bounds {s t : S V} (h : WForm s t) : t.bounds = s.bounds := by obtain ⟨_, _, _, _, rfl⟩ := h.form; rfl

theorem updateVar_weak {s : S V} (hp : PtrVar s) (ht : TrailVar s) (ctl : Ctl) {b : ℕ} {bd : Bound V} (hb : s.bounds[b]? = some bd) :
    WForm s (updateVar ctl s b bd).1 ∧ (updateVar ctl s b bd).2 = (updateVar ctl s b bd).1.loLeUp bd.var := by
  unfold updateVar
  split
  · exact updateUpper_weak hp ht ctl hb
  · exact updateLower_weak hp ht ctl hb
  · obtain ⟨h1, h2⟩ := updateUpper_weak hp ht ctl hb
    simp only
    split
    · obtain ⟨k1, k2⟩ := updateLower_weak h1.ptr h1.trail ctl (b := b) (bd := bd) (by rw [h1.bounds]; exact hb)
      exact ⟨h1.trans k1, k2⟩
    · exact ⟨h1, h2⟩

theorem WInv.form {E0 : (ℕ → V) → Prop} {L : List ℕ} {s t : S V} (h : WInv E0 L s) (hf : WForm s t) : WInv E0 L t := by
  have h1 := hf.ptr
  have h2 := hf.trail
  have h3 := hf.len
  obtain ⟨_, _, _, _, rfl⟩ := hf.form
  have hs := h.struct
  exact ⟨⟨hs.nv, hs.idx_lt, hs.ridx_lt, hs.ir, hs.ri, hs.wf, hs.shape, hs.low⟩, h1, h2, ⟨h.offb.1, fun o ho => (h.offb.2 o ho).trans h3⟩,
    h.eqv, h.val, ⟨h.qi.qa, h.qi.sorted, h.qi.lt⟩, h.pq, h.ob, h.bvar, h.chain, h.inr⟩

/-- Moving a non-basic variable. -/
theorem WInv.update {E0 : (ℕ → V) → Prop} {L : List ℕ} {s : S V} (h : WInv E0 L s) {j : ℕ} (hj : j < s.n) (x : V) :
    WInv E0 L (s.update (L.headD 0) j x) ∧ Keep s (s.update (L.headD 0) j x) := by
  have hu := update_spec s h.struct (L.headD 0) j hj x
  generalize s.update (L.headD 0) j x = t at *
  have hteq : ∀ asg, TabEq t asg ↔ TabEq s asg := by
    intro asg; unfold TabEq; rw [hu.keep.n, hu.keep.m, hu.index]; simp only [hu.coef]
  exact ⟨h.move hu.keep hu.vstep hu.struct hteq (by rw [hteq]; exact hu.shift.tabEq hj h.val) (hu.qi h.qi) (hu.pq h.pq)
    (h.ob.keep hu.keep hu.rindex), hu.keep⟩

/-- A pivot whose leaving variable has a bound. -/
theorem WInv.pivot {E0 : (ℕ → V) → Prop} {L : List ℕ} {s : S V} (h : WInv E0 L s) {i j : ℕ} (hc : s.tab.coef i j ≠ 0) (x : V)
    {b : V} (hb : s.lo (s.index (i + s.n)) = some b ∨ s.up (s.index (i + s.n)) = some b) :
    WInv E0 L (s.pivot (L.headD 0) i j x) ∧ Keep s (s.pivot (L.headD 0) i j x) := by
  have hp := pivot_spec s h.struct (L.headD 0) i j hc x
  generalize s.pivot (L.headD 0) i j x = t at *
  exact ⟨h.move hp.keep hp.vstep hp.struct hp.tabEq (by rw [hp.tabEq]; exact hp.shift.tabEq (h.struct.shape _ _ hc).2 h.val) (hp.qi h.qi)
    (hp.pq h.pq) (h.ob.pivot hp.keep h.ptr hb hp.rindex), hp.keep⟩

theorem WInv.enqueue {E0 : (ℕ → V) → Prop} {L : List ℕ} {s : S V} (h : WInv E0 L s) {i : ℕ} (hi : i < s.m) :
    WInv E0 L (s.enqueue i) ∧ Keep s (s.enqueue i) := by
  have hs := h.struct
  have hk := enqueue_keep s i
  obtain ⟨e1, e2, e3, e4, e5, e6, e7, -⟩ := enqueue_same s i
  have hqi := enqueue_qi h.qi i (hs.idx_lt _ (by have := hs.nv; omega))
  have hpq := enqueue_pq h.pq hi
  generalize s.enqueue i = t at *
  have hteq : ∀ asg, TabEq t asg ↔ TabEq s asg := by intro asg; unfold TabEq; rw [hk.n, hk.m, e1, e3]
  refine ⟨h.move hk (VStep.of_eq e4 e5 e6 hk.nvars) ?_ hteq (by rw [hteq, e4]; exact h.val) hqi hpq (h.ob.keep hk e2), hk⟩
  exact ⟨by rw [hk.n, hk.m, hk.nvars]; exact hs.nv, by rw [e1, hk.nvars]; exact hs.idx_lt, by rw [e2, hk.nvars]; exact hs.ridx_lt,
    by rw [e1, e2, hk.nvars]; exact hs.ir, by rw [e1, e2, hk.nvars]; exact hs.ri, by rw [e3]; exact hs.wf, by rw [e3, hk.n, hk.m]; exact hs.shape, by rw [e3]; exact hs.low⟩

theorem WForm.stay {s t : S V} (h : WForm s t) : Stay s t := by obtain ⟨_, _, _, _, rfl⟩ := h.form; constructor <;> rfl

theorem updateBound_weak {E0 : (ℕ → V) → Prop} {L : List ℕ} {s : S V} (h : WInv E0 L s) {ctl : Ctl} (hdl : L.headD 0 = ctl.dl)
    {b : ℕ} {bd : Bound V} (hb : s.bounds[b]? = some bd) : WInv E0 L (updateBound ctl s b bd).1 ∧ Stay s (updateBound ctl s b bd).1 := by
  obtain ⟨hf, hok⟩ := updateVar_weak h.ptr h.trail ctl hb
  have ht := h.form hf
  have hst := hf.stay
  unfold updateBound
  simp only
  generalize updateVar ctl s b bd = r at *
  obtain ⟨t, ok⟩ := r
  simp only at hf hok ht hst ⊢
  have hbv : bd.var < t.nvars := by rw [hst.nvars]; exact h.bvar bd (List.mem_of_getElem? hb)
  have hs := ht.struct
  split
  · split
    · refine ⟨⟨⟨hs.nv, hs.idx_lt, hs.ridx_lt, hs.ir, hs.ri, hs.wf, hs.shape, hs.low⟩, ⟨ht.ptr.up, ht.ptr.lo⟩, ht.trail, ht.offb, ht.eqv, ht.val,
        ⟨ht.qi.qa, ht.qi.sorted, ht.qi.lt⟩, ht.pq, ht.ob, ht.bvar, ht.chain, ht.inr⟩, hst.trans ?_⟩
      constructor <;> rfl
    · refine ⟨⟨⟨hs.nv, hs.idx_lt, hs.ridx_lt, hs.ir, hs.ri, hs.wf, hs.shape, hs.low⟩, ⟨ht.ptr.up, ht.ptr.lo⟩, ht.trail, ht.offb, ht.eqv, ht.val,
        ⟨ht.qi.qa, ht.qi.sorted, ht.qi.lt⟩, ht.pq, ht.ob, ht.bvar, ht.chain, ht.inr⟩, hst.trans ?_⟩
      constructor <;> rfl
  · split
    · rename_i hn
      split
      · split
        · obtain ⟨k1, k2⟩ := ht.update hn (by assumption)
          rw [hdl] at k1 k2; exact ⟨k1, hst.trans k2.stay⟩
        · exact ⟨ht, hst⟩
      · split
        · split
          · obtain ⟨k1, k2⟩ := ht.update hn (by assumption)
            rw [hdl] at k1 k2; exact ⟨k1, hst.trans k2.stay⟩
          · exact ⟨ht, hst⟩
        · exact ⟨ht, hst⟩
    · rename_i hn
      obtain ⟨k1, k2⟩ := ht.enqueue (i := t.rindex bd.var - t.n) (by have := hs.ridx_lt _ hbv; have := hs.nv; omega)
      exact ⟨k1, hst.trans k2.stay⟩

theorem updateBounds_weak {E0 : (ℕ → V) → Prop} {L : List ℕ} {ctl : Ctl} (hdl : L.headD 0 = ctl.dl) (bs : List (ℕ × Bound V)) :
    ∀ {s : S V}, WInv E0 L s → (∀ p ∈ bs, s.bounds[p.1]? = some p.2) →
    WInv E0 L (updateBounds ctl bs s).1 ∧ Stay s (updateBounds ctl bs s).1 := by
  induction bs with
  | nil => intro s h _; exact ⟨h, Stay.refl s⟩
  | cons p bs ih =>
    intro s h hb
    obtain ⟨b, bd⟩ := p
    obtain ⟨h1, h2⟩ := updateBound_weak h hdl (hb (b, bd) (by simp))
    unfold updateBounds
    simp only
    split
    · obtain ⟨k1, k2⟩ := ih h1 (fun p hp => by rw [h2.bounds]; exact hb p (by simp [hp]))
      exact ⟨k1, h2.trans k2⟩
    · exact ⟨h1, h2⟩

theorem updateLits_weak {E0 : (ℕ → V) → Prop} {L : List ℕ} {ctl : Ctl} (hdl : L.headD 0 = ctl.dl) (lits : List ℤ) :
    ∀ {s : S V}, WInv E0 L s → WInv E0 L (updateLits ctl lits s).1 ∧ Stay s (updateLits ctl lits s).1 := by
  induction lits with
  | nil => intro s h; exact ⟨h, Stay.refl s⟩
  | cons l ls ih =>
    intro s h
    obtain ⟨h1, h2⟩ := updateBounds_weak hdl (s.boundsOf l) h (fun p hp => (mem_boundsOf.1 hp).1)
    unfold updateLits
    simp only
    split
    · obtain ⟨k1, k2⟩ := ih h1
      exact ⟨k1, h2.trans k2⟩
    · exact ⟨h1, h2⟩

/-! ### the loop -/

theorem select_weak {E0 : (ℕ → V) → Prop} {L : List ℕ} {s : S V} (h : WInv E0 L s) : WInv E0 L s.select.1 ∧ Keep s s.select.1 ∧
    ∀ i j v, s.select.2 = .unknown i j v → s.select.1.tab.coef i j ≠ 0 ∧
      (s.select.1.lo (s.select.1.index (i + s.select.1.n)) = some v ∨ s.select.1.up (s.select.1.index (i + s.select.1.n)) = some v) := by
  have hc := h.wcore
  obtain ⟨hk, hsp⟩ := select_spec s (fun _ => True) hc.struct hc.nb hc.qi hc.qb
  have hqi : QI s.select.1 := by
    cases hr : s.select.2 with
    | sat => rw [hr] at hsp; cases hsp with | sat hw hqi => exact hqi
    | unsat => rw [hr] at hsp; cases hsp with | unsat i lower bnd hv hblk hcl hqi => exact hqi
    | unknown i j v => rw [hr] at hsp; cases hsp with | unknown _ _ lower _ hv hel hmin hqi hqb => exact hqi
  refine ⟨h.move hk.keep (hk.vstep _) (hk.struct h.struct) hk.tabEq (by rw [hk.tabEq, hk.value]; exact h.val) hqi (hk.pq h.pq)
    (h.ob.keep hk.keep hk.rindex), hk.keep, ?_⟩
  intro i j v hr
  rw [hr] at hsp
  cases hsp with
  | unknown _ _ lower _ hv hel hmin hqi hqb =>
    obtain ⟨e, he, rfl, hbl⟩ := hel
    rw [hk.tab, hk.keep.lo, hk.keep.up, hk.index, hk.keep.n]
    refine ⟨(Tableau.mem_rowEntries_fst hc.struct.wf).1 (List.mem_map.2 ⟨e, he, rfl⟩), ?_⟩
    rcases hv.viol with ⟨-, h1, -⟩ | ⟨-, h1, -⟩
    · exact Or.inl h1
    · exact Or.inr h1

theorem WInv.pform {E0 : (ℕ → V) → Prop} {L : List ℕ} {s s' : S V} (h : WInv E0 L s) (hf : ∃ o p q c u, s' = { s with out := o, prop := p, pqueue := q, props := c, ub := u }) (hq : PQ s') :
    WInv E0 L s' := by
  obtain ⟨_, _, _, _, _, rfl⟩ := hf
  have hs := h.struct
  exact ⟨⟨hs.nv, hs.idx_lt, hs.ridx_lt, hs.ir, hs.ri, hs.wf, hs.shape, hs.low⟩, ⟨h.ptr.up, h.ptr.lo⟩, h.trail, h.offb, h.eqv, h.val,
    ⟨h.qi.qa, h.qi.sorted, h.qi.lt⟩, hq, h.ob, h.bvar, h.chain, h.inr⟩

/-- Bound propagation only changes its own data and the clauses. -/
def QForm (s s' : S V) : Prop := ∃ o p q c u, s' = { s with out := o, prop := p, pqueue := q, props := c, ub := u }

theorem QForm.refl (s : S V) : QForm s s := ⟨s.out, s.prop, s.pqueue, s.props, s.ub, rfl⟩
theorem QForm.trans {a b c : S V} (h : QForm a b) (k : QForm b c) : QForm a c := by
  obtain ⟨_, _, _, _, _, rfl⟩ := h
  obtain ⟨_, _, _, _, _, rfl⟩ := k
  exact ⟨_, _, _, _, _, rfl⟩

theorem propBounds_form (ctl : Ctl) (cl : List ℤ) (test : Bound V → Bool) (bs : List ℕ) : ∀ s : S V, QForm s (propBounds ctl cl test bs s).1 := by
  induction bs with
  | nil => intro s; exact QForm.refl s
  | cons b bs ih =>
    intro s
    rw [propBounds]
    split
    · exact ⟨_, _, _, _, _, rfl⟩
    · split
      · simp only
        have h1 : QForm s ({ s.emit (cl ++ [-Bound.lit ‹_›]) with props := (s.emit (cl ++ [-Bound.lit ‹_›])).props + 1 } : S V) := ⟨_, _, _, _, _, rfl⟩
        split
        · exact h1.trans (ih _)
        · exact h1
      · exact ih s

theorem propRow_form (ctl : Ctl) (s : S V) (i : ℕ) : QForm s (propRow ctl s i).1 := by
  have h0 : QForm s ({ s with prop := Function.update s.prop i false } : S V) := ⟨_, _, _, _, _, rfl⟩
  refine h0.trans ?_
  unfold propRow
  generalize ({ s with prop := Function.update s.prop i false } : S V) = s0
  by_cases h1 : (!s0.rowHasUpper i && !s0.rowHasLower i) = true
  · simp only [if_pos h1]; exact QForm.refl _
  · simp only [if_neg h1]
    have key : ∀ r : S V × Bool, QForm s0 r.1 → ∀ f : S V → S V × Bool, (∀ t, QForm t (f t).1) →
        QForm s0 (if (!r.2) = true then r else if s0.rowHasLower i = true then f r.1 else r).1 := by
      intro r hr f hf
      by_cases h2 : (!r.2) = true
      · rw [if_pos h2]; exact hr
      · rw [if_neg h2]
        by_cases h3 : s0.rowHasLower i = true
        · rw [if_pos h3]; exact hr.trans (hf _)
        · rw [if_neg h3]; exact hr
    refine key _ ?_ _ (fun t => propBounds_form _ _ _ _ t)
    by_cases hu : s0.rowHasUpper i = true
    · rw [if_pos hu]; exact propBounds_form _ _ _ _ _
    · rw [if_neg hu]; exact QForm.refl _

theorem propagate_form (ctl : Ctl) (s : S V) : QForm s (s.propagate ctl).1 := by
  have hq : ∀ (is : List ℕ) (s : S V), QForm s (propQueue ctl is s).1 := by
    intro is
    induction is with
    | nil => intro s; exact QForm.refl s
    | cons i is ih =>
      intro s
      rw [propQueue]
      have h0 : QForm s ({ s with pqueue := is } : S V) := ⟨_, _, _, _, _, rfl⟩
      have h1 := h0.trans (propRow_form ctl { s with pqueue := is } i)
      split
      · exact h1.trans (ih _)
      · exact h1
  have hr : ∀ (is : List ℕ) (s : S V), QForm s (propRows ctl is s).1 := by
    intro is
    induction is with
    | nil => intro s; exact QForm.refl s
    | cons i is ih =>
      intro s
      rw [propRows]
      split
      · exact (propRow_form ctl s i).trans (ih _)
      · exact propRow_form ctl s i
  unfold S.propagate
  split
  · exact QForm.refl s
  · exact hq _ _
  · exact hr _ _

theorem QForm.fix {s s' : S V} (h : QForm s s') : Fix s s' := by obtain ⟨_, _, _, _, _, rfl⟩ := h; constructor <;> rfl

theorem WInv.propagate {E0 : (ℕ → V) → Prop} {L : List ℕ} {s : S V} (h : WInv E0 L s) (ctl : Ctl) : WInv E0 L (s.propagate ctl).1 := by
  have hf := propagate_form ctl s
  refine h.pform hf ?_
  intro i hi
  rw [hf.fix.m]; exact propagate_pq ctl s h.pq i hi

theorem WInv.storeSat {E0 : (ℕ → V) → Prop} {L : List ℕ} {s : S V} (h : WInv E0 L s) : WInv E0 L s.storeSat := by
  have hs := h.struct
  have hz := h.chain.zeroOffs.1
  have hz' : S.zeroOffs s.offs = s.offs.map (fun o => { o with asg := 0 }) := hz
  have hv : s.storeSat.av = s.av.store := by
    unfold S.storeSat S.av AView.store
    simp only [AView.mk.injEq, true_and]
    refine ⟨?_, hz⟩
    funext v
    rw [store_level]
    split
    · rfl
    · rename_i hv
      rcases h.chain.level_le v with h0 | ⟨-, h3⟩
      · exact h0
      · exact absurd h3 hv
  refine ⟨⟨hs.nv, hs.idx_lt, hs.ridx_lt, hs.ir, hs.ri, hs.wf, hs.shape, hs.low⟩, ⟨h.ptr.up, h.ptr.lo⟩, h.trail, ?_, h.eqv, h.val,
    ⟨h.qi.qa, h.qi.sorted, h.qi.lt⟩, h.pq, h.ob, h.bvar, ?_, by show ∀ e ∈ [], _; simp⟩
  · refine ⟨?_, ?_⟩
    · show (S.zeroOffs s.offs).Pairwise _
      rw [hz', List.pairwise_map]; exact h.offb.1
    · show ∀ o ∈ S.zeroOffs s.offs, o.bound ≤ s.btrail.length
      rw [hz']
      intro o ho
      obtain ⟨o', h1, rfl⟩ := List.mem_map.1 ho
      exact h.offb.2 o' h1
  · rw [hv]; exact h.chain.store s.value h.e0

theorem solveLoop_weak {E0 : (ℕ → V) → Prop} {L : List ℕ} {ctl : Ctl} (hdl : L.headD 0 = ctl.dl) (fuel : ℕ) : ∀ {s : S V},
    WInv E0 L s → ∀ {r}, solveLoop ctl fuel s = some r → WInv E0 L r.1 ∧ Fix s r.1 := by
  induction fuel with
  | zero => intro s _ r h; simp [solveLoop] at h
  | succ fuel ih =>
    intro s hw r h
    rw [solveLoop] at h
    simp only at h
    obtain ⟨h1, h2, h3⟩ := select_weak hw
    cases hr : s.select.2 with
    | sat =>
      rw [hr] at h
      simp only [Option.some.injEq] at h
      subst h
      split
      · exact ⟨h1.storeSat.propagate ctl, (h2.stay.fix.trans (by constructor <;> rfl)).trans (propagate_form ctl _).fix⟩
      · exact ⟨h1.propagate ctl, h2.stay.fix.trans (propagate_form ctl _).fix⟩
    | unsat =>
      rw [hr] at h
      simp only [Option.some.injEq] at h
      subst h
      exact ⟨h1.pform ⟨_, _, _, _, _, rfl⟩ h1.pq, h2.stay.fix.trans (by constructor <;> rfl)⟩
    | unknown i j v =>
      rw [hr] at h
      simp only at h
      obtain ⟨k1, k2⟩ := h3 i j v hr
      obtain ⟨p1, p2⟩ := h1.pivot k1 v k2
      rw [hdl] at p1 p2
      obtain ⟨q1, q2⟩ := ih p1 h
      exact ⟨q1, (h2.trans p2).stay.fix.trans q2⟩

theorem WInv.pushOff {E0 : (ℕ → V) → Prop} {L : List ℕ} {s : S V} (h : WInv E0 L s) {ctl : Ctl} (hdl : ∀ l ∈ L, l ≤ ctl.dl) :
    WInv E0 (nextLevels ctl.dl L) (s.pushOff ctl) ∧ Fix s (s.pushOff ctl) := by
  have hs := h.struct
  have key : ∀ o, s.pushOff ctl = { s with offs := o } → o.Pairwise (fun a b => b.bound ≤ a.bound) → (∀ x ∈ o, x.bound ≤ s.btrail.length) →
      WChain E0 (nextLevels ctl.dl L) { s.av with offs := o } → WInv E0 (nextLevels ctl.dl L) (s.pushOff ctl) ∧ Fix s (s.pushOff ctl) := by
    intro o he h1 h2 h3
    rw [he]
    exact ⟨⟨⟨hs.nv, hs.idx_lt, hs.ridx_lt, hs.ir, hs.ri, hs.wf, hs.shape, hs.low⟩, ⟨h.ptr.up, h.ptr.lo⟩, h.trail, ⟨h1, h2⟩, h.eqv, h.val,
      ⟨h.qi.qa, h.qi.sorted, h.qi.lt⟩, h.pq, h.ob, h.bvar, h3, h.inr⟩, by constructor <;> rfl⟩
  have hch := h.chain
  cases L with
  | nil =>
    have ho : s.offs = [] := hch.1
    refine key [⟨ctl.dl, s.btrail.length, s.atrail.length⟩] (by unfold S.pushOff; rw [ho]) (by simp) (by simp) ?_
    have := hch.push h.e0 (dl := ctl.dl) (b := s.btrail.length) (by simp)
    have he : s.av.offs = [] := ho
    rw [he] at this
    exact this
  | cons l ls =>
    obtain ⟨o, os, ho, hol, -⟩ := id hch
    have ho' : s.offs = o :: os := ho
    by_cases hlt : l < ctl.dl
    · refine key (⟨ctl.dl, s.btrail.length, s.atrail.length⟩ :: s.offs) ?_ ?_ ?_ ?_
      · unfold S.pushOff; rw [ho']; simp only; rw [if_pos (by rw [hol]; exact hlt)]
      · exact List.pairwise_cons.2 ⟨fun o ho => h.offb.2 o ho, h.offb.1⟩
      · intro x hx
        rcases List.mem_cons.1 hx with rfl | hx
        · exact le_refl _
        · exact h.offb.2 x hx
      · rw [nextLevels, if_pos hlt]
        refine hch.push h.e0 (dl := ctl.dl) (b := s.btrail.length) ?_
        intro l' hl'
        rcases List.mem_cons.1 hl' with rfl | h'
        · exact hlt
        · exact (hch.sorted l' h').trans hlt
    · refine key s.offs ?_ h.offb.1 h.offb.2 ?_
      · unfold S.pushOff; rw [ho']; simp only; rw [if_neg (by rw [hol]; exact hlt), ← ho']
      · rw [nextLevels, if_neg hlt]; exact hch

/-- `solve` keeps the invariant. -/
theorem solve_weak {E0 : (ℕ → V) → Prop} {L : List ℕ} {s : S V} (h : WInv E0 L s) {ctl : Ctl} (hdl : ∀ l ∈ L, l ≤ ctl.dl)
    {fuel : ℕ} {lits : List ℤ} {r : S V × Bool} (hr : solve ctl fuel s lits = some r) :
    WInv E0 (nextLevels ctl.dl L) r.1 ∧ Fix s r.1 := by
  obtain ⟨h1, h2⟩ := h.pushOff hdl
  have hd := nextLevels_head hdl
  obtain ⟨k1, k2⟩ := updateLits_weak hd lits h1
  unfold solve at hr
  simp only at hr
  split at hr
  · obtain ⟨q1, q2⟩ := solveLoop_weak hd fuel k1 hr
    exact ⟨q1, (h2.trans k2.fix).trans q2⟩
  · simp only [Option.some.injEq] at hr
    subst hr
    exact ⟨k1, h2.trans k2.fix⟩

/-- `solve` returns after at most `12 ^ n` pivots. -/
theorem solve_terminates_weak {E0 : (ℕ → V) → Prop} {L : List ℕ} {s : S V} (h : WInv E0 L s) {ctl : Ctl} (hdl : ∀ l ∈ L, l ≤ ctl.dl)
    (lits : List ℤ) : ∃ r, solve ctl (12 ^ s.nvars + 1) s lits = some r := by
  obtain ⟨h1, h2⟩ := h.pushOff hdl
  obtain ⟨k1, k2⟩ := updateLits_weak (nextLevels_head hdl) lits h1
  unfold solve
  simp only
  cases hk : (updateLits ctl lits (s.pushOff ctl)).2
  · exact ⟨_, by simp; rfl⟩
  · simp only [if_true]
    rw [← (h2.trans k2.fix).nvars]
    exact solveLoop_returns k1.wcore ctl

/-! ### undo -/

theorem rest_ptr {α : Type} {seg : List (ℕ × Option α)} {f : ℕ → Option α} {P : ℕ → α → Prop} (hf : ∀ v b, f v = some b → P v b)
    (hs : ∀ e ∈ seg, ∀ b, e.2 = some b → P e.1 b) : ∀ v b, rest seg f v = some b → P v b := by
  induction seg generalizing f with
  | nil => exact hf
  | cons e es ih =>
    rw [rest_cons]
    refine ih ?_ (fun e' he' => hs e' (List.mem_cons_of_mem _ he'))
    intro v b hb
    by_cases hv : v = e.1
    · subst hv; rw [Function.update_self] at hb; exact hs e (by simp) b hb
    · rw [Function.update_of_ne hv] at hb; exact hf v b hb

theorem WInv.undo {E0 : (ℕ → V) → Prop} {l : ℕ} {ls : List ℕ} {s : S V} (h : WInv E0 (l :: ls) s) (hl : l ≠ 0) :
    WInv E0 ls s.undo ∧ Fix s s.undo ∧ s.undo.av = s.av.pop ∧ s.undo.out = s.out ∧ s.undo.ub = s.ub := by
  obtain ⟨o, os, ho, hol, hc⟩ := id h.chain
  rw [if_neg hl] at hc
  obtain ⟨hJ, -, hg, hch⟩ := hc
  have ho' : s.offs = o :: os := ho
  have hbl : o.bound ≤ s.btrail.length := h.offb.2 o (by rw [ho']; simp)
  have hal : o.asg ≤ s.atrail.length := hJ.1.1
  have hund : s.undo = { s with lower := rest (segL (s.btrail.drop o.bound)) s.lower, upper := rest (segU (s.btrail.drop o.bound)) s.upper, btrail := s.btrail.take o.bound, level := s.av.pop.level, value := s.av.pop.value, atrail := s.av.pop.atrail, queued := s.conflicts.foldl (fun f ii => Function.update f ii false) s.queued, conflicts := [], offs := os } := by
    unfold S.undo
    rw [ho']
    simp only
    rw [if_neg (by simp; omega), undo_fold]
    unfold AView.pop S.av
    simp only [ho']
    rfl
  have hav : s.undo.av = s.av.pop := by
    rw [hund]
    unfold AView.pop S.av
    simp only [ho']
  have hs := h.struct
  have hoff := h.offb.1
  rw [ho', List.pairwise_cons] at hoff
  have htr : ∀ e ∈ s.btrail.drop o.bound, ∀ b, e.2.2 = some b → ∃ bd, s.bounds[b]? = some bd ∧ bd.var = e.1 := fun e he =>
    (h.trail e (List.mem_of_mem_drop he)).2
  have hmap : ∀ (q : BRel), ∀ e ∈ ((s.btrail.drop o.bound).filter (fun e => decide (e.2.1 ≠ q))).map (fun e => (e.1, e.2.2)),
      ∀ b, e.2 = some b → ∃ bd, s.bounds[b]? = some bd ∧ bd.var = e.1 := by
    intro q e he b hb
    obtain ⟨e', h1, rfl⟩ := List.mem_map.1 he
    exact htr e' (List.mem_filter.1 h1).1 b hb
  refine ⟨?_, ?_, hav, by rw [hund], by rw [hund]⟩
  · refine ⟨?_, ?_, ?_, ?_, ?_, ?_, ?_, ?_, ?_, ?_, by rw [hav]; exact hch, ?_⟩
    · rw [hund]; exact ⟨hs.nv, hs.idx_lt, hs.ridx_lt, hs.ir, hs.ri, hs.wf, hs.shape, hs.low⟩
    · rw [hund]
      exact ⟨rest_ptr h.ptr.up (hmap .ge), rest_ptr h.ptr.lo (hmap .le)⟩
    · rw [hund]
      intro e he
      exact h.trail e (List.mem_of_mem_take he)
    · rw [hund]
      refine ⟨hoff.2, fun x hx => ?_⟩
      have := hoff.1 x hx
      simp only [List.length_take]; omega
    · intro asg; rw [← h.eqv]; rw [hund]; exact Iff.rfl
    · have : TabEq s s.av.pop.value := (h.eqv _).2 hg
      rw [hund]; exact this
    · rw [hund]
      refine ⟨?_, by simp, by simp⟩
      intro v hv
      simp only at hv
      rw [queued_clear] at hv
      split at hv
      · exact absurd hv (by simp)
      · rename_i hn; exact absurd (h.qi.qa v hv) hn
    · intro i hi; rw [hund] at hi ⊢; exact h.pq i hi
    · rw [hund]; exact h.ob
    · rw [hund]; exact h.bvar
    · rw [hund]
      intro e he
      have hpa : s.av.pop.atrail = s.atrail.take o.asg := by unfold AView.pop; rw [ho]; rfl
      simp only [hpa] at he
      exact h.inr e (List.mem_of_mem_take he)
  · rw [hund]; constructor <;> rfl

/-! ### optimize -/

/-- One iteration of `optimize`, whatever the values are. -/
theorem optStep_weak {E0 : (ℕ → V) → Prop} {L : List ℕ} {s : S V} (h : WInv E0 L s) (ha : s.obj.active = true) :
    (∃ b j, s.optStep = .inl { s with tab := s.tab.compactCol j, obj := { s.obj with bounded := b } }) ∨
    (∃ b, s.optStep = .inl { s with obj := { s.obj with bounded := b } }) ∨
    ∃ t, s.optStep = .inr t ∧ WInv E0 L t ∧ Keep s t := by
  obtain ⟨ho1, ho2, ho3⟩ := h.ob ha
  have hs := h.struct
  have hnv := hs.nv
  unfold optStep
  rw [if_neg (not_lt.2 ho2)]
  simp only
  have hef := enter_fold s (s.tab.rowEntries s.objRow) (fun e he => by
    have := (hs.shape s.objRow e.1 ((Tableau.mem_rowEntries_fst hs.wf).1 (List.mem_map.2 ⟨e, he, rfl⟩))).2
    exact hs.idx_lt _ (by omega))
  rw [show s.selectEnter (s.rindex s.obj.var - s.n) = (s.tab.rowEntries s.objRow).foldl (enterEntry s) (s.nvars, false) from rfl]
  generalize (s.tab.rowEntries s.objRow).foldl (enterEntry s) (s.nvars, false) = en at *
  obtain ⟨ee, pos⟩ := en
  simp only at hef ⊢
  rcases hef with ⟨h1, h2⟩ | ⟨e, he, hee, hpe, hbl, hmin⟩
  · rw [if_pos h1]; exact Or.inr (Or.inl ⟨true, rfl⟩)
  have hcz : s.tab.coef s.objRow e.1 ≠ 0 := (Tableau.mem_rowEntries_fst hs.wf).1 (List.mem_map.2 ⟨e, he, rfl⟩)
  have hj : e.1 < s.n := (hs.shape _ _ hcz).2
  have hri : s.rindex ee = e.1 := by rw [← hee]; exact hs.ri _ (by omega)
  have heelt : ee < s.nvars := by rw [← hee]; exact hs.idx_lt _ (by omega)
  rw [if_neg (by omega), hri]
  have hlf := leave_fold s ee pos (s.tab.colEntries e.1)
  rw [show s.selectLeave ee pos = (s.tab.colEntries (s.rindex ee)).foldl (leaveEntry s ee pos) none from rfl, hri]
  generalize (s.tab.colEntries e.1).foldl (leaveEntry s ee pos) none = lv at *
  set s1 : S V := { s with tab := s.tab.compactCol e.1 } with hs1
  have hst1 : Struct s1 := compact_struct hs _
  have hk1 : Keep s s1 := by constructor <;> rfl
  have hw1 : WInv E0 L s1 := h.move hk1 (VStep.of_eq rfl rfl rfl rfl) hst1 (fun _ => Iff.rfl) h.val ⟨h.qi.qa, h.qi.sorted, h.qi.lt⟩ h.pq (h.ob.keep hk1 rfl)
  rw [show s1.topLevel = L.headD 0 from h.topLevel]
  rcases hlf with ⟨rfl, hnone⟩ | ⟨e', he', c, rfl, hcc, hcmin⟩
  · simp only
    cases hb : (if pos = true then s1.up ee else s1.lo ee) with
    | none => exact Or.inl ⟨false, e.1, rfl⟩
    | some b =>
      obtain ⟨k1, k2⟩ := hw1.update (j := e.1) hj b
      exact Or.inr (Or.inr ⟨_, rfl, k1, hk1.trans k2⟩)
  · simp only
    obtain ⟨q1, q2, q3⟩ := leaveCand_some hs he' hcc
    have hccoef : s.tab.coef e'.1 e.1 ≠ 0 := (Tableau.mem_colEntries_fst hs.wf).1 (List.mem_map.2 ⟨e', he', rfl⟩)
    have him : e'.1 < s.m := (hs.shape _ _ hccoef).1
    have hrl : s1.rindex c.ll - s1.n = e'.1 := by
      show s.rindex c.ll - s.n = _
      rw [q1, hs.ri _ (by omega)]; omega
    rw [hrl]
    obtain ⟨k1, k2⟩ := hw1.pivot (i := e'.1) (j := e.1) hccoef c.bnd (b := c.bnd) (by
      show s.lo (s.index (e'.1 + s.n)) = _ ∨ s.up (s.index (e'.1 + s.n)) = _
      by_cases h0 : 0 < sg pos * s.tab.coef e'.1 e.1
      · rw [if_pos h0] at q3; exact Or.inr q3
      · rw [if_neg h0] at q3; exact Or.inl q3)
    exact Or.inr (Or.inr ⟨_, rfl, k1, hk1.trans k2⟩)

/-- Changing the flags of the objective, compacting a column. -/
theorem WInv.setObj {E0 : (ℕ → V) → Prop} {L : List ℕ} {s : S V} (h : WInv E0 L s) {o : Obj} (ha : o.active = s.obj.active) (hv : o.var = s.obj.var) :
    WInv E0 L { s with obj := o } := by
  have hs := h.struct
  refine ⟨⟨hs.nv, hs.idx_lt, hs.ridx_lt, hs.ir, hs.ri, hs.wf, hs.shape, hs.low⟩, ⟨h.ptr.up, h.ptr.lo⟩, h.trail, h.offb, h.eqv, h.val,
    ⟨h.qi.qa, h.qi.sorted, h.qi.lt⟩, h.pq, ?_, h.bvar, h.chain, h.inr⟩
  unfold ObjB
  show o.active = true → _
  rw [ha, show ({ s with obj := o } : S V).obj.var = s.obj.var from hv]
  exact h.ob

theorem WInv.compact {E0 : (ℕ → V) → Prop} {L : List ℕ} {s : S V} (h : WInv E0 L s) (j : ℕ) : WInv E0 L { s with tab := s.tab.compactCol j } := by
  have hk1 : Keep s { s with tab := s.tab.compactCol j } := by constructor <;> rfl
  exact h.move hk1 (VStep.of_eq rfl rfl rfl rfl) (compact_struct h.struct j) (fun _ => Iff.rfl) h.val ⟨h.qi.qa, h.qi.sorted, h.qi.lt⟩ h.pq (h.ob.keep hk1 rfl)

/-- What `optimize` does not change. -/
structure OFix (s s' : S V) : Prop where
  opts : s'.opts = s.opts
  bounds : s'.bounds = s.bounds
  nvars : s'.nvars = s.nvars
  vbounds : s'.vbounds = s.vbounds
  n : s'.n = s.n
  m : s'.m = s.m
  obj : ∃ b, s'.obj = { s.obj with bounded := b }
  out : s'.out = s.out
  ub : s'.ub = s.ub
  lower : s'.lower = s.lower
  upper : s'.upper = s.upper
  btrail : s'.btrail = s.btrail
  offs : s'.offs = s.offs

theorem OFix.refl (s : S V) : OFix s s := ⟨rfl, rfl, rfl, rfl, rfl, rfl, ⟨s.obj.bounded, rfl⟩, rfl, rfl, rfl, rfl, rfl, rfl⟩

theorem Keep.ofix {s t : S V} (h : Keep s t) : OFix s t :=
  ⟨h.opts, h.bounds, h.nvars, h.vbounds, h.n, h.m, ⟨s.obj.bounded, by rw [h.obj]⟩, h.out, h.ub, h.lower, h.upper, h.btrail, h.offs⟩

theorem OFix.trans {a b c : S V} (h : OFix a b) (k : OFix b c) : OFix a c := by
  obtain ⟨x, hx⟩ := h.obj
  obtain ⟨y, hy⟩ := k.obj
  exact ⟨k.opts.trans h.opts, k.bounds.trans h.bounds, k.nvars.trans h.nvars, k.vbounds.trans h.vbounds, k.n.trans h.n, k.m.trans h.m,
    ⟨y, by rw [hy, hx]⟩, k.out.trans h.out, k.ub.trans h.ub, k.lower.trans h.lower, k.upper.trans h.upper, k.btrail.trans h.btrail, k.offs.trans h.offs⟩

theorem optLoop_weak {E0 : (ℕ → V) → Prop} {L : List ℕ} (fuel : ℕ) : ∀ {s : S V}, WInv E0 L s → s.obj.active = true → ∀ {t},
    optLoop fuel s = some t → WInv E0 L t ∧ OFix s t := by
  induction fuel with
  | zero => intro s _ _ t h; simp [optLoop] at h
  | succ fuel ih =>
    intro s hw ha t h
    rw [optLoop] at h
    rcases optStep_weak hw ha with ⟨b, j, he⟩ | ⟨b, he⟩ | ⟨t', he, h1, h2⟩
    · rw [he] at h
      simp only [Option.some.injEq] at h
      subst h
      refine ⟨(hw.compact j).setObj (o := { s.obj with bounded := b }) rfl rfl, ?_⟩
      exact ⟨rfl, rfl, rfl, rfl, rfl, rfl, ⟨b, rfl⟩, rfl, rfl, rfl, rfl, rfl, rfl⟩
    · rw [he] at h
      simp only [Option.some.injEq] at h
      subst h
      refine ⟨hw.setObj (o := { s.obj with bounded := b }) rfl rfl, ?_⟩
      exact ⟨rfl, rfl, rfl, rfl, rfl, rfl, ⟨b, rfl⟩, rfl, rfl, rfl, rfl, rfl, rfl⟩
    · rw [he] at h
      obtain ⟨k1, k2⟩ := ih h1 (by rw [h2.obj]; exact ha) h
      exact ⟨k1, h2.ofix.trans k2⟩

theorem optimize_weak {E0 : (ℕ → V) → Prop} {L : List ℕ} {s : S V} (h : WInv E0 L s) {fuel : ℕ} {t : S V} (ht : optimize fuel s = some t) :
    WInv E0 L t ∧ OFix s t := by
  unfold optimize at ht
  split at ht
  · rename_i ha; exact optLoop_weak fuel h ha ht
  · obtain rfl := Option.some.inj ht; exact ⟨h, OFix.refl _⟩

/-- Adding a cut. -/
theorem WInv.assertBound {E0 : (ℕ → V) → Prop} {L : List ℕ} {s : S V} (h : WInv E0 L s) (ctl : Ctl) (x : V)
    (hlt : s.obj.boundVar < s.nvars) (hne : s.obj.boundVar ≠ s.obj.var) : WInv E0 L (S.assertBound ctl s x).1 := by
  have hs := h.struct
  have hget : ∀ {b : ℕ} {bd : Bound V} {l : List (Bound V)}, s.bounds[b]? = some bd → (s.bounds ++ l)[b]? = some bd := by
    intro b bd l hb
    rw [List.getElem?_append_left (List.getElem?_eq_some_iff.1 hb).1]; exact hb
  have hptr : ∀ {l : List (Bound V)} {b v : ℕ}, (∃ bd, s.bounds[b]? = some bd ∧ bd.var = v) → ∃ bd, (s.bounds ++ l)[b]? = some bd ∧ bd.var = v := by
    rintro l b v ⟨bd, h1, h2⟩; exact ⟨bd, hget h1, h2⟩
  unfold S.assertBound
  simp only [emit]
  refine ⟨⟨hs.nv, hs.idx_lt, hs.ridx_lt, hs.ir, hs.ri, hs.wf, hs.shape, hs.low⟩, ⟨fun v b hb => hptr (h.ptr.up v b hb), fun v b hb => hptr (h.ptr.lo v b hb)⟩,
    fun e he => ⟨(h.trail e he).1.imp fun _ h => ⟨List.mem_append_left _ h.1, h.2⟩, fun b hb => hptr ((h.trail e he).2 b hb)⟩, h.offb, h.eqv, h.val, ⟨h.qi.qa, h.qi.sorted, h.qi.lt⟩, h.pq, ?_, ?_, h.chain, h.inr⟩
  · intro ha
    obtain ⟨h1, h2, h3⟩ := h.ob ha
    refine ⟨h1, h2, ?_⟩
    intro bd hbd
    rcases List.mem_append.1 hbd with hbd | hbd
    · exact h3 bd hbd
    · rw [List.mem_singleton.1 hbd]; exact hne
  · intro bd hbd
    rcases List.mem_append.1 hbd with hbd | hbd
    · exact h.bvar bd hbd
    · rw [List.mem_singleton.1 hbd]; exact hlt

/-- The strong invariant implies the weak one. -/
theorem SInv.weak0 [Hon] {E0 : (ℕ → V) → Prop} {s : S V} (h : SInv E0 [] s) : WInv E0 [] s := by
  have hc := h.core
  obtain ⟨h1, h2, h3, h4⟩ := h.chain
  have h1 : s.offs = [] := h1
  have h2 : s.btrail = [] := h2
  refine ⟨hc.struct, hc.ptr, ?_, ?_, hc.eqv, hc.val, hc.qi, hc.pq, hc.ob, h.bvar, ⟨h1, h3, h4⟩, by have h3 : s.atrail = [] := h3; rw [h3]; simp⟩
  · unfold TrailVar; rw [h2]; simp
  · unfold OffB; rw [h1]; simp

end S
end Lpx
