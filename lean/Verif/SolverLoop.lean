import Verif.SolverSelect
import Mathlib.Data.Fintype.Pigeonhole
import Mathlib.Data.Fintype.BigOperators
import Mathlib.Data.Fintype.Pi

/-! # The loop of `solve`: invariants and termination -/

set_option linter.unusedSectionVars false

namespace Lpx
open Finset

namespace S
variable {V : Type} [LpValue V]

/-- The objective variable is basic and has no bounds. -/
def ObjB (s : S V) : Prop := s.obj.active = true →
  s.obj.var < s.nvars ∧ s.n ≤ s.rindex s.obj.var ∧ ∀ bd ∈ s.bounds, bd.var ≠ s.obj.var

theorem ObjB.keep {s s' : S V} (h : ObjB s) (hk : Keep s s') (hr : s'.rindex = s.rindex) : ObjB s' := by
  unfold ObjB; rw [hk.obj, hk.nvars, hk.n, hr, hk.bounds]; exact h

/-- Bound pointers point to bounds of the right variable. -/
structure PtrVar (s : S V) : Prop where
  up : ∀ v b, s.upper v = some b → ∃ bd, s.bounds[b]? = some bd ∧ bd.var = v
  lo : ∀ v b, s.lower v = some b → ∃ bd, s.bounds[b]? = some bd ∧ bd.var = v

theorem PtrOK.var {s : S V} (h : PtrOK s) : PtrVar s :=
  ⟨fun v b hb => let ⟨bd, h1, h2, _⟩ := h.up v b hb; ⟨bd, h1, h2⟩,
   fun v b hb => let ⟨bd, h1, h2, _⟩ := h.lo v b hb; ⟨bd, h1, h2⟩⟩

theorem Keep.ptrVar {s s' : S V} (h : Keep s s') (hp : PtrVar s) : PtrVar s' := by
  constructor
  · rw [h.upper, h.bounds]; exact hp.up
  · rw [h.lower, h.bounds]; exact hp.lo

/-- Pivoting a variable with a bound. -/
theorem ObjB.pivot {s s' : S V} (h : ObjB s) (hk : Keep s s') (hp : PtrVar s) {i j : ℕ} {b : V}
    (hb : s.lo (s.index (i + s.n)) = some b ∨ s.up (s.index (i + s.n)) = some b)
    (hr : s'.rindex = Function.update (Function.update s.rindex (s.index (i + s.n)) j) (s.index j) (i + s.n)) : ObjB s' := by
  intro ha
  rw [hk.obj] at ha ⊢
  obtain ⟨h1, h2, h3⟩ := h ha
  refine ⟨by rw [hk.nvars]; exact h1, ?_, by rw [hk.bounds]; exact h3⟩
  have hne : s.obj.var ≠ s.index (i + s.n) := by
    intro he
    rcases hb with hb | hb
    · obtain ⟨c, bd, l1, l2, -⟩ := lo_some hb
      obtain ⟨bd', g1, g2⟩ := hp.lo _ _ l1
      exact h3 bd' (List.mem_of_getElem? g1) (g2.trans he.symm)
    · obtain ⟨c, bd, l1, l2, -⟩ := up_some hb
      obtain ⟨bd', g1, g2⟩ := hp.up _ _ l1
      exact h3 bd' (List.mem_of_getElem? g1) (g2.trans he.symm)
  rw [hr, hk.n]
  by_cases hj : s.obj.var = s.index j
  · rw [hj, Function.update_self]; omega
  · rw [Function.update_of_ne hj, Function.update_of_ne hne]; exact h2

/-- Invariant of the solver while solving, whatever the bounds are. Nothing is required of the variables in `ex`: they
    may be outside of their bounds although they are non-basic, or basic and not queued. -/
structure WCore (E0 : (ℕ → V) → Prop) (ex : ℕ → Prop) (s : S V) : Prop where
  struct : Struct s
  ptr : PtrVar s
  eqv : ∀ asg, TabEq s asg ↔ E0 asg
  val : TabEq s s.value
  nb : ∀ l, l < s.n → ¬ ex (s.index l) → s.Win (s.index l)
  lu : ∀ v, v < s.nvars → ¬ ex v → s.loLeUp v = true
  qi : QI s
  qb : QB s ex
  pq : PQ s
  ob : ObjB s

/-- Invariant of the solver while solving. -/
structure Core (E0 : (ℕ → V) → Prop) (s : S V) : Prop where
  struct : Struct s
  ptr : PtrVar s
  eqv : ∀ asg, TabEq s asg ↔ E0 asg
  val : TabEq s s.value
  nb : ∀ l, l < s.n → s.Win (s.index l)
  lu : ∀ v, v < s.nvars → s.loLeUp v = true
  qi : QI s
  qb : QB s (fun _ => False)
  pq : PQ s
  ob : ObjB s

theorem Core.weak {E0 : (ℕ → V) → Prop} {s : S V} (h : Core E0 s) : WCore E0 (fun _ => False) s :=
  ⟨h.struct, h.ptr, h.eqv, h.val, fun l hl _ => h.nb l hl, fun v hv _ => h.lu v hv, h.qi, h.qb, h.pq, h.ob⟩

theorem WCore.core {E0 : (ℕ → V) → Prop} {s : S V} {ex : ℕ → Prop} (h : WCore E0 ex s) (he : ∀ v, ¬ ex v) : Core E0 s :=
  ⟨h.struct, h.ptr, h.eqv, h.val, fun l hl => h.nb l hl (he _), fun v hv => h.lu v hv (he _), h.qi,
    fun u hu _ hw => h.qb u hu (he u) hw, h.pq, h.ob⟩

theorem loLeUp_iff (s : S V) (v : ℕ) : s.loLeUp v = true ↔ ∀ l u, s.lo v = some l → s.up v = some u → l ≤ u := by
  unfold loLeUp
  cases s.lo v <;> cases s.up v <;> simp

theorem Keep.ptr {s s' : S V} (h : Keep s s') (hp : PtrOK s) : PtrOK s' := by
  constructor
  · rw [h.upper, h.bounds]; exact hp.up
  · rw [h.lower, h.bounds]; exact hp.lo

theorem Keep.loLeUp {s s' : S V} (h : Keep s s') (v : ℕ) : s'.loLeUp v = s.loLeUp v := by
  unfold S.loLeUp; rw [h.lo, h.up]

theorem SelKeep.pq {s s' : S V} (h : SelKeep s s') (hp : PQ s) : PQ s' := by
  intro i hi; rw [h.pqueue] at hi; rw [h.keep.m]; exact hp i hi

theorem SelKeep.vstep {s s' : S V} (h : SelKeep s s') (lvl : ℕ) : VStep lvl s s' := VStep.of_eq h.value h.level h.atrail h.keep.nvars

/-- One iteration of the loop of `solve` that pivots. -/
structure StepData (lvl : ℕ) (ex : ℕ → Prop) (s s' : S V) (i j : ℕ) (lower : Bool) (bnd : V) : Prop where
  viol : Violated s ex i lower bnd
  elig : ∃ e ∈ s.tab.rowEntries i, e.1 = j ∧ s.entBlocked lower e = false
  min : ∀ e ∈ s.tab.rowEntries i, s.index e.1 < s.index j → s.entBlocked lower e = true
  keep : Keep s s'
  index : s'.index = Function.update (Function.update s.index (i + s.n) (s.index j)) j (s.index (i + s.n))
  rindex : s'.rindex = Function.update (Function.update s.rindex (s.index (i + s.n)) j) (s.index j) (i + s.n)
  vstep : VStep lvl s s'
  shift : Shift s s'.value j ((1 / s.tab.coef i j) • (bnd - s.value (s.index (i + s.n))))
  coef : s.tab.coef i j ≠ 0
  pivots : s'.pivots = s.pivots + 1

/-- The variables without promise after the variable `x` left the basis. -/
def exNext (s : S V) (ex : ℕ → Prop) (x v : ℕ) : Prop := ex v ∧ ¬ (v = x ∧ s.loLeUp x = true)

theorem step_wcore {E0 : (ℕ → V) → Prop} {ex : ℕ → Prop} {s : S V} (hc : WCore E0 ex s) (lvl : ℕ) {i j : ℕ} {bnd : V}
    (hsel : s.select.2 = .unknown i j bnd) :
    WCore E0 (s.exNext ex (s.index (i + s.n))) (s.select.1.pivot lvl i j bnd) ∧
      ∃ lower, StepData lvl ex s (s.select.1.pivot lvl i j bnd) i j lower bnd := by
  obtain ⟨hk, hsp⟩ := select_spec s ex hc.struct hc.nb hc.qi hc.qb
  generalize hs1 : s.select.1 = s1 at *
  rw [hsel] at hsp
  cases hsp with
  | unknown _ _ lower _ hv hel hmin hqi hqb =>
    obtain ⟨e, he, rfl, hbl⟩ := hel
    have hcoef : s.tab.coef i e.1 ≠ 0 := (Tableau.mem_rowEntries_fst hc.struct.wf).1 (List.mem_map.2 ⟨e, he, rfl⟩)
    have hst1 := hk.struct hc.struct
    have hp := pivot_spec s1 hst1 lvl i e.1 (by rw [hk.tab]; exact hcoef) bnd
    generalize hs2 : s1.pivot lvl i e.1 bnd = s2 at *
    have hkeep := hk.keep.trans hp.keep
    have hnv := hc.struct.nv
    have hlt := (hc.struct.shape _ _ hcoef)
    have hsh : Shift s s2.value e.1 ((1 / s.tab.coef i e.1) • (bnd - s.value (s.index (i + s.n)))) := by
      have h1 := hp.shift
      constructor
      · intro l hl
        have := h1.nb l (by rw [hk.keep.n]; exact hl)
        rw [hk.index, hk.value, hk.tab, hk.keep.n] at this
        exact this
      · intro k hkm
        have := h1.b k (by rw [hk.keep.m]; exact hkm)
        rw [hk.index, hk.value, hk.tab, hk.keep.n] at this
        exact this
    have hvi : s2.value (s.index (i + s.n)) = bnd := by
      rw [hsh.b i hlt.1, smul_smul, mul_one_div_cancel hcoef, one_smul]; abel
    have hlx : ¬ s.exNext ex (s.index (i + s.n)) (s.index (i + s.n)) → s.loLeUp (s.index (i + s.n)) = true := by
      intro hx
      by_cases he : ex (s.index (i + s.n))
      · by_contra hl; exact hx ⟨he, fun h => hl h.2⟩
      · exact hc.lu _ (hc.struct.idx_lt _ (by omega)) he
    have hexne : ∀ u, u ≠ s.index (i + s.n) → ¬ s.exNext ex (s.index (i + s.n)) u → ¬ ex u := by
      intro u hu hx he; exact hx ⟨he, fun h => hu h.1⟩
    have hwi : ¬ s.exNext ex (s.index (i + s.n)) (s.index (i + s.n)) → s2.Win (s.index (i + s.n)) := by
      intro hx
      unfold Win; rw [hkeep.lo, hkeep.up, hvi]
      have hlu := (loLeUp_iff s _).1 (hlx hx)
      rcases hv.viol with ⟨-, h1, -⟩ | ⟨-, h1, -⟩
      · exact ⟨fun b hb => by rw [h1] at hb; simp at hb; exact hb.symm.le, fun b hb => hlu _ _ h1 hb⟩
      · exact ⟨fun b hb => hlu _ _ hb h1, fun b hb => by rw [h1] at hb; simp at hb; exact hb.le⟩
    have hidx : s2.index = Function.update (Function.update s.index (i + s.n) (s.index e.1)) e.1 (s.index (i + s.n)) := by
      rw [hp.index, hk.index, hk.keep.n]
    refine ⟨⟨hp.struct, hkeep.ptrVar hc.ptr, ?_, ?_, ?_, ?_, hp.qi hqi, ?_, hp.pq (hk.pq hc.pq), ?_⟩, lower, ⟨hv, ⟨e, he, rfl, hbl⟩, hmin, hkeep, hidx, ?_, ?_, hsh, hcoef, ?_⟩⟩
    · intro asg; rw [hp.tabEq, hk.tabEq, hc.eqv]
    · rw [hp.tabEq, hk.tabEq]
      exact hsh.tabEq hlt.2 hc.val
    · intro l hl
      rw [hkeep.n] at hl
      rw [hidx]
      by_cases hlj : l = e.1
      · subst hlj; rw [Function.update_self]; exact hwi
      · rw [Function.update_of_ne hlj, Function.update_of_ne (by omega), win_congr hkeep]
        · intro hx
          refine hc.nb l hl (hexne _ ?_ hx)
          intro h; have := index_inj hc.struct (by omega) (by omega) h; omega
        · rw [hsh.nb l hl, if_neg hlj, add_zero]
    · intro v hv hx; rw [hkeep.loLeUp]
      by_cases hvi : v = s.index (i + s.n)
      · subst hvi; exact hlx hx
      · exact hc.lu v (by rw [← hkeep.nvars]; exact hv) (hexne v hvi hx)
    · apply hp.qb _ hqi
      · intro u hu hx hw
        rw [hk.index, hk.keep.n] at hx
        simp only [not_or] at hx
        exact hqb u hu (hexne u hx.2 hx.1) hw
      · rw [hk.index, hk.keep.n]; exact hwi
    · refine hc.ob.pivot hkeep hc.ptr (i := i) (j := e.1) (b := bnd) ?_ ?_
      · rcases hv.viol with ⟨-, h1, -⟩ | ⟨-, h1, -⟩
        · exact Or.inl h1
        · exact Or.inr h1
      · rw [hp.rindex, hk.rindex, hk.index, hk.keep.n]
    · rw [hp.rindex, hk.rindex, hk.index, hk.keep.n]
    · exact (hk.vstep lvl).trans hp.vstep
    · rw [hp.pivots, hk.pivots]

theorem step_core {E0 : (ℕ → V) → Prop} {s : S V} (hc : Core E0 s) (lvl : ℕ) {i j : ℕ} {bnd : V}
    (hsel : s.select.2 = .unknown i j bnd) :
    Core E0 (s.select.1.pivot lvl i j bnd) ∧ ∃ lower, StepData lvl (fun _ => False) s (s.select.1.pivot lvl i j bnd) i j lower bnd := by
  obtain ⟨h1, lower, h2⟩ := step_wcore hc.weak lvl hsel
  exact ⟨h1.core (fun v h => h.1), lower, h2⟩

/-- Sums over the non-basic columns as sums over all variables. -/
theorem sum_nb {s : S V} (hs : Struct s) (c : ℕ → ℚ) (x : ℕ → V) :
    ∑ l ∈ range s.n, c l • x (s.index l) =
      ∑ v ∈ range s.nvars, (if s.rindex v < s.n then c (s.rindex v) else 0) • x v := by
  have hnv := hs.nv
  have : ∑ v ∈ range s.nvars, (if s.rindex v < s.n then c (s.rindex v) else 0) • x v =
      ∑ v ∈ (range s.nvars).filter (fun v => s.rindex v < s.n), c (s.rindex v) • x v := by
    rw [sum_filter]
    apply sum_congr rfl
    intro v _
    split <;> simp
  rw [this]
  apply sum_bij' (fun l _ => s.index l) (fun v _ => s.rindex v)
  · intro l hl
    have := mem_range.1 hl
    rw [mem_filter, mem_range]
    exact ⟨hs.idx_lt l (by omega), by rw [hs.ri l (by omega)]; exact this⟩
  · intro v hv; rw [mem_filter] at hv; exact mem_range.2 hv.2
  · intro l hl; have := mem_range.1 hl; exact hs.ri l (by omega)
  · intro v hv; rw [mem_filter, mem_range] at hv; exact hs.ir v hv.1
  · intro l hl; have := mem_range.1 hl; rw [hs.ri l (by omega)]

/-- One iteration. -/
def iterStep (lvl : ℕ) (s : S V) : S V :=
  match s.select.2 with
  | .unknown i j v => s.select.1.pivot lvl i j v
  | _ => s

/-- Where the value of a variable comes from. -/
noncomputable def origin (x : V) (lo up : Option V) (y : V) : Fin 3 :=
  open Classical in if y = x then 0 else if lo = some y then 1 else 2

theorem origin_inj {x y z : V} {lo up : Option V} (hy : y = x ∨ lo = some y ∨ up = some y) (hz : z = x ∨ lo = some z ∨ up = some z)
    (h : origin x lo up y = origin x lo up z) : y = z := by
  unfold origin at h
  by_cases y1 : y = x <;> by_cases z1 : z = x
  · rw [y1, z1]
  · rw [if_pos y1, if_neg z1] at h; split at h <;> simp at h
  · rw [if_neg y1, if_pos z1] at h; split at h <;> simp at h
  · rw [if_neg y1, if_neg z1] at h
    by_cases y2 : lo = some y <;> by_cases z2 : lo = some z
    · rw [y2] at z2; exact Option.some.inj z2
    · rw [if_pos y2, if_neg z2] at h; simp at h
    · rw [if_neg y2, if_pos z2] at h; simp at h
    · have hy' := (hy.resolve_left y1).resolve_left y2
      have hz' := (hz.resolve_left z1).resolve_left z2
      rw [hy'] at hz'; exact Option.some.inj hz'

/-- `solve` terminates: some iterate is not `unknown`, after a number of pivots that is exponential in the number of variables. -/
theorem loop_terminates {E0 : (ℕ → V) → Prop} {ex : ℕ → Prop} {s : S V} (hc : WCore E0 ex s) (lvl : ℕ) :
    ∃ t, t ≤ 12 ^ s.nvars ∧ ∀ i j v, ((iterStep lvl)^[t] s).select.2 ≠ .unknown i j v := by
  by_contra hcon
  push Not at hcon
  set K := 12 ^ s.nvars with hK
  set st : ℕ → S V := fun t => (iterStep lvl)^[t] s with hst
  have hst1 : ∀ t, st (t + 1) = iterStep lvl (st t) := fun t => Function.iterate_succ_apply' _ _ _
  have hcon' : ∀ t, ∃ i j v, t ≤ K → (st t).select.2 = .unknown i j v := by
    intro t
    by_cases ht : t ≤ K
    · obtain ⟨i, j, v, h⟩ := hcon t ht; exact ⟨i, j, v, fun _ => h⟩
    · exact ⟨0, 0, 0, fun h => absurd h ht⟩
  choose I J B hIJ using hcon'
  set exs : ℕ → ℕ → Prop := fun t => Nat.rec ex (fun t e => (st t).exNext e ((st t).index (I t + (st t).n))) t with hexs
  have hexs1 : ∀ t, exs (t + 1) = (st t).exNext (exs t) ((st t).index (I t + (st t).n)) := fun t => rfl
  have hcore : ∀ t, t ≤ K → WCore E0 (exs t) (st t) := by
    intro t
    induction t with
    | zero => intro _; exact hc
    | succ t ih =>
      intro ht
      rw [hst1, hexs1]; unfold iterStep
      have h := hIJ t (by omega)
      rw [h]
      exact (step_wcore (ih (by omega)) lvl h).1
  have hdata : ∀ t, ∃ lower, t < K → StepData lvl (exs t) (st t) (st (t + 1)) (I t) (J t) lower (B t) := by
    intro t
    by_cases ht : t < K
    · have h := hIJ t (by omega)
      obtain ⟨lower, hl⟩ := (step_wcore (hcore t (by omega)) lvl h).2
      refine ⟨lower, fun _ => ?_⟩
      rw [hst1]; unfold iterStep; rw [h]; exact hl
    · exact ⟨true, fun h => absurd h ht⟩
  choose Lw hD using hdata
  have hkeep : ∀ t, t ≤ K → Keep s (st t) := by
    intro t
    induction t with
    | zero => intro _; exact Keep.refl s
    | succ t ih => intro ht; exact (ih (by omega)).trans (hD t (by omega)).keep
  have hn : ∀ t, t ≤ K → (st t).n = s.n := fun t ht => (hkeep t ht).n
  have hm : ∀ t, t ≤ K → (st t).m = s.m := fun t ht => (hkeep t ht).m
  have hN : ∀ t, t ≤ K → (st t).nvars = s.nvars := fun t ht => (hkeep t ht).nvars
  have hnv := hc.struct.nv
  have hIlt : ∀ t, t < K → I t < s.m := fun t ht => by have := (hD t ht).viol.lt; rwa [hm t ht.le] at this
  have hJlt : ∀ t, t < K → J t < s.n := fun t ht => by
    have := ((hcore t ht.le).struct.shape _ _ (hD t ht).coef).2; rwa [hn t ht.le] at this
  set lv : ℕ → ℕ := fun t => (st t).index (I t + s.n) with hlv
  set en : ℕ → ℕ := fun t => (st t).index (J t) with hen
  have hlvN : ∀ t, t < K → lv t < s.nvars := fun t ht => by
    have := (hcore t ht.le).struct.idx_lt (I t + s.n) (by rw [hN t ht.le]; have := hIlt t ht; omega)
    rwa [hN t ht.le] at this
  have henN : ∀ t, t < K → en t < s.nvars := fun t ht => by
    have := (hcore t ht.le).struct.idx_lt (J t) (by rw [hN t ht.le]; have := hJlt t ht; omega)
    rwa [hN t ht.le] at this
  have hrl : ∀ t, t < K → (st t).rindex (lv t) = I t + s.n := fun t ht =>
    (hcore t ht.le).struct.ri _ (by rw [hN t ht.le]; have := hIlt t ht; omega)
  have hre : ∀ t, t < K → (st t).rindex (en t) = J t := fun t ht =>
    (hcore t ht.le).struct.ri _ (by rw [hN t ht.le]; have := hJlt t ht; omega)
  have hval1 : ∀ t, t < K → (st (t + 1)).value (lv t) = B t := by
    intro t ht
    have := (hD t ht).shift.b (I t) (by rw [hm t ht.le]; exact hIlt t ht)
    rw [smul_smul, mul_one_div_cancel (hD t ht).coef, one_smul, hn t ht.le] at this
    rw [hlv]; simp only; rw [this]; abel
  set nb : ℕ → ℕ → Prop := fun t v => v < s.nvars ∧ (st t).rindex v < s.n with hnbdef
  have hnb : ∀ t, t < K → ∀ v, nb (t + 1) v ↔ (nb t v ∧ v ≠ en t) ∨ v = lv t := by
    intro t ht v
    have hr := (hD t ht).rindex
    rw [hn t ht.le] at hr
    show _ ∧ (st (t + 1)).rindex v < s.n ↔ (((_ ∧ _) ∧ _) ∨ _)
    rw [hr]
    show _ ∧ Function.update (Function.update (st t).rindex (lv t) (J t)) (en t) (I t + s.n) v < s.n ↔ _
    by_cases h1 : v = en t
    · subst h1
      rw [Function.update_self]
      have hne : en t ≠ lv t := by
        intro h
        have := hre t ht
        rw [h, hrl t ht] at this
        have := hJlt t ht; omega
      simp only [ne_eq, not_true_eq_false, and_false, hne, or_self, iff_false, not_and]
      omega
    · rw [Function.update_of_ne h1]
      by_cases h2 : v = lv t
      · subst h2; rw [Function.update_self]; simp [hlvN t ht, hJlt t ht]
      · rw [Function.update_of_ne h2]; simp [h1, h2]
  have hval : ∀ t, t < K → ∀ v, nb t v → v ≠ en t → (st (t + 1)).value v = (st t).value v := by
    rintro t ht v ⟨hv1, hv2⟩ hne
    have hidx : (st t).index ((st t).rindex v) = v := (hcore t ht.le).struct.ir v (by rw [hN t ht.le]; exact hv1)
    have := (hD t ht).shift.nb ((st t).rindex v) (by rw [hn t ht.le]; exact hv2)
    rw [hidx, if_neg, add_zero] at this
    · exact this
    · intro h; apply hne; rw [← hidx, h]
  have hrow : ∀ t t', t ≤ K → t' ≤ K → ∀ i, i < s.m → (st t').value ((st t).index (i + s.n)) =
      ∑ v ∈ range s.nvars, (if v < s.nvars ∧ (st t).rindex v < s.n then (st t).tab.coef i ((st t).rindex v) else 0) • (st t').value v := by
    intro t t' ht ht' i hi
    have h1 : TabEq (st t) (st t').value := by rw [(hcore t ht).eqv, ← (hcore t' ht').eqv]; exact (hcore t' ht').val
    have h2 := h1 i (by rw [hm t ht]; exact hi)
    rw [sum_nb (hcore t ht).struct, hN t ht, hn t ht] at h2
    rw [h2]
    apply sum_congr rfl
    intro v hv
    simp [mem_range.1 hv]
  -- the values of non-basic variables
  have horig : ∀ t, t ≤ K → ∀ v, nb t v → (st t).value v = s.value v ∨ s.lo v = some ((st t).value v) ∨ s.up v = some ((st t).value v) := by
    intro t
    induction t with
    | zero => intro _ v _; exact Or.inl rfl
    | succ t ih =>
      intro ht v hv
      rcases (hnb t (by omega) v).1 hv with ⟨h1, h2⟩ | rfl
      · rw [hval t (by omega) v h1 h2]; exact ih (by omega) v h1
      · rw [hval1 t (by omega)]
        have := (hD t (by omega)).viol.viol
        rw [hn t (by omega), (hkeep t (by omega)).lo, (hkeep t (by omega)).up] at this
        rcases this with ⟨-, h2, -⟩ | ⟨-, h2, -⟩
        · exact Or.inr (Or.inl h2)
        · exact Or.inr (Or.inr h2)
  -- two times with the same basis and values
  have hpig : ∃ p q, p < q ∧ q ≤ K ∧ (∀ v, nb p v ↔ nb q v) ∧ (∀ v, v < s.nvars → (exs p v ↔ exs q v)) ∧
      ∀ v, v < s.nvars → (st p).value v = (st q).value v := by
    classical
    let key : Fin (K + 1) → Fin s.nvars → Bool × Bool × Fin 3 := fun t v =>
      (decide (nb t v), decide (exs t v), origin (s.value v) (s.lo v) (s.up v) ((st t).value v))
    obtain ⟨a, b, hab, hk⟩ := Fintype.exists_ne_map_eq_of_card_lt key (by simp [hK])
    have main : ∀ a b : Fin (K + 1), key a = key b → (a : ℕ) < b → ∃ p q, p < q ∧ q ≤ K ∧ (∀ v, nb p v ↔ nb q v) ∧
        (∀ v, v < s.nvars → (exs p v ↔ exs q v)) ∧ ∀ v, v < s.nvars → (st p).value v = (st q).value v := by
      intro a b hk hlt
      have ha : (a : ℕ) ≤ K := by omega
      have hb : (b : ℕ) ≤ K := by omega
      have h1 : ∀ v, v < s.nvars → (nb a v ↔ nb b v) := fun v hv => by
        have := congrArg Prod.fst (congrFun hk ⟨v, hv⟩)
        exact decide_eq_decide.1 this
      have h1' : ∀ v, nb a v ↔ nb b v := fun v =>
        ⟨fun h => (h1 v h.1).1 h, fun h => (h1 v h.1).2 h⟩
      have h2 : ∀ v, v < s.nvars → (exs a v ↔ exs b v) := fun v hv => by
        have := congrArg (fun x => x.2.1) (congrFun hk ⟨v, hv⟩)
        exact decide_eq_decide.1 this
      have h3 : ∀ v, nb a v → (st a).value v = (st b).value v := fun v hv => by
        have := congrArg (fun x => x.2.2) (congrFun hk ⟨v, hv.1⟩)
        exact origin_inj (horig a ha v hv) (horig b hb v ((h1' v).1 hv)) this
      refine ⟨a, b, hlt, hb, h1', h2, fun v hv => ?_⟩
      by_cases hv' : nb a v
      · exact h3 v hv'
      · have hr : s.n ≤ (st a).rindex v := by
          by_contra hr; exact hv' ⟨hv, by omega⟩
        have hidx : (st a).index ((st a).rindex v) = v := (hcore a ha).struct.ir v (by rw [hN a ha]; exact hv)
        have hlt' : (st a).rindex v < s.nvars := by
          have := (hcore a ha).struct.ridx_lt v (by rw [hN a ha]; exact hv)
          rwa [hN a ha] at this
        have e : (st a).rindex v = ((st a).rindex v - s.n) + s.n := by omega
        rw [← hidx, e, hrow a a ha ha _ (by omega), hrow a b ha hb _ (by omega)]
        refine sum_congr rfl fun u hu => ?_
        by_cases hu' : u < s.nvars ∧ (st a).rindex u < s.n
        · rw [h3 u hu']
        · rw [if_neg hu', zero_smul, zero_smul]
    rcases Nat.lt_or_ge a b with h | h
    · exact main a b hk h
    · exact main b a hk.symm (lt_of_le_of_ne h fun he => hab (Fin.ext he.symm))
  obtain ⟨p, q, hpq, hqK, hsame, hexpq, hvsame⟩ := hpig
  have hmono : ∀ t t' v, t ≤ t' → exs t' v → exs t v := by
    intro t t' v h
    induction h with
    | refl => exact id
    | step _ ih => intro h; rw [hexs1] at h; exact ih h.1
  refine bland_cycle s.nvars s.lo s.up nb (fun t => (st t).value) lv en
    (fun t v => if v < s.nvars ∧ (st t).rindex v < s.n then (st t).tab.coef (I t) ((st t).rindex v) else 0)
    (fun t => if Lw t then 1 else -1) hpq hsame hvsame (fun t v h => h.1) (fun t _ ht => hlvN t (by omega)) (fun t _ ht => henN t (by omega))
    ?_ ?_ (fun t _ ht => hnb t (by omega)) (fun t _ ht => hval t (by omega)) ?_ ?_ ?_ ?_ ?_ ?_
  · rintro t - ht ⟨-, h⟩; rw [hrl t (by omega)] at h; omega
  · intro t _ ht; exact ⟨henN t (by omega), by rw [hre t (by omega)]; exact hJlt t (by omega)⟩
  · intro t _ _ v hv; exact if_neg hv
  · intro t t' _ ht _ ht'
    exact hrow t t' (by omega) (by omega) _ (hIlt t (by omega))
  · rintro v hvN hlu ⟨T, hT1, hT2, hT⟩ t ht1 ht2
    have htK : t < K := by omega
    have hx : ¬ exs t v := by
      intro h
      have h1 := hmono p t v ht1 h
      have h2 := (hexpq v hvN).1 h1
      have h3 := hmono (T + 1) q v (by omega) h2
      rw [hexs1] at h3
      rw [hn T (by omega)] at h3
      refine h3.2 ⟨hT.symm, ?_⟩
      rw [(hkeep T (by omega)).loLeUp, loLeUp_iff]
      have h4 : (st T).index (I T + s.n) = v := hT
      rw [h4]; exact hlu
    rintro (⟨-, hv⟩ | hv)
    · have hidx : (st t).index ((st t).rindex v) = v := (hcore t htK.le).struct.ir v (by rw [hN t htK.le]; exact hvN)
      have := (hcore t htK.le).nb _ (by rw [hn t htK.le]; exact hv)
      rw [hidx] at this
      replace this := this hx
      unfold Win at this
      rwa [(hkeep t htK.le).lo, (hkeep t htK.le).up] at this
    · have := (hD t htK).viol.small v (by rw [hn t htK.le]; exact hv) hx
      unfold Win at this
      rwa [(hkeep t htK.le).lo, (hkeep t htK.le).up] at this
  · intro t _ ht
    have htK : t < K := by omega
    have := (hD t htK).viol.viol
    rw [hn t htK.le, (hkeep t htK.le).lo, (hkeep t htK.le).up] at this
    rcases this with ⟨h1, h2, h3⟩ | ⟨h1, h2, h3⟩
    · left; exact ⟨by simp [h1], B t, h2, h3, hval1 t htK⟩
    · right; exact ⟨by simp [h1], B t, h2, h3, hval1 t htK⟩
  · intro t _ ht
    have htK : t < K := by omega
    obtain ⟨e, he, hej, hb⟩ := (hD t htK).elig
    have hnb := (blocked_spec (hcore t htK.le).struct (lower := Lw t) he).not.1 (by simp [hb])
    rw [hej, (hkeep t htK.le).lo, (hkeep t htK.le).up] at hnb
    rw [if_pos (show en t < s.nvars ∧ (st t).rindex (en t) < s.n from ⟨henN t htK, by rw [hre t htK]; exact hJlt t htK⟩), hre t htK]
    show (0 < (if Lw t = true then 1 else -1) * (st t).tab.coef (I t) (J t) ∧ ∀ b, s.up (en t) = some b → (st t).value (en t) < b) ∨ _
    have hne : (if Lw t = true then (1 : ℚ) else -1) * (st t).tab.coef (I t) (J t) ≠ 0 := by
      apply mul_ne_zero _ (hD t htK).coef
      split <;> simp
    have heq : (st t).index (J t) = en t := rfl
    rw [heq] at hnb
    rcases lt_or_gt_of_ne hne with h | h
    · right
      refine ⟨h, fun b hb => ?_⟩
      by_contra hle
      apply hnb
      exact ⟨fun h' => absurd h' (not_lt.2 h.le), fun _ => ⟨b, hb, not_lt.1 hle⟩⟩
    · left
      refine ⟨h, fun b hb => ?_⟩
      by_contra hle
      apply hnb
      exact ⟨fun _ => ⟨b, hb, not_lt.1 hle⟩, fun h' => absurd h' (not_lt.2 h.le)⟩
  · rintro t - ht j hj ⟨hj1, hj2⟩
    have htK : t < K := by omega
    rw [if_pos (show j < s.nvars ∧ (st t).rindex j < s.n from ⟨hj1, hj2⟩)]
    have hidx : (st t).index ((st t).rindex j) = j := (hcore t htK.le).struct.ir j (by rw [hN t htK.le]; exact hj1)
    by_cases hz : (st t).tab.coef (I t) ((st t).rindex j) = 0
    · rw [hz]; simp
    · obtain ⟨e, he, hej⟩ := List.mem_map.1 ((Tableau.mem_rowEntries_fst (hcore t htK.le).struct.wf).2 hz)
      have hb := (hD t htK).min e he (by rw [show e.1 = _ from hej, hidx]; exact hj)
      have := (blocked_spec (hcore t htK.le).struct he).1 hb
      rw [show e.1 = _ from hej, hidx, (hkeep t htK.le).lo, (hkeep t htK.le).up] at this
      exact this

/-! ### results of the loop -/

/-- The loop ends with a feasible state `t` (before storing and bound propagation) or with a conflict. -/
inductive LoopRes (E0 : (ℕ → V) → Prop) (ctl : Ctl) (s : S V) : S V × Bool → Prop
  | sat (t : S V) : Core E0 t → (∀ u, u < t.nvars → t.Win u) → Keep s t → VStep ctl.dl s t →
      LoopRes E0 ctl s ((if t.opts.store = .part then t.storeSat else t).propagate ctl)
  | unsat (t : S V) : Struct t → PtrOK t → QI t → PQ t → ObjB t → (∀ asg, TabEq t asg ↔ E0 asg) → Keep s t → VStep ctl.dl s t →
      ClauseValid s.bounds E0 t.clause → FromBounds s t.clause → LoopRes E0 ctl s (t.emit t.clause, false)

theorem solveLoop_spec {E0 : (ℕ → V) → Prop} (ctl : Ctl) (fuel : ℕ) : ∀ {s : S V}, Core E0 s → PtrOK s → ∀ {r},
    solveLoop ctl fuel s = some r → LoopRes E0 ctl s r := by
  induction fuel with
  | zero => intro s _ _ r h; simp [solveLoop] at h
  | succ fuel ih =>
    intro s hc hp r h
    rw [solveLoop] at h
    simp only at h
    obtain ⟨hk, hsp⟩ := select_spec s (fun _ => False) hc.struct (fun l hl _ => hc.nb l hl) hc.qi hc.qb
    cases hr : s.select.2 with
    | sat =>
      rw [hr] at h hsp
      simp only [Option.some.injEq] at h
      subst h
      cases hsp with
      | sat hw hqi =>
        refine LoopRes.sat s.select.1 ⟨hk.struct hc.struct, hk.keep.ptrVar hc.ptr, fun asg => by rw [hk.tabEq, hc.eqv], ?_, ?_, ?_, hqi, ?_, hk.pq hc.pq, hc.ob.keep hk.keep hk.rindex⟩ ?_ hk.keep (hk.vstep _)
        · rw [hk.tabEq, hk.value]; exact hc.val
        · intro l hl; rw [hk.index, hk.win]; exact hc.nb l (by rw [← hk.keep.n]; exact hl)
        · intro v hv; rw [hk.keep.loLeUp]; exact hc.lu v (by rw [← hk.keep.nvars]; exact hv)
        · intro u hu _ hnw; rw [hk.win] at hnw; exact absurd (hw u (by rw [← hk.keep.nvars]; exact hu) (by simp)) hnw
        · intro u hu; rw [hk.win]; exact hw u (by rw [← hk.keep.nvars]; exact hu) (by simp)
    | unsat =>
      rw [hr] at h hsp
      simp only [Option.some.injEq] at h
      subst h
      cases hsp with
      | unsat i lower bnd hv hblk hcl hqi =>
        obtain ⟨h1, h2⟩ := unsat_valid hc.struct hp hc.val hc.nb hv hblk hcl
        refine LoopRes.unsat s.select.1 (hk.struct hc.struct) (hk.keep.ptr hp) hqi (hk.pq hc.pq) (hc.ob.keep hk.keep hk.rindex) (fun asg => by rw [hk.tabEq, hc.eqv]) hk.keep (hk.vstep _) (h1.congr hc.eqv) h2
    | unknown i j v =>
      rw [hr] at h
      simp only at h
      obtain ⟨hc', lower, hd⟩ := step_core hc ctl.dl hr
      have := ih hc' (hd.keep.ptr hp) h
      cases this with
      | sat t h1 h2 h3 h4 => exact LoopRes.sat t h1 h2 (hd.keep.trans h3) (hd.vstep.trans h4)
      | unsat t h1 h2 hq hpq hob h3 h4 h5 h6 h7 =>
        refine LoopRes.unsat t h1 h2 hq hpq hob h3 (hd.keep.trans h4) (hd.vstep.trans h5) (by rw [← hd.keep.bounds]; exact h6) ?_
        intro l hl
        have := h7 l hl
        rwa [hd.keep.upper, hd.keep.lower, hd.keep.bounds] at this

theorem solveLoop_mono (ctl : Ctl) {fuel : ℕ} : ∀ {s : S V} {r}, solveLoop ctl fuel s = some r →
    ∀ k, fuel ≤ k → solveLoop ctl k s = some r := by
  induction fuel with
  | zero => intro s r h; simp [solveLoop] at h
  | succ fuel ih =>
    intro s r h k hk
    obtain ⟨k, rfl⟩ : ∃ k', k = k' + 1 := ⟨k - 1, by omega⟩
    rw [solveLoop] at h ⊢
    simp only at h ⊢
    cases hr : s.select.2 with
    | sat => rw [hr] at h; simp only at h ⊢; exact h
    | unsat => rw [hr] at h; simp only at h ⊢; exact h
    | unknown i j v => rw [hr] at h; simp only at h ⊢; exact ih h k (by omega)

/-- The loop returns after at most `12 ^ n` pivots where `n` is the number of variables. -/
theorem solveLoop_returns {E0 : (ℕ → V) → Prop} {ex : ℕ → Prop} {s : S V} (hc : WCore E0 ex s) (ctl : Ctl) :
    ∃ r, solveLoop ctl (12 ^ s.nvars + 1) s = some r := by
  obtain ⟨t, htle, ht⟩ := loop_terminates hc ctl.dl
  have hgen : ∀ t (s : S V), (∀ i j v, ((iterStep ctl.dl)^[t] s).select.2 ≠ .unknown i j v) →
      ∃ r, solveLoop ctl (t + 1) s = some r := by
    intro t
    induction t with
    | zero =>
      intro s h
      rw [solveLoop]
      cases hr : s.select.2 with
      | sat => simp
      | unsat => simp
      | unknown i j v => exact absurd hr (h i j v)
    | succ t ih =>
      intro s h
      rw [Function.iterate_succ_apply] at h
      obtain ⟨r, hf⟩ := ih _ h
      cases hr : s.select.2 with
      | sat => rw [solveLoop]; simp [hr]
      | unsat => rw [solveLoop]; simp [hr]
      | unknown i j v =>
        refine ⟨r, ?_⟩
        rw [solveLoop]; simp only [hr]
        unfold iterStep at hf; rw [hr] at hf; exact hf
  obtain ⟨r, hr⟩ := hgen t s ht
  exact ⟨r, solveLoop_mono ctl hr _ (by omega)⟩

end S
end Lpx
