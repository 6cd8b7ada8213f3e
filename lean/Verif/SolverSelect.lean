import Verif.SolverStep
import Mathlib.Algebra.Order.Field.Basic

/-! # `select_`: Bland's rule and conflict clauses -/

set_option linter.unusedSectionVars false

namespace Lpx
open Finset

variable {V : Type} [LpValue V]

/-- The meaning of a bound. -/
def Bound.Holds (bd : Bound V) (asg : ℕ → V) : Prop :=
  match bd.rel with
  | .le => asg bd.var ≤ bd.value
  | .ge => bd.value ≤ asg bd.var
  | .eq => asg bd.var = bd.value

theorem Bound.Holds.le {bd : Bound V} {asg : ℕ → V} (h : bd.Holds asg) (hr : bd.rel ≠ .ge) : asg bd.var ≤ bd.value := by
  unfold Holds at h; cases hb : bd.rel <;> simp_all
theorem Bound.Holds.ge {bd : Bound V} {asg : ℕ → V} (h : bd.Holds asg) (hr : bd.rel ≠ .le) : bd.value ≤ asg bd.var := by
  unfold Holds at h; cases hb : bd.rel <;> simp_all

theorem Bound.holds_of {bd : Bound V} {asg : ℕ → V} (h1 : bd.rel ≠ .ge → asg bd.var ≤ bd.value)
    (h2 : bd.rel ≠ .le → bd.value ≤ asg bd.var) : bd.Holds asg := by
  unfold Holds; cases hb : bd.rel <;> simp_all
  exact le_antisymm h1 h2

/-- The bounds in `R` explain the clause: it consists of their negated literals, the bounds contradict the equations `E0`, and no bound can be dropped
(or there are at most two). -/
structure Explains (bounds : List (Bound V)) (E0 : (ℕ → V) → Prop) (R : Bound V → Prop) (c : List ℤ) : Prop where
  sub : ∀ bd, R bd → bd ∈ bounds
  lits : ∀ l, l ∈ c ↔ ∃ bd, R bd ∧ l = -bd.lit
  unsat : ∀ asg, E0 asg → ¬ ∀ bd, R bd → bd.Holds asg
  min : (∃ a b, ∀ bd, R bd → bd = a ∨ bd = b) ∨ ∀ bd, R bd → ∃ asg, E0 asg ∧ ∀ bd', R bd' → bd' ≠ bd → bd'.Holds asg

/-- A clause is explained by some bounds. -/
def ClauseValid (bounds : List (Bound V)) (E0 : (ℕ → V) → Prop) (c : List ℤ) : Prop := ∃ R, Explains bounds E0 R c

/-- The equations `E0` and the bounds of the literals negated by a valid clause have no common solution. -/
theorem ClauseValid.spec {bounds : List (Bound V)} {E0 : (ℕ → V) → Prop} {c : List ℤ} (h : ClauseValid bounds E0 c) (asg : ℕ → V) (hE : E0 asg) :
    ¬ ∀ bd ∈ bounds, -bd.lit ∈ c → bd.Holds asg := by
  obtain ⟨R, hR⟩ := h
  exact fun hall => hR.unsat asg hE fun bd hbd => hall bd (hR.sub bd hbd) ((hR.lits _).2 ⟨bd, hbd, rfl⟩)

theorem ClauseValid.congr {bounds : List (Bound V)} {E E' : (ℕ → V) → Prop} {c : List ℤ} (h : ClauseValid bounds E c) (hE : ∀ asg, E asg ↔ E' asg) :
    ClauseValid bounds E' c := by
  obtain ⟨R, hR⟩ := h
  refine ⟨R, hR.sub, hR.lits, fun asg ha => hR.unsat asg ((hE asg).2 ha), ?_⟩
  rcases hR.min with hm | hm
  · exact Or.inl hm
  · refine Or.inr fun bd hbd => ?_
    obtain ⟨asg, h1, h2⟩ := hm bd hbd
    exact ⟨asg, (hE asg).1 h1, h2⟩

namespace S

/-- Bound pointers point to bounds of the right variable and kind. -/
structure PtrOK (s : S V) : Prop where
  up : ∀ v b, s.upper v = some b → ∃ bd, s.bounds[b]? = some bd ∧ bd.var = v ∧ bd.rel ≠ .ge
  lo : ∀ v b, s.lower v = some b → ∃ bd, s.bounds[b]? = some bd ∧ bd.var = v ∧ bd.rel ≠ .le

theorem up_some {s : S V} {v : ℕ} {x : V} (h : s.up v = some x) :
    ∃ b bd, s.upper v = some b ∧ s.bounds[b]? = some bd ∧ bd.value = x := by
  unfold S.up bval at h
  obtain ⟨b, hb, h⟩ := Option.bind_eq_some_iff.1 h
  obtain ⟨bd, hbd, h⟩ := Option.map_eq_some_iff.1 h
  exact ⟨b, bd, hb, hbd, h⟩
theorem lo_some {s : S V} {v : ℕ} {x : V} (h : s.lo v = some x) :
    ∃ b bd, s.lower v = some b ∧ s.bounds[b]? = some bd ∧ bd.value = x := by
  unfold S.lo bval at h
  obtain ⟨b, hb, h⟩ := Option.bind_eq_some_iff.1 h
  obtain ⟨bd, hbd, h⟩ := Option.map_eq_some_iff.1 h
  exact ⟨b, bd, hb, hbd, h⟩
theorem blit_of {s : S V} {p : Option ℕ} {b : ℕ} {bd : Bound V} (hp : p = some b) (hb : s.bounds[b]? = some bd) :
    s.blit p = some bd.lit := by subst hp; unfold blit; simp [hb]
theorem bval_of {s : S V} {p : Option ℕ} {b : ℕ} {bd : Bound V} (hp : p = some b) (hb : s.bounds[b]? = some bd) :
    s.bval p = some bd.value := by subst hp; unfold bval; simp [hb]

/-- The entry uses the upper bound when explaining a violation. -/
def entUp (lower : Bool) (e : ℕ × ℤ × ℤ) : Bool := lower == (decide (e.2.1 > 0) == decide (e.2.2 > 0))

/-- The non-basic variable of the entry cannot move in the direction needed. -/
def entBlocked (s : S V) (lower : Bool) (e : ℕ × ℤ × ℤ) : Bool :=
  if entUp lower e then s.atUp (s.index e.1) else s.atLo (s.index e.1)

/-- The literal added to the conflict clause. -/
def entLit (s : S V) (lower : Bool) (e : ℕ × ℤ × ℤ) : ℤ :=
  -((s.blit (if entUp lower e then s.upper (s.index e.1) else s.lower (s.index e.1))).getD 0)

theorem pos_iff {a d : ℤ} (ha : a ≠ 0) (hd : d ≠ 0) : (decide (a > 0) == decide (d > 0)) = true ↔ 0 < (a : ℚ) / d := by
  rcases lt_or_gt_of_ne ha with h1 | h1 <;> rcases lt_or_gt_of_ne hd with h2 | h2
  · have : 0 < (a : ℚ) / d := div_pos_of_neg_of_neg (by exact_mod_cast h1) (by exact_mod_cast h2)
    simp [this]; omega
  · have : (a : ℚ) / d < 0 := div_neg_of_neg_of_pos (by exact_mod_cast h1) (by exact_mod_cast h2)
    simp [not_lt.2 this.le]; omega
  · have : (a : ℚ) / d < 0 := div_neg_of_pos_of_neg (by exact_mod_cast h1) (by exact_mod_cast h2)
    simp [not_lt.2 this.le]; omega
  · have : 0 < (a : ℚ) / d := div_pos (by exact_mod_cast h1) (by exact_mod_cast h2)
    simp [this]; omega

/-- Invariant of the scan over a row. -/
structure ScanInv (s : S V) (i : ℕ) (lower : Bool) (bnd : V) (c0 : ℤ) (P : List (ℕ × ℤ × ℤ)) (st : SelSt V) : Prop where
  none : st.ret = none → st.kk = s.nvars ∧ (∀ e ∈ P, s.entBlocked lower e = true) ∧
    st.clause = c0 :: P.map (s.entLit lower)
  some : ∀ r, st.ret = some r → r.1 = i ∧ r.2.2 = bnd ∧ st.kk = s.index r.2.1 ∧ (∃ e ∈ P, e.1 = r.2.1 ∧ s.entBlocked lower e = false) ∧
    ∀ e ∈ P, s.index e.1 < s.index r.2.1 → s.entBlocked lower e = true

theorem selectEntry_eq (s : S V) (i : ℕ) (lower : Bool) (bnd : V) (st : SelSt V) (e : ℕ × ℤ × ℤ) :
    selectEntry s i lower bnd st e = if st.kk < s.index e.1 then st else
      if s.entBlocked lower e = true then { st with clause := st.clause ++ [s.entLit lower e] }
      else { st with kk := s.index e.1, ret := some (i, e.1, bnd) } := rfl

theorem scan_inv (s : S V) (i : ℕ) (lower : Bool) (bnd : V) (c0 : ℤ) (L P : List (ℕ × ℤ × ℤ)) (st : SelSt V)
    (hlt : ∀ e ∈ L, s.index e.1 < s.nvars) (h : ScanInv s i lower bnd c0 P st) :
    ScanInv s i lower bnd c0 (P ++ L) (L.foldl (selectEntry s i lower bnd) st) := by
  induction L generalizing P st with
  | nil => simpa using h
  | cons e es ih =>
    rw [show P ++ e :: es = (P ++ [e]) ++ es by simp]
    simp only [List.foldl_cons]
    apply ih _ _ (fun x hx => hlt x (by simp [hx]))
    rw [selectEntry_eq]
    split
    · rename_i hk
      constructor
      · intro hn
        have := (h.none hn).1
        have := hlt e (by simp)
        omega
      · intro r hr
        obtain ⟨h1, h2, h3, ⟨x, hx, hx2⟩, h5⟩ := h.some r hr
        refine ⟨h1, h2, h3, ⟨x, by simp [hx], hx2⟩, ?_⟩
        intro y hy hlt'
        rcases List.mem_append.1 hy with hy | hy
        · exact h5 y hy hlt'
        · simp at hy; subst hy; omega
    · rename_i hk
      split
      · rename_i hb
        have hb' : s.entBlocked lower e = true := hb
        constructor
        · intro hn
          obtain ⟨h1, h2, h3⟩ := h.none hn
          refine ⟨h1, ?_, ?_⟩
          · intro y hy
            rcases List.mem_append.1 hy with hy | hy
            · exact h2 y hy
            · simp at hy; subst hy; exact hb'
          · simp only [h3, List.map_append, List.map_cons, List.map_nil, List.cons_append]
        · intro r hr
          obtain ⟨h1, h2, h3, ⟨x, hx, hx2⟩, h5⟩ := h.some r hr
          refine ⟨h1, h2, h3, ⟨x, by simp [hx], hx2⟩, ?_⟩
          intro y hy hlt'
          rcases List.mem_append.1 hy with hy | hy
          · exact h5 y hy hlt'
          · simp at hy; subst hy; exact hb'
      · rename_i hb
        have hb' : s.entBlocked lower e = false := by simpa using hb
        constructor
        · intro hn; simp at hn
        · intro r hr
          simp only [Option.some.injEq] at hr
          subst hr
          refine ⟨rfl, rfl, rfl, ⟨e, by simp, rfl, hb'⟩, ?_⟩
          intro y hy hlt'
          simp only at hlt' hk
          rcases List.mem_append.1 hy with hy | hy
          · cases hret : st.ret with
            | none => exact (h.none hret).2.1 y hy
            | some r =>
              obtain ⟨h1, h2, h3, h4, h5⟩ := h.some r hret
              exact h5 y hy (by omega)
          · simp at hy; subst hy; omega

/-- What `select_` does not change. -/
structure SelKeep (s s' : S V) : Prop where
  keep : Keep s s'
  value : s'.value = s.value
  level : s'.level = s.level
  atrail : s'.atrail = s.atrail
  index : s'.index = s.index
  rindex : s'.rindex = s.rindex
  tab : s'.tab = s.tab
  pivots : s'.pivots = s.pivots
  prop : s'.prop = s.prop
  pqueue : s'.pqueue = s.pqueue

theorem SelKeep.trans {a b c : S V} (h : SelKeep a b) (k : SelKeep b c) : SelKeep a c :=
  ⟨h.keep.trans k.keep, k.value.trans h.value, k.level.trans h.level, k.atrail.trans h.atrail, k.index.trans h.index,
    k.rindex.trans h.rindex, k.tab.trans h.tab, k.pivots.trans h.pivots, k.prop.trans h.prop, k.pqueue.trans h.pqueue⟩

theorem SelKeep.win {s s' : S V} (h : SelKeep s s') (v : ℕ) : s'.Win v ↔ s.Win v := win_congr h.keep (by rw [h.value])

theorem SelKeep.struct {s s' : S V} (h : SelKeep s s') (hs : Struct s) : Struct s' := by
  have hn := h.keep.n; have hm := h.keep.m; have hv := h.keep.nvars
  constructor
  · rw [hn, hm, hv]; exact hs.nv
  · rw [h.index, hv]; exact hs.idx_lt
  · rw [h.rindex, hv]; exact hs.ridx_lt
  · rw [h.index, h.rindex, hv]; exact hs.ir
  · rw [h.index, h.rindex, hv]; exact hs.ri
  · rw [h.tab]; exact hs.wf
  · rw [h.tab, hn, hm]; exact hs.shape
  · rw [h.tab]; exact hs.low

theorem SelKeep.tabEq {s s' : S V} (h : SelKeep s s') (asg : ℕ → V) : TabEq s' asg ↔ TabEq s asg := by
  unfold TabEq; rw [h.keep.n, h.keep.m, h.index, h.tab]

/-- The violated basic variable found by `select_`: row `i`, variable `index (i+n)`, direction.
    The variables in `ex` are those about which the queue makes no promise. -/
structure Violated (s : S V) (ex : ℕ → Prop) (i : ℕ) (lower : Bool) (bnd : V) : Prop where
  lt : i < s.m
  viol : (lower = true ∧ s.lo (s.index (i + s.n)) = some bnd ∧ s.value (s.index (i + s.n)) < bnd) ∨
    (lower = false ∧ s.up (s.index (i + s.n)) = some bnd ∧ bnd < s.value (s.index (i + s.n)))
  small : ∀ u, u < s.index (i + s.n) → ¬ ex u → s.Win u

/-- Result of `select_`. -/
inductive SelSpec (s s' : S V) (ex : ℕ → Prop) : Sel V → Prop
  | sat : (∀ u, u < s.nvars → ¬ ex u → s.Win u) → QI s' → SelSpec s s' ex .sat
  | unsat (i : ℕ) (lower : Bool) (bnd : V) : Violated s ex i lower bnd →
      (∀ e ∈ s.tab.rowEntries i, s.entBlocked lower e = true) →
      s'.clause = -((s.blit (if lower then s.lower (s.index (i + s.n)) else s.upper (s.index (i + s.n)))).getD 0) ::
        (s.tab.rowEntries i).map (s.entLit lower) → QI s' → SelSpec s s' ex .unsat
  | unknown (i j : ℕ) (lower : Bool) (bnd : V) : Violated s ex i lower bnd →
      (∃ e ∈ s.tab.rowEntries i, e.1 = j ∧ s.entBlocked lower e = false) →
      (∀ e ∈ s.tab.rowEntries i, s.index e.1 < s.index j → s.entBlocked lower e = true) →
      QI s' → QB s' ex → SelSpec s s' ex (.unknown i j bnd)

theorem rowEntries_lt {s : S V} (hs : Struct s) (i : ℕ) : ∀ e ∈ s.tab.rowEntries i, e.1 < s.n := by
  intro e he
  exact (hs.shape i e.1 ((Tableau.mem_rowEntries_fst hs.wf).1 (List.mem_map.2 ⟨e, he, rfl⟩))).2

theorem selectLoop_spec (s0 : S V) (ex : ℕ → Prop) (hs : Struct s0) (hnb : ∀ l, l < s0.n → ¬ ex (s0.index l) → s0.Win (s0.index l)) :
    ∀ (L : List ℕ) (s : S V), SelKeep s0 s → L.Pairwise (· ≤ ·) → (∀ v ∈ L, v < s0.nvars) →
      (∀ v, s.queued v = true → v ∈ L) → (∀ u, u < s0.nvars → ¬ ex u → ¬ s0.Win u → u ∈ L) →
      SelKeep s0 (selectLoop L s).1 ∧ SelSpec s0 (selectLoop L s).1 ex (selectLoop L s).2 := by
  intro L
  induction L with
  | nil =>
    intro s hk _ _ hq hb
    refine ⟨hk.trans ⟨by constructor <;> rfl, rfl, rfl, rfl, rfl, rfl, rfl, rfl, rfl, rfl⟩, ?_⟩
    refine SelSpec.sat (fun u hu hx => ?_) ?_
    · by_contra h; simpa using hb u hu hx h
    · refine ⟨fun v hv => by simpa using hq v hv, ?_, ?_⟩
      · show ([] : List ℕ).Pairwise _; simp
      · intro v hv; exact absurd hv (by show v ∉ []; simp)
  | cons ii rest ih =>
    intro s hk hsort hlt hq hb
    have hsort' := List.pairwise_cons.1 hsort
    have hii := hlt ii (by simp)
    unfold selectLoop
    simp only
    set s1 : S V := { s with queued := Function.update s.queued ii false } with hs1
    have hk1 : SelKeep s0 s1 := hk.trans ⟨by constructor <;> rfl, rfl, rfl, rfl, rfl, rfl, rfl, rfl, rfl, rfl⟩
    have hq1 : ∀ v, s1.queued v = true → v ∈ rest := by
      intro v hv
      by_cases hvi : v = ii
      · subst hvi; simp [hs1] at hv
      · have hv' : s.queued v = true := by
          have : Function.update s.queued ii false v = true := hv
          rwa [Function.update_of_ne hvi] at this
        rcases List.mem_cons.1 (hq v hv') with h | h
        · exact absurd h hvi
        · exact h
    have hcont : (¬ ex ii → s0.Win ii) → SelKeep s0 (selectLoop rest s1).1 ∧ SelSpec s0 (selectLoop rest s1).1 ex (selectLoop rest s1).2 := by
      intro hw
      apply ih s1 hk1 hsort'.2 (fun v hv => hlt v (by simp [hv])) hq1
      intro u hu hx hnw
      rcases List.mem_cons.1 (hb u hu hx hnw) with h | h
      · subst h; exact absurd (hw hx) hnw
      · exact h
    have hr : s.rindex = s0.rindex := hk.rindex
    have hn : s1.n = s0.n := hk1.keep.n
    rw [hr, hn]
    split
    · rename_i hlt'
      apply hcont
      have := hnb _ hlt'
      rwa [hs.ir ii hii] at this
    · rename_i hge
      have hidx : s0.index (s0.rindex ii - s0.n + s0.n) = ii := by
        rw [Nat.sub_add_cancel (by omega)]; exact hs.ir ii hii
      have him : s0.rindex ii - s0.n < s0.m := by have := hs.ridx_lt ii hii; rw [hs.nv] at this; omega
      generalize hi : s0.rindex ii - s0.n = i at *
      have hlo : ∀ v, s1.lo v = s0.lo v := fun v => congrFun hk1.keep.lo v
      have hup : ∀ v, s1.up v = s0.up v := fun v => congrFun hk1.keep.up v
      have hval : ∀ v, s1.value v = s0.value v := fun v => congrFun hk1.value v
      have hbl : s1.belowLo ii = s0.belowLo ii := by unfold belowLo; rw [hlo, hval]
      have hau : s1.aboveUp ii = s0.aboveUp ii := by unfold aboveUp; rw [hup, hval]
      have hblit : ∀ p, s1.blit p = s0.blit p := by intro p; unfold blit; rw [hk1.keep.bounds]
      have htab : s1.tab = s0.tab := hk1.tab
      rw [hbl, hau, hlo, hup, htab]
      -- the scan
      have hscan : ∀ (bnd : V) (c0 : ℤ), ScanInv s0 i (s0.belowLo ii) bnd c0 (s0.tab.rowEntries i)
          ((s0.tab.rowEntries i).foldl (selectEntry s1 i (s0.belowLo ii) bnd) { kk := s1.nvars, clause := [c0], ret := none }) := by
        intro bnd c0
        have heq : selectEntry s1 i (s0.belowLo ii) bnd = selectEntry s0 i (s0.belowLo ii) bnd := by
          funext st e
          unfold selectEntry atUp atLo
          simp only [hk1.index, hlo, hup, hval, hblit, hk1.keep.upper, hk1.keep.lower]
        rw [heq, hk1.keep.nvars]
        have := scan_inv s0 i (s0.belowLo ii) bnd c0 (s0.tab.rowEntries i) [] { kk := s0.nvars, clause := [c0], ret := none }
          (fun e he => hs.idx_lt _ (by have := rowEntries_lt hs i e he; rw [hs.nv]; omega))
          ⟨fun _ => ⟨rfl, by simp, rfl⟩, by intro r hr; simp at hr⟩
        simpa using this
      by_cases hL : s0.belowLo ii = true
      · obtain ⟨bnd, hbl1, hbl2⟩ := (belowLo_iff s0 ii).1 hL
        rw [if_pos hL, hbl1]
        simp only
        have hv : Violated s0 ex i true bnd := by
          refine ⟨him, Or.inl ⟨rfl, by rw [hidx]; exact hbl1, by rw [hidx]; exact hbl2⟩, ?_⟩
          intro u hu hx
          rw [hidx] at hu
          by_contra hw
          rcases List.mem_cons.1 (hb u (by omega) hx hw) with h | h
          · omega
          · have := hsort'.1 u h; omega
        have hsc := hscan bnd (-((s1.blit (if s0.belowLo ii = true then s1.lower ii else s1.upper ii)).getD 0))
        generalize ((s0.tab.rowEntries i).foldl (selectEntry s1 i (s0.belowLo ii) bnd) { kk := s1.nvars, clause := [-((s1.blit (if s0.belowLo ii = true then s1.lower ii else s1.upper ii)).getD 0)], ret := none }) = st at hsc ⊢
        rw [hL] at hsc
        cases hret : st.ret with
        | none =>
          simp only
          obtain ⟨-, h2, h3⟩ := hsc.none hret
          refine ⟨hk1.trans ⟨by constructor <;> first | rfl | exact hn.symm, rfl, rfl, rfl, rfl, by first | rfl | exact hk1.rindex.symm, by first | rfl | exact hk1.tab.symm, rfl, rfl, rfl⟩, ?_⟩
          refine SelSpec.unsat i true bnd hv h2 ?_ ⟨fun v hv => List.mem_cons.2 (Or.inr (hq1 v hv)), hsort, fun v hv => by show v < s1.nvars; rw [hk1.keep.nvars]; exact hlt v hv⟩
          simp only [h3, hblit, hk1.keep.lower, hk1.keep.upper, hidx]
        | some r =>
          obtain ⟨r1, r2, r3⟩ := r
          simp only
          obtain ⟨h1, h2, h3, h4, h5⟩ := hsc.some _ hret
          simp only at h1 h2 h3 h4 h5
          subst h1 h2
          refine ⟨hk1.trans ⟨by constructor <;> first | rfl | exact hn.symm, rfl, rfl, rfl, rfl, by first | rfl | exact hk1.rindex.symm, by first | rfl | exact hk1.tab.symm, rfl, rfl, rfl⟩, ?_⟩
          refine SelSpec.unknown _ r2 true _ hv h4 h5 ?_ ?_
          · refine ⟨fun v hv => List.mem_cons.2 (Or.inr (hq1 v hv)), hsort, ?_⟩
            intro v hv; show v < s1.nvars; rw [hk1.keep.nvars]; exact hlt v hv
          · intro u hu hx hw
            refine hb u (by rw [← hk1.keep.nvars]; exact hu) hx (fun hwin => hw ?_)
            exact (win_congr (hk1.keep.trans (by constructor <;> first | rfl | exact hn.symm)) (hval u)).2 hwin
      · have hL' : s0.belowLo ii = false := by simpa using hL
        by_cases hU : s0.aboveUp ii = true
        · obtain ⟨bnd, hbl1, hbl2⟩ := (aboveUp_iff s0 ii).1 hU
          rw [if_neg hL, if_pos hU, hbl1]
          simp only
          have hv : Violated s0 ex i false bnd := by
            refine ⟨him, Or.inr ⟨rfl, by rw [hidx]; exact hbl1, by rw [hidx]; exact hbl2⟩, ?_⟩
            intro u hu hx
            rw [hidx] at hu
            by_contra hw
            rcases List.mem_cons.1 (hb u (by omega) hx hw) with h | h
            · omega
            · have := hsort'.1 u h; omega
          have hsc := hscan bnd (-((s1.blit (if s0.belowLo ii = true then s1.lower ii else s1.upper ii)).getD 0))
          generalize ((s0.tab.rowEntries i).foldl (selectEntry s1 i (s0.belowLo ii) bnd) { kk := s1.nvars, clause := [-((s1.blit (if s0.belowLo ii = true then s1.lower ii else s1.upper ii)).getD 0)], ret := none }) = st at hsc ⊢
          rw [hL'] at hsc
          cases hret : st.ret with
          | none =>
            simp only
            obtain ⟨-, h2, h3⟩ := hsc.none hret
            refine ⟨hk1.trans ⟨by constructor <;> first | rfl | exact hn.symm, rfl, rfl, rfl, rfl, by first | rfl | exact hk1.rindex.symm, by first | rfl | exact hk1.tab.symm, rfl, rfl, rfl⟩, ?_⟩
            refine SelSpec.unsat i false bnd hv h2 ?_ ⟨fun v hv => List.mem_cons.2 (Or.inr (hq1 v hv)), hsort, fun v hv => by show v < s1.nvars; rw [hk1.keep.nvars]; exact hlt v hv⟩
            simp only [h3, hblit, hk1.keep.lower, hk1.keep.upper, hidx]
          | some r =>
            obtain ⟨r1, r2, r3⟩ := r
            simp only
            obtain ⟨h1, h2, h3, h4, h5⟩ := hsc.some _ hret
            simp only at h1 h2 h3 h4 h5
            subst h1 h2
            refine ⟨hk1.trans ⟨by constructor <;> first | rfl | exact hn.symm, rfl, rfl, rfl, rfl, by first | rfl | exact hk1.rindex.symm, by first | rfl | exact hk1.tab.symm, rfl, rfl, rfl⟩, ?_⟩
            refine SelSpec.unknown _ r2 false _ hv h4 h5 ?_ ?_
            · refine ⟨fun v hv => List.mem_cons.2 (Or.inr (hq1 v hv)), hsort, ?_⟩
              intro v hv; show v < s1.nvars; rw [hk1.keep.nvars]; exact hlt v hv
            · intro u hu hx hw
              refine hb u (by rw [← hk1.keep.nvars]; exact hu) hx (fun hwin => hw ?_)
              exact (win_congr (hk1.keep.trans (by constructor <;> first | rfl | exact hn.symm)) (hval u)).2 hwin
        · rw [if_neg hL, if_neg hU]
          simp only
          apply hcont
          intro _
          by_contra hw
          have := (hasConflict_iff s0 ii).2 hw
          unfold hasConflict at this
          simp [hL', hU] at this

theorem select_spec (s : S V) (ex : ℕ → Prop) (hs : Struct s) (hnb : ∀ l, l < s.n → ¬ ex (s.index l) → s.Win (s.index l))
    (hq : QI s) (hb : QB s ex) :
    SelKeep s s.select.1 ∧ SelSpec s s.select.1 ex s.select.2 := by
  unfold select
  exact selectLoop_spec s ex hs hnb s.conflicts s ⟨Keep.refl s, rfl, rfl, rfl, rfl, rfl, rfl, rfl, rfl, rfl⟩ hq.sorted hq.lt hq.qa
    (fun u hu hx hw => hb u hu hx hw)

theorem blocked_spec {s : S V} (hs : Struct s) {i : ℕ} {lower : Bool} {e : ℕ × ℤ × ℤ} (he : e ∈ s.tab.rowEntries i) :
    s.entBlocked lower e = true ↔
    ((0 < (if lower then 1 else -1) * s.tab.coef i e.1 → ∃ b, s.up (s.index e.1) = some b ∧ b ≤ s.value (s.index e.1)) ∧
     ((if lower then 1 else -1) * s.tab.coef i e.1 < 0 → ∃ b, s.lo (s.index e.1) = some b ∧ s.value (s.index e.1) ≤ b)) := by
  obtain ⟨h1, h2, h3, h4⟩ := Tableau.rowEntries_coef hs.wf (j := e.1) (a := e.2.1) (d := e.2.2) he
  have hp := pos_iff h2 h3
  rw [h1] at hp
  unfold entBlocked entUp
  cases hpos : (decide (e.2.1 > 0) == decide (e.2.2 > 0))
  · have hneg : s.tab.coef i e.1 < 0 := by
      rcases lt_or_gt_of_ne h4 with h | h
      · exact h
      · rw [hp.2 h] at hpos; simp at hpos
    cases lower
    · simp [atUp_iff, hneg, not_lt.2 hneg.le]
    · simp [atLo_iff, hneg, not_lt.2 hneg.le]
  · have hpos' := hp.1 hpos
    cases lower
    · simp [atLo_iff, hpos', not_lt.2 hpos'.le]
    · simp [atUp_iff, hpos', not_lt.2 hpos'.le]

/-- The non-basic variables can be chosen freely. -/
theorem exists_tabEq {s : S V} (hs : Struct s) (f : ℕ → V) : ∃ asg, TabEq s asg ∧ ∀ j, j < s.n → asg (s.index j) = f j := by
  have h1 : ∀ j, j < s.n → s.rindex (s.index j) = j := fun j hj => hs.ri j (by rw [hs.nv]; omega)
  refine ⟨fun v => if s.rindex v < s.n then f (s.rindex v) else ∑ j ∈ range s.n, s.tab.coef (s.rindex v - s.n) j • f j, ?_, ?_⟩
  · intro i hi
    have h2 : s.rindex (s.index (i + s.n)) = i + s.n := hs.ri _ (by rw [hs.nv]; omega)
    simp only [h2]
    rw [if_neg (by omega), Nat.add_sub_cancel]
    refine sum_congr rfl fun j hj => ?_
    rw [h1 j (mem_range.1 hj), if_pos (mem_range.1 hj)]
  · intro j hj
    simp only [h1 j hj, hj, if_true]

/-- If the row of a basic variable mentions a non-basic variable, then the basic variable and all other non-basic variables can be chosen freely. -/
theorem exists_row {s : S V} (hs : Struct s) {i j : ℕ} (hij : s.tab.coef i j ≠ 0) (f : ℕ → V) (x : V) :
    ∃ asg, TabEq s asg ∧ asg (s.index (i + s.n)) = x ∧ ∀ k, k < s.n → k ≠ j → asg (s.index k) = f k := by
  obtain ⟨hi, hj⟩ := hs.shape i j hij
  obtain ⟨asg, h1, h2⟩ := exists_tabEq hs (Function.update f j ((s.tab.coef i j)⁻¹ • (x - ∑ k ∈ (range s.n).erase j, s.tab.coef i k • f k)))
  refine ⟨asg, h1, ?_, fun k hk hne => by rw [h2 k hk, Function.update_of_ne hne]⟩
  rw [h1 i hi, ← add_sum_erase _ _ (mem_range.2 hj), h2 j hj, Function.update_self, smul_smul, mul_inv_cancel₀ hij, one_smul]
  rw [show ∑ k ∈ (range s.n).erase j, s.tab.coef i k • asg (s.index k) = ∑ k ∈ (range s.n).erase j, s.tab.coef i k • f k from
    sum_congr rfl fun k hk => by
      rw [h2 k (mem_range.1 (mem_of_mem_erase hk)), Function.update_of_ne (ne_of_mem_erase hk)]]
  abel
/-- A clause made of literals of current bounds. -/
def FromBounds (s : S V) (c : List ℤ) : Prop :=
  ∀ l ∈ c, ∃ v b bd, (s.upper v = some b ∨ s.lower v = some b) ∧ s.bounds[b]? = some bd ∧ l = -bd.lit

/-- The conflict clause is valid and consists of negated literals of current bounds. -/
theorem unsat_valid {s : S V} (hs : Struct s) (hp : PtrOK s) (htab : TabEq s s.value)
    (hnb : ∀ l, l < s.n → s.Win (s.index l)) {ex : ℕ → Prop} {i : ℕ} {lower : Bool} {bnd : V}
    (hv : Violated s ex i lower bnd) (hblk : ∀ e ∈ s.tab.rowEntries i, s.entBlocked lower e = true) {c : List ℤ}
    (hc : c = -((s.blit (if lower then s.lower (s.index (i + s.n)) else s.upper (s.index (i + s.n)))).getD 0) ::
        (s.tab.rowEntries i).map (s.entLit lower)) :
    ClauseValid s.bounds (TabEq s) c ∧ FromBounds s c := by
  have hent : ∀ e ∈ s.tab.rowEntries i, ∃ b bd, (if entUp lower e then s.upper (s.index e.1) else s.lower (s.index e.1)) = some b ∧
      s.bounds[b]? = some bd ∧ s.entLit lower e = -bd.lit ∧ bd.var = s.index e.1 ∧
      (if entUp lower e then bd.rel ≠ .ge ∧ bd.value ≤ s.value (s.index e.1) else bd.rel ≠ .le ∧ s.value (s.index e.1) ≤ bd.value) := by
    intro e he
    have hb := hblk e he
    unfold entBlocked at hb
    unfold entLit
    cases hu : entUp lower e
    · simp only [hu, Bool.false_eq_true, if_false] at hb ⊢
      obtain ⟨x, hx1, hx2⟩ := (atLo_iff s _).1 hb
      obtain ⟨b, bd, h1, h2, h3⟩ := lo_some hx1
      obtain ⟨bd', h4, h5, h6⟩ := hp.lo _ _ h1
      rw [h2] at h4; simp only [Option.some.injEq] at h4; subst h4
      refine ⟨b, bd, h1, h2, by rw [blit_of h1 h2]; rfl, h5, h6, by rw [h3]; exact hx2⟩
    · simp only [hu, if_true] at hb ⊢
      obtain ⟨x, hx1, hx2⟩ := (atUp_iff s _).1 hb
      obtain ⟨b, bd, h1, h2, h3⟩ := up_some hx1
      obtain ⟨bd', h4, h5, h6⟩ := hp.up _ _ h1
      rw [h2] at h4; simp only [Option.some.injEq] at h4; subst h4
      refine ⟨b, bd, h1, h2, by rw [blit_of h1 h2]; rfl, h5, h6, by rw [h3]; exact hx2⟩
  have hrow : ∃ b bd, (if lower then s.lower (s.index (i + s.n)) else s.upper (s.index (i + s.n))) = some b ∧
      s.bounds[b]? = some bd ∧ bd.var = s.index (i + s.n) ∧ (if lower then bd.rel ≠ .le else bd.rel ≠ .ge) ∧ bd.value = bnd := by
    rcases hv.viol with ⟨hl, h1, -⟩ | ⟨hl, h1, -⟩
    · subst hl
      obtain ⟨b, bd, g1, g2, g3⟩ := lo_some h1
      obtain ⟨bd', h4, h5, h6⟩ := hp.lo _ _ g1
      rw [g2] at h4; simp only [Option.some.injEq] at h4; subst h4
      exact ⟨b, bd, by simpa using g1, g2, h5, by simpa using h6, g3⟩
    · subst hl
      obtain ⟨b, bd, g1, g2, g3⟩ := up_some h1
      obtain ⟨bd', h4, h5, h6⟩ := hp.up _ _ g1
      rw [g2] at h4; simp only [Option.some.injEq] at h4; subst h4
      exact ⟨b, bd, by simpa using g1, g2, h5, by simpa using h6, g3⟩
  constructor
  · obtain ⟨b, bd, g1, g2, g3, g4, g5⟩ := hrow
    -- all bounds of entries are tight
    have htight : ∀ e ∈ s.tab.rowEntries i, ∀ b' bd', (if entUp lower e then s.upper (s.index e.1) else s.lower (s.index e.1)) = some b' →
        s.bounds[b']? = some bd' → bd'.var = s.index e.1 ∧ s.value (s.index e.1) = bd'.value := by
      intro e he b' bd' k1 k2
      obtain ⟨b'', bd'', j1, j2, -, j4, j5⟩ := hent e he
      rw [j1] at k1; obtain rfl := Option.some.inj k1
      rw [j2] at k2; obtain rfl := Option.some.inj k2
      refine ⟨j4, ?_⟩
      have hw := hnb e.1 (rowEntries_lt hs i e he)
      cases hu : entUp lower e
      · simp only [hu, Bool.false_eq_true, if_false] at j1 j5
        exact le_antisymm j5.2 (hw.1 _ (bval_of j1 j2))
      · simp only [hu, if_true] at j1 j5
        exact le_antisymm (hw.2 _ (bval_of j1 j2)) j5.2
    have hof : ∀ {bd' : Bound V} {asg : ℕ → V}, asg bd'.var = bd'.value → bd'.Holds asg := fun h => Bound.holds_of (fun _ => h.le) (fun _ => h.ge)
    refine ⟨fun bd' => bd' = bd ∨ ∃ e ∈ s.tab.rowEntries i, ∃ b', (if entUp lower e then s.upper (s.index e.1) else s.lower (s.index e.1)) = some b' ∧
      s.bounds[b']? = some bd', ?_, ?_, ?_, Or.inr ?_⟩
    · rintro bd' (rfl | ⟨e, he, b', k1, k2⟩)
      · exact List.mem_of_getElem? g2
      · exact List.mem_of_getElem? k2
    · intro l
      rw [hc, blit_of g1 g2, List.mem_cons]
      constructor
      · rintro (h | h)
        · exact ⟨bd, Or.inl rfl, h⟩
        · obtain ⟨e, he, rfl⟩ := List.mem_map.1 h
          obtain ⟨b', bd', k1, k2, k3, -⟩ := hent e he
          exact ⟨bd', Or.inr ⟨e, he, b', k1, k2⟩, k3⟩
      · rintro ⟨bd', rfl | ⟨e, he, b', k1, k2⟩, hl⟩
        · exact Or.inl hl
        · refine Or.inr (List.mem_map.2 ⟨e, he, ?_⟩)
          rw [hl, entLit, blit_of k1 k2]; rfl
    rotate_left
    · rintro bd0 (rfl | ⟨e0, he0, b0, k01, k02⟩)
      · refine ⟨s.value, htab, ?_⟩
        rintro bd' (rfl | ⟨e, he, b', k1, k2⟩) hne
        · exact absurd rfl hne
        · obtain ⟨h1, h2⟩ := htight e he b' bd' k1 k2
          exact hof (by rw [h1]; exact h2)
      · obtain ⟨asg, h1, h2, h3⟩ := exists_row hs (Tableau.rowEntries_coef hs.wf (j := e0.1) (a := e0.2.1) (d := e0.2.2) he0).2.2.2
          (fun k => s.value (s.index k)) bnd
        refine ⟨asg, h1, ?_⟩
        rintro bd' (rfl | ⟨e, he, b', k1, k2⟩) hne
        · exact hof (by rw [g3, h2, g5])
        · obtain ⟨h4, h5⟩ := htight e he b' bd' k1 k2
          refine hof ?_
          rw [h4, h3 _ (rowEntries_lt hs i e he), h5]
          intro heq
          apply hne
          have hnd : ((s.tab.rowEntries i).map (·.1)).Nodup := (Tableau.rowEntries_sorted hs.wf i).imp (fun h => Nat.ne_of_lt h)
          obtain rfl := List.inj_on_of_nodup_map hnd he he0 heq
          rw [k01] at k1; obtain rfl := Option.some.inj k1
          rw [k02] at k2; exact (Option.some.inj k2).symm
    intro asg hE hall
    -- the basic variable
    have hbh := hall bd (Or.inl rfl)
    -- comparison of the rows
    have hcmp : ∀ j ∈ range s.n, 0 ≤ ((if lower then 1 else -1) * s.tab.coef i j) • (s.value (s.index j) - asg (s.index j)) := by
      intro j _
      by_cases hz : s.tab.coef i j = 0
      · simp [hz]
      · obtain ⟨e, he, hej⟩ := List.mem_map.1 ((Tableau.mem_rowEntries_fst hs.wf).2 hz)
        subst hej
        obtain ⟨b', bd', k1, k2, k3, k4, k5⟩ := hent e he
        have hbh' := hall bd' (Or.inr ⟨e, he, b', k1, k2⟩)
        obtain ⟨h1, h2, h3, h4⟩ := Tableau.rowEntries_coef hs.wf (j := e.1) (a := e.2.1) (d := e.2.2) he
        have hps := pos_iff h2 h3
        rw [h1] at hps
        cases hu : entUp lower e
        · simp only [hu, Bool.false_eq_true, if_false] at k5
          have hle := hbh'.ge k5.1
          rw [k4] at hle
          have hd : s.value (s.index e.1) - asg (s.index e.1) ≤ 0 := sub_nonpos.2 (k5.2.trans hle)
          apply smul_nonneg_of_nonpos_of_nonpos _ hd
          unfold entUp at hu
          cases hpos : (decide (e.2.1 > 0) == decide (e.2.2 > 0))
          · have hneg : s.tab.coef i e.1 < 0 := by
              rcases lt_or_gt_of_ne h4 with h | h
              · exact h
              · rw [hps.2 h] at hpos; simp at hpos
            rw [hpos] at hu
            cases lower
            · simp at hu
            · simp [hneg.le]
          · rw [hpos] at hu
            have := (hps.1 hpos).le
            cases lower
            · simp [this]
            · simp at hu
        · simp only [hu, if_true] at k5
          have hle := hbh'.le k5.1
          rw [k4] at hle
          have hd : 0 ≤ s.value (s.index e.1) - asg (s.index e.1) := sub_nonneg.2 (hle.trans k5.2)
          apply smul_nonneg _ hd
          unfold entUp at hu
          cases hpos : (decide (e.2.1 > 0) == decide (e.2.2 > 0))
          · have hneg : s.tab.coef i e.1 < 0 := by
              rcases lt_or_gt_of_ne h4 with h | h
              · exact h
              · rw [hps.2 h] at hpos; simp at hpos
            rw [hpos] at hu
            cases lower
            · simp [hneg.le]
            · simp at hu
          · rw [hpos] at hu
            have := (hps.1 hpos).le
            cases lower
            · simp at hu
            · simp [this]
    have hsum : ∑ j ∈ range s.n, ((if lower then 1 else -1) * s.tab.coef i j) • (s.value (s.index j) - asg (s.index j)) =
        (if lower then 1 else -1 : ℚ) • (s.value (s.index (i + s.n)) - asg (s.index (i + s.n))) := by
      rw [htab i hv.lt, hE i hv.lt, ← sum_sub_distrib, smul_sum]
      apply sum_congr rfl
      intro j _
      rw [mul_smul, smul_sub]
    have h0 := sum_nonneg hcmp
    rw [hsum] at h0
    rcases hv.viol with ⟨hl, -, h2⟩ | ⟨hl, -, h2⟩
    · subst hl
      simp only [if_true, one_smul] at h0 g4
      have h3 := hbh.ge g4
      rw [g3, g5] at h3
      exact absurd (h2.trans_le h3) (not_lt.2 (sub_nonneg.1 h0))
    · subst hl
      simp only [Bool.false_eq_true, if_false, neg_smul, one_smul, neg_sub] at h0 g4
      have h3 := hbh.le g4
      rw [g3, g5] at h3
      exact absurd (h3.trans_lt h2) (not_lt.2 (sub_nonneg.1 h0))
  · intro l hl
    rw [hc] at hl
    rcases List.mem_cons.1 hl with h | h
    · obtain ⟨b, bd, g1, g2, -⟩ := hrow
      refine ⟨s.index (i + s.n), b, bd, ?_, g2, ?_⟩
      · split at g1
        · exact Or.inr g1
        · exact Or.inl g1
      · rw [h, blit_of g1 g2]; rfl
    · obtain ⟨e, he, rfl⟩ := List.mem_map.1 h
      obtain ⟨b, bd, g1, g2, g3, -⟩ := hent e he
      refine ⟨s.index e.1, b, bd, ?_, g2, g3⟩
      split at g1
      · exact Or.inl g1
      · exact Or.inr g1

end S
end Lpx
