import Verif.SolverOptStep

/-!
# `optimize` on concrete dictionaries

`Dict` is a table of the data `optimize` (solving.cc:446-581) looks at: the variables of the columns and rows, their values, the
limits and the coefficients. `Dict.next` checks one iteration on such a table. If the iterations on the table return to the same
table then `optimize` does not terminate. This is used to show that the code does not terminate in a reachable state.
-/

set_option linter.unusedSectionVars false

namespace Lpx
namespace S

/-- The data of a solver relevant for `optimize`. Values are given by position. -/
structure Dict where
  n : ℕ
  m : ℕ
  /-- row of the objective -/
  z : ℕ
  idx : List ℕ
  val : List ℚ
  A : List (List ℚ)
  lo : List (Option ℚ)
  up : List (Option ℚ)
deriving DecidableEq

namespace Dict

def I (d : Dict) (r : ℕ) : ℕ := d.idx.getD r 0
def P (d : Dict) (r : ℕ) : ℚ := d.val.getD r 0
def a (d : Dict) (i j : ℕ) : ℚ := (d.A.getD i []).getD j 0
def L (d : Dict) (v : ℕ) : Option ℚ := d.lo.getD v none
def U (d : Dict) (v : ℕ) : Option ℚ := d.up.getD v none

/-- The variable of column `j` may enter. -/
def ent (d : Dict) (j : ℕ) : Bool :=
  decide (d.a d.z j ≠ 0) &&
  (if 0 < d.a d.z j then (match d.U (d.I j) with | none => true | some u => decide (d.P j < u))
    else (match d.L (d.I j) with | none => true | some l => decide (l < d.P j)))

/-- The candidate of row `i` for column `j`. -/
def cand (d : Dict) (j : ℕ) (pos : Bool) (i : ℕ) : Option (Leave ℚ) :=
  if d.a i j = 0 then none
  else
    match (if 0 < sg pos * d.a i j then d.U (d.I (i + d.n)) else d.L (d.I (i + d.n))) with
    | none => none
    | some vi =>
      let v := d.P j + 1 / d.a i j * (vi - d.P (i + d.n))
      if (if pos then (match d.U (d.I j) with | none => false | some u => decide (u ≤ v))
          else (match d.L (d.I j) with | none => false | some l => decide (v ≤ l))) then none
      else some ⟨d.I (i + d.n), vi, v⟩

/-- The table after pivoting row `i` and column `j` with the value `b` for the leaving variable. -/
def pivot (d : Dict) (i j : ℕ) (b : ℚ) : Dict :=
  let θ := 1 / d.a i j * (b - d.P (i + d.n))
  { d with
    idx := (List.range (d.n + d.m)).map fun r => if r = j then d.I (i + d.n) else if r = i + d.n then d.I j else d.I r
    val := (List.range (d.n + d.m)).map fun r =>
      if r = j then d.P (i + d.n) + d.a i j * θ else if r = i + d.n then d.P j + θ
      else if r < d.n then d.P r else d.P r + d.a (r - d.n) j * θ
    A := (List.range d.m).map fun k => (List.range d.n).map fun l =>
      if k = i then (if l = j then 1 / d.a i j else - d.a i l / d.a i j)
      else (if l = j then d.a k j / d.a i j else d.a k l - d.a k j * d.a i l / d.a i j) }

/-- The candidate `c` of row `i` is better than all others. -/
def best (d : Dict) (j : ℕ) (pos : Bool) (i : ℕ) (c : Leave ℚ) : Bool :=
  (List.range d.m).all fun i' => decide (i' = i) ||
    match d.cand j pos i' with
    | none => true
    | some c' => (if pos then decide (c.ve < c'.ve) else decide (c'.ve < c.ve)) || (decide (c.ve = c'.ve) && decide (c.ll < c'.ll))

/-- Column `j` enters, row `i` leaves. -/
def next (d : Dict) (i j : ℕ) : Option Dict :=
  if decide (j < d.n) && decide (i < d.m) && decide (d.z < d.m) && decide (i ≠ d.z) && d.ent j && ((List.range d.n).all fun j' => !d.ent j' || decide (d.I j ≤ d.I j')) then
    let pos := decide (0 < d.a d.z j)
    match d.cand j pos i with
    | none => none
    | some c => if d.best j pos i c then some (d.pivot i j c.bnd) else none
  else none

/-- A sequence of iterations. -/
def run : List (ℕ × ℕ) → Dict → Option Dict
  | [], d => some d
  | e :: es, d => (d.next e.1 e.2).bind (run es)

/-- The table describes the solver. -/
structure Fits (d : Dict) (s : S ℚ) : Prop where
  n : s.n = d.n
  m : s.m = d.m
  z : s.rindex s.obj.var = d.z + d.n
  idx : ∀ r, r < d.n + d.m → s.index r = d.I r
  val : ∀ r, r < d.n + d.m → s.value (s.index r) = d.P r
  A : ∀ i j, i < d.m → j < d.n → s.tab.coef i j = d.a i j
  lo : ∀ v, v < d.n + d.m → s.lo v = d.L v
  up : ∀ v, v < d.n + d.m → s.up v = d.U v

/-- Computes the table of a solver. -/
def ofS (s : S ℚ) : Dict where
  n := s.n
  m := s.m
  z := s.rindex s.obj.var - s.n
  idx := (List.range (s.n + s.m)).map s.index
  val := (List.range (s.n + s.m)).map fun r => s.value (s.index r)
  A := (List.range s.m).map fun i => (List.range s.n).map fun j => s.tab.get i j
  lo := (List.range (s.n + s.m)).map s.lo
  up := (List.range (s.n + s.m)).map s.up

theorem getD_map_range {α : Type} {f : ℕ → α} {k r : ℕ} {x : α} (h : r < k) : ((List.range k).map f).getD r x = f r := by
  rw [List.getD_eq_getElem?_getD, List.getElem?_map, List.getElem?_range h]; rfl

theorem fits_ofS {s : S ℚ} (hs : Struct s) (hz : s.n ≤ s.rindex s.obj.var) : Fits (ofS s) s where
  n := rfl
  m := rfl
  z := by show _ = s.rindex s.obj.var - s.n + s.n; omega
  idx r hr := (getD_map_range hr).symm
  val r hr := (getD_map_range (f := fun r => s.value (s.index r)) hr).symm
  A i j hi hj := by
    have hi' : i < s.m := hi
    have hj' : j < s.n := hj
    unfold Dict.a ofS
    simp only
    rw [getD_map_range hi', getD_map_range hj', Tableau.get_eq_coef hs.wf]
  lo v hv := (getD_map_range hv).symm
  up v hv := (getD_map_range hv).symm

theorem Fits.ent {d : Dict} {s : S ℚ} (h : Fits d s) (hs : Struct s) {e : ℕ × ℤ × ℤ} (hzm : d.z < d.m) (he : e ∈ s.tab.rowEntries d.z) :
    e.1 < d.n ∧ d.a d.z e.1 ≠ 0 ∧ epos e = decide (0 < d.a d.z e.1) ∧ d.ent e.1 = !s.entB e := by
  have hcz : s.tab.coef d.z e.1 ≠ 0 := (Tableau.mem_rowEntries_fst hs.wf).1 (List.mem_map.2 ⟨e, he, rfl⟩)
  have hj : e.1 < d.n := by rw [← h.n]; exact (hs.shape _ _ hcz).2
  have hA := h.A _ _ hzm hj
  obtain ⟨h1, h2, h3, h4⟩ := Tableau.rowEntries_coef hs.wf (j := e.1) (a := e.2.1) (d := e.2.2) he
  have hp : epos e = decide (0 < d.a d.z e.1) := by
    rw [Bool.eq_iff_iff, decide_eq_true_iff, ← hA, ← h1]; exact pos_iff h2 h3
  refine ⟨hj, by rw [← hA]; exact hcz, hp, ?_⟩
  have hvlt : s.index e.1 < d.n + d.m := by
    have := hs.idx_lt e.1 (by rw [hs.nv, h.n, h.m]; omega)
    rw [hs.nv, h.n, h.m] at this; exact this
  unfold Dict.ent entB S.atUp S.atLo
  rw [hp, h.up _ hvlt, h.lo _ hvlt, h.val _ (by omega), h.idx _ (by omega)]
  rw [decide_eq_true (show d.a d.z e.1 ≠ 0 by rw [← hA]; exact hcz), Bool.true_and]
  by_cases hpos : 0 < d.a d.z e.1
  · simp only [hpos, decide_true, if_true]
    cases d.U (d.I e.1) with
    | none => rfl
    | some u => rw [Bool.eq_iff_iff]; simp
  · simp only [hpos, decide_false, if_false, Bool.false_eq_true]
    cases d.L (d.I e.1) with
    | none => rfl
    | some u => rw [Bool.eq_iff_iff]; simp

theorem Fits.cand {d : Dict} {s : S ℚ} (h : Fits d s) (hs : Struct s) {j : ℕ} (hj : j < d.n) (pos : Bool) {e : ℕ × ℤ × ℤ}
    (he : e ∈ s.tab.colEntries j) : e.1 < d.m ∧ s.tab.coef e.1 j ≠ 0 ∧ s.leaveCand (s.index j) pos e = d.cand j pos e.1 := by
  obtain ⟨h1, h2, h3, h4⟩ := Tableau.colEntries_coef hs.wf (i := e.1) (a := e.2.1) (d := e.2.2) he
  have him : e.1 < d.m := by rw [← h.m]; exact (hs.shape _ _ h4).1
  have hA := h.A _ _ him hj
  refine ⟨him, h4, ?_⟩
  have hlt : ∀ r, r < d.n + d.m → s.index r < d.n + d.m := by
    intro r hr
    have := hs.idx_lt r (by rw [hs.nv, h.n, h.m]; exact hr)
    rw [hs.nv, h.n, h.m] at this; exact this
  have hsel : (if (epos e == pos) = true then s.up (s.index (e.1 + s.n)) else s.lo (s.index (e.1 + s.n))) =
      (if 0 < sg pos * d.a e.1 j then d.U (d.I (e.1 + d.n)) else d.L (d.I (e.1 + d.n))) := by
    have := epos_sign hs he rfl pos
    rw [hA] at this
    rw [h.n, h.up _ (hlt _ (by omega)), h.lo _ (hlt _ (by omega)), h.idx _ (by omega)]
    by_cases hh : (epos e == pos) = true
    · rw [if_pos hh, if_pos (this.1 hh)]
    · rw [if_neg hh, if_neg (fun h => hh (this.2 h))]
  unfold leaveCand Dict.cand
  rw [hsel, if_neg (show ¬ d.a e.1 j = 0 by rw [← hA]; exact h4)]
  cases (if 0 < sg pos * d.a e.1 j then d.U (d.I (e.1 + d.n)) else d.L (d.I (e.1 + d.n))) with
  | none => rfl
  | some vi =>
    have hv : s.value (s.index j) + divMul (vi - s.value (s.index (e.1 + s.n))) e.2.1 e.2.2 = d.P j + 1 / d.a e.1 j * (vi - d.P (e.1 + d.n)) := by
      unfold divMul
      rw [h.n, h.val _ (by omega), h.val _ (by omega), ← hA, ← h1, one_div_div]; rfl
    simp only [hv]
    rw [h.up _ (hlt _ (by omega)), h.lo _ (hlt _ (by omega)), h.idx j (by omega), h.n, h.idx _ (by omega)]
    cases d.U (d.I j) <;> cases d.L (d.I j) <;> congr! 3

/-- One iteration on the table is one iteration of the code. -/
theorem Fits.step {d d' : Dict} {s : S ℚ} (h : Fits d s) (hs : Struct s) {i j : ℕ} (hn : d.next i j = some d') :
    ∃ t, s.optStep = .inr t ∧ Struct t ∧ Fits d' t := by
  unfold next at hn
  split at hn
  swap
  · cases hn
  rename_i hc
  simp only [Bool.and_eq_true, decide_eq_true_eq, List.all_eq_true, List.mem_range] at hc
  obtain ⟨⟨⟨⟨⟨hj, hi⟩, hz⟩, hiz⟩, hent⟩, hmin⟩ := hc
  simp only at hn
  cases hcand : d.cand j (decide (0 < d.a d.z j)) i with
  | none => rw [hcand] at hn; cases hn
  | some c =>
  rw [hcand] at hn
  simp only at hn
  split at hn
  swap
  · cases hn
  rename_i hbest
  obtain rfl := Option.some.inj hn
  unfold Dict.best at hbest
  rw [List.all_eq_true] at hbest
  have hnv : s.nvars = d.n + d.m := by rw [hs.nv, h.n, h.m]
  -- the entering variable
  have hez : d.a d.z j ≠ 0 := by
    unfold Dict.ent at hent
    rw [Bool.and_eq_true] at hent
    exact of_decide_eq_true hent.1
  obtain ⟨e0, he0, he0j⟩ := List.mem_map.1 ((Tableau.mem_rowEntries_fst hs.wf (i := d.z) (j := j)).2 (by rw [h.A _ _ hz hj]; exact hez))
  have hef := enter_fold s (s.tab.rowEntries d.z) (fun e he => by
    have := (h.ent hs hz he).1
    exact hs.idx_lt _ (by omega))
  have hsel : s.selectEnter d.z = (s.index j, decide (0 < d.a d.z j)) := by
    show (s.tab.rowEntries d.z).foldl (enterEntry s) (s.nvars, false) = _
    generalize (s.tab.rowEntries d.z).foldl (enterEntry s) (s.nvars, false) = en at *
    obtain ⟨ee, pos⟩ := en
    simp only at hef
    obtain ⟨q1, q2, q3, q4⟩ := h.ent hs hz he0
    rw [he0j] at q3 q4
    rw [hent] at q4
    rcases hef with ⟨-, h2⟩ | ⟨e, he, hee, hpe, hbl, hm⟩
    · have := h2 e0 he0; rw [this] at q4; cases q4
    · obtain ⟨r1, r2, r3, r4⟩ := h.ent hs hz he
      rw [hbl] at r4
      have k1 := hmin e.1 r1
      rw [r4] at k1
      simp only [Bool.not_false, Bool.not_true, Bool.false_or, decide_eq_true_eq] at k1
      rw [← h.idx _ (by omega), ← h.idx _ (by omega)] at k1
      have k2 : ¬ s.index j < s.index e.1 := by
        intro hlt
        have := hm e0 he0 (by rw [he0j]; exact hlt)
        rw [this] at q4; cases q4
      have k3 : s.index e.1 = s.index j := by omega
      have k4 := hs.ri e.1 (by omega)
      rw [k3, hs.ri j (by omega)] at k4
      rw [← hee, hpe, r3, ← k4]
  have hrj : s.rindex (s.index j) = j := hs.ri j (by omega)
  have hjlt : s.index j < s.nvars := hs.idx_lt j (by omega)
  -- the leaving variable
  have hij : d.a i j ≠ 0 := by
    intro h0
    unfold Dict.cand at hcand
    rw [if_pos h0] at hcand; cases hcand
  obtain ⟨e1, he1, he1i⟩ := List.mem_map.1 ((Tableau.mem_colEntries_fst hs.wf (i := i) (j := j)).2 (by rw [h.A _ _ hi hj]; exact hij))
  have hlv : s.selectLeave (s.index j) (decide (0 < d.a d.z j)) = some c := by
    have hlf := leave_fold s (s.index j) (decide (0 < d.a d.z j)) (s.tab.colEntries j)
    show (s.tab.colEntries (s.rindex (s.index j))).foldl (leaveEntry s (s.index j) (decide (0 < d.a d.z j))) none = _
    rw [hrj]
    generalize (s.tab.colEntries j).foldl (leaveEntry s (s.index j) (decide (0 < d.a d.z j))) none = lv at *
    have hc1 : s.leaveCand (s.index j) (decide (0 < d.a d.z j)) e1 = some c := by
      rw [(h.cand hs hj _ he1).2.2, he1i]; exact hcand
    rcases hlf with ⟨-, hnone⟩ | ⟨e', he', c', rfl, hcc, hcmin⟩
    · rw [hnone e1 he1] at hc1; cases hc1
    · obtain ⟨g1, g2⟩ := hcmin e1 he1 c hc1
      obtain ⟨r1, r2, r3⟩ := h.cand hs hj (decide (0 < d.a d.z j)) he'
      rw [r3] at hcc
      have k := hbest e'.1 (List.mem_range.2 r1)
      rw [hcc] at k
      simp only [Bool.or_eq_true, decide_eq_true_eq, Bool.and_eq_true] at k
      rcases k with k | k
      · rw [k, hcand] at hcc; rw [hcc]
      · exfalso
        unfold sle at g1
        rcases k with k | ⟨k1, k2⟩
        · by_cases hp : 0 < d.a d.z j
          · simp only [hp, decide_true, if_true, decide_eq_true_eq] at k g1
            exact absurd k (not_lt.2 g1)
          · simp only [hp, decide_false, if_false, Bool.false_eq_true, decide_eq_true_eq] at k g1
            exact absurd k (not_lt.2 g1)
        · have := g2 k1; omega
  -- the step
  have hcll : c.ll = d.I (i + d.n) := by
    unfold Dict.cand at hcand
    rw [if_neg hij] at hcand
    split at hcand
    · cases hcand
    · simp only at hcand
      generalize hk : (if decide (0 < d.a d.z j) = true then _ else _ : Bool) = k at hcand
      cases k
      · simp only [Bool.false_eq_true, if_false, Option.some.injEq] at hcand
        rw [← hcand]
      · simp only [if_true] at hcand; cases hcand
  have hrl : s.rindex c.ll - s.n = i := by
    rw [hcll, ← h.idx _ (by omega), hs.ri _ (by omega), h.n]; omega
  set s1 : S ℚ := { s with tab := s.tab.compactCol j } with hs1
  have hst1 : Struct s1 := compact_struct hs _
  refine ⟨s1.pivot s1.topLevel i j c.bnd, ?_, ?_, ?_⟩
  · unfold optStep
    rw [if_neg (by rw [h.z, h.n]; omega)]
    simp only
    rw [show s.rindex s.obj.var - s.n = d.z by rw [h.z, h.n]; omega, hsel]
    simp only
    rw [if_neg (by omega), hlv, hrj]
    simp only
    rw [show s.rindex c.ll - s.n = i from hrl]
  · exact (pivot_spec s1 hst1 s1.topLevel i j (by show s.tab.coef i j ≠ 0; rw [h.A _ _ hi hj]; exact hij) c.bnd).struct
  · have hp := pivot_spec s1 hst1 s1.topLevel i j (by show s.tab.coef i j ≠ 0; rw [h.A _ _ hi hj]; exact hij) c.bnd
    generalize s1.pivot s1.topLevel i j c.bnd = t at hp
    have hidx : ∀ r, r < d.n + d.m → t.index r = (d.pivot i j c.bnd).I r := by
      intro r hr
      rw [hp.index]
      unfold Dict.I Dict.pivot
      simp only
      rw [getD_map_range hr]
      show Function.update (Function.update s.index (i + s.n) (s.index j)) j (s.index (i + s.n)) r = _
      rw [h.n]
      by_cases hrj' : r = j
      · subst hrj'; rw [Function.update_self, if_pos rfl, h.idx _ (by omega)]
      · rw [Function.update_of_ne hrj', if_neg hrj']
        by_cases hri : r = i + d.n
        · subst hri; rw [Function.update_self, if_pos rfl, h.idx _ (by omega)]
        · rw [Function.update_of_ne hri, if_neg hri, h.idx _ (by omega)]
    have hθ : (1 / s1.tab.coef i j) • (c.bnd - s1.value (s1.index (i + s1.n))) = 1 / d.a i j * (c.bnd - d.P (i + d.n)) := by
      show (1 / s.tab.coef i j) • (c.bnd - s.value (s.index (i + s.n))) = _
      rw [h.A _ _ hi hj, h.n, h.val _ (by omega)]; rfl
    have hsh := hp.shift
    rw [hθ] at hsh
    refine ⟨?_, ?_, ?_, hidx, ?_, ?_, ?_, ?_⟩
    · rw [hp.keep.n]; exact h.n
    · rw [hp.keep.m]; exact h.m
    · rw [hp.keep.obj, hp.rindex]
      show Function.update (Function.update s.rindex (s.index (i + s.n)) j) (s.index j) (i + s.n) s.obj.var = _
      rw [Function.update_of_ne, Function.update_of_ne]
      · exact h.z
      · intro he
        have := h.z
        rw [he, hs.ri _ (by rw [h.n]; omega), h.n] at this
        exact hiz (Nat.add_right_cancel this)
      · intro he
        have := h.z
        rw [he, hrj] at this
        omega
    · intro r hr
      replace hr : r < d.n + d.m := hr
      have e1 : t.index r = if r = j then s.index (i + d.n) else if r = i + d.n then s.index j else s.index r := by
        rw [hidx r hr]
        unfold Dict.I Dict.pivot
        simp only
        rw [getD_map_range hr]
        split
        · rw [h.idx _ (by omega)]
        · split
          · rw [h.idx _ (by omega)]
          · rw [h.idx _ (by omega)]
      have nb : ∀ l, l < d.n → t.value (s.index l) = s.value (s.index l) + (if l = j then 1 / d.a i j * (c.bnd - d.P (i + d.n)) else 0) :=
        fun l hl => hsh.nb l (by show l < s.n; rw [h.n]; exact hl)
      have b : ∀ k, k < d.m → t.value (s.index (k + d.n)) = s.value (s.index (k + d.n)) + d.a k j * (1 / d.a i j * (c.bnd - d.P (i + d.n))) := by
        intro k hk
        have := hsh.b k (by show k < s.m; rw [h.m]; exact hk)
        rw [show s1.n = d.n from h.n] at this
        rw [show s1.tab.coef k j = d.a k j from h.A _ _ hk hj] at this
        exact this
      rw [e1]
      unfold Dict.P Dict.pivot
      simp only
      rw [getD_map_range hr]
      by_cases hrj' : r = j
      · rw [if_pos hrj', if_pos hrj', b i hi, h.val _ (by omega)]
      · rw [if_neg hrj', if_neg hrj']
        by_cases hri : r = i + d.n
        · rw [if_pos hri, if_pos hri, nb j hj, if_pos rfl, h.val _ (by omega)]
        · rw [if_neg hri, if_neg hri]
          by_cases hrn : r < d.n
          · rw [if_pos hrn, nb r hrn, if_neg hrj', add_zero, h.val _ (by omega)]
          · rw [if_neg hrn]
            have := b (r - d.n) (by omega)
            rw [show r - d.n + d.n = r by omega] at this
            rw [this, h.val _ (by omega)]
    · intro k l hk hl
      rw [hp.coef]
      show (if k = i then (if l = j then 1 / s.tab.coef i j else - s.tab.coef i l / s.tab.coef i j)
        else (if l = j then s.tab.coef k j / s.tab.coef i j else s.tab.coef k l - s.tab.coef k j * s.tab.coef i l / s.tab.coef i j)) = _
      have hk' : k < d.m := hk
      have hl' : l < d.n := hl
      rw [h.A _ _ hi hj, h.A _ _ hi hl', h.A _ _ hk' hj, h.A _ _ hk' hl']
      conv_rhs => unfold Dict.a Dict.pivot
      simp only
      rw [getD_map_range hk', getD_map_range hl']
    · intro v hv
      have : t.lo v = s.lo v := by unfold S.lo S.bval; rw [hp.keep.lower, hp.keep.bounds]
      rw [this]; exact h.lo v hv
    · intro v hv
      have : t.up v = s.up v := by unfold S.up S.bval; rw [hp.keep.upper, hp.keep.bounds]
      rw [this]; exact h.up v hv

/-- All states visited by a sequence of iterations are states of the code. -/
theorem Fits.run {es : List (ℕ × ℕ)} : ∀ {d d' : Dict} {s : S ℚ}, Fits d s → Struct s → Dict.run es d = some d' →
    ∃ t, Struct t ∧ Fits d' t ∧ ∀ fuel, optLoop (fuel + es.length) s = optLoop fuel t := by
  induction es with
  | nil =>
    intro d d' s h hs hr
    obtain rfl := Option.some.inj hr
    exact ⟨s, hs, h, fun _ => rfl⟩
  | cons e es ih =>
    intro d d' s h hs hr
    unfold Dict.run at hr
    obtain ⟨d1, h1, h2⟩ := Option.bind_eq_some_iff.1 hr
    obtain ⟨t, k1, k2, k3⟩ := h.step hs h1
    obtain ⟨u, l1, l2, l3⟩ := ih k3 k2 h2
    refine ⟨u, l1, l2, fun fuel => ?_⟩
    show optLoop ((fuel + es.length) + 1) s = _
    rw [← l3 fuel]
    conv_lhs => unfold optLoop
    rw [k1]

theorem optLoop_mono {f : ℕ} : ∀ {f' : ℕ} {s u : S ℚ}, f ≤ f' → optLoop f s = some u → optLoop f' s = some u := by
  induction f with
  | zero => intro f' s u _ h; cases h
  | succ f ihf =>
    intro f' s u hle h
    obtain ⟨f'', rfl⟩ : ∃ f'', f' = f'' + 1 := ⟨f' - 1, by omega⟩
    unfold optLoop at h ⊢
    cases ho : s.optStep with
    | inl x => rw [ho] at h; exact h
    | inr x => rw [ho] at h; exact ihf (by omega) h

/-- A cycle: `optimize` does not terminate. -/
theorem Fits.cycle {es : List (ℕ × ℕ)} {d : Dict} (hne : es ≠ []) (hr : Dict.run es d = some d) (fuel : ℕ) :
    ∀ {s : S ℚ}, Fits d s → Struct s → optLoop fuel s = none := by
  induction fuel using Nat.strong_induction_on with
  | _ fuel ih =>
    intro s h hs
    obtain ⟨t, h1, h2, h3⟩ := h.run hs hr
    have hl : 0 < es.length := List.length_pos_iff.2 hne
    by_cases hf : fuel < es.length
    · -- fewer iterations than the cycle is long
      cases ho : optLoop fuel s with
      | none => rfl
      | some u =>
        have := optLoop_mono (f' := 0 + es.length) (by omega) ho
        rw [h3 0] at this
        cases this
    · rw [show fuel = (fuel - es.length) + es.length by omega, h3]
      exact ih _ (by omega) h2 h1

end Dict
end S
end Lpx
