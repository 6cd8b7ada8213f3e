import Verif.Asserts
import Verif.WeakSolve

/-! # The assertions never fail: proofs about single calls -/

set_option linter.unusedSectionVars false

namespace Lpx
open Finset

namespace Tableau

/-- Both rows have a cell in column `j` or none has: the assertions of the merge loop hold. -/
theorem mergeAsserts_true (j : ℕ) (cs es : List Cell) (hcs : Sorted cs) (hes : Sorted es)
    (h : (∃ c ∈ cs, c.col = j) ↔ (∃ e ∈ es, e.col = j)) : mergeAsserts j cs es = true := by
  induction cs, es using mergeAsserts.induct with
  | case1 => simp [mergeAsserts]
  | case2 c cs ih =>
    have h0 : ¬ ∃ c' ∈ c :: cs, c'.col = j := fun hx => by obtain ⟨_, h1, _⟩ := h.1 hx; simp at h1
    rw [mergeAsserts]
    simp only [Bool.and_eq_true, decide_eq_true_eq]
    refine ⟨fun hc => h0 ⟨c, by simp, hc⟩, ih hcs.tail hes ⟨fun ⟨x, hx, hj⟩ => absurd ⟨x, by simp [hx], hj⟩ h0, fun ⟨x, hx, _⟩ => by simp at hx⟩⟩
  | case3 e es ih =>
    have h0 : ¬ ∃ c' ∈ e :: es, c'.col = j := fun hx => by obtain ⟨_, h1, _⟩ := h.2 hx; simp at h1
    rw [mergeAsserts]
    simp only [Bool.and_eq_true, decide_eq_true_eq]
    refine ⟨fun hc => h0 ⟨e, by simp, hc⟩, ih hcs hes.tail ⟨fun ⟨x, hx, _⟩ => by simp at hx, fun ⟨x, hx, hj⟩ => absurd ⟨x, by simp [hx], hj⟩ h0⟩⟩
  | case4 c cs e es hlt ih =>
    rw [mergeAsserts, if_pos hlt]
    simp only [Bool.and_eq_true, decide_eq_true_eq]
    have hc : c.col ≠ j := by
      intro hc
      obtain ⟨x, hx, hj⟩ := h.1 ⟨c, by simp, hc⟩
      rcases List.mem_cons.1 hx with rfl | hx
      · omega
      · have := hes.head x hx; omega
    refine ⟨hc, ih hcs.tail hes ⟨fun ⟨x, hx, hj⟩ => h.1 ⟨x, by simp [hx], hj⟩, fun hx => ?_⟩⟩
    obtain ⟨x, hx, hj⟩ := h.2 hx
    rcases List.mem_cons.1 hx with rfl | hx
    · exact absurd hj hc
    · exact ⟨x, hx, hj⟩
  | case5 c cs e es hnlt hlt ih =>
    rw [mergeAsserts, if_neg hnlt, if_pos hlt]
    simp only [Bool.and_eq_true, decide_eq_true_eq]
    have hc : e.col ≠ j := by
      intro hc
      obtain ⟨x, hx, hj⟩ := h.2 ⟨e, by simp, hc⟩
      rcases List.mem_cons.1 hx with rfl | hx
      · omega
      · have := hcs.head x hx; omega
    refine ⟨hc, ih hcs hes.tail ⟨fun hx => ?_, fun ⟨x, hx, hj⟩ => h.2 ⟨x, by simp [hx], hj⟩⟩⟩
    obtain ⟨x, hx, hj⟩ := h.1 hx
    rcases List.mem_cons.1 hx with rfl | hx
    · exact absurd hj hc
    · exact ⟨x, hx, hj⟩
  | case6 c cs e es hnlt hnlt' ih =>
    rw [mergeAsserts, if_neg hnlt, if_neg hnlt']
    have hce : c.col = e.col := by omega
    refine ih hcs.tail hes.tail ⟨?_, ?_⟩
    · rintro ⟨x, hx, hj⟩
      obtain ⟨y, hy, hj'⟩ := h.1 ⟨x, by simp [hx], hj⟩
      rcases List.mem_cons.1 hy with rfl | hy
      · have := hcs.head x hx; omega
      · exact ⟨y, hy, hj'⟩
    · rintro ⟨x, hx, hj⟩
      obtain ⟨y, hy, hj'⟩ := h.2 ⟨x, by simp [hx], hj⟩
      rcases List.mem_cons.1 hy with rfl | hy
      · have := hes.head x hx; omega
      · exact ⟨y, hy, hj'⟩

variable {t : Tableau} {i j : ℕ}

theorem pivotLoopAsserts_true (h : WF t) (hij : t.coef i j ≠ 0) (rest done : List ℕ) (st : PivotSt)
    (hi : PInv t i j done st) (hnd : (done ++ rest).Nodup) :
    pivotLoopAsserts i j (pa t i j) (t.rows i).den rest st = true := by
  induction rest generalizing done st with
  | nil => rfl
  | cons k ks ih =>
    have hk : k ∉ done := by
      rw [List.nodup_append] at hnd
      intro hm; exact hnd.2.2 k hm k (by simp) rfl
    rw [pivotLoopAsserts, ih (done ++ [k]) _ (pinv_step h hij hi hk) (by simpa using hnd), Bool.and_true]
    unfold pivotStepAsserts
    by_cases hki : k = i
    · subst hki; split <;> simp
    · have hrow_k : st.rows k = t.rows k := by rw [hi.rows k, if_neg hki, if_neg hk]
      have hrow_i : st.rows i = { t.rows i with cells := prow t i j } := by rw [hi.rows i, if_pos rfl]
      rw [hrow_k, hrow_i]
      cases hf : findCell (t.rows k).cells j with
      | none => rfl
      | some a =>
        simp only [if_neg hki]
        refine mergeAsserts_true j _ _ (sorted_prow h) (h.row k).sorted ⟨fun _ => ?_, fun _ => ?_⟩
        · exact ⟨_, (findCell_some (h.row k).sorted).1 hf, rfl⟩
        · exact ⟨_, (findCell_some (sorted_prow h)).1 (findCell_prow h hij).1, rfl⟩

/-- The assertions of `Tableau::pivot` hold if the pivot cell exists. -/
theorem pivotAsserts_true (h : WF t) (hij : t.coef i j ≠ 0) : t.pivotAsserts i j = true := by
  unfold pivotAsserts
  refine pivotLoopAsserts_true h hij (t.cols j) [] _ ?_ ?_
  · constructor
    · intro k
      by_cases hk : k = i
      · subst hk; simp
      · simp [hk]
    · intro l; simp
    · intro l; simp
    · simp
  · simp only [List.nil_append]
    exact (h.colSorted j).imp (fun h => Nat.ne_of_lt h)

end Tableau

variable {V : Type} [LpValue V]

namespace S

/-! ### crosschecks -/

theorem rowOk_true {s : S V} (hs : Struct s) (i : ℕ) : s.rowOk i = true := by
  unfold rowOk; rw [List.all_eq_true]
  exact fun e he => decide_eq_true (rowEntries_lt hs i e he)

theorem colOk_true {s : S V} (hs : Struct s) (j : ℕ) : s.colOk j = true := by
  unfold colOk; rw [List.all_eq_true]
  exact fun e he => decide_eq_true (colEntries_lt hs j e he)

theorem rowValue_eq {s : S V} (hs : Struct s) (i : ℕ) :
    s.rowValue i = ∑ l ∈ range s.n, s.tab.coef i l • s.value (s.index l) := by
  rw [row_sum hs i s.value]
  unfold rowValue
  have h : ∀ (L : List (ℕ × ℤ × ℤ)) (acc : V),
      L.foldl (fun v (e : ℕ × ℤ × ℤ) => v + mulDiv (s.value (s.index e.1)) e.2.1 e.2.2) acc =
        acc + (L.map fun e => mulDiv (s.value (s.index e.1)) e.2.1 e.2.2).sum := by
    intro L
    induction L with
    | nil => intro acc; simp
    | cons e es ih => intro acc; rw [List.foldl_cons, ih]; simp [add_assoc]
  rw [h, zero_add]

/-- `check_tableau_` succeeds iff the values satisfy the equations of the tableau. -/
theorem checkTableau_iff {s : S V} (hs : Struct s) : s.checkTableau = true ↔ TabEq s s.value := by
  unfold checkTableau TabEq
  rw [List.all_eq_true]
  constructor
  · intro h i hi
    have := h i (List.mem_range.2 hi)
    rw [Bool.and_eq_true, decide_eq_true_eq, rowValue_eq hs] at this
    exact this.2.symm
  · intro h i hi
    rw [Bool.and_eq_true, decide_eq_true_eq, rowValue_eq hs]
    exact ⟨rowOk_true hs i, (h i (List.mem_range.1 hi)).symm⟩

theorem noViol_iff (s : S V) (v : ℕ) : (!s.belowLo v && !s.aboveUp v) = true ↔ s.Win v := by
  rw [← Bool.not_or, Bool.not_eq_true']
  have := hasConflict_iff s v
  unfold hasConflict at this
  rw [← not_iff_not, ← this, Bool.not_eq_false]

/-- All violated basic variables, except those of the rows in `ex`, are marked as queued. -/
def QR (s : S V) (ex : ℕ → Prop) : Prop :=
  ∀ i, i < s.m → ¬ ex i → ¬ s.Win (s.index (i + s.n)) → s.queued (s.index (i + s.n)) = true

/-- `check_basic_` succeeds iff all violated basic variables are marked. -/
theorem checkBasic_iff (s : S V) : s.checkBasic = true ↔ QR s (fun _ => False) := by
  unfold checkBasic QR
  rw [List.all_eq_true]
  refine forall_congr' fun i => ?_
  rw [List.mem_range]
  refine imp_congr_right fun _ => ?_
  have hv := noViol_iff s (s.index (i + s.n))
  cases hq : s.queued (s.index (i + s.n)) <;>
    cases hb : s.belowLo (s.index (i + s.n)) <;> cases ha : s.aboveUp (s.index (i + s.n)) <;>
    simp_all

/-- `check_non_basic_` succeeds iff all non-basic variables are within their bounds. -/
theorem checkNonBasic_iff (s : S V) : s.checkNonBasic = true ↔ ∀ l, l < s.n → s.Win (s.index l) := by
  unfold checkNonBasic
  rw [List.all_eq_true]
  refine forall_congr' fun i => ?_
  rw [List.mem_range]
  exact imp_congr_right fun _ => noViol_iff s _

/-- `check_solution_` succeeds iff the values satisfy the tableau and all bounds. -/
theorem checkSolution_iff {s : S V} (hs : Struct s) :
    s.checkSolution = true ↔ TabEq s s.value ∧ ∀ v, v < s.nvars → s.Win v := by
  unfold checkSolution
  rw [Bool.and_eq_true, Bool.and_eq_true, checkTableau_iff hs, checkBasic_iff, List.all_eq_true]
  have h1 : (∀ v ∈ List.range s.nvars, (!s.belowLo v && !s.aboveUp v) = true) ↔ ∀ v, v < s.nvars → s.Win v := by
    refine forall_congr' fun i => ?_
    rw [List.mem_range]
    exact imp_congr_right fun _ => noViol_iff s _
  rw [h1]
  constructor
  · rintro ⟨⟨h2, h3⟩, _⟩; exact ⟨h3, h2⟩
  · rintro ⟨h2, h3⟩
    refine ⟨⟨h3, h2⟩, fun i hi _ hw => absurd (h3 _ (hs.idx_lt _ ?_)) hw⟩
    rw [hs.nv]; omega

theorem assertExtra_of {extra b : Bool} (h : extra = true → b = true) : assertExtra extra b = true := by
  unfold assertExtra; cases extra
  · rfl
  · simpa using h rfl

/-! ### marked variables -/

theorem enqueue_queued_mono (s : S V) (i : ℕ) {v : ℕ} (h : s.queued v = true) : (s.enqueue i).queued v = true := by
  rw [(enqueue_conflicts s i).2]; split
  · by_cases hv : v = s.index (i + s.n)
    · subst hv; simp
    · rw [Function.update_of_ne hv]; exact h
  · exact h

theorem enqueue_queued (s : S V) (i : ℕ) (h : ¬ s.Win (s.index (i + s.n))) : (s.enqueue i).queued (s.index (i + s.n)) = true := by
  rw [(enqueue_conflicts s i).2]
  have hc := (hasConflict_iff s _).2 h
  rw [hc]
  cases hq : s.queued (s.index (i + s.n)) <;> simp [hq]

theorem QR.mono {s : S V} {ex ex' : ℕ → Prop} (h : QR s ex) (hx : ∀ i, ex i → ex' i) : QR s ex' :=
  fun i hi hn => h i hi (fun hx' => hn (hx i hx'))

/-- `enqueue_` marks the row. -/
theorem QR.enqueue {s : S V} {ex : ℕ → Prop} {i : ℕ} (h : QR s (fun k => ex k ∨ k = i)) : QR (s.enqueue i) ex := by
  intro k hk hx hw
  have hkp := enqueue_keep s i
  obtain ⟨a1, a2, a3, a4, a5, a6, a7, a8⟩ := enqueue_same s i
  rw [hkp.m] at hk; rw [a1, hkp.n] at hw ⊢
  have hw' : ¬ s.Win (s.index (k + s.n)) := by rwa [win_congr hkp (by rw [a4])] at hw
  by_cases hki : k = i
  · subst hki; exact enqueue_queued s k hw'
  · exact enqueue_queued_mono s i (h k hk (by simp [hx, hki]) hw')

/-- Changing the value of a basic variable affects its row only. -/
theorem QR.setBasic {s : S V} (hs : Struct s) {ex : ℕ → Prop} {i : ℕ} (hi : i < s.m) (h : QR s ex) (lvl : ℕ) (x : V) (add : Bool) :
    QR (s.setValue lvl (s.index (i + s.n)) x add) (fun k => ex k ∨ k = i) := by
  intro k hk hx hw
  rw [not_or] at hx
  have hkp := setValue_keep s lvl (s.index (i + s.n)) x add
  obtain ⟨b1, b2, b3, b4, b5, b6, b7⟩ := setValue_same s lvl (s.index (i + s.n)) x add
  rw [hkp.m] at hk; rw [b1, hkp.n] at hw ⊢
  rw [b5]
  have hne : s.index (k + s.n) ≠ s.index (i + s.n) := fun he => by
    have := index_inj hs (by rw [hs.nv]; omega) (by rw [hs.nv]; omega) he; omega
  rw [win_congr hkp (by rw [setValue_value, Function.update_of_ne hne])] at hw
  exact h k hk hx.1 hw

/-- Changing the value of a non-basic variable affects no row. -/
theorem QR.setNonBasic {s : S V} (hs : Struct s) {ex : ℕ → Prop} {j : ℕ} (hj : j < s.n) (h : QR s ex) (lvl : ℕ) (x : V) (add : Bool) :
    QR (s.setValue lvl (s.index j) x add) ex := by
  intro k hk hx hw
  have hkp := setValue_keep s lvl (s.index j) x add
  obtain ⟨b1, b2, b3, b4, b5, b6, b7⟩ := setValue_same s lvl (s.index j) x add
  rw [hkp.m] at hk; rw [b1, hkp.n] at hw ⊢
  rw [b5]
  have hne : s.index (k + s.n) ≠ s.index j := fun he => by
    have := index_inj hs (by rw [hs.nv]; omega) (by rw [hs.nv]; omega) he; omega
  rw [win_congr hkp (by rw [setValue_value, Function.update_of_ne hne])] at hw
  exact h k hk hx hw

theorem setValue_struct {s : S V} (hs : Struct s) (lvl v : ℕ) (x : V) (add : Bool) : Struct (s.setValue lvl v x add) := by
  have hk := setValue_keep s lvl v x add
  obtain ⟨b1, b2, b3, _⟩ := setValue_same s lvl v x add
  exact ⟨by rw [hk.nvars, hk.n, hk.m]; exact hs.nv, by rw [hk.nvars, b1]; exact hs.idx_lt, by rw [hk.nvars, b2]; exact hs.ridx_lt,
    by rw [hk.nvars, b1, b2]; exact hs.ir, by rw [hk.nvars, b1, b2]; exact hs.ri, by rw [b3]; exact hs.wf, by rw [b3, hk.m, hk.n]; exact hs.shape, by rw [b3]; exact hs.low⟩

theorem enqueue_struct {s : S V} (hs : Struct s) (i : ℕ) : Struct (s.enqueue i) := by
  have hk := enqueue_keep s i
  obtain ⟨b1, b2, b3, _⟩ := enqueue_same s i
  exact ⟨by rw [hk.nvars, hk.n, hk.m]; exact hs.nv, by rw [hk.nvars, b1]; exact hs.idx_lt, by rw [hk.nvars, b2]; exact hs.ridx_lt,
    by rw [hk.nvars, b1, b2]; exact hs.ir, by rw [hk.nvars, b1, b2]; exact hs.ri, by rw [b3]; exact hs.wf, by rw [b3, hk.m, hk.n]; exact hs.shape, by rw [b3]; exact hs.low⟩

theorem QR.colStep {s : S V} (hs : Struct s) {ex : ℕ → Prop} {e : ℕ × ℤ × ℤ} (he : e.1 < s.m) (h : QR s ex) (lvl : ℕ) (d : V) :
    QR (S.colStep lvl d s e) ex := by
  unfold S.colStep
  exact (h.setBasic hs he lvl _ true).enqueue

theorem QR.colFold {ex : ℕ → Prop} (lvl : ℕ) (d : V) (L : List (ℕ × ℤ × ℤ)) : ∀ {s : S V}, Struct s → (∀ e ∈ L, e.1 < s.m) → QR s ex →
    QR (L.foldl (S.colStep lvl d) s) ex := by
  induction L with
  | nil => intro s _ _ h; exact h
  | cons e es ih =>
    intro s hs hlt h
    rw [List.foldl_cons]
    refine ih ?_ ?_ (h.colStep hs (hlt e (by simp)) lvl d)
    · exact enqueue_struct (setValue_struct hs _ _ _ _) _
    · intro e' he'
      rw [(colStep_keep lvl d s e).m]
      exact hlt e' (by simp [he'])

theorem QR.of_eq {s s' : S V} {ex : ℕ → Prop} (h : QR s ex) (hm : s'.m = s.m) (hn : s'.n = s.n) (hi : s'.index = s.index)
    (hq : s'.queued = s.queued) (hlo : s'.lo = s.lo) (hup : s'.up = s.up) (hv : s'.value = s.value) : QR s' ex := by
  intro k hk hx hw
  unfold Win at hw
  rw [hm] at hk; rw [hi, hn] at hw ⊢; rw [hlo, hup, hv] at hw; rw [hq]
  exact h k hk hx hw


theorem foldl_inv {α β : Type} (P : β → Prop) {f : β → α → β} {L : List α} {s : β} (hs : P s)
    (h : ∀ s e, e ∈ L → P s → P (f s e)) : P (L.foldl f s) := by
  induction L generalizing s with
  | nil => exact hs
  | cons e es ih => exact ih (h s e (by simp) hs) (fun s e' he' => h s e' (by simp [he']))

/-- What the loops over a column preserve. -/
structure ColInv (s : S V) (ex : ℕ → Prop) (t : S V) : Prop where
  struct : Struct t
  keep : Keep s t
  index : t.index = s.index
  rindex : t.rindex = s.rindex
  tab : t.tab = s.tab
  qr : QR s ex → QR t ex

theorem ColInv.step {s t : S V} {ex : ℕ → Prop} (h : ColInv s ex t) {i : ℕ} (hi : i < s.m) (lvl : ℕ) (x : V) (add : Bool) :
    ColInv s ex ((t.setValue lvl (t.index (i + t.n)) x add).enqueue i) := by
  obtain ⟨a1, a2, a3, _⟩ := enqueue_same (t.setValue lvl (t.index (i + t.n)) x add) i
  obtain ⟨b1, b2, b3, _⟩ := setValue_same t lvl (t.index (i + t.n)) x add
  refine ⟨enqueue_struct (setValue_struct h.struct _ _ _ _) _, h.keep.trans ((setValue_keep _ _ _ _ _).trans (enqueue_keep _ _)),
    (a1.trans b1).trans h.index, (a2.trans b2).trans h.rindex, (a3.trans b3).trans h.tab, fun hq => ?_⟩
  exact ((h.qr hq).setBasic h.struct (by rw [h.keep.m]; exact hi) lvl x add).enqueue

/-- `update_` keeps the violated basic variables marked. -/
theorem QR.update {s : S V} (hs : Struct s) {ex : ℕ → Prop} {j : ℕ} (hj : j < s.n) (h : QR s ex) (lvl : ℕ) (v : V) :
    QR (s.update lvl j v) ex := by
  unfold S.update
  simp only
  have hinv : ColInv s ex ((s.tab.colEntries j).foldl (fun s' (e : ℕ × ℤ × ℤ) =>
      (s'.setValue lvl (s'.index (e.1 + s'.n)) (mulDiv (v - s'.value (s.index j)) e.2.1 e.2.2) true).enqueue e.1) s) := by
    refine foldl_inv (ColInv s ex) ⟨hs, Keep.refl s, rfl, rfl, rfl, id⟩ ?_
    intro t e he ht
    exact ht.step (colEntries_lt hs j e he) lvl _ true
  generalize (s.tab.colEntries j).foldl (fun s' (e : ℕ × ℤ × ℤ) =>
      (s'.setValue lvl (s'.index (e.1 + s'.n)) (mulDiv (v - s'.value (s.index j)) e.2.1 e.2.2) true).enqueue e.1) s = t at *
  rw [show s.index j = ({ t with tab := t.tab.compactCol j } : S V).index j from (congrFun hinv.index j).symm]
  refine QR.setNonBasic (s := { t with tab := t.tab.compactCol j }) ?_ (show j < t.n by rw [hinv.keep.n]; exact hj) ?_ lvl v false
  · exact ⟨hinv.struct.nv, hinv.struct.idx_lt, hinv.struct.ridx_lt, hinv.struct.ir, hinv.struct.ri, Tableau.wf_compactCol hinv.struct.wf j, hinv.struct.shape, hinv.struct.low⟩
  · exact (hinv.qr h).of_eq rfl rfl rfl rfl rfl rfl rfl

/-- The state in the middle of `pivot_`. -/
structure MidSpec (s : S V) (i j : ℕ) (t : S V) : Prop where
  struct : Struct t
  keep : Keep s t
  index : t.index = s.index
  rindex : t.rindex = s.rindex
  tab : t.tab = s.tab.compactCol j
  qr : QR s (fun k => k = i) → QR t (fun k => k = i)

theorem pivotMid_spec {s : S V} (hs : Struct s) (lvl : ℕ) {i j : ℕ} (hi : i < s.m) (hj : j < s.n) (v : V) :
    MidSpec s i j (s.pivotMid lvl i j v) := by
  unfold pivotMid
  simp only
  generalize divMul (v - s.value (s.index (i + s.n))) ((Tableau.findCell (s.tab.rows i).cells j).getD 0) (s.tab.rows i).den = θ
  have h1 : ColInv s (fun k => k = i) ((s.setValue lvl (s.index (i + s.n)) v false).setValue lvl (s.index j) θ true) := by
    obtain ⟨b1, b2, b3, _⟩ := setValue_same s lvl (s.index (i + s.n)) v false
    obtain ⟨c1, c2, c3, _⟩ := setValue_same (s.setValue lvl (s.index (i + s.n)) v false) lvl (s.index j) θ true
    refine ⟨setValue_struct (setValue_struct hs _ _ _ _) _ _ _ _, (setValue_keep _ _ _ _ _).trans (setValue_keep _ _ _ _ _),
      c1.trans b1, c2.trans b2, c3.trans b3, fun hq => ?_⟩
    have h2 := hq.setBasic hs hi lvl v false
    rw [show s.index j = (s.setValue lvl (s.index (i + s.n)) v false).index j from (congrFun b1 j).symm]
    refine (QR.setNonBasic (setValue_struct hs _ _ _ _) (by rw [(setValue_keep _ _ _ _ _).n]; exact hj) h2 lvl θ true).mono ?_
    intro k hk; rcases hk with hk | hk <;> exact hk
  generalize (s.setValue lvl (s.index (i + s.n)) v false).setValue lvl (s.index j) θ true = s2 at *
  have hinv : ColInv s (fun k => k = i) ((s2.tab.colEntries j).foldl (fun s' (e : ℕ × ℤ × ℤ) =>
      if e.1 ≠ i then (s'.setValue lvl (s'.index (e.1 + s'.n)) (mulDiv θ e.2.1 e.2.2) true).enqueue e.1 else s') s2) := by
    refine foldl_inv (ColInv s (fun k => k = i)) h1 ?_
    intro t e he ht
    rw [h1.tab] at he
    by_cases hei : e.1 = i
    · rw [if_neg (by simpa using hei)]; exact ht
    · rw [if_pos hei]
      exact ht.step (colEntries_lt hs j e he) lvl _ true
  generalize (s2.tab.colEntries j).foldl (fun s' (e : ℕ × ℤ × ℤ) =>
      if e.1 ≠ i then (s'.setValue lvl (s'.index (e.1 + s'.n)) (mulDiv θ e.2.1 e.2.2) true).enqueue e.1 else s') s2 = t at *
  refine ⟨⟨hinv.struct.nv, hinv.struct.idx_lt, hinv.struct.ridx_lt, hinv.struct.ir, hinv.struct.ri, Tableau.wf_compactCol hinv.struct.wf j, hinv.struct.shape, hinv.struct.low⟩,
    hinv.keep.trans (by constructor <;> rfl), hinv.index, hinv.rindex, ?_, fun hq => (hinv.qr hq).of_eq rfl rfl rfl rfl rfl rfl rfl⟩
  show t.tab.compactCol j = _
  rw [hinv.tab]

theorem cell_of_coef {s : S V} (hs : Struct s) {i j : ℕ} (hc : s.tab.coef i j ≠ 0) :
    ∃ a, Tableau.findCell (s.tab.rows i).cells j = some a ∧ a ≠ 0 := by
  obtain ⟨a, ha⟩ := (Tableau.coef_ne_zero hs.wf).1 hc
  exact ⟨a, (Tableau.findCell_some (hs.wf.row i).sorted).2 ha,
    (Tableau.rowEntries_coef hs.wf ((Tableau.mem_rowEntries hs.wf).2 ⟨rfl, ha⟩)).2.1⟩

theorem pivot_mid {s : S V} (hs : Struct s) (lvl : ℕ) {i j : ℕ} (hc : s.tab.coef i j ≠ 0) (v : V) :
    s.pivot lvl i j v = (s.pivotMid lvl i j v).pivotEnd i j (s.index (i + s.n)) (s.index j) := by
  obtain ⟨a, ha, h0⟩ := cell_of_coef hs hc
  obtain ⟨hi, hj⟩ := hs.shape i j hc
  exact pivot_parts s lvl i j v ha h0 hi hj

theorem pivotEnd_value (s : S V) (i j xi xj : ℕ) : (s.pivotEnd i j xi xj).value = s.value := by
  unfold pivotEnd
  simp only
  exact (enqueue_same _ i).2.2.2.1

/-- `pivot_` keeps the violated basic variables marked; the leaving variable becomes non-basic. -/
theorem QR.pivot {s : S V} (hs : Struct s) (lvl : ℕ) {i j : ℕ} (hc : s.tab.coef i j ≠ 0) (v : V) (h : QR s (fun k => k = i)) :
    QR (s.pivot lvl i j v) (fun _ => False) := by
  obtain ⟨hi, hj⟩ := hs.shape i j hc
  rw [pivot_mid hs lvl hc v]
  have hm := pivotMid_spec hs lvl hi hj v
  generalize s.pivotMid lvl i j v = t at *
  have hq := hm.qr h
  unfold pivotEnd
  simp only
  refine QR.of_eq (s := S.enqueue _ i) ?_ rfl rfl rfl rfl rfl rfl rfl
  refine QR.enqueue ?_
  intro k hk hx hw
  simp only [false_or] at hx
  have hki : k + t.n ≠ i + t.n := by omega
  have hkj : k + t.n ≠ j := by have := hm.keep.n; omega
  have hidx : Function.update (Function.update t.index (i + t.n) (t.index j)) j (t.index (i + t.n)) (k + t.n) = t.index (k + t.n) := by
    rw [Function.update_of_ne hkj, Function.update_of_ne hki]
  simp only [hidx] at hw ⊢
  exact hq k hk hx hw

/-- The assertions of `pivot_`. -/
theorem pivotAsserts_true {s : S V} (hs : Struct s) (hv : TabEq s s.value) {extra : Bool} (lvl : ℕ) {i j : ℕ}
    (hc : s.tab.coef i j ≠ 0) (v : V)
    (hx : extra = true → QR s (fun k => k = i) ∧ ∀ l, l < (s.pivot lvl i j v).n → (s.pivot lvl i j v).Win ((s.pivot lvl i j v).index l)) :
    s.pivotAsserts extra lvl i j v = true := by
  obtain ⟨a, ha, h0⟩ := cell_of_coef hs hc
  obtain ⟨hi, hj⟩ := hs.shape i j hc
  have hm := pivotMid_spec hs lvl hi hj v
  have hp := pivot_spec s hs lvl i j hc v
  have hval : (s.pivot lvl i j v).value = (s.pivotMid lvl i j v).value := by
    rw [pivot_mid hs lvl hc v, pivotEnd_value]
  have htab := hp.shift.tabEq hj hv
  unfold pivotAsserts
  simp only [Bool.and_eq_true]
  refine ⟨⟨⟨⟨⟨⟨⟨⟨?_, decide_eq_true hi⟩, decide_eq_true hj⟩, colOk_true hs j⟩, assertExtra_of fun _ => ?_⟩, ?_⟩, assertExtra_of fun _ => ?_⟩,
    assertExtra_of fun he => ?_⟩, assertExtra_of fun he => ?_⟩
  · rw [ha]; exact decide_eq_true h0
  · rw [checkTableau_iff hm.struct]
    rw [hval] at htab
    intro k hk
    rw [hm.keep.m] at hk
    have := htab k hk
    rw [hm.index, hm.keep.n, hm.tab]
    simp only [Tableau.coef_compactCol]
    exact this
  · refine Tableau.pivotAsserts_true hm.struct.wf ?_
    rw [hm.tab, Tableau.coef_compactCol]; exact hc
  · rw [checkTableau_iff hp.struct, hp.tabEq]
    exact htab
  · rw [checkBasic_iff]
    exact (hx he).1.pivot hs lvl hc v
  · rw [checkNonBasic_iff]
    exact (hx he).2


/-! ### select -/

theorem selectEntry_ret (s : S V) (i : ℕ) (lower : Bool) (bnd : V) (L : List (ℕ × ℤ × ℤ)) (st : SelSt V)
    (h : ∀ r, st.ret = some r → r.1 = i) : ∀ r, (L.foldl (selectEntry s i lower bnd) st).ret = some r → r.1 = i := by
  refine foldl_inv (fun st : SelSt V => ∀ r, st.ret = some r → r.1 = i) h ?_
  intro st e _ hst r hr
  rw [selectEntry_eq] at hr
  split at hr
  · exact hst r hr
  · split at hr
    · exact hst r hr
    · simp only [Option.some.injEq] at hr; rw [← hr]

/-- `select_` leaves all violated basic variables marked except the one it selects. -/
theorem selectLoop_qr (L : List ℕ) : ∀ (s : S V), Struct s → (∀ v ∈ L, v < s.nvars) → QR s (fun _ => False) →
    ∀ {i j v}, (selectLoop L s).2 = .unknown i j v → QR (selectLoop L s).1 (fun k => k = i) := by
  induction L with
  | nil => intro s _ _ _ i j v h; simp [selectLoop] at h
  | cons ii rest ih =>
    intro s hs hlt hq i j v h
    have hii := hlt ii (by simp)
    have hs1 : Struct { s with queued := Function.update s.queued ii false } := ⟨hs.nv, hs.idx_lt, hs.ridx_lt, hs.ir, hs.ri, hs.wf, hs.shape, hs.low⟩
    -- marks after removing `ii`
    have hq1 : ∀ k, k < s.m → s.index (k + s.n) ≠ ii → ¬ s.Win (s.index (k + s.n)) →
        Function.update s.queued ii false (s.index (k + s.n)) = true := by
      intro k hk hne hw
      rw [Function.update_of_ne hne]; exact hq k hk (by simp) hw
    have hpos : ∀ k, k < s.m → s.index (k + s.n) = ii → s.rindex ii = k + s.n := by
      intro k hk he; rw [← he]; exact hs.ri _ (by rw [hs.nv]; omega)
    unfold selectLoop at h ⊢
    simp only at h ⊢
    split at h
    · rename_i hn
      rw [if_pos hn]
      refine ih _ hs1 (fun v hv => hlt v (by simp [hv])) ?_ h
      intro k hk _ hw
      refine hq1 k hk (fun he => ?_) hw
      have := hpos k hk he
      have : s.rindex ii < s.n := hn
      omega
    · rename_i hn
      rw [if_neg hn]
      cases hm : (if S.belowLo { s with queued := Function.update s.queued ii false } ii = true then
          S.lo { s with queued := Function.update s.queued ii false } ii
        else if S.aboveUp { s with queued := Function.update s.queued ii false } ii = true then
          S.up { s with queued := Function.update s.queued ii false } ii else none) with
      | none =>
        rw [hm] at h
        simp only at h ⊢
        refine ih _ hs1 (fun v hv => hlt v (by simp [hv])) ?_ h
        intro k hk _ hw
        refine hq1 k hk (fun he => ?_) hw
        have hwin : s.Win ii := by
          rw [← noViol_iff]
          change (if s.belowLo ii = true then s.lo ii else if s.aboveUp ii = true then s.up ii else none) = none at hm
          cases hb : s.belowLo ii
          · cases ha : s.aboveUp ii
            · rfl
            · obtain ⟨b, h1, _⟩ := (aboveUp_iff s ii).1 ha
              simp [hb, ha, h1] at hm
          · obtain ⟨b, h1, _⟩ := (belowLo_iff s ii).1 hb
            simp [hb, h1] at hm
        exact hw (by rw [show S.index _ (k + S.n _) = ii from he]; exact hwin)
      | some bnd =>
        rw [hm] at h
        simp only at h ⊢
        generalize hst : List.foldl _ _ _ = st at h ⊢
        have hret := selectEntry_ret { s with queued := Function.update s.queued ii false } (s.rindex ii - s.n)
          (S.belowLo { s with queued := Function.update s.queued ii false } ii) bnd (s.tab.rowEntries (s.rindex ii - s.n))
          { kk := s.nvars, clause := [-((S.blit { s with queued := Function.update s.queued ii false } (if S.belowLo { s with queued := Function.update s.queued ii false } ii = true then s.lower ii else s.upper ii)).getD 0)], ret := none } (by simp)
        rw [hst] at hret
        cases hr : st.ret with
        | none => rw [hr] at h; simp at h
        | some r =>
          obtain ⟨i', j', v'⟩ := r
          have hi' := hret _ hr
          rw [hr] at h
          simp only [Sel.unknown.injEq] at h
          simp only at hi'
          intro k hk hx hw
          refine hq1 k hk (fun he => ?_) hw
          have h1 := hpos k hk he
          simp only at hx
          omega

theorem select_qr {s : S V} (hs : Struct s) (hqi : QI s) (hq : QR s (fun _ => False)) {i j : ℕ} {v : V}
    (h : s.select.2 = .unknown i j v) : QR s.select.1 (fun k => k = i) :=
  selectLoop_qr s.conflicts s hs hqi.lt hq h

theorem selectLoopAsserts_true {extra : Bool} (L : List ℕ) : ∀ (s : S V), Struct s → TabEq s s.value → (∀ v ∈ L, v < s.nvars) →
    (extra = true → (selectLoop L s).2 = .sat → ∀ v, v < s.nvars → s.Win v) → selectLoopAsserts extra L s = true := by
  induction L with
  | nil =>
    intro s hs hv _ hx
    unfold selectLoopAsserts
    refine assertExtra_of fun he => ?_
    exact (checkSolution_iff (s := { s with conflicts := [] })
      ⟨hs.nv, hs.idx_lt, hs.ridx_lt, hs.ir, hs.ri, hs.wf, hs.shape, hs.low⟩).2 ⟨hv, hx he rfl⟩
  | cons ii rest ih =>
    intro s hs hv hlt hx
    have hs1 : Struct { s with queued := Function.update s.queued ii false } := ⟨hs.nv, hs.idx_lt, hs.ridx_lt, hs.ir, hs.ri, hs.wf, hs.shape, hs.low⟩
    unfold selectLoopAsserts
    simp only
    rw [Bool.and_eq_true]
    refine ⟨decide_eq_true (hs.ir ii (hlt ii (by simp))).symm, ?_⟩
    unfold selectLoop at hx
    simp only at hx
    split
    · rename_i hn
      rw [if_pos hn] at hx
      exact ih _ hs1 hv (fun v hv => hlt v (by simp [hv])) hx
    · rename_i hn
      rw [if_neg hn] at hx
      split
      · rfl
      · rename_i hb
        refine ih _ hs1 hv (fun v hv => hlt v (by simp [hv])) ?_
        rw [Bool.or_eq_true, not_or] at hb
        rw [if_neg hb.1, if_neg hb.2] at hx
        exact hx

theorem selectAsserts_true {extra : Bool} {s : S V} (hs : Struct s) (hv : TabEq s s.value) (hqi : QI s)
    (hx : extra = true → s.select.2 = .sat → ∀ v, v < s.nvars → s.Win v) : s.selectAsserts extra = true :=
  selectLoopAsserts_true s.conflicts s hs hv hqi.lt hx

/-! ### propagation of bounds -/

theorem QForm.same {s s' : S V} (h : QForm s s') : s'.tab = s.tab ∧ s'.n = s.n ∧ s'.m = s.m ∧ s'.index = s.index ∧ (Struct s → Struct s') := by
  obtain ⟨_, _, _, _, _, rfl⟩ := h
  exact ⟨rfl, rfl, rfl, rfl, fun hs => ⟨hs.nv, hs.idx_lt, hs.ridx_lt, hs.ir, hs.ri, hs.wf, hs.shape, hs.low⟩⟩

theorem propRowAsserts_true {s : S V} (hs : Struct s) {i : ℕ} (hi : i < s.m) : s.propRowAsserts i = true := by
  unfold propRowAsserts
  rw [rowOk_true hs, Bool.true_and]
  split
  · rfl
  · exact decide_eq_true hi

theorem propQueueAsserts_true (ctl : Ctl) (is : List ℕ) : ∀ (s : S V), Struct s → (∀ i ∈ is, i < s.m) → propQueueAsserts ctl is s = true := by
  induction is with
  | nil => intro s _ _; rfl
  | cons i is ih =>
    intro s hs hlt
    have hs1 : Struct { s with pqueue := is } := ⟨hs.nv, hs.idx_lt, hs.ridx_lt, hs.ir, hs.ri, hs.wf, hs.shape, hs.low⟩
    unfold propQueueAsserts
    simp only
    rw [propRowAsserts_true hs1 (hlt i (by simp)), Bool.true_and]
    obtain ⟨_, _, h3, _, h5⟩ := (propRow_form ctl { s with pqueue := is } i).same
    split
    · exact ih _ (h5 hs1) (fun k hk => by rw [h3]; exact hlt k (by simp [hk]))
    · rfl

theorem propRowsAsserts_true (ctl : Ctl) (is : List ℕ) : ∀ (s : S V), Struct s → (∀ i ∈ is, i < s.m) → propRowsAsserts ctl is s = true := by
  induction is with
  | nil => intro s _ _; rfl
  | cons i is ih =>
    intro s hs hlt
    unfold propRowsAsserts
    simp only
    rw [propRowAsserts_true hs (hlt i (by simp)), Bool.true_and]
    obtain ⟨_, _, h3, _, h5⟩ := (propRow_form ctl s i).same
    split
    · exact ih _ (h5 hs) (fun k hk => by rw [h3]; exact hlt k (by simp [hk]))
    · rfl

theorem propagateAsserts_true (ctl : Ctl) {s : S V} (hs : Struct s) (hp : PQ s) : s.propagateAsserts ctl = true := by
  unfold propagateAsserts
  split
  · rfl
  · exact propQueueAsserts_true ctl _ s hs hp
  · exact propRowsAsserts_true ctl _ s hs (fun i hi => List.mem_range.1 hi)

/-! ### the loop of solve -/

theorem QR.core {E0 : (ℕ → V) → Prop} {s : S V} (hc : Core E0 s) (hw : ∀ v, v < s.nvars → s.Win v) : QR s (fun _ => False) :=
  fun i hi _ hn => absurd (hw _ (hc.struct.idx_lt _ (by rw [hc.struct.nv]; omega))) hn

theorem solveLoopAsserts_true {E0 : (ℕ → V) → Prop} {L : List ℕ} {ctl : Ctl} (hdl : L.headD 0 = ctl.dl) {extra : Bool} (fuel : ℕ) :
    ∀ {s : S V}, WInv E0 L s → (extra = true → Core E0 s ∧ QR s (fun _ => False)) → solveLoopAsserts extra ctl fuel s = true := by
  induction fuel with
  | zero => intro s _ _; rfl
  | succ fuel ih =>
    intro s hw hx
    obtain ⟨h1, h2, h3⟩ := select_weak hw
    unfold solveLoopAsserts
    simp only
    rw [Bool.and_eq_true]
    constructor
    · refine selectAsserts_true hw.struct hw.val hw.qi fun he hsat => ?_
      obtain ⟨hc, _⟩ := hx he
      obtain ⟨hk, hsp⟩ := select_spec s (fun _ => False) hc.struct (fun l hl _ => hc.nb l hl) hc.qi hc.qb
      rw [hsat] at hsp
      cases hsp with
      | sat hwin hqi => exact fun v hv => hwin v hv (by simp)
    · cases hr : s.select.2 with
      | sat =>
        simp only
        split
        · exact propagateAsserts_true ctl h1.storeSat.struct h1.storeSat.pq
        · exact propagateAsserts_true ctl h1.struct h1.pq
      | unsat => rfl
      | unknown i j v =>
        obtain ⟨k1, k2⟩ := h3 i j v hr
        obtain ⟨p1, p2⟩ := h1.pivot k1 v k2
        rw [hdl] at p1 p2
        simp only
        rw [Bool.and_eq_true]
        constructor
        · refine pivotAsserts_true h1.struct h1.val ctl.dl k1 v fun he => ?_
          obtain ⟨hc, hq⟩ := hx he
          exact ⟨select_qr hc.struct hc.qi hq hr, (step_core hc ctl.dl hr).1.nb⟩
        · refine ih p1 fun he => ?_
          obtain ⟨hc, hq⟩ := hx he
          exact ⟨(step_core hc ctl.dl hr).1, (select_qr hc.struct hc.qi hq hr).pivot h1.struct ctl.dl k1 v⟩

/-! ### asserting bounds -/

theorem updateUpper_other (ctl : Ctl) (s : S V) (b : ℕ) (bd : Bound V) {v : ℕ} (hv : v ≠ bd.var) :
    (updateUpper ctl s b bd).1.upper v = s.upper v ∧ (updateUpper ctl s b bd).1.lower v = s.lower v := by
  unfold updateUpper; simp only
  split
  · split <;> simp [Function.update_of_ne hv]
  · simp

theorem updateLower_other (ctl : Ctl) (s : S V) (b : ℕ) (bd : Bound V) {v : ℕ} (hv : v ≠ bd.var) :
    (updateLower ctl s b bd).1.upper v = s.upper v ∧ (updateLower ctl s b bd).1.lower v = s.lower v := by
  unfold updateLower; simp only
  split
  · split
    · split
      · simp [Function.update_of_ne hv]
      · split <;> simp [Function.update_of_ne hv]
    · simp [Function.update_of_ne hv]
  · simp

theorem updateVar_other (ctl : Ctl) (s : S V) (b : ℕ) (bd : Bound V) {v : ℕ} (hv : v ≠ bd.var) :
    (updateVar ctl s b bd).1.upper v = s.upper v ∧ (updateVar ctl s b bd).1.lower v = s.lower v := by
  unfold updateVar
  split
  · exact updateUpper_other ctl s b bd hv
  · exact updateLower_other ctl s b bd hv
  · simp only
    split
    · obtain ⟨h1, h2⟩ := updateUpper_other ctl s b bd hv
      obtain ⟨h3, h4⟩ := updateLower_other ctl (updateUpper ctl s b bd).1 b bd hv
      exact ⟨h3.trans h1, h4.trans h2⟩
    · exact updateUpper_other ctl s b bd hv

/-- `update_bound_` keeps the violated basic variables marked. -/
theorem QR.updateBound {E0 : (ℕ → V) → Prop} {L : List ℕ} {s : S V} (h : WInv E0 L s) {ctl : Ctl} {b : ℕ} {bd : Bound V}
    (hb : s.bounds[b]? = some bd) (hq : QR s (fun _ => False)) (hok : (S.updateBound ctl s b bd).2 = true) :
    QR (S.updateBound ctl s b bd).1 (fun _ => False) := by
  obtain ⟨hf, _⟩ := updateVar_weak h.ptr h.trail ctl hb
  have hother := fun v hv => updateVar_other ctl s b bd (v := v) hv
  have ht := h.form hf
  unfold S.updateBound at hok ⊢
  simp only at hok ⊢
  generalize updateVar ctl s b bd = r at *
  obtain ⟨t, ok⟩ := r
  simp only at hf ht hother hok ⊢
  have hs := ht.struct
  have hbv : bd.var < t.nvars := by rw [hf.stay.nvars]; exact h.bvar bd (List.mem_of_getElem? hb)
  cases ok
  · simp only [Bool.not_false, if_true] at hok
    split at hok <;> simp at hok
  · simp only [Bool.not_true, Bool.false_eq_true, if_false] at hok ⊢
    have hq1 : ∀ k, k < t.m → t.index (k + t.n) ≠ bd.var → ¬ t.Win (t.index (k + t.n)) → t.queued (t.index (k + t.n)) = true := by
      intro k hk hne hw
      have hwin : ¬ s.Win (t.index (k + t.n)) := by
        have hlo : t.lo (t.index (k + t.n)) = s.lo (t.index (k + t.n)) := by
          unfold S.lo bval; rw [hf.bounds, (hother _ hne).2]
        have hup : t.up (t.index (k + t.n)) = s.up (t.index (k + t.n)) := by
          unfold S.up bval; rw [hf.bounds, (hother _ hne).1]
        unfold Win at hw ⊢
        rw [hlo, hup] at hw
        obtain ⟨_, _, _, _, rfl⟩ := hf.form
        exact hw
      obtain ⟨_, _, _, _, rfl⟩ := hf.form
      exact hq k hk (by simp) hwin
    split
    · rename_i hn
      have hqt : QR t (fun _ => False) := by
        intro k hk _ hw
        refine hq1 k hk (fun he => ?_) hw
        have := hs.ri (k + t.n) (by rw [hs.nv]; omega)
        rw [he] at this; omega
      split
      · split
        · exact hqt.update hs hn ctl.dl _
        · exact hqt
      · split
        · split
          · exact hqt.update hs hn ctl.dl _
          · exact hqt
        · exact hqt
    · rename_i hn
      refine QR.enqueue ?_
      intro k hk hx hw
      refine hq1 k hk (fun he => ?_) hw
      have := hs.ri (k + t.n) (by rw [hs.nv]; omega)
      rw [he] at this
      simp only [false_or] at hx
      omega

theorem updateBoundAsserts_true {E0 : (ℕ → V) → Prop} {L : List ℕ} {s : S V} (h : WInv E0 L s) (ctl : Ctl) {b : ℕ} {bd : Bound V}
    (hb : s.bounds[b]? = some bd) : s.updateBoundAsserts ctl b bd = true := by
  obtain ⟨hf, _⟩ := updateVar_weak h.ptr h.trail ctl hb
  have ht := h.form hf
  unfold updateBoundAsserts
  simp only
  generalize updateVar ctl s b bd = r at *
  obtain ⟨t, ok⟩ := r
  simp only at hf ht ⊢
  have hbv : bd.var < t.nvars := by rw [hf.stay.nvars]; exact h.bvar bd (List.mem_of_getElem? hb)
  split
  · rfl
  · split
    · rename_i hn
      split
      · unfold updateAsserts; rw [colOk_true ht.struct, Bool.and_true]; exact decide_eq_true hn
      · rfl
    · have := ht.struct.ridx_lt _ hbv; have := ht.struct.nv
      exact decide_eq_true (by omega)

theorem updateBounds_asserts {E0 : (ℕ → V) → Prop} {L : List ℕ} {ctl : Ctl} (hdl : L.headD 0 = ctl.dl) (lit : ℤ) (bs : List (ℕ × Bound V)) :
    ∀ {s : S V}, WInv E0 L s → (∀ p ∈ bs, s.bounds[p.1]? = some p.2 ∧ p.2.lit = lit) →
    updateBoundsAsserts ctl lit bs s = true ∧
    (QR s (fun _ => False) → (updateBounds ctl bs s).2 = true → QR (updateBounds ctl bs s).1 (fun _ => False)) := by
  induction bs with
  | nil => intro s _ _; exact ⟨rfl, fun h _ => h⟩
  | cons p bs ih =>
    intro s h hbs
    obtain ⟨b, bd⟩ := p
    obtain ⟨hb, hl⟩ := hbs (b, bd) (by simp)
    simp only at hb hl
    obtain ⟨h1, h2⟩ := updateBound_weak h hdl hb
    have ih' := ih h1 (fun p hp => by rw [h2.bounds]; exact hbs p (by simp [hp]))
    constructor
    · unfold updateBoundsAsserts
      simp only
      rw [updateBoundAsserts_true h ctl hb, decide_eq_true hl.symm, Bool.true_and, Bool.true_and]
      split
      · exact ih'.1
      · rfl
    · intro hq hok
      unfold updateBounds at hok ⊢
      simp only at hok ⊢
      by_cases hr : (S.updateBound ctl s b bd).2 = true
      · rw [if_pos hr] at hok ⊢
        exact ih'.2 (hq.updateBound h hb hr) hok
      · rw [if_neg hr] at hok
        exact absurd hok hr

theorem updateLits_asserts {E0 : (ℕ → V) → Prop} {L : List ℕ} {ctl : Ctl} (hdl : L.headD 0 = ctl.dl) (lits : List ℤ) :
    ∀ {s : S V}, WInv E0 L s → updateLitsAsserts ctl lits s = true ∧
    (QR s (fun _ => False) → (updateLits ctl lits s).2 = true → QR (updateLits ctl lits s).1 (fun _ => False)) := by
  induction lits with
  | nil => intro s _; exact ⟨rfl, fun h _ => h⟩
  | cons l ls ih =>
    intro s h
    have hmem : ∀ p ∈ s.boundsOf l, s.bounds[p.1]? = some p.2 ∧ p.2.lit = l := fun p hp => mem_boundsOf.1 hp
    obtain ⟨g1, g2⟩ := updateBounds_asserts hdl l (s.boundsOf l) h hmem
    obtain ⟨h1, h2⟩ := updateBounds_weak hdl (s.boundsOf l) h (fun p hp => (hmem p hp).1)
    have ih' := ih h1
    constructor
    · unfold updateLitsAsserts
      simp only
      rw [g1, Bool.true_and]
      split
      · exact ih'.1
      · rfl
    · intro hq hok
      unfold updateLits at hok ⊢
      simp only at hok ⊢
      by_cases hr : (updateBounds ctl (s.boundsOf l) s).2 = true
      · rw [if_pos hr] at hok ⊢
        exact ih'.2 (g2 hq hr) hok
      · rw [if_neg hr] at hok
        exact absurd hok hr

/-- The assertions of `solve`. -/
theorem solveAsserts_true {E0 : (ℕ → V) → Prop} {L : List ℕ} {s : S V} (h : WInv E0 L s) {ctl : Ctl} (hdl : ∀ l ∈ L, l ≤ ctl.dl)
    {extra : Bool} (fuel : ℕ) (lits : List ℤ)
    (hx : extra = true → QR s (fun _ => False) ∧
      ((updateLits ctl lits (s.pushOff ctl)).2 = true → Core E0 (updateLits ctl lits (s.pushOff ctl)).1)) :
    s.solveAsserts extra ctl fuel lits = true := by
  obtain ⟨hp, _⟩ := h.pushOff hdl
  have hhd := nextLevels_head hdl
  obtain ⟨g1, g2⟩ := updateLits_asserts hhd lits hp
  obtain ⟨h1, h2⟩ := updateLits_weak hhd lits hp
  have hqp : QR s (fun _ => False) → QR (s.pushOff ctl) (fun _ => False) := by
    intro hq
    obtain ⟨o, ho⟩ := pushOff_stay ctl s
    rw [ho]; exact hq.of_eq rfl rfl rfl rfl rfl rfl rfl
  unfold solveAsserts
  simp only
  rw [g1, Bool.true_and]
  split
  · rename_i hok
    have hx' : extra = true → Core E0 (updateLits ctl lits (s.pushOff ctl)).1 ∧ QR (updateLits ctl lits (s.pushOff ctl)).1 (fun _ => False) :=
      fun he => ⟨(hx he).2 hok, g2 (hqp (hx he).1) hok⟩
    rw [solveLoopAsserts_true hhd fuel h1 hx', Bool.and_true, Bool.and_eq_true, Bool.and_eq_true]
    refine ⟨⟨assertExtra_of fun _ => (checkTableau_iff h1.struct).2 h1.val, assertExtra_of fun he => (checkBasic_iff _).2 (hx' he).2⟩,
      assertExtra_of fun he => (checkNonBasic_iff _).2 (hx' he).1.nb⟩
  · rfl

/-! ### undo -/

/-- The assertion of `undo`. -/
theorem undoAsserts_true [Hon] {s : S V} {extra : Bool} (hx : extra = true → ∃ E0 F, SInv E0 F s.undo) : s.undoAsserts extra = true := by
  refine assertExtra_of fun he => ?_
  obtain ⟨E0, F, h⟩ := hx he
  exact (checkSolution_iff h.core.struct).2 ⟨h.core.val, fun v _ => h.good.win v⟩

/-! ### optimize -/

theorem optStepAsserts_true {E0 : (ℕ → V) → Prop} {L : List ℕ} {s : S V} (h : WInv E0 L s) (ha : s.obj.active = true) {extra : Bool}
    (hx : extra = true → Core E0 s ∧ ∀ v, v < s.nvars → s.Win v) : s.optStepAsserts extra = true := by
  obtain ⟨ho1, ho2, ho3⟩ := h.ob ha
  have hs := h.struct
  have hnv := hs.nv
  have hsp : extra = true → OptRes E0 s s.optStep := fun he => optStep_spec (hx he).1 (hx he).2 ha
  have hso : extra = true → s.checkSolution = true := fun he => (checkSolution_iff hs).2 ⟨h.val, (hx he).2⟩
  unfold optStep at hsp
  rw [if_neg (not_lt.2 ho2)] at hsp
  unfold optStepAsserts
  rw [if_neg (not_lt.2 ho2)]
  simp only at hsp ⊢
  have hef := enter_fold s (s.tab.rowEntries s.objRow) (fun e he => by
    have := (hs.shape s.objRow e.1 ((Tableau.mem_rowEntries_fst hs.wf).1 (List.mem_map.2 ⟨e, he, rfl⟩))).2
    exact hs.idx_lt _ (by omega))
  rw [show s.selectEnter (s.rindex s.obj.var - s.n) = (s.tab.rowEntries s.objRow).foldl (enterEntry s) (s.nvars, false) from rfl] at hsp ⊢
  generalize (s.tab.rowEntries s.objRow).foldl (enterEntry s) (s.nvars, false) = en at *
  obtain ⟨ee, pos⟩ := en
  simp only at hef hsp ⊢
  rcases hef with ⟨h1, h2⟩ | ⟨e, he, hee, hpe, hbl, hmin⟩
  · rw [if_pos h1]; exact assertExtra_of hso
  have hcz : s.tab.coef s.objRow e.1 ≠ 0 := (Tableau.mem_rowEntries_fst hs.wf).1 (List.mem_map.2 ⟨e, he, rfl⟩)
  have hj : e.1 < s.n := (hs.shape _ _ hcz).2
  have hri : s.rindex ee = e.1 := by rw [← hee]; exact hs.ri _ (by omega)
  have heelt : ee < s.nvars := by rw [← hee]; exact hs.idx_lt _ (by omega)
  rw [if_neg (by omega), hri] at hsp ⊢
  rw [Bool.and_eq_true, Bool.and_eq_true]
  refine ⟨⟨decide_eq_true hee.symm, ?_⟩, ?_⟩
  · rw [List.all_eq_true]
    intro e' he'
    have hc' : s.tab.coef e'.1 e.1 ≠ 0 := (Tableau.mem_colEntries_fst hs.wf).1 (List.mem_map.2 ⟨e', he', rfl⟩)
    have him : e'.1 < s.m := (hs.shape _ _ hc').1
    unfold leaveAsserts
    rw [decide_eq_true him, Bool.true_and]
    simp only
    split
    · rfl
    · refine decide_eq_true ?_
      rw [hs.ri _ (by omega)]; omega
  have hlf := leave_fold s ee pos (s.tab.colEntries e.1)
  rw [show s.selectLeave ee pos = (s.tab.colEntries (s.rindex ee)).foldl (leaveEntry s ee pos) none from rfl, hri] at hsp ⊢
  generalize (s.tab.colEntries e.1).foldl (leaveEntry s ee pos) none = lv at *
  set s1 : S V := { s with tab := s.tab.compactCol e.1 } with hs1
  have hst1 : Struct s1 := compact_struct hs _
  have hk1 : Keep s s1 := by constructor <;> rfl
  rcases hlf with ⟨rfl, hnone⟩ | ⟨e', he', c, rfl, hcc, hcmin⟩
  · simp only
    cases hb : (if pos = true then s1.up ee else s1.lo ee) with
    | none => exact assertExtra_of fun he => (checkSolution_iff hst1).2 ⟨h.val, (hx he).2⟩
    | some b =>
      show s1.updateAsserts e.1 = true
      unfold updateAsserts
      rw [colOk_true hst1, Bool.and_true]
      exact decide_eq_true hj
  · simp only at hsp ⊢
    obtain ⟨q1, q2, q3⟩ := leaveCand_some hs he' hcc
    have hccoef : s.tab.coef e'.1 e.1 ≠ 0 := (Tableau.mem_colEntries_fst hs.wf).1 (List.mem_map.2 ⟨e', he', rfl⟩)
    have him : e'.1 < s.m := (hs.shape _ _ hccoef).1
    have hrl : s1.rindex c.ll - s1.n = e'.1 := by
      show s.rindex c.ll - s.n = _
      rw [q1, hs.ri _ (by omega)]; omega
    rw [hrl] at hsp ⊢
    refine pivotAsserts_true hst1 h.val _ (by exact hccoef) _ fun he => ⟨?_, ?_⟩
    · obtain ⟨hc, hw⟩ := hx he
      refine QR.mono ?_ (fun _ h => False.elim h)
      intro k hk _ hn
      exact absurd (hw _ (hs.idx_lt _ (by rw [hs.nv]; have : s1.m = s.m := rfl; have : s1.n = s.n := rfl; omega))) hn
    · have := hsp he
      generalize hr : (Sum.inr (s1.pivot s1.topLevel e'.1 e.1 c.bnd) : S V ⊕ S V) = r at this
      cases this with
      | optimal _ => cases hr
      | unbounded _ _ _ _ _ _ => cases hr
      | move s' j pos θ pv hd =>
        obtain rfl := Sum.inr.inj hr
        exact hd.core.nb

theorem optLoopAsserts_true {E0 : (ℕ → V) → Prop} {L : List ℕ} {extra : Bool} (fuel : ℕ) : ∀ {s : S V}, WInv E0 L s →
    s.obj.active = true → (extra = true → Core E0 s ∧ ∀ v, v < s.nvars → s.Win v) → optLoopAsserts extra fuel s = true := by
  induction fuel with
  | zero => intro s _ _ _; rfl
  | succ fuel ih =>
    intro s hw ha hx
    unfold optLoopAsserts
    rw [optStepAsserts_true hw ha hx, Bool.true_and]
    have hsp : extra = true → OptRes E0 s s.optStep := fun he => optStep_spec (hx he).1 (hx he).2 ha
    rcases optStep_weak hw ha with ⟨b, j, he⟩ | ⟨b, he⟩ | ⟨t', he, h1, h2⟩
    · rw [he]
    · rw [he]
    · rw [he] at hsp ⊢
      simp only
      refine ih h1 (by rw [h2.obj]; exact ha) fun he => ?_
      have := hsp he
      generalize hr : (Sum.inr t' : S V ⊕ S V) = r at this
      cases this with
      | optimal _ => cases hr
      | unbounded _ _ _ _ _ _ => cases hr
      | move s' j pos θ pv hd =>
        obtain rfl := Sum.inr.inj hr
        exact ⟨hd.core, fun v hv => hd.win v (by rw [← h2.nvars]; exact hv)⟩

/-- The assertions of `optimize`. -/
theorem optimizeAsserts_true {E0 : (ℕ → V) → Prop} {L : List ℕ} {s : S V} (h : WInv E0 L s) {extra : Bool} (fuel : ℕ)
    (hx : extra = true → Core E0 s ∧ ∀ v, v < s.nvars → s.Win v) : s.optimizeAsserts extra fuel = true := by
  unfold optimizeAsserts
  split
  · rename_i ha
    rw [optLoopAsserts_true fuel h ha hx, Bool.and_true, Bool.and_eq_true]
    exact ⟨decide_eq_true (h.ob ha).2.1, assertExtra_of fun he => (checkSolution_iff h.struct).2 ⟨h.val, (hx he).2⟩⟩
  · rfl

end S
end Lpx
