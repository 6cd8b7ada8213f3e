import Verif.Solver
import Verif.TableauLow
import Verif.Bland
import Mathlib.Tactic.Abel

/-! # Invariants of the solver: values, tableau equations, queue of conflicting variables -/

set_option linter.unusedSectionVars false

namespace Lpx
open Finset

namespace S
variable {V : Type} [LpValue V]

/-- The equations represented by the tableau: every basic variable equals its row. -/
def TabEq (s : S V) (asg : ℕ → V) : Prop :=
  ∀ i, i < s.m → asg (s.index (i + s.n)) = ∑ j ∈ range s.n, s.tab.coef i j • asg (s.index j)

/-- `v` is within its bounds. -/
def Win (s : S V) (v : ℕ) : Prop := Within (s.lo v) (s.up v) (s.value v)

/-- Structural invariant: permutation of the variables and shape of the tableau. -/
structure Struct (s : S V) : Prop where
  nv : s.nvars = s.n + s.m
  idx_lt : ∀ v, v < s.nvars → s.index v < s.nvars
  ridx_lt : ∀ v, v < s.nvars → s.rindex v < s.nvars
  ir : ∀ v, v < s.nvars → s.index (s.rindex v) = v
  ri : ∀ v, v < s.nvars → s.rindex (s.index v) = v
  wf : s.tab.WF
  shape : ∀ i j, s.tab.coef i j ≠ 0 → i < s.m ∧ j < s.n
  /-- rows are in lowest terms -/
  low : ∀ k, Tableau.Low (s.tab.rows k)

/-- Invariant of the queue. -/
structure QI (s : S V) : Prop where
  qa : ∀ v, s.queued v = true → v ∈ s.conflicts
  sorted : s.conflicts.Pairwise (· ≤ ·)
  lt : ∀ v ∈ s.conflicts, v < s.nvars

/-- The rows queued for bound propagation exist. -/
def PQ (s : S V) : Prop := ∀ i ∈ s.pqueue, i < s.m

/-- All violated variables, except those in `ex`, are queued. -/
def QB (s : S V) (ex : ℕ → Prop) : Prop := ∀ v, v < s.nvars → ¬ ex v → ¬ s.Win v → v ∈ s.conflicts

/-- What value changes and pivots do not change. -/
structure Keep (s s' : S V) : Prop where
  opts : s'.opts = s.opts
  bounds : s'.bounds = s.bounds
  nvars : s'.nvars = s.nvars
  lower : s'.lower = s.lower
  upper : s'.upper = s.upper
  vbounds : s'.vbounds = s.vbounds
  btrail : s'.btrail = s.btrail
  offs : s'.offs = s.offs
  n : s'.n = s.n
  m : s'.m = s.m
  obj : s'.obj = s.obj
  out : s'.out = s.out
  ub : s'.ub = s.ub
  props : s'.props = s.props

theorem Keep.refl (s : S V) : Keep s s := by constructor <;> rfl
theorem Keep.trans {a b c : S V} (h : Keep a b) (k : Keep b c) : Keep a c := by
  constructor
  · rw [k.opts, h.opts]
  · rw [k.bounds, h.bounds]
  · rw [k.nvars, h.nvars]
  · rw [k.lower, h.lower]
  · rw [k.upper, h.upper]
  · rw [k.vbounds, h.vbounds]
  · rw [k.btrail, h.btrail]
  · rw [k.offs, h.offs]
  · rw [k.n, h.n]
  · rw [k.m, h.m]
  · rw [k.obj, h.obj]
  · rw [k.out, h.out]
  · rw [k.ub, h.ub]
  · rw [k.props, h.props]

theorem Keep.lo {s s' : S V} (h : Keep s s') : s'.lo = s.lo := by
  funext v; unfold S.lo bval; rw [h.lower, h.bounds]
theorem Keep.up {s s' : S V} (h : Keep s s') : s'.up = s.up := by
  funext v; unfold S.up bval; rw [h.upper, h.bounds]

theorem win_congr {s s' : S V} (h : Keep s s') {v : ℕ} (hv : s'.value v = s.value v) : s'.Win v ↔ s.Win v := by
  unfold Win; rw [h.lo, h.up, hv]

theorem hasConflict_iff (s : S V) (v : ℕ) : s.hasConflict v = true ↔ ¬ s.Win v := by
  unfold hasConflict Win Within belowLo aboveUp
  cases s.lo v <;> cases s.up v <;> simp
  rename_i a b
  constructor
  · rintro (h | h) h1
    · exact absurd h1 (not_le.2 h)
    · exact h
  · intro h
    by_cases h1 : s.value v < a
    · exact Or.inl h1
    · exact Or.inr (h (not_lt.1 h1))

theorem belowLo_iff (s : S V) (v : ℕ) : s.belowLo v = true ↔ ∃ b, s.lo v = some b ∧ s.value v < b := by
  unfold belowLo; cases s.lo v <;> simp
theorem aboveUp_iff (s : S V) (v : ℕ) : s.aboveUp v = true ↔ ∃ b, s.up v = some b ∧ b < s.value v := by
  unfold aboveUp; cases s.up v <;> simp
theorem atUp_iff (s : S V) (v : ℕ) : s.atUp v = true ↔ ∃ b, s.up v = some b ∧ b ≤ s.value v := by
  unfold atUp; cases s.up v <;> simp
theorem atLo_iff (s : S V) (v : ℕ) : s.atLo v = true ↔ ∃ b, s.lo v = some b ∧ s.value v ≤ b := by
  unfold atLo; cases s.lo v <;> simp

/-! ### assignment trail -/

/-- Values after undoing the trail segment `seg`. -/
def restV (seg : List (ℕ × ℕ × V)) (f : ℕ → V) : ℕ → V :=
  seg.foldl (fun f (e : ℕ × ℕ × V) => Function.update f e.2.1 e.2.2) f
/-- Levels after undoing the trail segment `seg`. -/
def restL (seg : List (ℕ × ℕ × V)) (f : ℕ → ℕ) : ℕ → ℕ :=
  seg.foldl (fun f (e : ℕ × ℕ × V) => Function.update f e.2.1 e.1) f

/-- The variables whose old value is stored in the segment from `k` are exactly those with level `lvl`. -/
def J (k lvl : ℕ) (s : S V) : Prop :=
  k ≤ s.atrail.length ∧ ∀ v, s.level v = lvl ↔ v ∈ (s.atrail.drop k).map (·.2.1)

/-- Effect of value changes on level `lvl` on the assignment trail. -/
structure VStep (lvl : ℕ) (s s' : S V) : Prop where
  seg : ∀ k, J k lvl s → J k lvl s' ∧ s'.atrail.take k = s.atrail.take k ∧
    restV (s'.atrail.drop k) s'.value = restV (s.atrail.drop k) s.value ∧
    restL (s'.atrail.drop k) s'.level = restL (s.atrail.drop k) s.level
  flat : (∀ v, s.level v = lvl) → s'.atrail = s.atrail ∧ s'.level = s.level
  /-- each variable is stored at most once -/
  nd : ∀ k, J k lvl s → ((s.atrail.drop k).map (·.2.1)).Nodup → ((s'.atrail.drop k).map (·.2.1)).Nodup
  /-- only variables of the solver are stored -/
  inr : (∀ e ∈ s.atrail, e.2.1 < s.nvars) → ∀ e ∈ s'.atrail, e.2.1 < s'.nvars

theorem VStep.refl (lvl : ℕ) (s : S V) : VStep lvl s s := 
  ⟨fun _ h => ⟨h, rfl, rfl, rfl⟩, fun _ => ⟨rfl, rfl⟩, fun _ _ h => h, id⟩
theorem VStep.trans {lvl : ℕ} {a b c : S V} (h : VStep lvl a b) (k : VStep lvl b c) : VStep lvl a c := by
  constructor
  · intro i hi
    obtain ⟨h1, h2, h3, h4⟩ := h.seg i hi
    obtain ⟨k1, k2, k3, k4⟩ := k.seg i h1
    exact ⟨k1, k2.trans h2, k3.trans h3, k4.trans h4⟩
  · intro hf
    obtain ⟨h1, h2⟩ := h.flat hf
    obtain ⟨k1, k2⟩ := k.flat (by rw [h2]; exact hf)
    exact ⟨k1.trans h1, k2.trans h2⟩
  · exact fun i hi hn => k.nd i (h.seg i hi).1 (h.nd i hi hn)
  · exact fun hi => k.inr (h.inr hi)

/-- States with the same values, levels and assignment trail. -/
theorem VStep.of_eq {lvl : ℕ} {s s' : S V} (hv : s'.value = s.value) (hl : s'.level = s.level)
    (ht : s'.atrail = s.atrail) (hn : s'.nvars = s.nvars) : VStep lvl s s' := by
  constructor
  · intro k h
    unfold J at *
    rw [ht, hv, hl]; exact ⟨h, rfl, rfl, rfl⟩
  · intro _; exact ⟨ht, hl⟩
  · intro k _ h; rw [ht]; exact h
  · rw [ht, hn]; exact id

theorem restV_not_mem {seg : List (ℕ × ℕ × V)} {f : ℕ → V} {v : ℕ} (h : v ∉ seg.map (·.2.1)) :
    restV seg f v = f v := by
  unfold restV
  induction seg generalizing f with
  | nil => rfl
  | cons e es ih =>
    simp only [List.map_cons, List.mem_cons, not_or] at h
    simp only [List.foldl_cons]
    rw [ih h.2, Function.update_of_ne h.1]

theorem restL_not_mem {seg : List (ℕ × ℕ × V)} {f : ℕ → ℕ} {v : ℕ} (h : v ∉ seg.map (·.2.1)) :
    restL seg f v = f v := by
  unfold restL
  induction seg generalizing f with
  | nil => rfl
  | cons e es ih =>
    simp only [List.map_cons, List.mem_cons, not_or] at h
    simp only [List.foldl_cons]
    rw [ih h.2, Function.update_of_ne h.1]

theorem restV_congr {seg : List (ℕ × ℕ × V)} {f g : ℕ → V} (h : ∀ v, v ∉ seg.map (·.2.1) → f v = g v) :
    restV seg f = restV seg g := by
  induction seg generalizing f g with
  | nil => funext v; exact h v (by simp)
  | cons e es ih =>
    show restV es _ = restV es _
    apply ih
    intro v hv
    by_cases he : v = e.2.1
    · subst he; simp
    · simp only [Function.update_of_ne he]
      apply h; simp only [List.map_cons, List.mem_cons, not_or]; exact ⟨he, hv⟩

theorem restL_congr {seg : List (ℕ × ℕ × V)} {f g : ℕ → ℕ} (h : ∀ v, v ∉ seg.map (·.2.1) → f v = g v) :
    restL seg f = restL seg g := by
  induction seg generalizing f g with
  | nil => funext v; exact h v (by simp)
  | cons e es ih =>
    show restL es _ = restL es _
    apply ih
    intro v hv
    by_cases he : v = e.2.1
    · subst he; simp
    · simp only [Function.update_of_ne he]
      apply h; simp only [List.map_cons, List.mem_cons, not_or]; exact ⟨he, hv⟩

theorem setValue_value (s : S V) (lvl v : ℕ) (x : V) (add : Bool) :
    (s.setValue lvl v x add).value = Function.update s.value v (if add then s.value v + x else x) := by
  unfold setValue; split <;> rfl

theorem setValue_keep (s : S V) (lvl v : ℕ) (x : V) (add : Bool) : Keep s (s.setValue lvl v x add) := by
  unfold setValue; split <;> constructor <;> rfl

theorem setValue_same (s : S V) (lvl v : ℕ) (x : V) (add : Bool) :
    (s.setValue lvl v x add).index = s.index ∧ (s.setValue lvl v x add).rindex = s.rindex ∧
    (s.setValue lvl v x add).tab = s.tab ∧ (s.setValue lvl v x add).conflicts = s.conflicts ∧
    (s.setValue lvl v x add).queued = s.queued ∧ (s.setValue lvl v x add).pivots = s.pivots ∧
    (s.setValue lvl v x add).clause = s.clause := by
  unfold setValue; split <;> simp

theorem setValue_vstep (s : S V) (lvl v : ℕ) (x : V) (add : Bool) (hv : v < s.nvars) : VStep lvl s (s.setValue lvl v x add) := by
  constructor
  · intro k hJ
    have hval := setValue_value s lvl v x add
    by_cases hl : lvl = s.level v
    · have h1 : (s.setValue lvl v x add).atrail = s.atrail := by unfold setValue; simp [hl]
      have h2 : (s.setValue lvl v x add).level = s.level := by unfold setValue; simp [hl]
      refine ⟨?_, by rw [h1], ?_, by rw [h1, h2]⟩
      · unfold J; rw [h1, h2]; exact hJ
      · rw [h1, hval]
        apply restV_congr
        intro u hu
        have : u ≠ v := by rintro rfl; exact hu ((hJ.2 u).1 hl.symm)
        rw [Function.update_of_ne this]
    · have h1 : (s.setValue lvl v x add).atrail = s.atrail ++ [(s.level v, v, s.value v)] := by
        unfold setValue; simp [hl]
      have h2 : (s.setValue lvl v x add).level = Function.update s.level v lvl := by unfold setValue; simp [hl]
      have hdrop : (s.atrail ++ [(s.level v, v, s.value v)]).drop k = s.atrail.drop k ++ [(s.level v, v, s.value v)] :=
        List.drop_append_of_le_length hJ.1
      have hnotin : v ∉ (s.atrail.drop k).map (·.2.1) := fun hm => hl ((hJ.2 v).2 hm).symm
      refine ⟨?_, ?_, ?_, ?_⟩
      · unfold J
        rw [h1, h2, hdrop]
        refine ⟨by simp; have := hJ.1; omega, ?_⟩
        intro u
        by_cases hu : u = v
        · subst hu; simp
        · rw [Function.update_of_ne hu, hJ.2 u]; simp [hu]
      · rw [h1, List.take_append_of_le_length hJ.1]
      · rw [h1, hdrop, hval]
        unfold restV
        rw [List.foldl_append]
        simp only [List.foldl_cons, List.foldl_nil]
        show Function.update (restV (s.atrail.drop k) _) v (s.value v) = restV (s.atrail.drop k) s.value
        funext u
        by_cases hu : u = v
        · subst hu; rw [Function.update_self, restV_not_mem hnotin]
        · rw [Function.update_of_ne hu]
          by_cases hm : u ∈ (s.atrail.drop k).map (·.2.1)
          · have : ∀ w, w ∉ ((s.atrail.drop k)).map (·.2.1) ++ [v] →
              Function.update s.value v (if add = true then s.value v + x else x) w = s.value w := by
              intro w hw
              rw [Function.update_of_ne]
              rintro rfl; simp at hw
            -- both folds agree on entries of the segment
            have hgen : ∀ (seg : List (ℕ × ℕ × V)) (f g : ℕ → V), (∀ w, w ≠ v → f w = g w) →
                ∀ w, w ≠ v → restV seg f w = restV seg g w := by
              intro seg
              induction seg with
              | nil => intro f g h w hw; exact h w hw
              | cons e es ih =>
                intro f g h w hw
                show restV es _ w = restV es _ w
                apply ih _ _ _ w hw
                intro w' hw'
                by_cases he : w' = e.2.1
                · subst he; simp
                · simp only [Function.update_of_ne he]; exact h w' hw'
            exact hgen _ _ _ (fun w hw => by rw [Function.update_of_ne hw]) u hu
          · rw [restV_not_mem hm, restV_not_mem hm, Function.update_of_ne hu]
      · rw [h1, hdrop, h2]
        unfold restL
        rw [List.foldl_append]
        simp only [List.foldl_cons, List.foldl_nil]
        show Function.update (restL (s.atrail.drop k) _) v (s.level v) = restL (s.atrail.drop k) s.level
        funext u
        by_cases hu : u = v
        · subst hu; rw [Function.update_self, restL_not_mem hnotin]
        · rw [Function.update_of_ne hu]
          have hgen : ∀ (seg : List (ℕ × ℕ × V)) (f g : ℕ → ℕ), (∀ w, w ≠ v → f w = g w) →
              ∀ w, w ≠ v → restL seg f w = restL seg g w := by
            intro seg
            induction seg with
            | nil => intro f g h w hw; exact h w hw
            | cons e es ih =>
              intro f g h w hw
              show restL es _ w = restL es _ w
              apply ih _ _ _ w hw
              intro w' hw'
              by_cases he : w' = e.2.1
              · subst he; simp
              · simp only [Function.update_of_ne he]; exact h w' hw'
          exact hgen _ _ _ (fun w hw => by rw [Function.update_of_ne hw]) u hu
  · intro hf
    unfold setValue; simp [hf]
  · intro k hJ hn
    by_cases hl : lvl = s.level v
    · have h1 : (s.setValue lvl v x add).atrail = s.atrail := by unfold setValue; simp [hl]
      rw [h1]; exact hn
    · have h1 : (s.setValue lvl v x add).atrail = s.atrail ++ [(s.level v, v, s.value v)] := by
        unfold setValue; simp [hl]
      rw [h1, List.drop_append_of_le_length hJ.1, List.map_append]
      have hnotin : v ∉ (s.atrail.drop k).map (·.2.1) := fun hm => hl ((hJ.2 v).2 hm).symm
      refine List.nodup_append.2 ⟨hn, by simp, ?_⟩
      intro a ha b hb
      simp only [List.map_cons, List.map_nil, List.mem_singleton] at hb
      rintro rfl
      exact hnotin (hb ▸ ha)
  · intro hi
    rw [(setValue_keep s lvl v x add).nvars]
    intro e he
    have : e ∈ s.atrail ∨ e = (s.level v, v, s.value v) := by
      unfold setValue at he
      split at he
      · simpa using he
      · exact Or.inl he
    rcases this with h | rfl
    · exact hi e h
    · exact hv

/-! ### the queue -/

theorem mem_heapInsert {ii x : ℕ} {l : List ℕ} : x ∈ heapInsert ii l ↔ x = ii ∨ x ∈ l := by
  induction l with
  | nil => simp [heapInsert]
  | cons a as ih =>
    simp only [heapInsert]
    split
    · simp
    · simp only [List.mem_cons, ih]; tauto

theorem sorted_heapInsert {ii : ℕ} {l : List ℕ} (h : l.Pairwise (· ≤ ·)) : (heapInsert ii l).Pairwise (· ≤ ·) := by
  induction l with
  | nil => simp [heapInsert]
  | cons a as ih =>
    have ha := List.pairwise_cons.1 h
    simp only [heapInsert]
    split
    · refine List.pairwise_cons.2 ⟨?_, h⟩
      intro x hx
      rcases List.mem_cons.1 hx with rfl | hx
      · assumption
      · have := ha.1 x hx; omega
    · refine List.pairwise_cons.2 ⟨?_, ih ha.2⟩
      intro x hx
      rcases mem_heapInsert.1 hx with rfl | hx
      · omega
      · exact ha.1 x hx

theorem enqueue_keep (s : S V) (i : ℕ) : Keep s (s.enqueue i) := by
  unfold enqueue; simp only; split <;> split <;> constructor <;> rfl

theorem enqueue_same (s : S V) (i : ℕ) :
    (s.enqueue i).index = s.index ∧ (s.enqueue i).rindex = s.rindex ∧ (s.enqueue i).tab = s.tab ∧
    (s.enqueue i).value = s.value ∧ (s.enqueue i).level = s.level ∧ (s.enqueue i).atrail = s.atrail ∧
    (s.enqueue i).pivots = s.pivots ∧ (s.enqueue i).clause = s.clause := by
  unfold enqueue; simp only; split <;> split <;> simp

theorem enqueue_conflicts (s : S V) (i : ℕ) :
    (s.enqueue i).conflicts = (if !s.queued (s.index (i + s.n)) && s.hasConflict (s.index (i + s.n)) then
      heapInsert (s.index (i + s.n)) s.conflicts else s.conflicts) ∧
    (s.enqueue i).queued = (if !s.queued (s.index (i + s.n)) && s.hasConflict (s.index (i + s.n)) then
      Function.update s.queued (s.index (i + s.n)) true else s.queued) := by
  unfold enqueue; simp only; split <;> split <;> simp

theorem enqueue_qi {s : S V} (h : QI s) (i : ℕ) (hlt : s.index (i + s.n) < s.nvars) : QI (s.enqueue i) := by
  obtain ⟨h1, h2⟩ := enqueue_conflicts s i
  have hk := enqueue_keep s i
  constructor
  · intro v hv
    rw [h2] at hv; rw [h1]
    split at hv
    · rename_i hc
      rw [if_pos hc, mem_heapInsert]
      by_cases hvi : v = s.index (i + s.n)
      · exact Or.inl hvi
      · rw [Function.update_of_ne hvi] at hv; exact Or.inr (h.qa v hv)
    · rename_i hc
      rw [if_neg hc]; exact h.qa v hv
  · rw [h1]; split
    · exact sorted_heapInsert h.sorted
    · exact h.sorted
  · intro v hv
    rw [h1] at hv; rw [hk.nvars]
    split at hv
    · rcases mem_heapInsert.1 hv with rfl | hv
      · exact hlt
      · exact h.lt v hv
    · exact h.lt v hv

theorem setValue_pqueue (s : S V) (lvl v : ℕ) (x : V) (add : Bool) : (s.setValue lvl v x add).pqueue = s.pqueue := by
  unfold setValue; simp only; split <;> rfl

theorem enqueue_pq {s : S V} (h : PQ s) {i : ℕ} (hi : i < s.m) : PQ (s.enqueue i) := by
  intro k hk
  rw [(enqueue_keep s i).m]
  have : (s.enqueue i).pqueue = s.pqueue ∨ (s.enqueue i).pqueue = s.pqueue ++ [i] := by
    unfold enqueue; simp only; split <;> split <;> simp
  rcases this with h' | h'
  · rw [h'] at hk; exact h k hk
  · rw [h'] at hk
    rcases List.mem_append.1 hk with hk | hk
    · exact h k hk
    · simp at hk; omega

theorem enqueue_mono (s : S V) (i : ℕ) {v : ℕ} (hv : v ∈ s.conflicts) : v ∈ (s.enqueue i).conflicts := by
  rw [(enqueue_conflicts s i).1]; split
  · exact mem_heapInsert.2 (Or.inr hv)
  · exact hv

theorem enqueue_mem {s : S V} (h : QI s) (i : ℕ) (hv : ¬ s.Win (s.index (i + s.n))) :
    s.index (i + s.n) ∈ (s.enqueue i).conflicts := by
  rw [(enqueue_conflicts s i).1]
  have hc := (hasConflict_iff s _).2 hv
  cases hq : s.queued (s.index (i + s.n))
  · simp [hc, mem_heapInsert]
  · simp [h.qa _ hq]

/-! ### folds over a column -/

/-- One step of the column loops in `update_` and `pivot_`. -/
def colStep (lvl : ℕ) (d : V) (s : S V) (e : ℕ × ℤ × ℤ) : S V :=
  (s.setValue lvl (s.index (e.1 + s.n)) (mulDiv d e.2.1 e.2.2) true).enqueue e.1

theorem colStep_keep (lvl : ℕ) (d : V) (s : S V) (e : ℕ × ℤ × ℤ) : Keep s (colStep lvl d s e) :=
  (setValue_keep _ _ _ _ _).trans (enqueue_keep _ _)

theorem colStep_same (lvl : ℕ) (d : V) (s : S V) (e : ℕ × ℤ × ℤ) :
    (colStep lvl d s e).index = s.index ∧ (colStep lvl d s e).rindex = s.rindex ∧ (colStep lvl d s e).tab = s.tab ∧
    (colStep lvl d s e).pivots = s.pivots ∧ (colStep lvl d s e).clause = s.clause ∧
    (colStep lvl d s e).value = Function.update s.value (s.index (e.1 + s.n))
      (s.value (s.index (e.1 + s.n)) + mulDiv d e.2.1 e.2.2) := by
  unfold colStep
  obtain ⟨a1, a2, a3, a4, a5, a6, a7, a8⟩ := enqueue_same (s.setValue lvl (s.index (e.1 + s.n)) (mulDiv d e.2.1 e.2.2) true) e.1
  obtain ⟨b1, b2, b3, b4, b5, b6, b7⟩ := setValue_same s lvl (s.index (e.1 + s.n)) (mulDiv d e.2.1 e.2.2) true
  rw [a1, a2, a3, a4, a7, a8, b1, b2, b3, b6, b7, setValue_value]
  simp

/-- Result of folding over a list of entries of distinct rows. -/
structure ColFold (lvl : ℕ) (d : V) (s s' : S V) (L : List (ℕ × ℤ × ℤ)) : Prop where
  keep : Keep s s'
  index : s'.index = s.index
  rindex : s'.rindex = s.rindex
  tab : s'.tab = s.tab
  pivots : s'.pivots = s.pivots
  clause : s'.clause = s.clause
  vstep : VStep lvl s s'
  val : ∀ u, (∀ e ∈ L, s.index (e.1 + s.n) ≠ u) → s'.value u = s.value u
  valE : ∀ e ∈ L, s'.value (s.index (e.1 + s.n)) = s.value (s.index (e.1 + s.n)) + mulDiv d e.2.1 e.2.2
  qi : QI s → QI s'
  qb : ∀ ex, QI s → QB s ex → QB s' ex
  pq : PQ s → PQ s'

theorem colFold (lvl : ℕ) (d : V) (s : S V) (hs : Struct s) (L : List (ℕ × ℤ × ℤ))
    (hnd : (L.map (·.1)).Nodup) (hlt : ∀ e ∈ L, e.1 < s.m) :
    ColFold lvl d s (L.foldl (colStep lvl d) s) L := by
  have hinj : ∀ a b, a < s.nvars → b < s.nvars → s.index a = s.index b → a = b := by
    intro a b ha hb hab; rw [← hs.ri a ha, ← hs.ri b hb, hab]
  suffices h : ∀ (L : List (ℕ × ℤ × ℤ)) (t : S V), (L.map (·.1)).Nodup → (∀ e ∈ L, e.1 < s.m) →
      Keep s t → t.index = s.index → t.rindex = s.rindex → t.tab = s.tab →
      ColFold lvl d t (L.foldl (colStep lvl d) t) L by
    exact h L s hnd hlt (Keep.refl s) rfl rfl rfl
  intro L
  induction L with
  | nil =>
    intro t _ _ _ _ _ _
    refine ⟨Keep.refl t, rfl, rfl, rfl, rfl, rfl, VStep.refl _ t, fun _ _ => rfl, by simp, id, fun _ _ h => h, id⟩
  | cons e es ih =>
    intro t hnd hlt hk hi hr ht
    have hnd' := List.nodup_cons.1 hnd
    simp only [List.foldl_cons]
    obtain ⟨c1, c2, c3, c4, c4', c5⟩ := colStep_same lvl d t e
    have ck := colStep_keep lvl d t e
    have hf := ih (colStep lvl d t e) hnd'.2 (fun x hx => hlt x (by simp [hx])) (hk.trans ck) (c1.trans hi)
      (c2.trans hr) (c3.trans ht)
    have hne : ∀ x ∈ es, t.index (x.1 + t.n) ≠ t.index (e.1 + t.n) := by
      intro x hx heq
      rw [hi, hk.n] at heq
      have := hinj (x.1 + s.n) (e.1 + s.n) (by have := hlt x (by simp [hx]); rw [hs.nv]; omega)
        (by have := hlt e (by simp); rw [hs.nv]; omega) heq
      exact hnd'.1 (List.mem_map.2 ⟨x, hx, by show x.1 = e.1; omega⟩)
    have hqi : QI t → QI (colStep lvl d t e) := by
      intro hq
      have hq' : QI (t.setValue lvl (t.index (e.1 + t.n)) (mulDiv d e.2.1 e.2.2) true) := by
        obtain ⟨b1, b2, b3, b4, b5, -⟩ := setValue_same t lvl (t.index (e.1 + t.n)) (mulDiv d e.2.1 e.2.2) true
        exact ⟨by rw [b4, b5]; exact hq.qa, by rw [b4]; exact hq.sorted,
          by rw [b4, (setValue_keep _ _ _ _ _).nvars]; exact hq.lt⟩
      apply enqueue_qi hq'
      rw [(setValue_same _ _ _ _ _).1, (setValue_keep _ _ _ _ _).n, (setValue_keep _ _ _ _ _).nvars, hi, hk.n, hk.nvars]
      apply hs.idx_lt
      rw [hs.nv]; have := hlt e (by simp); omega
    refine ⟨ck.trans hf.keep, hf.index.trans c1, hf.rindex.trans c2, hf.tab.trans c3, hf.pivots.trans c4,
      hf.clause.trans c4', ?_, ?_, ?_, ?_, ?_, ?_⟩
    · refine VStep.trans ?_ hf.vstep
      refine VStep.trans (setValue_vstep t lvl (t.index (e.1 + t.n)) (mulDiv d e.2.1 e.2.2) true ?_) (VStep.of_eq ?_ ?_ ?_ ?_)
      · rw [hi, hk.n, hk.nvars]
        apply hs.idx_lt
        rw [hs.nv]; have := hlt e (by simp); omega
      · exact (enqueue_same _ _).2.2.2.1
      · exact (enqueue_same _ _).2.2.2.2.1
      · exact (enqueue_same _ _).2.2.2.2.2.1
      · exact (enqueue_keep _ _).nvars
    · intro u hu
      rw [hf.val u, c5, Function.update_of_ne (hu e (by simp)).symm]
      intro x hx; rw [c1, ck.n]; exact hu x (by simp [hx])
    · intro x hx
      rcases List.mem_cons.1 hx with rfl | hx
      · rw [hf.val, c5, Function.update_self]
        intro y hy; rw [c1, ck.n]; exact hne y hy
      · have := hf.valE x hx
        rw [c1, ck.n] at this
        rw [this, c5, Function.update_of_ne (hne x hx)]
    · exact fun hq => hf.qi (hqi hq)
    · intro ex hq hb
      apply hf.qb ex (hqi hq)
      intro v hv hex hw
      have hq' : QI (t.setValue lvl (t.index (e.1 + t.n)) (mulDiv d e.2.1 e.2.2) true) := by
        obtain ⟨b1, b2, b3, b4, b5, -⟩ := setValue_same t lvl (t.index (e.1 + t.n)) (mulDiv d e.2.1 e.2.2) true
        exact ⟨by rw [b4, b5]; exact hq.qa, by rw [b4]; exact hq.sorted,
          by rw [b4, (setValue_keep _ _ _ _ _).nvars]; exact hq.lt⟩
      by_cases hve : v = t.index (e.1 + t.n)
      · have := enqueue_mem hq' e.1
        rw [(setValue_same _ _ _ _ _).1, (setValue_keep _ _ _ _ _).n] at this
        rw [hve]
        apply this
        rw [hve] at hw
        intro hwin; apply hw
        unfold colStep
        rw [win_congr (enqueue_keep _ _)]
        · exact hwin
        · rw [(enqueue_same _ _).2.2.2.1]
      · apply enqueue_mono
        rw [(setValue_same _ _ _ _ _).2.2.2.1]
        apply hb v (by rw [ck.nvars] at hv; exact hv) hex
        intro hwin; apply hw
        rw [win_congr ck]
        · exact hwin
        · rw [c5, Function.update_of_ne hve]
    · intro hq
      apply hf.pq
      apply enqueue_pq
      · intro k hk
        rw [setValue_pqueue] at hk
        rw [(setValue_keep _ _ _ _ _).m]; exact hq k hk
      · rw [(setValue_keep _ _ _ _ _).m, hk.m]; exact hlt e (by simp)

end S
end Lpx
