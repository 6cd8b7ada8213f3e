import Verif.PrepareSpec
import Verif.QueueDef

/-! # `prepare`: objective, lists of bounds, conflict clauses, and the invariant it establishes -/

set_option linter.unusedSectionVars false

namespace Lpx
open Finset

variable {V : Type} [LpValue V] {Sym : Type}

/-- `conflicts` decides whether two bounds on the same variable exclude each other. -/
theorem Bound.conflicts_iff (a b : Bound V) (hv : a.var = b.var) :
    a.conflicts b = true ↔ ∀ asg : ℕ → V, ¬ (a.Holds asg ∧ b.Holds asg) := by
  unfold Bound.conflicts Bound.Holds
  rw [hv]
  constructor
  · intro h asg hh
    obtain ⟨h1, h2⟩ := hh
    cases ha : a.rel <;> cases hb : b.rel <;> simp only [ha, hb, ne_eq, not_true_eq_false, decide_false, Bool.false_and,
      Bool.false_eq_true, reduceCtorEq, not_false_eq_true, decide_true, Bool.true_and, decide_eq_true_eq] at h h1 h2
    · exact absurd (h2.trans h1) (not_le.2 h)
    · rw [h2] at h1; exact absurd h1 (not_le.2 h)
    · exact absurd (h1.trans h2) (not_le.2 h)
    · rw [h2] at h1; exact absurd h1 (not_le.2 h)
    · rw [h1] at h2; exact absurd h2 (not_le.2 h)
    · rw [h1] at h2; exact absurd h2 (not_le.2 h)
    · exact h (h1.symm.trans h2)
  · intro h
    have hA := h (fun _ => a.value)
    have hB := h (fun _ => b.value)
    have hM := h (fun _ => min a.value b.value)
    have hX := h (fun _ => max a.value b.value)
    cases ha : a.rel <;> cases hb : b.rel <;> simp_all

namespace S

/-- Only the clauses passed to clingo change. -/
def CForm (s s' : S V) : Prop := ∃ c o, s' = { s with clause := c, out := o }

theorem CForm.refl (s : S V) : CForm s s := ⟨s.clause, s.out, rfl⟩
theorem CForm.trans {a b c : S V} (h : CForm a b) (k : CForm b c) : CForm a c := by
  obtain ⟨_, _, rfl⟩ := h; obtain ⟨_, _, rfl⟩ := k; exact ⟨_, _, rfl⟩
theorem CForm.bounds {s s' : S V} (h : CForm s s') : s'.bounds = s.bounds := by obtain ⟨_, _, rfl⟩ := h; rfl
theorem CForm.vbounds {s s' : S V} (h : CForm s s') : s'.vbounds = s.vbounds := by obtain ⟨_, _, rfl⟩ := h; rfl

/-- The pair `(ba, bb)` of bounds needs a clause. -/
def Excl (ba bb : Bound V) : Prop := ba.lit ≠ -bb.lit ∧ ba.conflicts bb = true

theorem confInner_spec (env : InitEnv) (ba : Bound V) (bs : List ℕ) : ∀ (s : S V),
    (∀ b ∈ bs, ∃ bb, s.bounds[b]? = some bb) →
    CForm s (confInner env ba bs s).1 ∧ s.out <+: (confInner env ba bs s).1.out ∧
    (∀ c ∈ (confInner env ba bs s).1.out, c ∈ s.out ∨ ∃ b ∈ bs, ∃ bb, s.bounds[b]? = some bb ∧ Excl ba bb ∧
      c = [-ba.lit, -bb.lit] ∧ ∃ O, O <+: (confInner env ba bs s).1.out ∧ env.isFalse O bb.lit = false) ∧
    ((confInner env ba bs s).2 = true → ∀ b ∈ bs, ∀ bb, s.bounds[b]? = some bb → Excl ba bb →
      [-ba.lit, -bb.lit] ∈ (confInner env ba bs s).1.out ∨
        ∃ O, O <+: (confInner env ba bs s).1.out ∧ env.isFalse O bb.lit = true) := by
  induction bs with
  | nil => intro s _; exact ⟨CForm.refl s, List.prefix_rfl, fun c hc => Or.inl hc, fun _ => by simp⟩
  | cons b bs ih =>
    intro s hb
    obtain ⟨bb, hbb⟩ := hb b (by simp)
    rw [confInner, hbb]
    simp only
    by_cases hc : (decide (ba.lit ≠ -bb.lit) && !env.isFalse s.out bb.lit && ba.conflicts bb) = true
    · rw [if_pos hc]
      simp only [Bool.and_eq_true, decide_eq_true_eq, Bool.not_eq_true'] at hc
      set s1 : S V := { s with clause := [-ba.lit, -bb.lit], out := s.out ++ [[-ba.lit, -bb.lit]] } with hs1
      have hcf : CForm s s1 := ⟨_, _, rfl⟩
      have hpre : s.out <+: s1.out := List.prefix_append _ _
      by_cases hok : env.ok s1.out = true
      · rw [if_pos (show env.ok (s.out ++ [[-ba.lit, -bb.lit]]) = true from hok)]
        obtain ⟨i1, i2, i3, i4⟩ := ih s1 (fun x hx => hb x (by simp [hx]))
        refine ⟨hcf.trans i1, hpre.trans i2, ?_, ?_⟩
        · intro c hcm
          rcases i3 c hcm with h1 | ⟨b', hb', bb', h1, h2, h3, h4⟩
          · rcases List.mem_append.1 h1 with h1 | h1
            · exact Or.inl h1
            · rw [List.mem_singleton] at h1
              exact Or.inr ⟨b, by simp, bb, hbb, ⟨hc.1.1, hc.2⟩, h1, s.out, hpre.trans i2, hc.1.2⟩
          · exact Or.inr ⟨b', by simp [hb'], bb', h1, h2, h3, h4⟩
        · intro hr b' hb' bb' hbb' hex
          rcases List.mem_cons.1 hb' with rfl | hb'
          · rw [hbb] at hbb'; cases hbb'
            left; exact i2.subset (by simp [s1])
          · exact i4 hr b' hb' bb' hbb' hex
      · rw [if_neg (show ¬ env.ok (s.out ++ [[-ba.lit, -bb.lit]]) = true from hok)]
        refine ⟨hcf, hpre, ?_, fun h => absurd h (by simp)⟩
        intro c hcm
        rcases List.mem_append.1 hcm with h1 | h1
        · exact Or.inl h1
        · rw [List.mem_singleton] at h1
          exact Or.inr ⟨b, by simp, bb, hbb, ⟨hc.1.1, hc.2⟩, h1, s.out, hpre, hc.1.2⟩
    · rw [if_neg hc]
      obtain ⟨i1, i2, i3, i4⟩ := ih s (fun x hx => hb x (by simp [hx]))
      refine ⟨i1, i2, ?_, ?_⟩
      · intro c hcm
        rcases i3 c hcm with h1 | ⟨b', hb', h1⟩
        · exact Or.inl h1
        · exact Or.inr ⟨b', by simp [hb'], h1⟩
      · intro hr b' hb' bb' hbb' hex
        rcases List.mem_cons.1 hb' with rfl | hb'
        · rw [hbb] at hbb'; cases hbb'
          right
          refine ⟨s.out, i2, ?_⟩
          by_contra hn
          apply hc
          simp only [Bool.and_eq_true, decide_eq_true_eq, Bool.not_eq_true']
          exact ⟨⟨hex.1, by simpa using hn⟩, hex.2⟩
        · exact i4 hr b' hb' bb' hbb' hex

theorem confVar_spec (env : InitEnv) (as : List ℕ) : ∀ (s : S V),
    (∀ b ∈ as, ∃ bb, s.bounds[b]? = some bb) →
    CForm s (confVar env as s).1 ∧ s.out <+: (confVar env as s).1.out ∧
    (∀ c ∈ (confVar env as s).1.out, c ∈ s.out ∨ ∃ a b ba bb, [a, b].Sublist as ∧ s.bounds[a]? = some ba ∧ s.bounds[b]? = some bb ∧
      Excl ba bb ∧ c = [-ba.lit, -bb.lit] ∧ ∃ O, O <+: (confVar env as s).1.out ∧ env.isFalse O bb.lit = false) ∧
    ((confVar env as s).2 = true → ∀ a b ba bb, [a, b].Sublist as → s.bounds[a]? = some ba → s.bounds[b]? = some bb → Excl ba bb →
      [-ba.lit, -bb.lit] ∈ (confVar env as s).1.out ∨
        ∃ O, O <+: (confVar env as s).1.out ∧ env.isFalse O bb.lit = true) := by
  induction as with
  | nil => intro s _; exact ⟨CForm.refl s, List.prefix_rfl, fun c hc => Or.inl hc, fun _ a b ba bb h => absurd h (by simp)⟩
  | cons a as ih =>
    intro s hb
    obtain ⟨ba, hba⟩ := hb a (by simp)
    rw [confVar, hba]
    simp only
    obtain ⟨j1, j2, j3, j4⟩ := confInner_spec env ba as s (fun x hx => hb x (by simp [hx]))
    set s1 := (confInner env ba as s).1 with hs1
    have hbs : s1.bounds = s.bounds := j1.bounds
    cases hr : (confInner env ba as s).2
    · simp only [Bool.false_eq_true, if_false]
      refine ⟨j1, j2, ?_, fun h => absurd (hr ▸ h) (by simp)⟩
      intro c hc
      rcases j3 c hc with h1 | ⟨b, hbm, bb, h2, h3, h4, h5⟩
      · exact Or.inl h1
      · exact Or.inr ⟨a, b, ba, bb, List.Sublist.cons_cons a (List.singleton_sublist.2 hbm), hba, h2, h3, h4, h5⟩
    · simp only [if_true]
      obtain ⟨i1, i2, i3, i4⟩ := ih s1 (fun x hx => by rw [hbs]; exact hb x (by simp [hx]))
      rw [hbs] at i3 i4
      refine ⟨j1.trans i1, j2.trans i2, ?_, ?_⟩
      · intro c hc
        rcases i3 c hc with h1 | ⟨a', b', ba', bb', h0, h1⟩
        · rcases j3 c h1 with h1 | ⟨b, hbm, bb, h2, h3, h4, O, h5, h6⟩
          · exact Or.inl h1
          · exact Or.inr ⟨a, b, ba, bb, List.Sublist.cons_cons a (List.singleton_sublist.2 hbm), hba, h2, h3, h4, O, h5.trans i2, h6⟩
        · exact Or.inr ⟨a', b', ba', bb', h0.cons _, h1⟩
      · intro hr2 a' b' ba' bb' hsub h1 h2 h3
        cases hsub with
        | cons _ h => exact i4 hr2 a' b' ba' bb' h h1 h2 h3
        | cons_cons _ h =>
          rw [hba] at h1; cases h1
          rcases j4 hr b' (List.singleton_sublist.1 h) bb' h2 h3 with h | ⟨O, h5, h6⟩
          · exact Or.inl (i2.subset h)
          · exact Or.inr ⟨O, h5.trans i2, h6⟩

theorem confVars_spec (env : InitEnv) (vs : List ℕ) : ∀ (s : S V),
    (∀ v ∈ vs, ∀ b ∈ s.vbounds v, ∃ bb, s.bounds[b]? = some bb) →
    CForm s (confVars env vs s).1 ∧ s.out <+: (confVars env vs s).1.out ∧
    (∀ c ∈ (confVars env vs s).1.out, c ∈ s.out ∨ ∃ v ∈ vs, ∃ a b ba bb, [a, b].Sublist (s.vbounds v) ∧ s.bounds[a]? = some ba ∧
      s.bounds[b]? = some bb ∧ Excl ba bb ∧ c = [-ba.lit, -bb.lit] ∧ ∃ O, O <+: (confVars env vs s).1.out ∧ env.isFalse O bb.lit = false) ∧
    ((confVars env vs s).2 = true → ∀ v ∈ vs, ∀ a b ba bb, [a, b].Sublist (s.vbounds v) → s.bounds[a]? = some ba →
      s.bounds[b]? = some bb → Excl ba bb →
      [-ba.lit, -bb.lit] ∈ (confVars env vs s).1.out ∨
        ∃ O, O <+: (confVars env vs s).1.out ∧ env.isFalse O bb.lit = true) := by
  induction vs with
  | nil => intro s _; exact ⟨CForm.refl s, List.prefix_rfl, fun c hc => Or.inl hc, fun _ v hv => absurd hv (by simp)⟩
  | cons v vs ih =>
    intro s hb
    rw [confVars]
    obtain ⟨j1, j2, j3, j4⟩ := confVar_spec env (s.vbounds v) s (hb v (by simp))
    set s1 := (confVar env (s.vbounds v) s).1 with hs1
    have hbs : s1.bounds = s.bounds := j1.bounds
    have hvs : s1.vbounds = s.vbounds := j1.vbounds
    cases hr : (confVar env (s.vbounds v) s).2
    · simp only [Bool.false_eq_true, if_false]
      refine ⟨j1, j2, ?_, fun h => absurd (hr ▸ h) (by simp)⟩
      intro c hc
      rcases j3 c hc with h1 | h1
      · exact Or.inl h1
      · exact Or.inr ⟨v, by simp, h1⟩
    · simp only [if_true]
      obtain ⟨i1, i2, i3, i4⟩ := ih s1 (fun x hx => by rw [hbs, hvs]; exact hb x (by simp [hx]))
      rw [hbs, hvs] at i3 i4
      refine ⟨j1.trans i1, j2.trans i2, ?_, ?_⟩
      · intro c hc
        rcases i3 c hc with h1 | ⟨v', hv', h0⟩
        · rcases j3 c h1 with h1 | ⟨a, b, ba, bb, h0, h1, h2, h3, h4, O, h5, h6⟩
          · exact Or.inl h1
          · exact Or.inr ⟨v, by simp, a, b, ba, bb, h0, h1, h2, h3, h4, O, h5.trans i2, h6⟩
        · exact Or.inr ⟨v', by simp [hv'], h0⟩
      · intro hr2 v' hv' a' b' ba' bb' hsub h1 h2 h3
        rcases List.mem_cons.1 hv' with rfl | hv'
        · rcases j4 hr a' b' ba' bb' hsub h1 h2 h3 with h | ⟨O, h5, h6⟩
          · exact Or.inl (i2.subset h)
          · exact Or.inr ⟨O, h5.trans i2, h6⟩
        · exact i4 hr2 v' hv' a' b' ba' bb' hsub h1 h2 h3

/-! ### lists of bounds per variable -/

theorem fill_fold (L : List (Bound V × ℕ)) (f : ℕ → List ℕ) (v : ℕ) :
    (L.foldl (fun f (p : Bound V × ℕ) => Function.update f p.1.var (f p.1.var ++ [p.2])) f) v =
      f v ++ (L.filter (fun p => decide (p.1.var = v))).map (·.2) := by
  induction L generalizing f with
  | nil => simp
  | cons p L ih =>
    simp only [List.foldl_cons]
    rw [ih]
    by_cases hp : p.1.var = v
    · subst hp; simp
    · rw [Function.update_of_ne (Ne.symm hp)]; simp [hp]

theorem fillBounds_vbounds (s : S V) (h0 : s.vbounds = fun _ => []) (v : ℕ) :
    s.fillBounds.vbounds v = (((s.order.f (List.range s.bounds.length)).filterMap fun b => (s.bounds[b]?).map fun bd => (bd, b)).filter
      (fun p => decide (p.1.var = v))).map (·.2) := by
  unfold fillBounds; simp only; rw [fill_fold, h0]; rfl

theorem mem_fillBounds {s : S V} (h0 : s.vbounds = fun _ => []) {v b : ℕ} :
    b ∈ s.fillBounds.vbounds v ↔ ∃ bd, s.bounds[b]? = some bd ∧ bd.var = v := by
  rw [fillBounds_vbounds s h0]
  simp only [List.mem_map, List.mem_filter, List.mem_filterMap, (s.order.perm _).mem_iff, List.mem_range, decide_eq_true_eq,
    Prod.exists, exists_eq_right, Option.map_eq_some_iff, Prod.mk.injEq]
  constructor
  · rintro ⟨bd, ⟨b', -, bd', h1, rfl, rfl⟩, h2⟩; exact ⟨bd', h1, h2⟩
  · rintro ⟨bd, h1, h2⟩; exact ⟨bd, ⟨b, (List.getElem?_eq_some_iff.1 h1).1, bd, h1, rfl, rfl⟩, h2⟩

theorem fillBounds_nodup {s : S V} (h0 : s.vbounds = fun _ => []) (v : ℕ) : (s.fillBounds.vbounds v).Nodup := by
  rw [fillBounds_vbounds s h0]
  have h1 : ∀ l : List ℕ, ((l.filterMap fun b => (s.bounds[b]?).map fun bd => (bd, b)).map (·.2)).Sublist l := by
    intro l
    induction l with
    | nil => simp
    | cons b l ih =>
      rw [List.filterMap_cons]
      cases s.bounds[b]? with
      | none => simpa using List.Sublist.cons b ih
      | some bd => simpa using List.Sublist.cons_cons b ih
  have h2 : (s.order.f (List.range s.bounds.length)).Nodup := (s.order.perm _).nodup_iff.2 List.nodup_range
  exact (h2.sublist (h1 _)).sublist (List.Sublist.map _ (List.filter_sublist))

/-- Two different elements of a list occur in one of the two orders. -/
theorem pair_sublist {l : List ℕ} {a b : ℕ} (ha : a ∈ l) (hb : b ∈ l) (hne : a ≠ b) : [a, b].Sublist l ∨ [b, a].Sublist l := by
  induction l with
  | nil => simp at ha
  | cons x xs ih =>
    rcases List.mem_cons.1 ha with rfl | ha'
    · rcases List.mem_cons.1 hb with rfl | hb'
      · exact absurd rfl hne
      · exact Or.inl (List.Sublist.cons_cons _ (List.singleton_sublist.2 hb'))
    · rcases List.mem_cons.1 hb with rfl | hb'
      · exact Or.inr (List.Sublist.cons_cons _ (List.singleton_sublist.2 ha'))
      · exact (ih ha' hb').imp (List.Sublist.cons x) (List.Sublist.cons x)

theorem pair_of_sublist {l : List ℕ} (h : l.Nodup) {a b : ℕ} (hs : [a, b].Sublist l) : a ∈ l ∧ b ∈ l ∧ a ≠ b := by
  refine ⟨hs.subset (by simp), hs.subset (by simp), ?_⟩
  have := h.sublist hs
  simpa using this

/-! ### queueing all rows -/

/-- Only the queue of rows changes. -/
def EForm (s s' : S V) : Prop := ∃ p q, s' = { s with prop := p, pqueue := q }

theorem enqueue_form {s : S V} (hl : s.lower = fun _ => none) (hu : s.upper = fun _ => none) (i : ℕ) :
    EForm s (s.enqueue i) := by
  have hc : s.hasConflict (s.index (i + s.n)) = false := by
    unfold hasConflict belowLo aboveUp lo up bval; rw [hl, hu]; rfl
  unfold enqueue
  simp only [hc, Bool.and_false, Bool.false_eq_true, if_false]
  split
  · exact ⟨_, _, rfl⟩
  · exact ⟨s.prop, s.pqueue, rfl⟩

theorem enqueue_all (L : List ℕ) : ∀ {s : S V}, s.lower = (fun _ => none) → s.upper = (fun _ => none) →
    (∀ i ∈ L, i < s.m) → PQ s → EForm s (L.foldl (fun s i => s.enqueue i) s) ∧ PQ (L.foldl (fun s i => s.enqueue i) s) := by
  induction L with
  | nil => intro s _ _ _ hq; exact ⟨⟨s.prop, s.pqueue, rfl⟩, hq⟩
  | cons i L ih =>
    intro s hl hu hL hq
    obtain ⟨p, q, he⟩ := enqueue_form hl hu i
    have hq' := enqueue_pq hq (hL i (by simp))
    simp only [List.foldl_cons]
    obtain ⟨⟨p', q', h1⟩, h2⟩ := ih (s := s.enqueue i) (by rw [he]; exact hl) (by rw [he]; exact hu)
      (fun k hk => by rw [he]; exact hL k (by simp [hk])) hq'
    exact ⟨⟨p', q', by rw [h1, he]⟩, h2⟩

theorem enqueue_all_flags (L : List ℕ) {s : S V} (h : PF s) : PF (L.foldl (fun s i => s.enqueue i) s) :=
  (Grow.foldl _ grow_enqueue L s).pf h

/-! ### objective -/

/-- Facts about the objective rows. -/
structure ObjInfo (idx : Sym → Option ℕ) (objective : List (Term Sym)) (s : S V) : Prop where
  active : s.obj.active = !objective.isEmpty
  var : objective ≠ [] → s.obj.var < s.nvars ∧ s.n ≤ s.obj.var ∧ (∀ bd ∈ s.bounds, bd.var ≠ s.obj.var) ∧
    ∀ asg, TabEq s asg → asg s.obj.var = evalV (fun y => asg (ix idx y)) objective
  bnd : objective ≠ [] → s.opts.globalObjective.isSome = true → s.obj.boundVar < s.nvars ∧ s.obj.boundVar ≠ s.obj.var ∧
    s.n ≤ s.obj.boundVar ∧ (∀ bd ∈ s.bounds, bd.var ≠ s.obj.boundVar) ∧
    ∀ asg, TabEq s asg → asg s.obj.boundVar = evalV (fun y => asg (ix idx y)) objective
  gen : s.obj.generation = 0 ∧ s.obj.discardBounded = false

/-- States after the rows have been created. -/
structure PSt2 (opts : Options) (size : ℕ) (s : S V) : Prop where
  form : ∃ o B m T O ob, s = { initS opts size o with bounds := B, nvars := size + m, m := m, tab := T, out := O, obj := ob }
  wf : s.tab.WF
  shape : ∀ i j, s.tab.coef i j ≠ 0 → i < s.m ∧ j < s.n
  bvar : ∀ bd ∈ s.bounds, bd.var < s.nvars
  low : ∀ k, Tableau.Low (s.tab.rows k)

theorem prepObjective_spec {opts : Options} {size : ℕ} {idx : Sym → Option ℕ} (hinj : IdxInj idx) {s : S V} (h : PSt opts size s)
    {objective : List (Term Sym)} (hnf : NF idx size objective) :
    PSt2 opts size (prepObjective idx objective s) ∧ ObjInfo idx objective (prepObjective idx objective s) ∧
    (prepObjective idx objective s).bounds = s.bounds ∧ (prepObjective idx objective s).out = s.out ∧
    (∀ asg, TabEq (prepObjective idx objective s) asg → TabEq s asg) ∧
    (∀ v, v < (prepObjective idx objective s).nvars → v < s.nvars ∨ objective ≠ [] ∧ (v = (prepObjective idx objective s).obj.var ∨
      opts.globalObjective.isSome = true ∧ v = (prepObjective idx objective s).obj.boundVar)) := by
  unfold prepObjective
  cases ho : objective with
  | nil =>
    obtain ⟨ord, B, m, T, O, hB⟩ := h.form
    refine ⟨⟨⟨ord, B, m, T, O, {}, hB⟩, h.wf, h.shape, h.bvar, h.low⟩, ?_, rfl, rfl, fun _ h => h, fun v hv => .inl hv⟩
    have : s.obj = {} := by rw [hB]; rfl
    exact ⟨by simp [this], fun h => absurd rfl h, fun h => absurd rfl h, by simp [this]⟩
  | cons t ts =>
    rw [← ho]
    have hne : objective ≠ [] := by rw [ho]; simp
    have hemp : objective.isEmpty = false := by rw [ho]; rfl
    rw [hemp]
    simp only [Bool.false_eq_true, if_false]
    rw [addRow_eq (fun t ht => by obtain ⟨j, hj, -⟩ := hnf.known t ht; exact ⟨j, hj⟩)]
    simp only
    have hrn := row_nodup hnf hinj
    have hlt : ∀ e ∈ (objective.map fun t => (ix idx t.var, t.co)), e.1 < s.n := by
      intro e he
      obtain ⟨t, ht, rfl⟩ := List.mem_map.1 he
      obtain ⟨j, hj, hlt⟩ := hnf.known t ht
      rw [h.n]; simpa [ix, hj] using hlt
    have hrv := rowVal_row (V := V) idx objective
    set row := (objective.map fun t => (ix idx t.var, t.co)) with hrow
    obtain ⟨ord, B, m, T, O, hB⟩ := h.form
    have hnv := h.nv
    have hn := h.n
    have hwf := h.wf
    have hsh := h.shape
    have hbv := h.bvar
    have hix := h.index
    have hobj : s.obj = {} := by rw [hB]; rfl
    have hopts : s.opts = opts := by rw [hB]; rfl
    by_cases hg : opts.globalObjective.isSome = true
    · simp only [hopts, hg, if_true]
      set s1 : S V := { s with obj := { s.obj with active := true } } with hs1
      obtain ⟨a1, a2, a3, a4⟩ := newRow_spec (s := s1) hwf hsh hnv hix hrn hlt
      set s2 : S V := { s1.newRow row with obj := { (s1.newRow row).obj with boundVar := (s1.newRow row).nvars - 1 } } with hs2
      obtain ⟨b1, b2, b3, b4⟩ := newRow_spec (s := s2) a1 a2 (by show s1.nvars + 1 = _; show s.nvars + 1 = s.n + (s.m + 1); omega) hix hrn hlt
      refine ⟨⟨⟨ord, B, m + 1 + 1, (s2.newRow row).tab, O, { s2.obj with var := s2.nvars + 1 - 1 }, ?_⟩, b1, b2, ?_, b4 (a4 h.low)⟩, ⟨?_, ?_, ?_, ?_⟩, rfl, rfl, ?_, fun v hv => ?_⟩
      · simp only [hs2, hs1, newRow, addBasic, hB]; rfl
      · intro bd hbd
        have := hbv bd hbd
        show bd.var < s.nvars + 1 + 1; omega
      · rw [hemp]; rfl
      · intro _
        show s.nvars + 1 + 1 - 1 < s.nvars + 1 + 1 ∧ s.n ≤ s.nvars + 1 + 1 - 1 ∧ (∀ bd ∈ s.bounds, bd.var ≠ s.nvars + 1 + 1 - 1) ∧ _
        refine ⟨by omega, by omega, ?_, ?_⟩
        · intro bd hbd; have := hbv bd hbd; omega
        · intro asg hE
          have := (b3 asg).1 hE
          rw [← hrv]; exact this.2
      · intro _ _
        show s.nvars + 1 - 1 < s.nvars + 1 + 1 ∧ s.nvars + 1 - 1 ≠ s.nvars + 1 + 1 - 1 ∧ s.n ≤ s.nvars + 1 - 1 ∧
          (∀ bd ∈ s.bounds, bd.var ≠ s.nvars + 1 - 1) ∧ _
        refine ⟨by omega, by omega, by omega, fun bd hbd => by have := hbv bd hbd; omega, ?_⟩
        intro asg hE
        have h1 := (b3 asg).1 hE
        have := (a3 asg).1 h1.1
        rw [← hrv]; exact this.2
      · show s.obj.generation = 0 ∧ s.obj.discardBounded = false
        rw [hobj]; exact ⟨rfl, rfl⟩
      · intro asg hE
        exact ((a3 asg).1 ((b3 asg).1 hE).1).1
      · have hv' : v < s.nvars + 1 + 1 := hv
        by_cases h1 : v < s.nvars
        · exact .inl h1
        · refine .inr ⟨hne, ?_⟩
          by_cases h2 : v = s.nvars
          · exact .inr ⟨trivial, h2⟩
          · exact .inl (show v = s.nvars + 1 by omega)
    · have hg' : opts.globalObjective.isSome = false := by simpa using hg
      simp only [hopts, hg', Bool.false_eq_true, if_false]
      set s1 : S V := { s with obj := { s.obj with active := true } } with hs1
      obtain ⟨a1, a2, a3, a4⟩ := newRow_spec (s := s1) hwf hsh hnv hix hrn hlt
      refine ⟨⟨⟨ord, B, m + 1, (s1.newRow row).tab, O, { s1.obj with var := s1.nvars + 1 - 1 }, ?_⟩, a1, a2, ?_, a4 h.low⟩, ⟨?_, ?_, ?_, ?_⟩, rfl, rfl, ?_, fun v hv => ?_⟩
      · simp only [hs1, newRow, addBasic, hB]; rfl
      · intro bd hbd
        have := hbv bd hbd
        show bd.var < s.nvars + 1; omega
      · rw [hemp]; rfl
      · intro _
        show s.nvars + 1 - 1 < s.nvars + 1 ∧ s.n ≤ s.nvars + 1 - 1 ∧ (∀ bd ∈ s.bounds, bd.var ≠ s.nvars + 1 - 1) ∧ _
        refine ⟨by omega, by omega, ?_, ?_⟩
        · intro bd hbd; have := hbv bd hbd; omega
        · intro asg hE
          have := (a3 asg).1 hE
          rw [← hrv]; exact this.2
      · intro _ hgl
        exact absurd (show opts.globalObjective.isSome = true from hgl) hg
      · show s.obj.generation = 0 ∧ s.obj.discardBounded = false
        rw [hobj]; exact ⟨rfl, rfl⟩
      · intro asg hE
        exact ((a3 asg).1 hE).1
      · have hv' : v < s.nvars + 1 := hv
        by_cases h1 : v < s.nvars
        · exact .inl h1
        · exact .inr ⟨hne, .inl (show v = s.nvars by omega)⟩

/-! ### the result of `prepare` -/

/-- Where the clauses added by `prepare` come from. -/
inductive PreClause (env : InitEnv) (opts : Options) (ineqs : List (Ineq Sym)) (s : S V) (c : List ℤ) : Prop
  | const (x : Ineq Sym) (hx : x ∈ ineqs) (hl : x.lhs = []) (ht : constTest x.rel x.rhs = true) (hc : c = [-x.lit])
  | pair (a b : ℕ) (ba bb : Bound V) (ho : opts.propagateConflicts = true) (hlt : a ≠ b) (ha : s.bounds[a]? = some ba)
      (hb : s.bounds[b]? = some bb) (hv : ba.var = bb.var) (hne : ba.lit ≠ -bb.lit) (hcf : ba.conflicts bb = true)
      (hc : c = [-ba.lit, -bb.lit]) (hnf : ∃ O, O <+: s.out ∧ env.isFalse O bb.lit = false)

/-- The state after a successful `prepare`. -/
structure PrepOK (env : InitEnv) (opts : Options) (idx : Sym → Option ℕ) (size : ℕ) (ineqs : List (Ineq Sym))
    (objective : List (Term Sym)) (master : Bool) (s : S V) : Prop where
  inv : ∀ [Hon], SInv (TabEq s) [] s
  opt : s.opts = opts
  n : s.n = size
  /-- every bound stems from a constraint -/
  src : ∀ bd ∈ s.bounds, ∃ x ∈ ineqs, Represents idx size (TabEq s) x bd
  /-- every constraint has a bound unless its literal was false already -/
  cov : ∀ x ∈ ineqs, x.lhs ≠ [] → (∃ bd ∈ s.bounds, Represents idx size (TabEq s) x bd) ∨ ∃ O, O <+: s.out ∧ env.isFalse O x.lit = true
  /-- every constraint over several variables has a variable of its own -/
  uniq : ∀ b1 ∈ s.bounds, ∀ b2 ∈ s.bounds, b1.var = b2.var → size ≤ b1.var → b1 = b2
  const : master = true → ∀ x ∈ ineqs, x.lhs = [] → constTest x.rel x.rhs = true →
    [-x.lit] ∈ s.out ∨ ∃ O, O <+: s.out ∧ env.isFalse O x.lit = true
  conf : master = true → opts.propagateConflicts = true → ∀ (a b : ℕ) (ba bb : Bound V), a ≠ b → s.bounds[a]? = some ba → s.bounds[b]? = some bb →
    ba.var = bb.var → ba.lit ≠ -bb.lit → ba.conflicts bb = true → bb.conflicts ba = true →
    ([-ba.lit, -bb.lit] ∈ s.out ∨ ∃ O, O <+: s.out ∧ env.isFalse O bb.lit = true) ∨
    ([-bb.lit, -ba.lit] ∈ s.out ∨ ∃ O, O <+: s.out ∧ env.isFalse O ba.lit = true)
  obj : ObjInfo idx objective s
  /-- the equations do not restrict the variables of the program -/
  ext : ∀ g : ℕ → V, ∃ asg, TabEq s asg ∧ ∀ j, j < size → asg j = g j
  value : ∀ v, s.value v = 0
  pivots : s.pivots = 0 ∧ s.props = 0
  /-- the bounds registered for a variable -/
  vb : ∀ v b, b ∈ s.vbounds v ↔ ∃ bd, s.bounds[b]? = some bd ∧ bd.var = v
  /-- the rows marked for propagation are in the queue -/
  pf : PF s
  /-- each bound belongs to a constraint -/
  sub : (s.bounds.map Bound.lit).Sublist (ineqs.map (·.lit))
  nr : s.tab.nrows ≤ s.m
  /-- the rows belong to constraints over several variables and the objective -/
  rows : ∀ v, size ≤ v → v < s.nvars → (∃ bd ∈ s.bounds, bd.var = v) ∨ objective ≠ [] ∧ (v = s.obj.var ∨
    opts.globalObjective.isSome = true ∧ v = s.obj.boundVar)

theorem ObjInfo.congr {idx : Sym → Option ℕ} {objective : List (Term Sym)} {s s' : S V} (h : ObjInfo idx objective s)
    (hobj : s'.obj = s.obj) (hnv : s'.nvars = s.nvars) (hn : s'.n = s.n) (hb : s'.bounds = s.bounds) (ho : s'.opts = s.opts)
    (hE : ∀ asg, TabEq s' asg ↔ TabEq s asg) : ObjInfo idx objective s' := by
  refine ⟨by rw [hobj]; exact h.active, ?_, ?_, by rw [hobj]; exact h.gen⟩
  · intro hne
    obtain ⟨h1, h2, h3, h4⟩ := h.var hne
    rw [hobj, hnv, hn, hb]
    exact ⟨h1, h2, h3, fun asg ha => h4 asg ((hE asg).1 ha)⟩
  · intro hne hg
    rw [ho] at hg
    obtain ⟨h1, h2, h2', h2'', h3⟩ := h.bnd hne hg
    rw [hobj, hnv, hn, hb]
    exact ⟨h1, h2, h2', h2'', fun asg ha => h3 asg ((hE asg).1 ha)⟩

/-- The number of rows of the tableau that are needed: one for each constraint over at least two variables and two for the objective. -/
def numRows (ineqs : List (Ineq Sym)) (objective : List (Term Sym)) : ℕ :=
  (ineqs.filter fun x => decide (2 ≤ x.lhs.length)).length + if objective = [] then 0 else 2

theorem addRow_length {idx : Sym → Option ℕ} : ∀ {ts : List (Term Sym)} {r}, addRow idx ts = some r → r.length = ts.length := by
  intro ts
  induction ts with
  | nil => intro r h; simp only [addRow, Option.some.injEq] at h; subst h; rfl
  | cons t ts ih =>
    intro r h
    rw [addRow] at h
    cases h1 : idx t.var with
    | none => rw [h1] at h; cases h
    | some j =>
      cases h2 : addRow idx ts with
      | none => rw [h1, h2] at h; cases h
      | some r' =>
        rw [h1, h2] at h
        obtain rfl := Option.some.inj h
        simp [ih h2]

theorem prepIneq_nvars (env : InitEnv) (idx : Sym → Option ℕ) (master : Bool) (s : S V) (x : Ineq Sym) :
    (prepIneq env idx master s x).1.nvars ≤ s.nvars + if 2 ≤ x.lhs.length then 1 else 0 := by
  unfold prepIneq
  split
  · exact Nat.le_add_right _ _
  · cases h : addRow idx x.lhs with
    | none => exact Nat.le_add_right _ _
    | some row =>
      have hl := addRow_length h
      match row, hl with
      | [], _ =>
        dsimp only
        split
        · exact Nat.le_add_right _ _
        · split <;> exact Nat.le_add_right _ _
      | [(j, v)], _ =>
        dsimp only
        split <;> exact Nat.le_add_right _ _
      | a :: b :: c, hl =>
        have h2 : 2 ≤ x.lhs.length := by rw [← hl]; simp
        show _ ≤ _ + if 2 ≤ x.lhs.length then 1 else 0
        simp only [h2, if_true]
        exact le_rfl

theorem prepIneqs_nvars (env : InitEnv) (idx : Sym → Option ℕ) (master : Bool) (xs : List (Ineq Sym)) : ∀ s : S V,
    (prepIneqs env idx master xs s).1.nvars ≤ s.nvars + (xs.filter fun x => decide (2 ≤ x.lhs.length)).length := by
  induction xs with
  | nil => exact fun s => le_rfl
  | cons x xs ih =>
    intro s
    show (if (prepIneq env idx master s x).2 then prepIneqs env idx master xs (prepIneq env idx master s x).1 else prepIneq env idx master s x).1.nvars ≤ _
    have h1 := prepIneq_nvars env idx master s x
    have h2 := ih (prepIneq env idx master s x).1
    rw [List.filter_cons]
    by_cases h : 2 ≤ x.lhs.length
    · rw [if_pos h] at h1
      simp only [h, decide_true, if_true, List.length_cons]
      split <;> omega
    · rw [if_neg h] at h1
      simp only [h, decide_false, Bool.false_eq_true, if_false]
      split <;> omega

theorem prepIneq_lits (env : InitEnv) (idx : Sym → Option ℕ) (master : Bool) (s : S V) (x : Ineq Sym) :
    (prepIneq env idx master s x).1.bounds.map Bound.lit = s.bounds.map Bound.lit ∨
    (prepIneq env idx master s x).1.bounds.map Bound.lit = s.bounds.map Bound.lit ++ [x.lit] := by
  unfold prepIneq
  split
  · exact .inl rfl
  · split
    · exact .inl rfl
    · split
      · exact .inl rfl
      · split <;> exact .inl rfl
    · split
      · exact .inl rfl
      · right; simp
    · right
      simp only [List.map_append, List.map_cons, List.map_nil]
      rfl

theorem set_nrows (t : Tableau) (i j : ℕ) (a : ℚ) : (t.set i j a).nrows ≤ max t.nrows (i + 1) := by
  unfold Tableau.set
  split
  · split <;> exact le_max_left _ _
  · exact le_refl _

theorem setRow_nrows (row : List (ℕ × ℚ)) : ∀ (t : Tableau) (i : ℕ), (setRow t i row).nrows ≤ max t.nrows (i + 1) := by
  unfold setRow
  induction row with
  | nil => exact fun t i => le_max_left _ _
  | cons e es ih =>
    intro t i
    rw [List.foldl_cons]
    have h1 := ih (t.set i e.1 e.2) i
    have h2 := set_nrows t i e.1 e.2
    omega

theorem newRow_nrows {s : S V} (h : s.tab.nrows ≤ s.m) (row : List (ℕ × ℚ)) : (s.newRow row).tab.nrows ≤ (s.newRow row).m := by
  have h1 := setRow_nrows row s.tab s.m
  show (setRow s.tab s.m row).nrows ≤ s.m + 1
  omega

theorem prepIneqs_nrows (env : InitEnv) (idx : Sym → Option ℕ) (master : Bool) (xs : List (Ineq Sym)) : ∀ s : S V, s.tab.nrows ≤ s.m →
    (prepIneqs env idx master xs s).1.tab.nrows ≤ (prepIneqs env idx master xs s).1.m := by
  induction xs with
  | nil => exact fun s h => h
  | cons x xs ih =>
    intro s h
    have h1 : (prepIneq env idx master s x).1.tab.nrows ≤ (prepIneq env idx master s x).1.m := by
      unfold prepIneq
      split
      · exact h
      · split
        · exact h
        · split
          · exact h
          · split <;> exact h
        · split <;> exact h
        · exact newRow_nrows h _
    show (if (prepIneq env idx master s x).2 then prepIneqs env idx master xs (prepIneq env idx master s x).1 else prepIneq env idx master s x).1.tab.nrows ≤
      (if (prepIneq env idx master s x).2 then prepIneqs env idx master xs (prepIneq env idx master s x).1 else prepIneq env idx master s x).1.m
    split
    · exact ih _ h1
    · exact h1

theorem prepObjective_nrows (idx : Sym → Option ℕ) (objective : List (Term Sym)) {s : S V} (h : s.tab.nrows ≤ s.m) :
    (prepObjective idx objective s).tab.nrows ≤ (prepObjective idx objective s).m := by
  unfold prepObjective
  split
  · exact h
  · split
    · exact h
    · dsimp only
      split
      · exact newRow_nrows (newRow_nrows h _) _
      · exact newRow_nrows h _

/-- Each constraint leads to at most one bound, with its literal. -/
theorem prepIneqs_lits (env : InitEnv) (idx : Sym → Option ℕ) (master : Bool) (xs : List (Ineq Sym)) : ∀ s : S V,
    ((prepIneqs env idx master xs s).1.bounds.map Bound.lit).Sublist (s.bounds.map Bound.lit ++ xs.map (·.lit)) := by
  induction xs with
  | nil => exact fun s => by rw [List.map_nil, List.append_nil]; exact List.Sublist.refl _
  | cons x xs ih =>
    intro s
    show ((if (prepIneq env idx master s x).2 then prepIneqs env idx master xs (prepIneq env idx master s x).1 else prepIneq env idx master s x).1.bounds.map
      Bound.lit).Sublist _
    have h1 : ((prepIneq env idx master s x).1.bounds.map Bound.lit).Sublist (s.bounds.map Bound.lit ++ [x.lit]) := by
      rcases prepIneq_lits env idx master s x with h | h <;> rw [h]
      · exact List.sublist_append_left _ _
    have h2 := ih (prepIneq env idx master s x).1
    rw [List.map_cons, ← List.singleton_append, ← List.append_assoc]
    split
    · exact h2.trans (h1.append_right _)
    · exact h1.trans (List.sublist_append_left _ _)

theorem prepObjective_nvars (idx : Sym → Option ℕ) (objective : List (Term Sym)) (s : S V) :
    (prepObjective idx objective s).nvars ≤ s.nvars + if objective = [] then 0 else 2 := by
  unfold prepObjective
  cases objective with
  | nil => exact Nat.le_add_right _ _
  | cons t ts =>
    rw [if_neg (by simp), if_neg (by simp)]
    split
    · exact Nat.le_add_right _ _
    · dsimp only
      split
      · exact le_rfl
      · exact Nat.le_succ _

/-- The result of `prepare`, in all cases. -/
structure PrepRes (env : InitEnv) (opts : Options) (idx : Sym → Option ℕ) (size : ℕ) (ineqs : List (Ineq Sym))
    (objective : List (Term Sym)) (master : Bool) (r : S V × Bool) : Prop where
  ub : r.1.ub = false
  out : ∀ c ∈ r.1.out, master = true ∧ PreClause env opts ineqs r.1 c
  src : ∀ bd ∈ r.1.bounds, ∃ x ∈ ineqs, Represents idx size (TabEq r.1) x bd
  ext : (∀ c ∈ r.1.out, ∃ x ∈ ineqs, x.lhs = [] ∧ constTest x.rel x.rhs = true ∧ c = [-x.lit]) ∨
    ∀ g : ℕ → V, ∃ asg, TabEq r.1 asg ∧ ∀ j, j < size → asg j = g j
  ok : r.2 = true → PrepOK env opts idx size ineqs objective master r.1
  nv : r.1.nvars ≤ size + numRows ineqs objective

theorem prepare_spec {env : InitEnv} {opts : Options} {idx : Sym → Option ℕ} {size : ℕ} {master : Bool} (hinj : IdxInj idx)
    {ineqs : List (Ineq Sym)} {objective : List (Term Sym)} (hnf : ∀ x ∈ ineqs, NF idx size x.lhs) (hobj : NF idx size objective) :
    PrepRes env opts idx size ineqs objective master (prepare (V := V) env opts idx size ineqs objective master) := by
  obtain ⟨p1, p2⟩ := prepIneqs_spec hinj ineqs (initS_inv (V := V) env opts idx size master) hnf
  generalize hrr : prepare (V := V) env opts idx size ineqs objective master = r
  have hnv0 : (prepIneqs env idx master ineqs (initS opts size env.order : S V)).1.nvars ≤ size + _ :=
    prepIneqs_nvars env idx master ineqs (initS opts size env.order : S V)
  have hlits : ((prepIneqs env idx master ineqs (initS opts size env.order : S V)).1.bounds.map Bound.lit).Sublist (ineqs.map (·.lit)) := by
    have := prepIneqs_lits env idx master ineqs (initS opts size env.order : S V)
    exact this
  have hnr0 := prepIneqs_nrows env idx master ineqs (initS opts size env.order : S V) (le_refl _)
  unfold prepare at hrr
  cases hr : (prepIneqs env idx master ineqs (initS opts size env.order : S V)).2
  · simp only [hr, Bool.not_false, if_true] at hrr
    subst hrr
    obtain ⟨zs, hz, hi⟩ := p2 hr
    refine ⟨hi.pst.ub, ?_, ?_, Or.inl ?_, fun h => absurd (hr ▸ h) (by simp), hnv0.trans ?_⟩
    · intro c hc
      obtain ⟨hm, x, hx, h1, h2, h3⟩ := hi.out c hc
      exact ⟨hm, .const x (by simpa using hz x hx) h1 h3 h2⟩
    · intro bd hbd
      obtain ⟨x, hx, hR⟩ := hi.src bd hbd
      exact ⟨x, by simpa using hz x hx, hR⟩
    · intro c hc
      obtain ⟨hm, x, hx, h1, h2, h3⟩ := hi.out c hc
      exact ⟨x, by simpa using hz x hx, h1, h3, h2⟩
    · unfold numRows; omega
  · simp only [hr, Bool.not_true, Bool.false_eq_true, if_false] at hrr
    have hi := p1 hr
    rw [List.nil_append] at hi
    generalize hs0 : (prepIneqs env idx master ineqs (initS opts size env.order : S V)).1 = s0 at hi hrr hnv0 hlits hnr0
    have hnv1 : (prepObjective idx objective s0).nvars ≤ size + numRows ineqs objective := by
      have := prepObjective_nvars idx objective s0
      unfold numRows; omega
    obtain ⟨q1, q2, q3, q4, q5, q6⟩ := prepObjective_spec hinj hi.pst hobj
    have hnr1 := prepObjective_nrows idx objective hnr0
    generalize hs1 : prepObjective idx objective s0 = s1 at q1 q2 q3 q4 q5 q6 hrr hnv1 hnr1
    obtain ⟨ord, B, m, T, O, ob, hf⟩ := q1.form
    have e1 : s1.lower = fun _ => none := by rw [hf]; rfl
    have e2 : s1.upper = fun _ => none := by rw [hf]; rfl
    have e3 : s1.m = m := by rw [hf]
    obtain ⟨⟨pr, pq, hef⟩, hpq⟩ := enqueue_all (List.range s1.m) e1 e2 (fun i hi => List.mem_range.1 hi)
      (show PQ s1 by rw [hf]; intro i hi; simp [initS] at hi)
    have hfl := enqueue_all_flags (List.range s1.m) (s := s1) (by rw [hf]; exact ⟨fun k => by simp [initS], by simp [initS], fun _ => rfl⟩)
    generalize hs2 : (List.range s1.m).foldl (fun s i => s.enqueue i) s1 = s2 at hef hpq hrr hfl
    have hvb0 : s2.vbounds = fun _ => [] := by rw [hef, hf]; rfl
    have hbd2 : s2.bounds = s1.bounds := by rw [hef]
    have hmem : ∀ v b, b ∈ s2.fillBounds.vbounds v ↔ ∃ bd, s1.bounds[b]? = some bd ∧ bd.var = v := by
      intro v b; rw [mem_fillBounds hvb0, hbd2]
    have hsort := fun v => fillBounds_nodup hvb0 v
    have hfb : s2.fillBounds.bounds = s1.bounds := hbd2
    -- the state before the conflict clauses
    have hinv3 : ∀ s3 : S V, CForm s2.fillBounds s3 →
        s3.ub = false ∧ s3.bounds = s1.bounds ∧ (∀ asg, TabEq s3 asg ↔ TabEq s1 asg) ∧
        (∀ [Hon], SInv (TabEq s3) [] s3) ∧ s3.opts = opts ∧ s3.n = size ∧ ObjInfo idx objective s3 ∧
        (∀ g : ℕ → V, ∃ asg, TabEq s3 asg ∧ ∀ j, j < size → asg j = g j) ∧ (∀ v, s3.value v = 0) ∧ (s3.pivots = 0 ∧ s3.props = 0) := by
      rintro s3 ⟨cc, oo, hc⟩
      have hform : s3 = { (initS opts size ord : S V) with bounds := B, nvars := size + m, m := m, tab := T, out := oo, obj := ob, prop := pr, pqueue := pq, vbounds := s2.fillBounds.vbounds, clause := cc } := by
        rw [hc]
        unfold fillBounds
        simp only [hef, hf]
      have hB : s1.bounds = B := by rw [hf]
      have hT : s1.tab = T := by rw [hf]
      have hOb : s1.obj = ob := by rw [hf]
      have hNv : s1.nvars = size + m := by rw [hf]
      have hN : s1.n = size := by rw [hf]; rfl
      have hE : ∀ asg, TabEq s3 asg ↔ TabEq s1 asg := by
        intro asg; rw [hform, hf]; exact Iff.rfl
      have hoi : ObjInfo idx objective s3 := q2.congr (by rw [hform, hOb]) (by rw [hform, hNv]) (by rw [hform, hN]; rfl) (by rw [hform, hB])
        (by rw [hform, hf]) hE
      have hval0 : s3.value = fun _ => 0 := by rw [hform]; rfl
      have hlo : s3.lower = fun _ => none := by rw [hform]; rfl
      have hup : s3.upper = fun _ => none := by rw [hform]; rfl
      have hix : s3.index = id := by rw [hform]; rfl
      have hrx : s3.rindex = id := by rw [hform]; rfl
      have hn3 : s3.n = size := by rw [hform]; rfl
      have hm3 : s3.m = m := by rw [hform]
      have hnv3 : s3.nvars = size + m := by rw [hform]
      have hb3 : s3.bounds = s1.bounds := by rw [hform, hB]
      have hwin : ∀ v, s3.Win v := by
        intro v; unfold Win S.lo S.up bval; rw [hlo, hup]; exact ⟨by simp, by simp⟩
      have hTE : TabEq s3 s3.value := by
        intro i hi; rw [hval0]; simp
      have hbv : ∀ bd ∈ s3.bounds, bd.var < s3.nvars := by rw [hb3, hnv3, ← hNv]; exact q1.bvar
      have hptr : PtrAct s3.bounds [] s3.lower s3.upper := ⟨by rw [hup]; simp, by rw [hlo]; simp⟩
      refine ⟨by rw [hform]; rfl, hb3, hE, fun {_} => ⟨⟨⟨by rw [hnv3, hn3, hm3], ?_, ?_, ?_, ?_, ?_, ?_, ?_⟩, (ptrOK_of (bounds := s3.bounds) hptr).var, fun _ => Iff.rfl, hTE, fun _ _ => hwin _, ?_, ⟨?_, ?_, ?_⟩,
        fun v _ _ h => absurd (hwin v) h, ?_, ?_⟩, ⟨hptr, ?_, hTE, ?_⟩, ?_, by rw [hform]; rfl, hbv, ?_⟩, by rw [hform]; rfl, hn3, hoi, ?_, by rw [hval0]; simp, by rw [hform]; exact ⟨rfl, rfl⟩⟩
      · intro v hv; rw [hix]; exact hv
      · intro v hv; rw [hrx]; exact hv
      · intro v hv; rw [hix, hrx]; rfl
      · intro v hv; rw [hix, hrx]; rfl
      · rw [hform, ← hT]; exact q1.wf
      · rw [hn3, hm3]; intro i j hij; rw [hform] at hij; rw [← hN, ← e3]; exact q1.shape i j (by rw [hT]; exact hij)
      · rw [hform]; show ∀ k, Tableau.Low (T.rows k); rw [← hT]; exact q1.low
      · intro v _; unfold loLeUp S.lo S.up bval; rw [hlo, hup]; rfl
      · rw [hform]; intro v hv; simp [initS] at hv
      · rw [hform]; simp [initS]
      · rw [hform]; simp [initS]
      · rw [hform]; intro i hi; have := hpq i (by rw [hef]; exact hi); rw [hef, hf] at this; exact this
      · intro ha
        have hne : objective ≠ [] := by
          intro h0
          have := hoi.active
          rw [ha, h0] at this; simp at this
        obtain ⟨h1, h2, h3, -⟩ := hoi.var hne
        exact ⟨h1, by rw [hrx]; exact h2, h3⟩
      · rintro bd - ⟨fr, hfr, -⟩; simp at hfr
      · intro v; exact hwin v
      · refine ⟨?_, ?_, ?_, ?_⟩
        · show s3.offs = []; rw [hform]; rfl
        · show s3.btrail = []; rw [hform]; rfl
        · show s3.atrail = []; rw [hform]; rfl
        · intro v; show s3.level v = 0; rw [hform]; rfl
      · intro v b hb
        have hb' : b ∈ s2.fillBounds.vbounds v := by rw [hform] at hb; exact hb
        rw [hb3]; exact (hmem v b).1 hb'
      · intro g
        refine ⟨fun v => if v < size then g v else ∑ j ∈ range size, T.coef (v - size) j • g j, ?_, ?_⟩
        · intro i hi
          rw [hix, hn3]
          simp only [id]
          rw [if_neg (by omega), Nat.add_sub_cancel]
          refine sum_congr rfl fun j hj => ?_
          rw [if_pos (mem_range.1 hj), hform]
        · intro j hj; simp only; rw [if_pos hj]
    have hsrc : ∀ s3 : S V, CForm s2.fillBounds s3 → ∀ bd ∈ s3.bounds, ∃ x ∈ ineqs, Represents idx size (TabEq s3) x bd := by
      intro s3 hc bd hbd
      obtain ⟨-, h2, h3, -⟩ := hinv3 s3 hc
      rw [h2, q3] at hbd
      obtain ⟨x, hx, hR⟩ := hi.src bd hbd
      exact ⟨x, hx, hR.mono fun asg h => q5 asg ((h3 asg).1 h)⟩
    have hnv2 : ∀ s3 : S V, CForm s2.fillBounds s3 → s3.nvars ≤ size + numRows ineqs objective := by
      rintro s3 ⟨cc, oo, rfl⟩
      show s2.nvars ≤ _
      rw [hef]; exact hnv1
    have hout2 : s2.fillBounds.out = s0.out := by
      show s2.out = s0.out
      rw [hef]; exact q4
    have hpc : ∀ s3 : S V, ∀ c ∈ s0.out, master = true ∧ PreClause env opts ineqs s3 c := by
      intro s3 c hc
      obtain ⟨hm, x, hx, h1, h2, h3⟩ := hi.out c hc
      exact ⟨hm, .const x hx h1 h3 h2⟩
    -- the properties of the final state given the clauses
    have hfin : ∀ s3 : S V, CForm s2.fillBounds s3 → s0.out <+: s3.out →
        (master = true → opts.propagateConflicts = true → ∀ (a b : ℕ) (ba bb : Bound V), a ≠ b → s3.bounds[a]? = some ba → s3.bounds[b]? = some bb →
          ba.var = bb.var → ba.lit ≠ -bb.lit → ba.conflicts bb = true → bb.conflicts ba = true →
          ([-ba.lit, -bb.lit] ∈ s3.out ∨ ∃ O, O <+: s3.out ∧ env.isFalse O bb.lit = true) ∨
          ([-bb.lit, -ba.lit] ∈ s3.out ∨ ∃ O, O <+: s3.out ∧ env.isFalse O ba.lit = true)) →
        PrepOK env opts idx size ineqs objective master s3 := by
      intro s3 hc hpre hcf
      obtain ⟨h1, h2, h3, h4, h5, h6, h7, h8, h9, h10⟩ := hinv3 s3 hc
      refine ⟨h4, h5, h6, hsrc s3 hc, ?_, by rw [h2, q3]; exact hi.uniq, ?_, hcf, h7, h8, h9, h10, ?_, ?_, by rw [h2, q3]; exact hlits, ?_, ?_⟩
      · intro x hx hl
        rcases hi.cov x hx hl with ⟨bd, hbd, hR⟩ | ⟨O, hO, hf⟩
        · exact Or.inl ⟨bd, by rw [h2, q3]; exact hbd, hR.mono fun asg h => q5 asg ((h3 asg).1 h)⟩
        · exact Or.inr ⟨O, hO.trans hpre, hf⟩
      · intro hm x hx hl ht
        rcases hi.const hm x hx hl ht with h | ⟨O, hO, hf⟩
        · exact Or.inl (hpre.subset h)
        · exact Or.inr ⟨O, hO.trans hpre, hf⟩
      · intro v b
        rw [h2, ← hmem]
        obtain ⟨_, _, rfl⟩ := hc
        exact Iff.rfl
      · obtain ⟨_, _, rfl⟩ := hc
        exact hfl
      · obtain ⟨_, _, rfl⟩ := hc
        show s2.tab.nrows ≤ s2.m
        rw [hef]; exact hnr1
      · intro v hv1 hv2
        have e4 : s3.nvars = s1.nvars ∧ s3.obj = s1.obj := by
          obtain ⟨_, _, rfl⟩ := hc
          show s2.nvars = _ ∧ s2.obj = _
          rw [hef]; exact ⟨rfl, rfl⟩
        rw [h2, q3, e4.2]
        rcases q6 v (e4.1 ▸ hv2) with h | h
        · exact .inl (hi.rows v hv1 h)
        · exact .inr h
    have hopt2 : s2.fillBounds.opts = opts := (hinv3 _ (CForm.refl _)).2.2.2.2.1
    rw [hopt2] at hrr
    by_cases hpo : (opts.propagateConflicts && master) = true
    · rw [if_pos hpo] at hrr
      simp only [Bool.and_eq_true] at hpo
      obtain ⟨c1, c2, c3, c4⟩ := confVars_spec env (List.range s2.fillBounds.nvars) s2.fillBounds (by
        intro v _ b hb
        obtain ⟨bd, h1, -⟩ := (hmem v b).1 hb
        exact ⟨bd, by rw [hfb]; exact h1⟩)
      generalize hs3 : confVars env (List.range s2.fillBounds.nvars) s2.fillBounds = r3 at c1 c2 c3 c4 hrr
      subst hrr
      have hi3 := hinv3 r3.1 c1
      rw [hout2] at c2 c3
      refine ⟨hi3.1, ?_, hsrc _ c1, Or.inr hi3.2.2.2.2.2.2.2.1, ?_, hnv2 _ c1⟩
      · intro c hc
        rcases c3 c hc with h | ⟨v, -, a, b, ba, bb, h1, h2, h3, h4, h5, h6⟩
        · exact hpc _ c h
        · obtain ⟨g1, g2, g3⟩ := pair_of_sublist (hsort v) h1
          obtain ⟨bda, k1, k2⟩ := (hmem v a).1 g1
          obtain ⟨bdb, k3, k4⟩ := (hmem v b).1 g2
          rw [hfb] at h2 h3
          rw [h2] at k1; cases k1
          rw [h3] at k3; cases k3
          exact ⟨hpo.2, .pair a b ba bb hpo.1 g3 (by rw [hi3.2.1]; exact h2) (by rw [hi3.2.1]; exact h3) (by rw [k2, k4]) h4.1 h4.2 h5 h6⟩
      · intro hr3
        refine hfin _ c1 c2 ?_
        intro _ _ a b ba bb hab ha hb hv hne hcf hcf'
        rw [hi3.2.1] at ha hb
        have hnv : ba.var < s2.fillBounds.nvars := by
          letI : Hon := ⟨True⟩
          have h4 := (hinv3 _ (CForm.refl s2.fillBounds)).2.2.2.1
          exact h4.bvar ba (by rw [hfb]; exact List.mem_of_getElem? ha)
        rcases pair_sublist ((hmem _ a).2 ⟨ba, ha, rfl⟩) ((hmem _ b).2 ⟨bb, hb, hv.symm⟩) hab with h | h
        · exact Or.inl (c4 hr3 ba.var (List.mem_range.2 hnv) a b ba bb h (by rw [hfb]; exact ha) (by rw [hfb]; exact hb) ⟨hne, hcf⟩)
        · exact Or.inr (c4 hr3 ba.var (List.mem_range.2 hnv) b a bb ba h (by rw [hfb]; exact hb) (by rw [hfb]; exact ha)
            ⟨fun e => hne (by omega), hcf'⟩)
    · rw [if_neg hpo] at hrr
      subst hrr
      refine ⟨(hinv3 _ (CForm.refl _)).1, ?_, hsrc _ (CForm.refl _), Or.inr (hinv3 _ (CForm.refl _)).2.2.2.2.2.2.2.1, fun _ => ?_, hnv2 _ (CForm.refl _)⟩
      · intro c hc
        have hc' : c ∈ s0.out := by rw [← hout2]; exact hc
        exact hpc _ c hc'
      · refine hfin _ (CForm.refl _) (by rw [hout2]) ?_
        intro h1 h2
        exact absurd (by simp [h1, h2]) hpo

end S
end Lpx
