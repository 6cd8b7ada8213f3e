import Verif.SysCheck
import Verif.ParsingMain

/-! # Invariant of the propagator -/

set_option linter.unusedSectionVars false

namespace Lpx
open Finset

/-! ### variables -/

/-- The map and the vector of variables agree. -/
structure VarOK (m : List (Symbol × ℕ) × List Symbol) : Prop where
  nodup : m.2.Nodup
  map : m.1 = m.2.zipIdx

theorem VarOK.empty : VarOK ([], []) := ⟨by simp, by simp⟩

theorem lookup_zipIdx (l : List Symbol) (k : ℕ) (x : Symbol) (j : ℕ) (hn : l.Nodup) :
    (l.zipIdx k).lookup x = some j ↔ k ≤ j ∧ l[j - k]? = some x := by
  induction l generalizing k with
  | nil => simp
  | cons a l ih =>
    rw [List.zipIdx_cons, List.lookup_cons]
    rw [List.nodup_cons] at hn
    by_cases hx : x = a
    · subst hx
      simp only [beq_self_eq_true, Option.some.injEq]
      constructor
      · rintro rfl; simp
      · rintro ⟨h1, h2⟩
        by_contra hne
        have : j - k = (j - k - 1) + 1 := by omega
        rw [this, List.getElem?_cons_succ] at h2
        exact hn.1 (List.mem_of_getElem? h2)
    · have : (x == a) = false := by simpa using hx
      rw [this]
      simp only
      rw [ih (k + 1) hn.2]
      constructor
      · rintro ⟨h1, h2⟩
        refine ⟨by omega, ?_⟩
        have : j - k = (j - (k + 1)) + 1 := by omega
        rw [this, List.getElem?_cons_succ]; exact h2
      · rintro ⟨h1, h2⟩
        by_cases hj : j = k
        · subst hj; simp at h2; exact absurd h2.symm hx
        · have : j - k = (j - (k + 1)) + 1 := by omega
          rw [this, List.getElem?_cons_succ] at h2
          exact ⟨by omega, h2⟩

theorem VarOK.lookup {m : List (Symbol × ℕ) × List Symbol} (h : VarOK m) (x : Symbol) (j : ℕ) :
    m.1.lookup x = some j ↔ m.2[j]? = some x := by
  rw [h.map, lookup_zipIdx m.2 0 x j h.nodup]; simp

theorem VarOK.length {m : List (Symbol × ℕ) × List Symbol} (h : VarOK m) : m.1.length = m.2.length := by
  rw [h.map]; simp

theorem VarOK.lookup_none {m : List (Symbol × ℕ) × List Symbol} (h : VarOK m) (x : Symbol) : m.1.lookup x = none ↔ x ∉ m.2 := by
  constructor
  · intro hn hx
    obtain ⟨j, hj⟩ := List.mem_iff_getElem?.1 hx
    rw [(h.lookup x j).2 hj] at hn; cases hn
  · intro hx
    cases hl : m.1.lookup x with
    | none => rfl
    | some j => exact absurd (List.mem_of_getElem? ((h.lookup x j).1 hl)) hx

theorem VarOK.inj {m : List (Symbol × ℕ) × List Symbol} (h : VarOK m) : IdxInj fun x => m.1.lookup x := by
  intro x y j hx hy
  have h1 := (h.lookup x j).1 hx
  have h2 := (h.lookup y j).1 hy
  rw [h1] at h2; exact Option.some.inj h2

theorem VarOK.lt {m : List (Symbol × ℕ) × List Symbol} (h : VarOK m) {x : Symbol} {j : ℕ} (hx : m.1.lookup x = some j) : j < m.1.length := by
  have h1 := (h.lookup x j).1 hx
  rw [h.length]; exact (List.getElem?_eq_some_iff.1 h1).1

theorem gatherVar_spec {m : List (Symbol × ℕ) × List Symbol} (h : VarOK m) (t : Term Symbol) :
    VarOK (gatherVar m t) ∧ m.2 <+: (gatherVar m t).2 ∧ t.var ∈ (gatherVar m t).2 ∧ ∀ x ∈ (gatherVar m t).2, x ∈ m.2 ∨ x = t.var := by
  unfold gatherVar
  split
  · rename_i j hj
    exact ⟨h, List.prefix_rfl, List.mem_of_getElem? ((h.lookup _ _).1 hj), fun x hx => Or.inl hx⟩
  · rename_i hn
    have hx := (h.lookup_none _).1 hn
    refine ⟨⟨?_, ?_⟩, List.prefix_append _ _, by simp, fun x hx => by simpa using hx⟩
    · rw [List.nodup_append]; refine ⟨h.nodup, by simp, ?_⟩
      intro a ha b hb hab; simp at hb; subst hab; subst hb; exact hx ha
    · simp only
      rw [h.length, h.map, List.zipIdx_append]; simp

theorem gatherVars_spec (ts : List (Term Symbol)) : ∀ {m : List (Symbol × ℕ) × List Symbol}, VarOK m →
    VarOK (gatherVars m ts) ∧ m.2 <+: (gatherVars m ts).2 ∧ (∀ t ∈ ts, t.var ∈ (gatherVars m ts).2) ∧
      ∀ x ∈ (gatherVars m ts).2, x ∈ m.2 ∨ ∃ t ∈ ts, x = t.var := by
  induction ts with
  | nil => intro m h; exact ⟨h, List.prefix_rfl, by simp, fun x hx => Or.inl hx⟩
  | cons t ts ih =>
    intro m h
    obtain ⟨h1, h2, h3, h4⟩ := gatherVar_spec h t
    obtain ⟨k1, k2, k3, k4⟩ := ih h1
    show VarOK (gatherVars (gatherVar m t) ts) ∧ _
    refine ⟨k1, h2.trans k2, ?_, ?_⟩
    · intro u hu
      rcases List.mem_cons.1 hu with rfl | hu
      · exact k2.subset h3
      · exact k3 u hu
    · intro x hx
      rcases k4 x hx with hx | ⟨u, hu, rfl⟩
      · rcases h4 x hx with hx | rfl
        · exact Or.inl hx
        · exact Or.inr ⟨t, by simp, rfl⟩
      · exact Or.inr ⟨u, by simp [hu], rfl⟩

theorem gatherIqs_spec (iqs : List (Ineq Symbol)) : ∀ {m : List (Symbol × ℕ) × List Symbol}, VarOK m →
    VarOK (iqs.foldl (fun m x => gatherVars m x.lhs) m) ∧ m.2 <+: (iqs.foldl (fun m x => gatherVars m x.lhs) m).2 ∧
      (∀ x ∈ iqs, ∀ t ∈ x.lhs, t.var ∈ (iqs.foldl (fun m x => gatherVars m x.lhs) m).2) ∧
      ∀ y ∈ (iqs.foldl (fun m x => gatherVars m x.lhs) m).2, y ∈ m.2 ∨ ∃ x ∈ iqs, ∃ t ∈ x.lhs, y = t.var := by
  induction iqs with
  | nil => intro m h; exact ⟨h, List.prefix_rfl, by simp, fun x hx => Or.inl hx⟩
  | cons x xs ih =>
    intro m h
    obtain ⟨h1, h2, h3, h4⟩ := gatherVars_spec x.lhs h
    obtain ⟨k1, k2, k3, k4⟩ := ih h1
    rw [List.foldl_cons]
    refine ⟨k1, h2.trans k2, ?_, ?_⟩
    · intro u hu
      rcases List.mem_cons.1 hu with rfl | hu
      · exact fun t ht => k2.subset (h3 t ht)
      · exact k3 u hu
    · intro y hy
      rcases k4 y hy with hy | ⟨u, hu, t, ht, rfl⟩
      · rcases h4 y hy with hy | ⟨t, ht, rfl⟩
        · exact Or.inl hy
        · exact Or.inr ⟨x, by simp, t, ht, rfl⟩
      · exact Or.inr ⟨u, by simp [hu], t, ht, rfl⟩

/-- The variables of a program. -/
def Prog.Mentions (p : Prog) (y : Symbol) : Prop := (∃ t ∈ p.objective, y = t.var) ∨ ∃ x ∈ p.iqs, ∃ t ∈ x.lhs, y = t.var

theorem gatherProg_spec (p : Prog) {m : List (Symbol × ℕ) × List Symbol} (h : VarOK m) :
    VarOK (gatherProg m p) ∧ m.2 <+: (gatherProg m p).2 ∧ (∀ y, p.Mentions y → y ∈ (gatherProg m p).2) ∧
      ∀ y ∈ (gatherProg m p).2, y ∈ m.2 ∨ p.Mentions y := by
  obtain ⟨h1, h2, h3, h4⟩ := gatherVars_spec p.objective h
  obtain ⟨k1, k2, k3, k4⟩ := gatherIqs_spec p.iqs h1
  unfold gatherProg
  refine ⟨k1, h2.trans k2, ?_, ?_⟩
  · rintro y (⟨t, ht, rfl⟩ | ⟨x, hx, t, ht, rfl⟩)
    · exact k2.subset (h3 t ht)
    · exact k3 x hx t ht
  · intro y hy
    rcases k4 y hy with hy | hy
    · rcases h4 y hy with hy | hy
      · exact Or.inl hy
      · exact Or.inr (Or.inl hy)
    · exact Or.inr (Or.inr hy)

variable {V : Type} [LpFull V] [Hon]

/-! ### creating threads -/

omit [Hon] in
theorem initThrs_spec {envs : ℕ → InitEnv} {opts : Options} {idx : Symbol → Option ℕ} {size : ℕ} {p : Prog} (hinj : IdxInj idx)
    (hnf : ∀ x ∈ p.iqs, NF idx size x.lhs) (hobj : NF idx size p.objective) : ∀ k i,
    (∀ j t, (initThrs (V := V) envs opts idx size p k i).1[j]? = some t → t.offset = 0 ∧ ∃ ok,
      S.PrepRes (envs (i + j)) opts idx size p.iqs p.objective (i + j == 0) (t.slv, ok) ∧
      ((initThrs (V := V) envs opts idx size p k i).2 = true → ok = true)) ∧
    ((initThrs (V := V) envs opts idx size p k i).2 = true → (initThrs (V := V) envs opts idx size p k i).1.length = k) := by
  intro k
  induction k with
  | zero => intro i; simp [initThrs]
  | succ k ih =>
    intro i
    have hp := S.prepare_spec (V := V) (env := envs i) (opts := opts) (master := i == 0) hinj hnf hobj
    obtain ⟨h1, h2⟩ := ih (i + 1)
    generalize hrr : initThrs (V := V) envs opts idx size p (k + 1) i = r
    rw [initThrs] at hrr
    simp only at hrr
    split at hrr
    · rename_i hok
      subst hrr
      refine ⟨?_, fun h => by simp only [List.length_cons]; rw [h2 h]⟩
      intro j t hj
      cases j with
      | zero =>
        simp only [List.getElem?_cons_zero, Option.some.injEq] at hj
        subst hj
        refine ⟨rfl, true, ?_, fun _ => rfl⟩
        rw [Nat.add_zero]
        rw [← hok]; exact hp
      | succ j =>
        rw [List.getElem?_cons_succ] at hj
        have := h1 j t hj
        rw [show i + 1 + j = i + (j + 1) by omega] at this
        exact this
    · rename_i hok
      subst hrr
      refine ⟨?_, by simp⟩
      intro j t hj
      cases j with
      | zero =>
        simp only [List.getElem?_cons_zero, Option.some.injEq] at hj
        subst hj
        exact ⟨rfl, (S.prepare (V := V) (envs i) opts idx size p.iqs p.objective (i == 0)).2, hp, fun h => by simp at h⟩
      | succ j => simp at hj

/-- Clauses of a thread and where they come from. -/
def TOut (opts : Options) (idx : Symbol → Option ℕ) (size : ℕ) (prog : Prog) (reported : List (V × Bool)) (s : S V) : Prop :=
  ∃ (E0 : (ℕ → V) → Prop) (bv : ℕ),
    (∀ bd ∈ s.bounds, (∃ x ∈ prog.iqs, Represents idx size E0 x bd) ∨
      (IsCut opts prog reported bv bd ∧ ∀ asg, E0 asg → asg bv = evalV (fun y => asg (ix idx y)) prog.objective)) ∧
    ((∀ c ∈ s.out, ∃ x ∈ prog.iqs, x.lhs = [] ∧ constTest x.rel x.rhs = true ∧ c = [-x.lit]) ∨
      ∀ g : ℕ → V, ∃ asg, E0 asg ∧ ∀ j, j < size → asg j = g j) ∧
    ∀ c ∈ s.out, OutOK opts prog reported bv s.bounds E0 c

omit [Hon] in
theorem TOut.mono {opts : Options} {idx : Symbol → Option ℕ} {size : ℕ} {prog : Prog} {r r' : List (V × Bool)} {s : S V}
    (h : TOut opts idx size prog r s) (hr : ∀ y ∈ r, y ∈ r') : TOut opts idx size prog r' s := by
  obtain ⟨E0, bv, h1, h2, h4⟩ := h
  refine ⟨E0, bv, fun bd hbd => (h1 bd hbd).imp id fun h => ⟨h.1.mono hr, h.2⟩, h2, fun c hc => ?_⟩
  have := (h4 c hc).mono hr []
  rwa [List.append_nil] at this

theorem TDyn.tout {opts : Options} {idx : Symbol → Option ℕ} {size : ℕ} {prog : Prog} {r : List (V × Bool)} {gen : ℕ}
    {gt : GThr} {E0 : (ℕ → V) → Prop} {base : List (Bound V)} {s : S V} (h : TDyn opts idx size prog r gen gt E0 base s) :
    TOut opts idx size prog r s := by
  refine ⟨E0, s.obj.boundVar, fun bd hbd => ?_, Or.inr h.set.ext, h.out⟩
  obtain ⟨cs, hc1, hc2⟩ := h.cuts
  rw [hc1] at hbd
  rcases List.mem_append.1 hbd with hbd | hbd
  · exact Or.inl (h.set.src bd hbd)
  · have hcut := hc2 bd hbd
    exact Or.inr ⟨hcut, (h.set.bvar hcut.obj hcut.glob).2.2⟩

omit [Hon] in
theorem outOK_of_pre {env : InitEnv} {opts : Options} {prog : Prog} {r : List (V × Bool)} {bv : ℕ} {s : S V} {E0 : (ℕ → V) → Prop}
    {c : List ℤ} (h : S.PreClause env opts prog.iqs s c) : OutOK opts prog r bv s.bounds E0 c := by
  cases h with
  | const x hx hl ht hc => exact .const x hx hl ht hc
  | pair a b ba bb ho hlt ha hb hv hne hcf hc hnf =>
    refine .valid ⟨fun bd => bd = ba ∨ bd = bb, ?_, ?_, fun asg _ hall => ?_, Or.inl ⟨ba, bb, fun _ h => h⟩⟩
    · rintro bd (rfl | rfl)
      · exact List.mem_of_getElem? ha
      · exact List.mem_of_getElem? hb
    · intro l
      rw [hc]
      constructor
      · intro hl
        rcases List.mem_cons.1 hl with hl | hl
        · exact ⟨ba, Or.inl rfl, hl⟩
        · exact ⟨bb, Or.inr rfl, List.mem_singleton.1 hl⟩
      · rintro ⟨bd, rfl | rfl, rfl⟩ <;> simp
    · exact (Bound.conflicts_iff ba bb hv).1 hcf asg ⟨hall ba (Or.inl rfl), hall bb (Or.inr rfl)⟩

omit [Hon] in
theorem tout_of_prep {env : InitEnv} {opts : Options} {idx : Symbol → Option ℕ} {size : ℕ} {prog : Prog} {master : Bool} {s : S V} {ok : Bool}
    (h : S.PrepRes env opts idx size prog.iqs prog.objective master (s, ok)) (r : List (V × Bool)) : TOut opts idx size prog r s :=
  ⟨S.TabEq s, 0, fun bd hbd => Or.inl (h.src bd hbd), h.ext, fun c hc => outOK_of_pre (h.out c hc).2⟩

theorem tdyn_of_prep {env : InitEnv} {opts : Options} {idx : Symbol → Option ℕ} {size : ℕ} {prog : Prog} {master : Bool} {s : S V}
    (h : S.PrepRes env opts idx size prog.iqs prog.objective master (s, true)) :
    TDyn opts idx size prog [] 0 ⟨[], false, fun l => ∃ O, O <+: s.out ∧ env.isFalse O l = true, false⟩ (S.TabEq s) s.bounds s := by
  have hk : S.PrepOK env opts idx size prog.iqs prog.objective master s := h.ok rfl
  have ho := hk.opt
  refine ⟨⟨hk.src, hk.cov, hk.uniq, ?_, ?_, ?_, hk.ext⟩, ⟨[], by simp, by simp⟩, fun _ => hk.inv, S.CInv.of hk.inv, hk.inv.vb, hk.opt,
    hk.n, hk.obj.active, ?_, by rw [hk.obj.gen.1], by rw [hk.obj.gen.2]; simp, fun c hc => outOK_of_pre (h.out c hc).2, ?_, by simp⟩
  · intro hne
    obtain ⟨-, -, h3, h4⟩ := hk.obj.var hne
    exact ⟨h3, h4⟩
  · intro hne hg
    obtain ⟨-, h2, -, h3, h4⟩ := hk.obj.bnd hne (by rw [ho]; exact hg)
    exact ⟨h2, h3, h4⟩
  · intro hne hg
    have := (hk.obj.bnd hne (by rw [ho]; exact hg)).2.2.1
    rw [hk.n] at this; exact this
  · intro hne hg
    exact (hk.obj.bnd hne (by rw [ho]; exact hg)).1
  · rintro l ⟨fr, hfr, -⟩; simp at hfr

/-! ### the invariant -/

/-- A literal was propagated on level 0. -/
def OnTop (frames : List Frame) (l : ℤ) : Prop := ∃ fr ∈ frames, fr.level = 0 ∧ l ∈ fr.lits

omit [Hon] in
theorem onTop_next {dl : ℕ} {lits : List ℤ} {frames : List Frame} {l : ℤ} (h : OnTop frames l) : OnTop (nextFrames dl lits frames) l := by
  obtain ⟨fr, h1, h2, h3⟩ := h
  cases frames with
  | nil => simp at h1
  | cons f fs =>
    rw [nextFrames]
    split
    · exact ⟨fr, by simp [List.mem_cons.1 h1], h2, h3⟩
    · rcases List.mem_cons.1 h1 with rfl | h1
      · exact ⟨_, List.mem_cons_self, h2, List.mem_append_left _ h3⟩
      · exact ⟨fr, by simp [h1], h2, h3⟩

omit [Hon] in
theorem onTop_new {lits : List ℤ} {frames : List Frame} (hf : ∀ fr ∈ frames, fr.level ≤ 0) {l : ℤ} (h : l ∈ lits) :
    OnTop (nextFrames 0 lits frames) l := by
  cases frames with
  | nil => exact ⟨⟨0, lits⟩, by simp [nextFrames], rfl, h⟩
  | cons f fs =>
    rw [nextFrames, if_neg (by omega)]
    exact ⟨_, List.mem_cons_self, by simpa using hf f (by simp), List.mem_append_right _ h⟩

/-- What is known about a thread. -/
structure ThrInv (opts : Options) (p : Propagator V) (g : Ghost V) (gt : GThr) (t : Thr V) : Prop where
  dyn : ∃ E0 base, TDyn opts p.lookup p.varMap.length p.prog g.reported p.obj.generation gt E0 base t.slv
  off : t.offset = 0 ∨ t.offset = p.factsOffset
  top : t.offset ≠ 0 → ∀ l ∈ g.oldTops, OnTop gt.frames l

/-- Invariant of the propagator. -/
structure SysInv (opts : Options) (p : Propagator V) (g : Ghost V) : Prop where
  hopts : p.opts = opts
  vars : VarOK (p.varMap, p.varVec)
  pinv : PInv p.prog
  iqnf : ∀ x ∈ p.prog.iqs, IqNF p.prog.aux x
  ovars0 : ∀ t ∈ p.prog.objective, t.var = cst ∨ UserSym t.var ∨ ∃ e ∈ p.prog.aux, t.var = e.2
  live : g.failed = true → g.thrs = []
  nf : g.failed = false → ∀ x ∈ p.prog.iqs, NF p.lookup p.varMap.length x.lhs
  onf : g.failed = false → NF p.lookup p.varMap.length p.prog.objective
  ovars : g.failed = false → ∀ t ∈ p.prog.objective, t.var ≠ cst ∧ (UserSym t.var ∨ ∃ e ∈ p.prog.aux, t.var = e.2)
  watch : g.failed = false → ∀ x ∈ p.prog.iqs, x.lit ∈ p.watches
  facts : p.facts = g.tops
  foff : p.factsOffset = g.oldTops.length
  old : g.oldTops <+: g.tops
  thr : ∀ (th : ℕ) (gt : GThr), g.thrs[th]? = some gt → ∃ t, p.thrs[th]? = some t ∧ ThrInv opts p g gt t
  outs : g.failed = false → ∀ t ∈ p.thrs, TOut opts p.lookup p.varMap.length p.prog g.reported t.slv
  obj : ObjInv g.reported p.obj
  rep : g.failed = false → g.reported ≠ [] → p.prog.objective ≠ [] ∧ opts.globalObjective.isSome = true
  mode : (0 < p.factsOffset ∨ opts.globalObjective.isSome = true) → p.thrs ≠ [] → p.checkBoth = true

/-- A thread that is solving: the last `init` has not failed. -/
theorem SysInv.alive {opts : Options} {p : Propagator V} {g : Ghost V} (h : SysInv opts p g) {th : ℕ} {gt : GThr} (hgt : g.thrs[th]? = some gt) :
    g.failed = false := by
  cases hf : g.failed with
  | false => rfl
  | true => rw [h.live hf] at hgt; simp at hgt

/-- Changing one thread. -/
theorem SysInv.setThr {opts : Options} {p p' : Propagator V} {g g' : Ghost V} (h : SysInv opts p g) {th : ℕ} {gt gt' : GThr} {t' : Thr V}
    (hgt : g.thrs[th]? = some gt) (hp : p' = { p with facts := p'.facts, thrs := p.thrs.set th t' })
    (hg : g' = { g with thrs := g.thrs.set th gt', tops := g'.tops })
    (hf : p'.facts = g'.tops) (hold : g.oldTops <+: g'.tops) (ht : ThrInv opts p g gt' t') : SysInv opts p' g' := by
  have hlk : p'.lookup = p.lookup := by rw [hp]; rfl
  have hvm : p'.varMap = p.varMap := by rw [hp]
  have hpr : p'.prog = p.prog := by rw [hp]
  have hrp : g'.reported = g.reported := by rw [hg]
  have hob : p'.obj = p.obj := by rw [hp]
  have hfo : p'.factsOffset = p.factsOffset := by rw [hp]
  have hol : g'.oldTops = g.oldTops := by rw [hg]
  have htr : p'.thrs = p.thrs.set th t' := by rw [hp]
  have hgr : g'.thrs = g.thrs.set th gt' := by rw [hg]
  have hfl : g'.failed = g.failed := by rw [hg]
  have conv : ∀ {gt t}, ThrInv opts p g gt t → ThrInv opts p' g' gt t := by
    intro gt t h
    exact ⟨by rw [hlk, hvm, hpr, hrp, hob]; exact h.dyn, by rw [hfo]; exact h.off, by rw [hol]; exact h.top⟩
  refine ⟨by rw [hp]; exact h.hopts, by rw [hp]; exact h.vars, by rw [hpr]; exact h.pinv, by rw [hpr]; exact h.iqnf,
    by rw [hpr]; exact h.ovars0, by rw [hfl, h.alive hgt]; exact (fun h => by cases h),
    by rw [hfl, hlk, hvm, hpr]; exact h.nf, by rw [hfl, hlk, hvm, hpr]; exact h.onf, by rw [hfl, hpr]; exact h.ovars, by rw [hfl, hp]; exact h.watch, hf,
    by rw [hfo, hol]; exact h.foff, by rw [hol]; exact hold, ?_, ?_, by rw [hrp, hob]; exact h.obj, by rw [hfl, hrp, hpr]; exact h.rep, ?_⟩
  · intro th2 gt2 h2
    rw [hgr, List.getElem?_set] at h2
    rw [htr, List.getElem?_set]
    obtain ⟨t, h3, -⟩ := h.thr th gt hgt
    split at h2
    · rename_i he
      subst he
      split at h2
      · cases h2
        rw [if_pos rfl, if_pos (List.getElem?_eq_some_iff.1 h3).1]
        exact ⟨t', rfl, conv ht⟩
      · cases h2
    · rename_i he
      rw [if_neg he]
      obtain ⟨t2, h4, h5⟩ := h.thr th2 gt2 h2
      exact ⟨t2, h4, conv h5⟩
  · intro hfl2 t2 h2
    rw [hfl] at hfl2
    rw [htr] at h2
    rw [hlk, hvm, hpr, hrp]
    rcases List.mem_or_eq_of_mem_set h2 with h2 | rfl
    · exact h.outs hfl2 t2 h2
    · obtain ⟨E0, base, hd⟩ := ht.dyn
      exact hd.tout
  · intro h1 h2
    rw [hp]
    refine h.mode (by rw [← hfo]; exact h1) ?_
    intro h0; rw [htr, h0] at h2; simp at h2

end Lpx
