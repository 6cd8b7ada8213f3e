import Verif.WeakSolve
import Verif.Memory
import Verif.SysStat
import Verif.Queue

/-!
# Invariant of the propagator for arbitrary histories

The literals propagated are not restricted here. Limits may be lost or wrong (see Finding 1 in DESIGN.md), but the tableau, the
values and the assignment trail are in order.
-/

set_option linter.unusedSectionVars false

namespace Lpx
open Finset

variable {V : Type} [LpFull V]

/-- Invariant of a thread for arbitrary histories. -/
structure TWeak (opts : Options) (idx : Symbol → Option ℕ) (size : ℕ) (prog : Prog) (reported : List (V × Bool)) (gen : ℕ)
    (gt : GThr) (E0 : (ℕ → V) → Prop) (base : List (Bound V)) (s : S V) : Prop where
  set : Setup opts idx size prog gt.dead E0 base s.obj.var s.obj.boundVar
  cuts : ∃ cs, s.bounds = base ++ cs ∧ ∀ bd ∈ cs, IsCut opts prog reported s.obj.boundVar bd
  winv : S.WInv E0 (gt.frames.map (·.level)) s
  hopts : s.opts = opts
  n : s.n = size
  active : s.obj.active = !prog.objective.isEmpty
  bvlt : prog.objective ≠ [] → opts.globalObjective.isSome = true → s.obj.boundVar < s.nvars
  hgen : s.obj.generation ≤ gen
  disc : s.obj.discardBounded = true → ∃ v, (v, false) ∈ reported
  nv : s.nvars ≤ size + S.numRows prog.iqs prog.objective
  /-- the bounds registered for a variable are those of constraints -/
  vb : ∀ v b, b ∈ s.vbounds v ↔ ∃ bd, base[b]? = some bd ∧ bd.var = v
  /-- the rows marked for propagation are in the queue -/
  pf : S.PF s
  /-- the length of the trail of bounds -/
  bl : BL s.bounds gt.frames (s.offs.map (·.bound)) s.btrail.length
  /-- each bound belongs to a constraint -/
  sub : (base.map Bound.lit).Sublist (prog.iqs.map (·.lit))
  /-- the tableau has no further rows -/
  nr : s.tab.nrows ≤ s.m
  /-- the rows belong to constraints over several variables and the objective -/
  rows : ∀ v, size ≤ v → v < s.nvars → (∃ bd ∈ base, bd.var = v) ∨ prog.objective ≠ [] ∧ (v = s.obj.var ∨
    opts.globalObjective.isSome = true ∧ v = s.obj.boundVar)

section
variable {opts : Options} {idx : Symbol → Option ℕ} {size : ℕ} {prog : Prog} {r : List (V × Bool)} {gen : ℕ}
    {gt : GThr} {E0 : (ℕ → V) → Prop} {base : List (Bound V)} {s : S V}

theorem TWeak.mono (h : TWeak opts idx size prog r gen gt E0 base s) {r' : List (V × Bool)} {gen' : ℕ}
    (hr : ∀ y ∈ r, y ∈ r') (hg : gen ≤ gen') : TWeak opts idx size prog r' gen' gt E0 base s := by
  obtain ⟨cs, hc1, hc2⟩ := h.cuts
  exact ⟨h.set, ⟨cs, hc1, fun bd hbd => (hc2 bd hbd).mono hr⟩, h.winv, h.hopts, h.n, h.active, h.bvlt,
    h.hgen.trans hg, fun hd => by obtain ⟨v, hv⟩ := h.disc hd; exact ⟨v, hr _ hv⟩, h.nv, h.vb, h.pf, h.bl, h.sub, h.nr, h.rows⟩

/-- The flags of the history that do not matter. -/
theorem TWeak.ghost (h : TWeak opts idx size prog r gen gt E0 base s) {gt' : GThr} (hd : gt'.dead = gt.dead) (hf : gt'.frames = gt.frames) :
    TWeak opts idx size prog r gen gt' E0 base s :=
  ⟨by rw [hd]; exact h.set, h.cuts, by rw [hf]; exact h.winv, h.hopts, h.n, h.active, h.bvlt, h.hgen, h.disc, h.nv, h.vb, h.pf,
    by rw [hf]; exact h.bl, h.sub, h.nr, h.rows⟩

/-- Operations that change neither bounds nor the variables of the objective. -/
theorem TWeak.next (h : TWeak opts idx size prog r gen gt E0 base s) {t : S V} {gt' : GThr} (hd : gt'.dead = gt.dead)
    (hw : S.WInv E0 (gt'.frames.map (·.level)) t) (hf : S.OFix s t) (hp : S.PF s → S.PF t)
    (hb : BL t.bounds gt'.frames (t.offs.map (·.bound)) t.btrail.length) (hnr : S.NR s t) : TWeak opts idx size prog r gen gt' E0 base t := by
  have hbl := hb
  obtain ⟨b, hb⟩ := hf.obj
  refine ⟨by rw [hb, hd]; exact h.set, by rw [hb, hf.bounds]; exact h.cuts, hw, hf.opts.trans h.hopts, hf.n.trans h.n,
    by rw [hb]; exact h.active, by rw [hb, hf.nvars]; exact h.bvlt, by rw [hb]; exact h.hgen, by rw [hb]; exact h.disc,
    by rw [hf.nvars]; exact h.nv, by rw [hf.vbounds]; exact h.vb, hp h.pf, hbl, h.sub, by rw [hnr.nrows, hnr.m]; exact h.nr, by rw [hb, hf.nvars]; exact h.rows⟩

theorem TWeak.nextFix (h : TWeak opts idx size prog r gen gt E0 base s) {t : S V} {gt' : GThr} (hd : gt'.dead = gt.dead)
    (hw : S.WInv E0 (gt'.frames.map (·.level)) t) (hf : S.Fix s t) (hp : S.PF s → S.PF t)
    (hbl : BL t.bounds gt'.frames (t.offs.map (·.bound)) t.btrail.length) (hnr : S.NR s t) : TWeak opts idx size prog r gen gt' E0 base t := by
  refine ⟨by rw [hf.obj, hd]; exact h.set, by rw [hf.obj, hf.bounds]; exact h.cuts, hw, hf.opts.trans h.hopts, hf.n.trans h.n,
    by rw [hf.obj]; exact h.active, by rw [hf.obj, hf.nvars]; exact h.bvlt, by rw [hf.obj]; exact h.hgen, by rw [hf.obj]; exact h.disc,
    by rw [hf.nvars]; exact h.nv, by rw [hf.vbounds]; exact h.vb, hp h.pf, hbl, h.sub, by rw [hnr.nrows, hnr.m]; exact h.nr, by rw [hf.obj, hf.nvars]; exact h.rows⟩

theorem TWeak.solve (h : TWeak opts idx size prog r gen gt E0 base s) {ctl : Ctl} {lits : List ℤ} (hdl : ∀ fr ∈ gt.frames, fr.level ≤ ctl.dl)
    {fuel : ℕ} {t : S V} {ok : Bool} (hr : S.solve ctl fuel s lits = some (t, ok)) (b1 b2 : Bool) :
    TWeak opts idx size prog r gen ⟨nextFrames ctl.dl lits gt.frames, b1, gt.dead, b2⟩ E0 base t := by
  obtain ⟨h1, h2⟩ := S.solve_weak h.winv (ctl := ctl) (by
    intro l hl
    obtain ⟨fr, hfr, rfl⟩ := List.mem_map.1 hl
    exact hdl fr hfr) hr
  refine h.nextFix rfl ?_ h2 (S.solve_pf hr) (S.solve_bl h.winv hdl h.bl hr) (S.nr_solve hr)
  show S.WInv E0 ((nextFrames ctl.dl lits gt.frames).map (·.level)) t
  rw [nextFrames_levels]; exact h1

theorem TWeak.undo (h : TWeak opts idx size prog r gen gt E0 base s) {fr : Frame} {frs : List Frame} (hf : gt.frames = fr :: frs)
    (hl : fr.level ≠ 0) (b1 b2 : Bool) : TWeak opts idx size prog r gen ⟨frs, b1, gt.dead, b2⟩ E0 base s.undo := by
  have hw := h.winv
  rw [hf] at hw
  obtain ⟨h1, h2, -⟩ := S.WInv.undo (l := fr.level) (ls := frs.map (·.level)) hw hl
  exact h.nextFix rfl h1 h2 (S.grow_undo s).pf (S.undo_bl hw hl (by rw [← hf]; exact h.bl)) (S.nr_undo s)

theorem TWeak.setObj (h : TWeak opts idx size prog r gen gt E0 base s) {o : Obj} (ha : o.active = s.obj.active) (hv : o.var = s.obj.var)
    (hb : o.boundVar = s.obj.boundVar) (hg : o.generation ≤ gen) (hd : o.discardBounded = true → ∃ v, (v, false) ∈ r) :
    TWeak opts idx size prog r gen gt E0 base { s with obj := o } :=
  ⟨by show Setup _ _ _ _ _ _ _ o.var o.boundVar; rw [hv, hb]; exact h.set,
    by show ∃ cs, s.bounds = base ++ cs ∧ ∀ bd ∈ cs, IsCut opts prog r o.boundVar bd
       rw [hb]; exact h.cuts, h.winv.setObj ha hv, h.hopts, h.n, ha.trans h.active,
    by show _ → _ → o.boundVar < _; rw [hb]; exact h.bvlt, hg, hd, h.nv, h.vb, h.pf, h.bl, h.sub, h.nr, by
      show ∀ v, size ≤ v → v < s.nvars → _ ∨ _ ∧ (v = o.var ∨ _ ∧ v = o.boundVar)
      rw [hv, hb]; exact h.rows⟩

theorem TWeak.assertBound (h : TWeak opts idx size prog r gen gt E0 base s) (ctl : Ctl) (x : V) (hobj : prog.objective ≠ [])
    (hg : opts.globalObjective.isSome = true) (hv : CutVal opts r x)
    (hfi : ∀ O, ∀ x ∈ prog.iqs, x.lit ≠ ctl.newLit O ∧ x.lit ≠ -ctl.newLit O) :
    TWeak opts idx size prog r gen gt E0 base (S.assertBound ctl s x).1 := by
  obtain ⟨cs, hc1, hc2⟩ := h.cuts
  obtain ⟨hb1, hb2, hb3⟩ := h.set.bvar hobj hg
  have hlt := h.bvlt hobj hg
  refine ⟨h.set, ⟨cs ++ [{ value := x, var := s.obj.boundVar, lit := ctl.newLit s.out, rel := .ge }], ?_, ?_⟩, h.winv.assertBound ctl x hlt hb1,
    h.hopts, h.n, h.active, h.bvlt, h.hgen, h.disc, h.nv, h.vb, h.pf, h.bl.append _, h.sub, h.nr, h.rows⟩
  · show s.bounds ++ [_] = _; rw [hc1, List.append_assoc]
  · intro bd hbd
    rcases List.mem_append.1 hbd with hbd | hbd
    · exact hc2 bd hbd
    · simp only [List.mem_singleton] at hbd; subst hbd; exact ⟨rfl, rfl, hv, hobj, hg, hfi _⟩

theorem TWeak.integrate {o : ObjState V} (h : TWeak opts idx size prog r o.generation gt E0 base s)
    (ctl : Ctl) (ho : ObjInv r o) (hr : r ≠ [] → prog.objective ≠ []) (hfi : ∀ O, ∀ x ∈ prog.iqs, x.lit ≠ ctl.newLit O ∧ x.lit ≠ -ctl.newLit O) :
    TWeak opts idx size prog r o.generation gt E0 base (s.integrate ctl o).1 := by
  generalize hrr : s.integrate ctl o = res
  unfold S.integrate at hrr
  split at hrr
  · subst hrr; exact h
  · rename_i q hg
    have hgl : opts.globalObjective = some q := by rw [← h.hopts]; exact hg
    unfold ObjState.read at hrr
    by_cases hgen : s.obj.generation = o.generation
    · simp only [ne_eq, hgen, not_true_eq_false, if_false] at hrr
      subst hrr
      exact h.setObj rfl rfl rfl le_rfl h.disc
    · simp only [ne_eq, hgen, not_false_eq_true, if_true] at hrr
      have hgt : o.generation ≠ 0 := by have := h.hgen; omega
      have hne : r ≠ [] := fun h0 => hgt (ho.gen0.2 h0)
      have hmem := ho.mem hne
      cases hb : o.bounded
      · simp only [hb, Bool.not_false, if_true] at hrr
        subst hrr
        refine h.setObj rfl rfl rfl le_rfl fun _ => ⟨o.value, ?_⟩
        rw [hb] at hmem; exact hmem
      · simp only [hb, Bool.not_true, Bool.false_eq_true, if_false] at hrr
        have h1 := h.setObj (o := { s.obj with generation := o.generation }) rfl rfl rfl le_rfl h.disc
        cases hd : LpFull.asValue (V := V) q with
        | none =>
          rw [hd] at hrr
          simp only at hrr
          subst hrr
          exact h1.nextFix rfl (h1.winv.pform ⟨_, _, _, _, true, rfl⟩ h1.winv.pq) (by constructor <;> rfl) id h1.bl ⟨rfl, rfl⟩
        | some d =>
          rw [hd] at hrr
          simp only at hrr
          subst hrr
          exact h1.assertBound ctl (o.value + d) (hr hne) (by rw [hgl]; rfl)
            (Or.inl ⟨q, d, o.value, hgl, hd, by rw [hb] at hmem; exact hmem, rfl⟩) hfi

theorem TWeak.discard (h : TWeak opts idx size prog r gen gt E0 base s) (ctl : Ctl)
    (hfi : ∀ O, ∀ x ∈ prog.iqs, x.lit ≠ ctl.newLit O ∧ x.lit ≠ -ctl.newLit O) :
    TWeak opts idx size prog r gen gt E0 base (s.discardBounded ctl).1 := by
  unfold S.discardBounded
  split
  · exact h
  · rename_i hc
    simp only [Bool.or_eq_true, Bool.not_eq_true', Option.isNone_iff_eq_none, not_or, Bool.not_eq_false] at hc
    obtain ⟨⟨⟨h1, h2⟩, h3⟩, h4⟩ := hc
    have hobj : prog.objective ≠ [] := by
      intro h0; rw [h.active, h0] at h1; simp at h1
    have hg : opts.globalObjective.isSome = true := by rw [← h.hopts, Option.isSome_iff_ne_none]; exact h2
    exact h.assertBound ctl _ hobj hg (Or.inr (h.disc h4)) hfi

theorem TWeak.checkTotal (h : TWeak opts idx size prog r gen gt E0 base s) (ctl : Ctl)
    (hfi : ∀ O, ∀ x ∈ prog.iqs, x.lit ≠ ctl.newLit O ∧ x.lit ≠ -ctl.newLit O) {fuel : ℕ} {t : S V} {ok : Bool}
    (ht : s.checkTotal ctl fuel = some (t, ok)) : TWeak opts idx size prog r gen gt E0 base t := by
  unfold S.checkTotal at ht
  cases hs1 : s.optimize fuel with
  | none => rw [hs1] at ht; simp at ht
  | some s1 =>
    rw [hs1] at ht
    simp only [Option.some.injEq] at ht
    obtain ⟨w1, w2⟩ := S.optimize_weak h.winv hs1
    have h1 := h.next rfl w1 w2 (S.grow_optimize ‹_›).pf (by rw [w2.bounds, w2.offs, w2.btrail]; exact h.bl) (S.nr_optimize hs1)
    have h2 : TWeak opts idx size prog r gen gt E0 base (if s1.opts.store = .no then s1 else s1.storeSat) := by
      split
      · exact h1
      · exact h1.nextFix rfl h1.winv.storeSat (by constructor <;> rfl) id (by
          rw [(S.storeSat_bkeep s1).bounds, (S.storeSat_bkeep s1).offs, (S.storeSat_bkeep s1).btrail]; exact h1.bl) (S.nr_storeSat s1)
    have := h2.discard ctl hfi
    rw [ht] at this; exact this

theorem TWeak.checkObj {o : ObjState V} (h : TWeak opts idx size prog r o.generation gt E0 base s)
    (ctl : Ctl) (total : Bool) (ho : ObjInv r o) (hr : r ≠ [] → prog.objective ≠ [])
    (hfi : ∀ O, ∀ x ∈ prog.iqs, x.lit ≠ ctl.newLit O ∧ x.lit ≠ -ctl.newLit O)
    {fuel : ℕ} {t : S V} {ok : Bool} (ht : s.checkObj ctl fuel total o = some (t, ok)) :
    TWeak opts idx size prog r o.generation gt E0 base t := by
  unfold S.checkObj at ht
  simp only at ht
  have h1 := h.integrate ctl ho hr hfi
  generalize s.integrate ctl o = res at ht h1
  obtain ⟨s1, b⟩ := res
  cases b
  · simp only [Bool.not_false, if_true, Option.some.injEq, Prod.mk.injEq] at ht
    obtain ⟨rfl, rfl⟩ := ht; exact h1
  · cases total
    · simp only [Bool.not_true, Bool.false_eq_true, if_false, Option.some.injEq, Prod.mk.injEq] at ht
      obtain ⟨rfl, rfl⟩ := ht; exact h1
    · simp only [Bool.not_true, Bool.false_eq_true, if_false, if_true] at ht
      exact h1.checkTotal ctl hfi ht

end

/-! ### the propagator -/

/-- Invariant of the propagator for arbitrary histories. -/
structure WSys (opts : Options) (p : Propagator V) (g : Ghost V) : Prop where
  stat : StatInv opts p g
  thr : ∀ (th : ℕ) (gt : GThr), g.thrs[th]? = some gt → ∃ t, p.thrs[th]? = some t ∧
    ∃ E0 base, TWeak opts p.lookup p.varMap.length p.prog g.reported p.obj.generation gt E0 base t.slv
  obj : ObjInv g.reported p.obj
  rep : g.failed = false → g.reported ≠ [] → p.prog.objective ≠ [] ∧ opts.globalObjective.isSome = true

theorem WSys.setThr {opts : Options} {p p' : Propagator V} {g g' : Ghost V} (h : WSys opts p g) {th : ℕ} {gt gt' : GThr} {t' : Thr V}
    (hs : StatInv opts p' g') (hgt : g.thrs[th]? = some gt) (hp : p' = { p with facts := p'.facts, thrs := p.thrs.set th t' })
    (hg : g' = { g with thrs := g.thrs.set th gt', tops := g'.tops })
    (ht : ∃ E0 base, TWeak opts p.lookup p.varMap.length p.prog g.reported p.obj.generation gt' E0 base t'.slv) : WSys opts p' g' := by
  have hlk : p'.lookup = p.lookup := by rw [hp]; rfl
  have hvm : p'.varMap = p.varMap := by rw [hp]
  have hpr : p'.prog = p.prog := by rw [hp]
  have hrp : g'.reported = g.reported := by rw [hg]
  have hob : p'.obj = p.obj := by rw [hp]
  have htr : p'.thrs = p.thrs.set th t' := by rw [hp]
  have hgr : g'.thrs = g.thrs.set th gt' := by rw [hg]
  have hfl : g'.failed = g.failed := by rw [hg]
  refine ⟨hs, ?_, by rw [hrp, hob]; exact h.obj, by rw [hfl, hrp, hpr]; exact h.rep⟩
  intro th2 gt2 h2
  rw [hlk, hvm, hpr, hrp, hob]
  rw [hgr, List.getElem?_set] at h2
  rw [htr, List.getElem?_set]
  obtain ⟨t, h3, -⟩ := h.thr th gt hgt
  split at h2
  · rename_i he
    subst he
    split at h2
    · cases h2
      rw [if_pos rfl, if_pos (List.getElem?_eq_some_iff.1 h3).1]
      exact ⟨t', rfl, ht⟩
    · cases h2
  · rename_i he
    rw [if_neg he]
    exact h.thr th2 gt2 h2

theorem WSys.start (opts : Options) : WSys opts (Propagator.fresh opts : Propagator V) {} :=
  ⟨StatInv.start opts, by intro th gt h; simp at h, ObjInv.init, by simp⟩

theorem tweak_of_prep {env : InitEnv} {opts : Options} {idx : Symbol → Option ℕ} {size : ℕ} {prog : Prog} {master : Bool} {s : S V}
    (h : S.PrepRes env opts idx size prog.iqs prog.objective master (s, true)) :
    TWeak opts idx size prog [] 0 ⟨[], false, fun l => ∃ O, O <+: s.out ∧ env.isFalse O l = true, false⟩ (S.TabEq s) s.bounds s := by
  letI : Hon := ⟨False⟩
  have hd := tdyn_of_prep h
  refine ⟨hd.set, hd.cuts, (hd.sinv rfl).weak0, hd.hopts, hd.n, hd.active, hd.bvlt, hd.hgen, hd.disc, h.nv, (h.ok rfl).vb, (h.ok rfl).pf, ?_, (h.ok rfl).sub, (h.ok rfl).nr, (h.ok rfl).rows⟩
  have hc := (hd.sinv rfl).chain
  exact ⟨by rw [show s.offs = [] from hc.1]; rfl, by rw [show s.btrail = [] from hc.2.1]; rfl⟩

theorem WSys.init {opts : Options} {be : Backend} {p p' : Propagator V} {g : Ghost V} (h : WSys opts p g) {mapper : ℤ → ℤ}
    {atoms : List TAtom} {envs : ℕ → InitEnv} {n : ℕ} {ok : Bool} (hi : p.init be mapper atoms envs n = .ok (p', ok)) :
    WSys opts p' { thrs := if ok then p'.thrs.zipIdx.map (fun t => ⟨[], false, fun l => ∃ O, O <+: t.1.slv.out ∧ (envs t.2).isFalse O l = true, false⟩) else [],
                   reported := [], tops := g.tops, oldTops := g.tops, step := g.step + 1 } := by
  obtain ⟨h1, h2⟩ := h.stat.init hi
  have ho : p'.obj = ObjState.init := by
    unfold Propagator.init at hi
    simp only at hi
    cases he : evaluateTheory be mapper atoms p.prog with
    | error e => rw [he] at hi; cases hi
    | ok prog =>
      rw [he] at hi
      simp only [Except.ok.injEq, Prod.mk.injEq] at hi
      rw [← hi.1]
  refine ⟨h1, ?_, by rw [ho]; exact ObjInv.init, by simp⟩
  intro th gt hgt
  cases hb : ok
  · rw [hb] at hgt; simp at hgt
  · rw [hb] at hgt
    simp only [if_true, List.getElem?_map, List.getElem?_zipIdx, Option.map_map, Option.map_eq_some_iff] at hgt
    obtain ⟨t, ht, hgt⟩ := hgt
    obtain ⟨k1, ok', k2, k3⟩ := h2.prep th t ht
    obtain rfl := k3 hb
    refine ⟨t, ht, S.TabEq t.slv, t.slv.bounds, ?_⟩
    have := tweak_of_prep k2
    simp only [Function.comp_apply, Nat.zero_add] at hgt
    rw [← hgt, ho]
    exact this

theorem WSys.checkFacts {opts : Options} {p p' : Propagator V} {g : Ghost V} (h : WSys opts p g) {fuel : ℕ} {ctl : Ctl} {th : ℕ}
    {gt : GThr} {t : Thr V} {ok : Bool} (hgt : g.thrs[th]? = some gt) (hdl : ∀ fr ∈ gt.frames, fr.level ≤ ctl.dl) (ht : p.thrs[th]? = some t)
    (hr : p.checkFacts fuel ctl th = some (p', ok)) :
    ∃ t1, p'.thrs[th]? = some t1 ∧ p' = { p with thrs := p.thrs.set th t1 } ∧ ∃ E0 base,
      TWeak opts p.lookup p.varMap.length p.prog g.reported p.obj.generation { gt with frames := p.checkFrames ctl t gt.frames } E0 base t1.slv := by
  obtain ⟨t1, ht1, E0, base, hd⟩ := h.thr th gt hgt
  rw [ht] at ht1; cases ht1
  unfold Propagator.checkFacts at hr
  simp only [ht] at hr
  unfold Propagator.checkFrames
  by_cases hn : p.needFacts ctl t
  · rw [if_pos hn] at hr ⊢
    cases hsol : t.slv.solve ctl fuel (p.factSpan t) with
    | none => rw [hsol] at hr; cases hr
    | some r =>
      rw [hsol] at hr
      obtain ⟨s', b⟩ := r
      simp only [Option.some.injEq, Prod.mk.injEq] at hr
      obtain ⟨rfl, rfl⟩ := hr
      exact ⟨⟨p.factsOffset, s'⟩, getElem?_set_some ht, rfl, E0, base, hd.solve hdl hsol gt.stuck gt.checked⟩
  · rw [if_neg hn] at hr ⊢
    simp only [Option.some.injEq, Prod.mk.injEq] at hr
    obtain ⟨rfl, rfl⟩ := hr
    refine ⟨t, ht, ?_, E0, base, hd⟩
    have : p.thrs.set th t = p.thrs := by
      obtain ⟨h1, h2⟩ := List.getElem?_eq_some_iff.1 ht
      rw [← h2]; exact List.set_getElem_self h1
    rw [this]

theorem WSys.check {opts : Options} {p p' : Propagator V} {g : Ghost V} (h : WSys opts p g) {fuel : ℕ} {ctl : Ctl}
    {total : Bool} {th : ℕ} {gt : GThr} {t : Thr V} {ok : Bool} (hm : MayCheck p g ctl th gt t)
    (hr : p.check fuel ctl total th = some (p', ok)) :
    ∃ t1, p' = { p with thrs := p.thrs.set th t1 } ∧ ∃ E0 base,
      TWeak opts p.lookup p.varMap.length p.prog g.reported p.obj.generation { gt with frames := p.checkFrames ctl t gt.frames } E0 base t1.slv := by
  unfold Propagator.check at hr
  cases hc : p.checkFacts fuel ctl th with
  | none => rw [hc] at hr; cases hr
  | some r =>
    rw [hc] at hr
    obtain ⟨p1, b⟩ := r
    obtain ⟨t1, h1, h2, E0, base, h3⟩ := h.checkFacts hm.thr hm.dl hm.slv hc
    simp only at hr
    cases b
    · simp only [Bool.false_eq_true, if_false, Option.some.injEq, Prod.mk.injEq] at hr
      obtain ⟨rfl, rfl⟩ := hr
      exact ⟨t1, h2, E0, base, h3⟩
    · simp only [if_true] at hr
      unfold Propagator.checkObj at hr
      rw [h1] at hr
      simp only at hr
      have hobj : p1.obj = p.obj := by rw [h2]
      rw [hobj] at hr
      cases hs : t1.slv.checkObj ctl fuel total p.obj with
      | none => rw [hs] at hr; cases hr
      | some r =>
        rw [hs] at hr
        obtain ⟨s', b⟩ := r
        simp only [Option.some.injEq, Prod.mk.injEq] at hr
        obtain ⟨rfl, rfl⟩ := hr
        refine ⟨{ t1 with slv := s' }, ?_, E0, base, h3.checkObj ctl total h.obj (fun hne => (h.rep (h.stat.alive hm.thr) hne).1) hm.fresh.iqs hs⟩
        unfold Propagator.setThr
        rw [h2]; simp only [List.set_set]

theorem WSys.step {opts : Options} {be : Backend} {Q : Restr V} {p p' : Propagator V}
    {g g' : Ghost V} (h : WSys opts p g) (hs : Step be Q p g p' g') : WSys opts p' g' := by
  have hst := h.stat.step hs
  cases hs with
  | init mapper atoms envs n hi => exact h.init hi
  | fail mapper atoms envs n hi _ => exact ⟨hst, fun th gt h => by simp at h, h.obj, (fun h => by cases h)⟩
  | propagate fuel ctl th lits hm hr =>
    obtain ⟨t, ht, E0, base, hd⟩ := h.thr th _ hm.thr
    obtain ⟨s', hs', hp⟩ := (propagate_eq ht).1 hr
    refine h.setThr hst hm.thr (t' := { t with slv := s' }) (by rw [hp]) rfl ⟨E0, base, hd.solve hm.dl hs' _ _⟩
  | check fuel ctl total th hm hr =>
    obtain ⟨t1, hp, E0, base, hd⟩ := h.check hm hr
    exact h.setThr hst hm.thr (by rw [hp]) rfl ⟨E0, base, hd.ghost rfl rfl⟩
  | undo th hgt hf hl hr =>
    obtain ⟨t, ht, E0, base, hd⟩ := h.thr th _ hgt
    unfold Propagator.undo at hr
    rw [ht] at hr
    simp only [Option.some.injEq] at hr
    subst hr
    exact h.setThr hst hgt (t' := { t with slv := t.slv.undo }) rfl rfl ⟨E0, base, hd.undo hf hl _ _⟩
  | model th hgt hsk hr =>
    obtain ⟨t, ht, E0, base, hd⟩ := h.thr th _ hgt
    unfold Propagator.onModel at hr
    unfold Propagator.objectiveOf at hst ⊢
    simp only [ht] at hr hst ⊢
    have same : WSys opts p { g with reported := g.reported ++ [] } := by rw [List.append_nil]; exact h
    by_cases hg : p.opts.globalObjective.isSome = true
    · rw [if_pos hg] at hst ⊢
      have hg' : p.opts.globalObjective.isNone = false := by
        cases hh : p.opts.globalObjective <;> simp_all
      rw [hg'] at hr
      simp only [Bool.false_eq_true, if_false] at hr
      cases ho : t.slv.getObjective with
      | none =>
        rw [ho] at hr
        simp only [Option.some.injEq] at hr
        subst hr; exact same
      | some x =>
        rw [ho] at hr hst
        simp only [Option.some.injEq] at hr
        subst hr
        have hact : t.slv.obj.active = true := by
          unfold S.getObjective at ho; split at ho
          · assumption
          · cases ho
        have hne : p.prog.objective ≠ [] := by
          intro h0; rw [hd.active, h0] at hact; simp at hact
        obtain ⟨o1, o2⟩ := h.obj.update x
        have hsub : ∀ y ∈ g.reported, y ∈ g.reported ++ [x] := fun y hy => List.mem_append_left _ hy
        refine ⟨hst, ?_, o1, fun _ _ => ⟨hne, by rw [← h.stat.hopts]; exact hg⟩⟩
        intro th2 gt2 h2
        obtain ⟨t2, k1, E2, b2, k3⟩ := h.thr th2 gt2 h2
        exact ⟨t2, k1, E2, b2, k3.mono hsub o2⟩
    · rw [if_neg hg]
      have hg' : p.opts.globalObjective.isNone = true := by
        cases hh : p.opts.globalObjective <;> simp_all
      rw [hg'] at hr
      simp only [if_true, Option.some.injEq] at hr
      subst hr; exact same

/-- All reachable states satisfy the invariant. -/
theorem Reach.weak {be : Backend} {opts : Options} {Q : Restr V} {p : Propagator V} {g : Ghost V}
    (h : Reach be opts Q p g) : WSys opts p g := by
  induction h with
  | start => exact WSys.start opts
  | step _ hs ih => exact ih.step hs

end Lpx
