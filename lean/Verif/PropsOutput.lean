import Verif.PropsReadback
import Verif.PropsEnd

/-!
# The printed text is a solution (C76)
-/

set_option linter.unusedSectionVars false

namespace Lpx.Props
open Lpx Lpx.Witness

section
variable {V : Type} [LpFull V] [LpPrint V]

/-- A way to read the text printed for a model: a line with shown atoms, a line with entries `variable=value`, and a line with the objective
unless there is none. Symbols are those clingo has. -/
structure ReadsAs (text : List Char) (shown : List Symbol) (es : List (Symbol × V)) (o : Option (V × Bool)) : Prop where
  text : text = joined false (shown.map showSym) ++ "\nAssignment:\n".toList ++
    joined false (es.map fun e => showSym e.1 ++ '=' :: LpPrint.print e.2) ++ objectiveLine o.toList ++ ['\n']
  atoms : ∀ a ∈ shown, GoodSym a
  vars : ∀ e ∈ es, GoodSym e.1

variable [Readable V]

/-- There is only one way to read a text. -/
theorem ReadsAs.unique {text : List Char} {shown shown' : List Symbol} {es es' : List (Symbol × V)} {o o' : Option (V × Bool)}
    (h : ReadsAs text shown es o) (h' : ReadsAs text shown' es' o') : shown = shown' ∧ es = es' ∧ o = o' := by
  have ha : "\nAssignment:\n".toList = '\n' :: "Assignment:\n".toList := by decide
  have e := h.text.symm.trans h'.text
  change joined false (shown.map showSym) ++ "\nAssignment:\n".toList ++ joined false (es.map entryOf) ++ objectiveLine o.toList ++ ['\n'] =
    joined false (shown'.map showSym) ++ "\nAssignment:\n".toList ++ joined false (es'.map entryOf) ++ objectiveLine o'.toList ++ ['\n'] at e
  simp only [List.append_assoc, objectiveLine_tail, ha, List.cons_append] at e
  have o1 : ∀ {as : List Symbol}, (∀ a ∈ as, GoodSym a) → OneLine (joined false (as.map showSym)) := by
    intro as ga
    refine joined_oneLine fun x hx => ?_
    obtain ⟨a, ha, rfl⟩ := List.mem_map.1 hx
    exact showSym_oneLine a (ga a ha)
  have o2 : ∀ {l : List (Symbol × V)}, (∀ x ∈ l, GoodSym x.1) → OneLine (joined false (l.map entryOf)) := by
    intro l gl
    refine joined_oneLine fun x hx => ?_
    obtain ⟨a, ha, rfl⟩ := List.mem_map.1 hx
    simp only [OneLine, entryOf, List.mem_append, List.mem_cons, not_or]
    exact ⟨showSym_oneLine _ (gl a ha), by decide, fun k => (Readable.plain _ _ k).2 rfl⟩
  obtain ⟨h1, h2⟩ := line_unique (o1 h.atoms) (o1 h'.atoms) e
  obtain ⟨h3, h4⟩ := line_unique (o2 h.vars) (o2 h'.vars) (List.append_cancel_left h2)
  have l1 : ∀ x : Option (V × Bool), x.toList.length ≤ 1 := fun x => by cases x <;> simp
  have h5 := objectiveTail_unique (l1 o) (l1 o') h4
  exact ⟨joined_syms_unique h.atoms h'.atoms h1, joined_entries_unique h.vars h'.vars h3, by
    cases o <;> cases o' <;> simp_all⟩

variable {be : Backend} {opts : Options} {Q : Restr V} {p : Propagator V} {g : Ghost V}

/-- C76: the text printed for a model can be read, in one way: it tells the shown atoms, the value of each variable of the user and of no
other, and the objective. -/
theorem C76_readable (hr : Reach be opts Q p g) {th : ℕ} {t : Thr V} (ht : p.thrs[th]? = some t) {atoms theory : List Symbol}
    (hth : theory.Perm (p.extendModel th)) (ga : ∀ a ∈ atoms, GoodSym a) (gu : ∀ y ∈ userVars p, GoodSym y) :
    (∃ es o, ReadsAs (V := V) (printModel atoms theory) atoms es o) ∧
    ∀ shown es (o : Option (V × Bool)), ReadsAs (printModel atoms theory) shown es o → shown = atoms ∧
      (∀ y v, (y, v) ∈ es ↔ y ∈ userVars p ∧ v = p.valueOf th y) ∧ o.toList = p.objectiveOf th := by
  obtain ⟨en, hp, e⟩ := C51_output hr ht atoms hth
  have hm : ((userVars p).map fun y => showSym y ++ '=' :: LpPrint.print (p.valueOf th y)) =
      ((userVars p).map fun y => (y, p.valueOf th y)).map entryOf := by rw [List.map_map]; rfl
  rw [hm] at hp
  obtain ⟨l, hl, rfl⟩ := perm_map_exists hp
  have gl : ∀ x ∈ l, GoodSym x.1 := by
    intro x hx
    obtain ⟨y, hy, rfl⟩ := List.mem_map.1 (hl.mem_iff.1 hx)
    exact gu y hy
  have hlen := objectiveOf_length p th
  have ho : (p.objectiveOf th).head?.toList = p.objectiveOf th := by
    cases hc : p.objectiveOf th with
    | nil => rfl
    | cons x xs =>
      cases xs with
      | nil => rfl
      | cons y ys => rw [hc] at hlen; simp at hlen
  have hrd : ReadsAs (V := V) (printModel atoms theory) atoms l (p.objectiveOf th).head? := ⟨by rw [ho]; exact e, ga, gl⟩
  refine ⟨⟨_, _, hrd⟩, fun shown es o h => ?_⟩
  obtain ⟨rfl, rfl, rfl⟩ := h.unique hrd
  refine ⟨rfl, fun y v => ?_, ho⟩
  rw [hl.mem_iff, List.mem_map]
  constructor
  · rintro ⟨z, hz, hzy⟩
    cases hzy
    exact ⟨hz, rfl⟩
  · rintro ⟨hy, rfl⟩
    exact ⟨y, hy, rfl⟩

variable {mapper : ℤ → ℤ} {atoms more : List TAtom}

/-- Constraints that hold for the values of the propagator also hold if the variables of the user have the values printed, whatever is
assumed about other variables. -/
theorem ReadsAs.allHold (hr : Reach be opts Q p g) (hlv : g.failed = false) {th : ℕ} {t : Thr V} (ht : p.thrs[th]? = some t) {syms theory shown : List Symbol}
    (hth : theory.Perm (p.extendModel th)) (ga : ∀ a ∈ syms, GoodSym a) (gu : ∀ y ∈ userVars p, GoodSym y)
    {es : List (Symbol × V)} {o : Option (V × Bool)} (hrd : ReadsAs (printModel syms theory) shown es o) {val : Symbol → V}
    (hv : ∀ x ∈ es, val x.1 = x.2) {tr : ℤ → Prop} {e : ℚ} (h : AllHold tr (fun y => LpSem.conc e (p.valueOf th y)) p.prog.iqs) :
    ∃ g' : Symbol → ℚ, (∀ s, UserSym s → g' s = LpSem.conc e (val s)) ∧ AllHold tr g' p.prog.iqs ∧
      evalTerms g' p.prog.objective = evalTerms (fun y => LpSem.conc e (p.valueOf th y)) p.prog.objective := by
  obtain ⟨-, he, -⟩ := (C76_readable hr ht hth ga gu).2 shown es o hrd
  classical
  let g' : Symbol → ℚ := fun y => if UserSym y then LpSem.conc e (val y) else LpSem.conc e (p.valueOf th y)
  have key : ∀ {ts : List (Term Symbol)}, NF p.lookup p.varMap.length ts → evalTerms g' ts = evalTerms (fun y => LpSem.conc e (p.valueOf th y)) ts := by
    intro ts hn
    refine evalTerms_congr fun u hu => ?_
    by_cases hus : UserSym u.var
    · obtain ⟨j, hj, -⟩ := hn.known u hu
      have hmem : u.var ∈ userVars p := (mem_userVars hr _).2 ⟨by simp [Propagator.apiLookup, hj], hus⟩
      simp only [g', if_pos hus]
      rw [hv _ ((he u.var _).2 ⟨hmem, rfl⟩)]
    · simp only [g', if_neg hus]
  refine ⟨g', fun s hs => by simp only [g', if_pos hs], fun x hx hl => ?_, key (hr.stat.onf hlv)⟩
  have := h x hx hl
  unfold Ineq.holds at this ⊢
  rw [key (hr.stat.nf hlv x hx)]
  exact this

end

section
variable {V : Type} [LpFull V] [LpPrint V] [Readable V] {be : Backend} {opts : Options} {p p0 p1 : Propagator V} {g g0 g1 : Ghost V} {mapper : ℤ → ℤ}
  {atoms more : List TAtom} {envs : ℕ → InitEnv} {n : ℕ}

/-- C76 (partial: `Intact`, `Covered`, no non-zero constants in conditional elements): the printed assignment is a solution. Let a solving
step begin with `init`, then anything happen, and let a thread that is not in conflict report a total assignment `tr`. Whoever reads the text
printed for this model gets values satisfying every true `&sum`, `&diff` and `&dom` atom of all solving steps as written in the program;
variables that are not printed do not matter. (Values are rationals, or polynomials in an infinitesimal `e` in strict mode.) -/
theorem C76_printed_solution_partial (hq : StepOK V opts) (hr0 : Reach be opts Intact p0 g0)
    (hload : Loaded be mapper atoms p0.prog) (hi : p0.init be mapper more envs n = .ok (p1, true)) (hn : 0 < n) (hm : ∀ c, mapper c ≠ 0)
    (h1 : Step be Intact p0 g0 p1 g1) (hl : LaterInStep be Intact p1 g1 p g) (hcov : Covered V p.prog)
    (hcc : ∀ a ∈ atoms ++ more, CondConstZero a) {th : ℕ}
    {gt : GThr} (hgt : g.thrs[th]? = some gt) (hst : gt.stuck = false) {tr : ℤ → Prop} (htr : Guaranteed p1 p gt envs tr)
    {syms theory shown : List Symbol} (hth : theory.Perm (p.extendModel th)) (ga : ∀ a ∈ syms, GoodSym a) (gu : ∀ y ∈ userVars p, GoodSym y)
    {es : List (Symbol × V)} {o : Option (V × Bool)} (hrd : ReadsAs (printModel syms theory) shown es o) {val : Symbol → V}
    (hv : ∀ x ∈ es, val x.1 = x.2) :
    Small fun e => ∀ a ∈ atoms ++ more, IsConstraint a → tr (mapper a.literal) →
      AtomHolds mapper tr (fun y => LpSem.conc e (val y)) a := by
  have hld : Loaded be mapper (atoms ++ more) p.prog := by rw [hl.same.1]; exact init_loaded hload hi
  have hr := hl.reach (hr0.step h1)
  obtain ⟨t, ht, -⟩ := hr.stat.thr th gt hgt
  refine (all_hold hq hr0 hi hn h1 hl hcov hgt hst htr).mono fun e _ h => ?_
  obtain ⟨g', k1, k2, -⟩ := hrd.allHold hr (hr.stat.alive hgt) ht hth ga gu hv h
  exact (C25_conditional_elements_partial be mapper _ _ hld hcc tr htr.total hm _).1 ⟨g', k1, k2⟩

/-- C76 (partial as above): the printed objective is the optimum. If `v [bounded]` is printed after a checked total assignment then the printed
assignment attains the value `v` and no solution of the true atoms exceeds it. -/
theorem C76_printed_optimum_partial (hq : StepOK V opts) (hr0 : Reach be opts Intact p0 g0)
    (hload : Loaded be mapper atoms p0.prog) (hi : p0.init be mapper more envs n = .ok (p1, true)) (hn : 0 < n) (hm : ∀ c, mapper c ≠ 0)
    (h1 : Step be Intact p0 g0 p1 g1) (hl : LaterInStep be Intact p1 g1 p g) (hcov : Covered V p.prog)
    (hcc : ∀ a ∈ atoms ++ more, CondConstZero a) {th : ℕ}
    {gt : GThr} (hgt : g.thrs[th]? = some gt) (hst : gt.stuck = false) (hck : gt.checked = true) {tr : ℤ → Prop} (htr : Guaranteed p1 p gt envs tr)
    (hact : ∀ l, Act gt.frames l → tr l)
    {syms theory shown : List Symbol} (hth : theory.Perm (p.extendModel th)) (ga : ∀ a ∈ syms, GoodSym a) (gu : ∀ y ∈ userVars p, GoodSym y)
    {es : List (Symbol × V)} {v : V} (hrd : ReadsAs (printModel syms theory) shown es (some (v, true))) {val : Symbol → V}
    (hv : ∀ x ∈ es, val x.1 = x.2) :
    (Small fun e => ObjVal mapper tr (fun y => LpSem.conc e (val y)) (atoms ++ more) (LpSem.conc e v)) ∧
    ∀ (gv : Symbol → ℚ) (w : ℚ), (∀ a ∈ atoms ++ more, IsConstraint a → tr (mapper a.literal) → AtomHolds mapper tr gv a) →
      ObjVal mapper tr gv (atoms ++ more) w → LpValue.ofRat w ≤ v := by
  have hld : Loaded be mapper (atoms ++ more) p.prog := by rw [hl.same.1]; exact init_loaded hload hi
  have hr := hl.reach (hr0.step h1)
  obtain ⟨t, ht, -⟩ := hr.stat.thr th gt hgt
  have ho : p.objectiveOf th = [(v, true)] := ((C76_readable hr ht hth ga gu).2 _ _ _ hrd).2.2.symm
  obtain ⟨hval, -⟩ := C09_bounded_is_optimal_partial hq hr hcov.strict hgt hst hck ho
  refine ⟨?_, C44_bound_partial hq hr hld hm hcov.strict hgt hst hck htr.total hact ho⟩
  refine (all_hold hq hr0 hi hn h1 hl hcov hgt hst htr).mono fun e _ h => ?_
  obtain ⟨g', k1, k2, k3⟩ := hrd.allHold hr (hr.stat.alive hgt) ht hth ga gu hv h
  have hx := ((C25_exact_solutions be mapper _ _ hld tr htr.total hm g' k2).2.zero hcc (c' := 1)).congr k1
  rw [hval, evalV_conc, ← k3]
  exact hx.one

/-- C76 (partial as above): if `v [unbounded]` is printed after a checked total assignment then the true atoms have solutions with arbitrarily
large values of the objective. -/
theorem C76_printed_unbounded_partial (hq : StepOK V opts) (hr0 : Reach be opts Intact p0 g0)
    (hload : Loaded be mapper atoms p0.prog) (hi : p0.init be mapper more envs n = .ok (p1, true)) (hn : 0 < n) (hm : ∀ c, mapper c ≠ 0)
    (h1 : Step be Intact p0 g0 p1 g1) (hl : LaterInStep be Intact p1 g1 p g) (hcov : Covered V p.prog)
    (hcc : ∀ a ∈ atoms ++ more, CondConstZero a) {th : ℕ}
    {gt : GThr} (hgt : g.thrs[th]? = some gt) (hck : gt.checked = true) {tr : ℤ → Prop} (htr : Guaranteed p1 p gt envs tr)
    {syms theory shown : List Symbol} (hth : theory.Perm (p.extendModel th)) (ga : ∀ a ∈ syms, GoodSym a) (gu : ∀ y ∈ userVars p, GoodSym y)
    {es : List (Symbol × V)} {v : V} (hrd : ReadsAs (printModel syms theory) shown es (some (v, false))) (q : ℚ) :
    ∃ (gv : Symbol → ℚ) (w : ℚ), (∀ a ∈ atoms ++ more, IsConstraint a → tr (mapper a.literal) → AtomHolds mapper tr gv a) ∧
      ObjVal mapper tr gv (atoms ++ more) w ∧ q < w := by
  have hr := hl.reach (hr0.step h1)
  obtain ⟨t, ht, -⟩ := hr.stat.thr th gt hgt
  have ho : p.objectiveOf th = [(v, false)] := ((C76_readable hr ht hth ga gu).2 _ _ _ hrd).2.2.symm
  exact C44_unbounded_partial hq hr0 hload hi hn hm h1 hl hcov hcc hgt hck htr ho q

/-- C76 (partial as above): if no objective is printed then it is constantly zero. -/
theorem C76_no_objective_partial (hq : StepOK V opts) (hr : Reach be opts Intact p g)
    (hld : Loaded be mapper atoms p.prog) (hm : ∀ c, mapper c ≠ 0) {th : ℕ}
    {gt : GThr} (hgt : g.thrs[th]? = some gt) {tr : ℤ → Prop} (htr : Total tr)
    {syms theory shown : List Symbol} (hth : theory.Perm (p.extendModel th)) (ga : ∀ a ∈ syms, GoodSym a) (gu : ∀ y ∈ userVars p, GoodSym y)
    {es : List (Symbol × V)} (hrd : ReadsAs (printModel syms theory) shown es none) {gv : Symbol → ℚ} {w : ℚ}
    (hsat : ∀ a ∈ atoms, IsConstraint a → tr (mapper a.literal) → AtomHolds mapper tr gv a) (hw : ObjVal mapper tr gv atoms w) : w = 0 := by
  obtain ⟨t, ht, -⟩ := hr.stat.thr th gt hgt
  have ho : p.objectiveOf th = [] := ((C76_readable hr ht hth ga gu).2 _ _ _ hrd).2.2.symm
  obtain ⟨t', E0, base, hu⟩ := (hr.inv hq).unpack hgt
  have hact := hu.dyn.active
  unfold Propagator.objectiveOf S.getObjective at ho
  rw [hu.ht] at ho
  have he : p.prog.objective = [] := by
    by_contra hne
    have : t'.slv.obj.active = true := by rw [hact]; simpa using hne
    simp [this] at ho
  obtain ⟨gv', -, -, -, hx⟩ := C25_no_solution_lost be mapper _ _ hld tr htr hm gv hsat
  rw [hw.congr hx, he]
  rfl

end

section
variable {V : Type} [LpFull V] [LpPrint V] [Readable V] {be : Backend} {opts : Options} {Q : Restr V} {p p0 p1 : Propagator V} {g g0 g1 : Ghost V}
  {mapper : ℤ → ℤ} {atoms more : List TAtom} {envs : ℕ → InitEnv} {n : ℕ}

/-- C76 for programs of plain atoms (no conditions, no equations), in all solving steps and whatever happens, including levels undone in
any way (partial: constraints without variables have to compare with zero): the printed assignment is a solution, the value printed as
bounded is attained and optimal. -/
theorem C76_plain_programs_partial (hq : StepOK V opts) (hr0 : Reach be opts Q p0 g0) (hload : Loaded be mapper atoms p0.prog)
    (hi : p0.init be mapper more envs n = .ok (p1, true)) (hn : 0 < n) (hm : ∀ c, mapper c ≠ 0)
    (h1 : Step be Q p0 g0 p1 g1) (hl : LaterInStep be Q p1 g1 p g) (hplain : ∀ a ∈ atoms ++ more, Plain a)
    (hcst : ∀ x ∈ p.prog.iqs, x.lhs = [] → x.rhs = 0) (hs : ∀ x ∈ p.prog.iqs, Supports V x.rel) {th : ℕ}
    {gt : GThr} (hgt : g.thrs[th]? = some gt) (hst : gt.stuck = false) {tr : ℤ → Prop} (htr : Guaranteed p1 p gt envs tr)
    {syms theory shown : List Symbol} (hth : theory.Perm (p.extendModel th)) (ga : ∀ a ∈ syms, GoodSym a) (gu : ∀ y ∈ userVars p, GoodSym y)
    {es : List (Symbol × V)} {o : Option (V × Bool)} (hrd : ReadsAs (printModel syms theory) shown es o) {val : Symbol → V}
    (hv : ∀ x ∈ es, val x.1 = x.2) :
    (Small fun e => ∀ a ∈ atoms ++ more, IsConstraint a → tr (mapper a.literal) → AtomHolds mapper tr (fun y => LpSem.conc e (val y)) a) ∧
    ∀ v, o = some (v, true) → gt.checked = true → (∀ l, Act gt.frames l → tr l) →
      (Small fun e => ObjVal mapper tr (fun y => LpSem.conc e (val y)) (atoms ++ more) (LpSem.conc e v)) ∧
      ∀ (gv : Symbol → ℚ) (w : ℚ), (∀ a ∈ atoms ++ more, IsConstraint a → tr (mapper a.literal) → AtomHolds mapper tr gv a) →
        ObjVal mapper tr gv (atoms ++ more) w → LpValue.ofRat w ≤ v := by
  have hu1 : Unmixed p1.prog.iqs := C45_plain_programs (init_loaded hload hi) hplain
  have hu0 : Unmixed p0.prog.iqs := C45_plain_programs hload fun a h => hplain a (by simp [h])
  have hc : Covered V p.prog := ⟨fun x hx hx' => .inr (hcst x hx hx'), hs⟩
  have hcc : ∀ a ∈ atoms ++ more, CondConstZero a := fun a ha e he hc => absurd ((hplain a ha).cond e he) hc
  refine ⟨C76_printed_solution_partial hq (hu0.reach hq hr0) hload hi hn hm (hu0.step hq hr0 h1) (Unmixed.later hq (hr0.step h1) hl hu1)
    hc hcc hgt hst htr hth ga gu hrd hv, ?_⟩
  rintro v rfl hck hact
  exact C76_printed_optimum_partial hq (hu0.reach hq hr0) hload hi hn hm (hu0.step hq hr0 h1) (Unmixed.later hq (hr0.step h1) hl hu1)
    hc hcc hgt hst hck htr hact hth ga gu hrd hv

end

section
variable {be : Backend} {opts : Options} {p p0 p1 : Propagator ℚ} {g g0 g1 : Ghost ℚ} {mapper : ℤ → ℤ}
  {atoms more : List TAtom} {envs : ℕ → InitEnv} {n : ℕ}

/-- C76 (partial as above) without strict mode: the rational numbers in the printed assignment satisfy the true atoms. -/
theorem C76_printed_rationals_partial (hq : StepOK ℚ opts) (hr0 : Reach be opts Intact p0 g0)
    (hload : Loaded be mapper atoms p0.prog) (hi : p0.init be mapper more envs n = .ok (p1, true)) (hn : 0 < n) (hm : ∀ c, mapper c ≠ 0)
    (h1 : Step be Intact p0 g0 p1 g1) (hl : LaterInStep be Intact p1 g1 p g) (hcov : Covered ℚ p.prog)
    (hcc : ∀ a ∈ atoms ++ more, CondConstZero a) {th : ℕ}
    {gt : GThr} (hgt : g.thrs[th]? = some gt) (hst : gt.stuck = false) {tr : ℤ → Prop} (htr : Guaranteed p1 p gt envs tr)
    {syms theory shown : List Symbol} (hth : theory.Perm (p.extendModel th)) (ga : ∀ a ∈ syms, GoodSym a) (gu : ∀ y ∈ userVars p, GoodSym y)
    {es : List (Symbol × ℚ)} {o : Option (ℚ × Bool)} (hrd : ReadsAs (printModel syms theory) shown es o) {val : Symbol → ℚ}
    (hv : ∀ x ∈ es, val x.1 = x.2) {a : TAtom} (ha : a ∈ atoms ++ more) (hc : IsConstraint a) (hl' : tr (mapper a.literal)) :
    AtomHolds mapper tr val a := by
  obtain ⟨e, -, h⟩ := (C76_printed_solution_partial hq hr0 hload hi hn hm h1 hl hcov hcc hgt hst htr hth ga gu hrd hv).exists
  exact h a ha hc hl'

end

/-! ### the hypotheses can be met -/

/-- The text printed for the model found by the run below. -/
def outText : List Char := "\nAssignment:\nx=2 y=1/2\nOptimization: -3 [bounded]\n".toList

def outCheck (p : Propagator ℚ) : Bool :=
  decide (p.objectiveOf 0 = [(-3, true)]) && decide (userVars p = [.fn ['x'] [] true, .fn ['y'] [] true]) && decide (printModel [] (p.extendModel 0) = outText)

/-- All hypotheses of the theorems above are met by a run on `&sum{ x; 2*y : a } >= 3`, `&sum{ x } <= 2`, `&minimize{ x; 2*y : a }`, and the text
printed is `outText`. -/
example : ∃ (p1 p : Propagator ℚ) (g1 g : Ghost ℚ) (gt : GThr) (es : List (Symbol × ℚ)),
    (Propagator.fresh {} : Propagator ℚ).init .imath mapLit endProg (fun _ => env) 1 = .ok (p1, true) ∧
    Loaded .imath mapLit [] (Propagator.fresh {} : Propagator ℚ).prog ∧ Step .imath Intact (Propagator.fresh {}) {} p1 g1 ∧
    LaterInStep .imath Intact p1 g1 p g ∧ Covered ℚ p.prog ∧ (∀ a ∈ [] ++ endProg, CondConstZero a) ∧ g.thrs[0]? = some gt ∧ gt.stuck = false ∧
    gt.checked = true ∧ Guaranteed p1 p gt (fun _ => env) posTrue ∧ (∀ l, Act gt.frames l → posTrue l) ∧ (∀ y ∈ userVars p, GoodSym y) ∧
    printModel [] (p.extendModel 0) = outText ∧ ReadsAs (printModel [] (p.extendModel 0)) [] es (some (-3, true)) ∧
    es = [(.fn ['x'] [] true, 2), (.fn ['y'] [] true, 1 / 2)] := by
  obtain ⟨p1, p, g1, g, gt, h1, h2, h3, h4, h5, h6, h7, h8, h9, h10, h11⟩ := exists_end (mode := .intact) endProg endScript rfl
    (P := outCheck) (by decide +kernel)
  unfold outCheck at h11
  simp only [Bool.and_eq_true] at h11
  have hu := of_decide_eq_true h11.1.2
  have ht := of_decide_eq_true h11.2
  have gn : ∀ c : Char, ¬ c.isDigit → NameChar c → GoodName [c] := fun c h1 h2 => ⟨⟨c, [], rfl, h1⟩, by simpa using h2⟩
  have gx : GoodSym (.fn ['x'] [] true) := by simp only [GoodSym, GoodSyms, and_true]; exact .inl (gn _ (by decide) (by decide))
  have gy : GoodSym (.fn ['y'] [] true) := by simp only [GoodSym, GoodSyms, and_true]; exact .inl (gn _ (by decide) (by decide))
  refine ⟨p1, p, g1, g, gt, _, h1, .start, h2, h3, ⟨fun x hx h => absurd h (h4 x hx), h5⟩, endProg_zero, h6, h7, h8, h9, h10, ?_, ht,
    ⟨by rw [ht]; decide +kernel, fun a ha => by simp at ha, ?_⟩, rfl⟩
  · rw [hu]
    intro y hy
    rcases List.mem_cons.1 hy with rfl | hy
    · exact gx
    · rw [List.mem_singleton] at hy; subst hy; exact gy
  · intro e he
    rcases List.mem_cons.1 he with rfl | he
    · exact gx
    · rw [List.mem_singleton] at he; subst he; exact gy

def outPlain (p : Propagator ℚ) : Bool :=
  decide (p.objectiveOf 0 = [(3, true)]) && decide (userVars p = [.fn ['x'] [] true, .fn ['y'] [] true])

/-- The hypotheses of `C76_plain_programs_partial` are met by a run with a level that is undone. -/
example : ∃ (p1 p : Propagator ℚ) (g1 g : Ghost ℚ) (gt : GThr),
    (Propagator.fresh {} : Propagator ℚ).init .imath mapLit plainProg (fun _ => env) 1 = .ok (p1, true) ∧
    Loaded .imath mapLit [] (Propagator.fresh {} : Propagator ℚ).prog ∧ Step .imath AnyLits (Propagator.fresh {}) {} p1 g1 ∧
    LaterInStep .imath AnyLits p1 g1 p g ∧ (∀ a ∈ [] ++ plainProg, Plain a) ∧ (∀ x ∈ p.prog.iqs, x.lhs = [] → x.rhs = 0) ∧
    (∀ x ∈ p.prog.iqs, Supports ℚ x.rel) ∧ g.thrs[0]? = some gt ∧ gt.stuck = false ∧ gt.checked = true ∧
    Guaranteed p1 p gt (fun _ => env) posTrue ∧ (∀ l, Act gt.frames l → posTrue l) ∧ (∀ y ∈ userVars p, GoodSym y) ∧
    (∃ es o, ReadsAs (V := ℚ) (printModel [] (p.extendModel 0)) [] es o) := by
  obtain ⟨p1, p, g1, g, gt, h1, h2, h3, h4, h5, h6, h7, h8, h9, h10, h11⟩ := exists_end (mode := .any) plainProg
    [.prop 0 0 [1] true, .prop 1 0 [2] true, .undo 0, .prop 1 0 [2, 3] true, .check 1 true 0] rfl (P := outPlain) (by decide +kernel)
  unfold outPlain at h11
  simp only [Bool.and_eq_true] at h11
  have hu := of_decide_eq_true h11.2
  have gn : ∀ c : Char, ¬ c.isDigit → NameChar c → GoodName [c] := fun c h1 h2 => ⟨⟨c, [], rfl, h1⟩, by simpa using h2⟩
  have gu : ∀ y ∈ userVars p, GoodSym y := by
    rw [hu]
    intro y hy
    rcases List.mem_cons.1 hy with rfl | hy
    · simp only [GoodSym, GoodSyms, and_true]; exact .inl (gn _ (by decide) (by decide))
    · rw [List.mem_singleton] at hy; subst hy
      simp only [GoodSym, GoodSyms, and_true]; exact .inl (gn _ (by decide) (by decide))
  have hr := h3.reach (Reach.start.step h2)
  obtain ⟨t, ht, -⟩ := hr.stat.thr 0 gt h6
  exact ⟨p1, p, g1, g, gt, h1, .start, h2, h3, plainProg_plain, fun x hx h => absurd h (h4 x hx), h5, h6, h7, h8, h9, h10, gu,
    (C76_readable hr ht (List.Perm.refl _) (fun a ha => by simp at ha) gu).1⟩

def outRest (text : List Char) (p : Propagator ℚ) : Bool :=
  decide (userVars p = [.fn ['x'] [] true]) && decide (printModel [] (p.extendModel 0) = text)

/-- The hypotheses of `C76_printed_unbounded_partial` and `C76_no_objective_partial` are met: texts read with an unbounded objective and with none. -/
example : (∃ (p1 p : Propagator ℚ) (g1 g : Ghost ℚ) (gt : GThr),
    (Propagator.fresh {} : Propagator ℚ).init .imath mapLit unbProg (fun _ => env) 1 = .ok (p1, true) ∧ Step .imath Intact (Propagator.fresh {}) {} p1 g1 ∧
    LaterInStep .imath Intact p1 g1 p g ∧ g.thrs[0]? = some gt ∧ gt.checked = true ∧ Guaranteed p1 p gt (fun _ => env) posTrue ∧
    ReadsAs (printModel [] (p.extendModel 0)) [] [(.fn ['x'] [] true, 1)] (some ((1 : ℚ), false))) ∧
    (∃ (p1 p : Propagator ℚ) (g1 g : Ghost ℚ) (gt : GThr),
    (Propagator.fresh {} : Propagator ℚ).init .imath mapLit [sumAtom "x" ">=" 1 1] (fun _ => env) 1 = .ok (p1, true) ∧
    Step .imath Intact (Propagator.fresh {}) {} p1 g1 ∧
    LaterInStep .imath Intact p1 g1 p g ∧ g.thrs[0]? = some gt ∧
    ReadsAs (printModel [] (p.extendModel 0)) [] [(.fn ['x'] [] true, (1 : ℚ))] none) := by
  have gn : ∀ c : Char, ¬ c.isDigit → NameChar c → GoodName [c] := fun c h1 h2 => ⟨⟨c, [], rfl, h1⟩, by simpa using h2⟩
  have gx : GoodSym (.fn ['x'] [] true) := by simp only [GoodSym, GoodSyms, and_true]; exact .inl (gn _ (by decide) (by decide))
  constructor
  · obtain ⟨p1, p, g1, g, gt, h1, h2, h3, h4, h5, h6, h7, h8, h9, h10, h11⟩ := exists_end (mode := .intact) unbProg
      [.prop 0 0 [1] true, .check 0 true 0] rfl
      (P := outRest "\nAssignment:\nx=1\nOptimization: 1 [unbounded]\n".toList) (by decide +kernel)
    unfold outRest at h11
    simp only [Bool.and_eq_true] at h11
    have ht := of_decide_eq_true h11.2
    exact ⟨p1, p, g1, g, gt, h1, h2, h3, h6, h8, h9, by rw [ht]; decide +kernel, fun a ha => by simp at ha, fun e he => by
      rw [List.mem_singleton] at he; subst he; exact gx⟩
  · obtain ⟨p1, p, g1, g, gt, h1, h2, h3, h4, h5, h6, h7, h8, h9, h10, h11⟩ := exists_end (mode := .intact) [sumAtom "x" ">=" 1 1]
      [.prop 0 0 [1] true, .check 0 true 0] rfl
      (P := outRest "\nAssignment:\nx=1\n".toList) (by decide +kernel)
    unfold outRest at h11
    simp only [Bool.and_eq_true] at h11
    have ht := of_decide_eq_true h11.2
    exact ⟨p1, p, g1, g, gt, h1, h2, h3, h6, by rw [ht]; decide +kernel, fun a ha => by simp at ha, fun e he => by
      rw [List.mem_singleton] at he; subst he; exact gx⟩

end Lpx.Props
