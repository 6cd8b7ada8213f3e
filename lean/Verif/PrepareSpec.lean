import Verif.Prepare
import Verif.SolverMain

/-! # What `prepare` establishes -/

set_option linter.unusedSectionVars false

namespace Lpx
open Finset

variable {V : Type} [LpValue V] {Sym : Type}

/-- Value of a linear expression for a valuation in `V` (specification). -/
def evalV (g : Sym → V) (ts : List (Term Sym)) : V := (ts.map fun t => t.co • g t.var).sum

/-- Value of a row. -/
def rowVal (row : List (ℕ × ℚ)) (asg : ℕ → V) : V := (row.map fun e => e.2 • asg e.1).sum

/-- The index of a known symbol. -/
def ix (idx : Sym → Option ℕ) (y : Sym) : ℕ := (idx y).getD 0

/-- A normalised linear expression over known symbols: every variable occurs at most once, coefficients are not zero.
This is what `simplify` (parsing.cc) produces. -/
structure NF (idx : Sym → Option ℕ) (size : ℕ) (ts : List (Term Sym)) : Prop where
  nodup : (ts.map (·.var)).Nodup
  nz : ∀ t ∈ ts, t.co ≠ 0
  known : ∀ t ∈ ts, ∃ j, idx t.var = some j ∧ j < size

/-- The symbol map is injective. -/
def IdxInj (idx : Sym → Option ℕ) : Prop := ∀ x y j, idx x = some j → idx y = some j → x = y

/-- A bound represents a constraint: constraints over one variable are divided by the coefficient, all others bound a
variable that equals the left-hand side in all solutions of the equations `E`. -/
inductive Represents (idx : Sym → Option ℕ) (size : ℕ) (E : (ℕ → V) → Prop) (x : Ineq Sym) (bd : Bound V) : Prop
  | single (a : ℚ) (y : Sym) (hl : x.lhs = [⟨a, y⟩]) (ha : a ≠ 0) (hlit : bd.lit = x.lit)
      (hvar : ∃ j, idx y = some j ∧ bd.var = j)
      (hval : bd.value = boundVal (x.rhs / a) (if a < 0 then x.rel.invert else x.rel))
      (hrel : bd.rel = boundRel (if a < 0 then x.rel.invert else x.rel))
  | row (hlen : 2 ≤ x.lhs.length) (hnew : size ≤ bd.var) (hlit : bd.lit = x.lit) (hval : bd.value = boundVal x.rhs x.rel) (hrel : bd.rel = boundRel x.rel)
      (hvar : ∀ asg, E asg → asg bd.var = evalV (fun y => asg (ix idx y)) x.lhs)

theorem Represents.mono {idx : Sym → Option ℕ} {size : ℕ} {E E' : (ℕ → V) → Prop} {x : Ineq Sym} {bd : Bound V}
    (h : Represents idx size E x bd) (hE : ∀ asg, E' asg → E asg) : Represents idx size E' x bd := by
  cases h with
  | single a y hl ha hlit hvar hval hrel => exact .single a y hl ha hlit hvar hval hrel
  | row hl hn hlit hval hrel hvar => exact .row hl hn hlit hval hrel (fun asg h => hvar asg (hE asg h))

theorem Represents.lit {idx : Sym → Option ℕ} {size : ℕ} {E : (ℕ → V) → Prop} {x : Ineq Sym} {bd : Bound V}
    (h : Represents idx size E x bd) : bd.lit = x.lit := by
  cases h with
  | single a y hl ha hlit hvar hval hrel => exact hlit
  | row hl hn hlit hval hrel hvar => exact hlit

namespace S

theorem addRow_eq {idx : Sym → Option ℕ} {ts : List (Term Sym)} (h : ∀ t ∈ ts, ∃ j, idx t.var = some j) :
    addRow idx ts = some (ts.map fun t => (ix idx t.var, t.co)) := by
  induction ts with
  | nil => rfl
  | cons t ts ih =>
    obtain ⟨j, hj⟩ := h t (by simp)
    rw [addRow, ih (fun u hu => h u (by simp [hu])), hj]
    simp [ix, hj]

theorem row_nodup {idx : Sym → Option ℕ} {size : ℕ} {ts : List (Term Sym)} (h : NF idx size ts) (hi : IdxInj idx) :
    ((ts.map fun t => (ix idx t.var, t.co)).map (·.1)).Nodup := by
  rw [List.map_map]
  have h1 := h.nodup
  have h3 := h.known
  clear h
  induction ts with
  | nil => simp
  | cons t ts ih =>
    simp only [List.map_cons, List.nodup_cons] at h1 ⊢
    refine ⟨?_, ih h1.2 (fun u hu => h3 u (by simp [hu]))⟩
    intro hm
    obtain ⟨u, hu, he⟩ := List.mem_map.1 hm
    apply h1.1
    obtain ⟨j, hj, -⟩ := h3 t (by simp)
    obtain ⟨k, hk, -⟩ := h3 u (by simp [hu])
    simp only [Function.comp, ix, hj, hk, Option.getD_some] at he
    subst he
    rw [hi _ _ _ hj hk]
    exact List.mem_map.2 ⟨u, hu, rfl⟩

theorem rowVal_row (idx : Sym → Option ℕ) (ts : List (Term Sym)) (asg : ℕ → V) :
    rowVal (ts.map fun t => (ix idx t.var, t.co)) asg = evalV (fun y => asg (ix idx y)) ts := by
  unfold rowVal evalV; rw [List.map_map]; rfl

/-! ### rows -/

theorem setRow_spec (i n : ℕ) (row : List (ℕ × ℚ)) : ∀ (t : Tableau), t.WF → (row.map (·.1)).Nodup → (∀ e ∈ row, e.1 < n) →
    (∀ e ∈ row, t.coef i e.1 = 0) →
    (setRow t i row).WF ∧ (∀ k l, k ≠ i → (setRow t i row).coef k l = t.coef k l) ∧
    (∀ l, (∀ e ∈ row, e.1 ≠ l) → (setRow t i row).coef i l = t.coef i l) ∧
    (∀ asg : ℕ → V, ∑ j ∈ range n, (setRow t i row).coef i j • asg j = ∑ j ∈ range n, t.coef i j • asg j + rowVal row asg) ∧
    ((∀ k, Tableau.Low (t.rows k)) → ∀ k, Tableau.Low ((setRow t i row).rows k)) := by
  induction row with
  | nil => intro t h _ _ _; exact ⟨h, fun _ _ _ => rfl, fun _ _ => rfl, fun asg => by simp [setRow, rowVal], fun h => h⟩
  | cons e es ih =>
    intro t h hnd hlt h0
    simp only [List.map_cons, List.nodup_cons] at hnd
    have hne : ∀ e' ∈ es, e'.1 ≠ e.1 := fun e' he' heq => hnd.1 (heq ▸ List.mem_map.2 ⟨e', he', rfl⟩)
    have hc := Tableau.coef_set h i e.1 e.2
    obtain ⟨a1, a2, a3, a4, a5⟩ := ih (t.set i e.1 e.2) (Tableau.wf_set h i e.1 e.2) hnd.2 (fun x hx => hlt x (by simp [hx]))
      (fun x hx => by rw [hc, if_neg (by simp [hne x hx])]; exact h0 x (by simp [hx]))
    have hs : setRow t i (e :: es) = setRow (t.set i e.1 e.2) i es := rfl
    rw [hs]
    refine ⟨a1, ?_, ?_, ?_, fun hl => a5 (Tableau.low_set h (h0 e (by simp)) e.2 hl)⟩
    · intro k l hk
      rw [a2 k l hk, hc, if_neg (by simp [hk])]
    · intro l hl
      rw [a3 l (fun x hx => hl x (by simp [hx])), hc, if_neg (by simp [Ne.symm (hl e (by simp))])]
    · intro asg
      rw [a4 asg]
      have : ∑ j ∈ range n, (t.set i e.1 e.2).coef i j • asg j = ∑ j ∈ range n, t.coef i j • asg j + e.2 • asg e.1 := by
        have he := mem_range.2 (hlt e (by simp))
        rw [← Finset.add_sum_erase _ _ he, ← Finset.add_sum_erase (range n) (fun j => t.coef i j • asg j) he]
        rw [hc, if_pos ⟨rfl, rfl⟩, h0 e (by simp), zero_smul, zero_add, add_comm]
        congr 1
        apply sum_congr rfl
        intro j hj
        rw [hc, if_neg (by simp [(mem_erase.1 hj).1])]
      rw [this]
      unfold rowVal
      simp only [List.map_cons, List.sum_cons]
      abel

/-- The states built by `prepare` before the first callback. -/
structure PSt (opts : Options) (size : ℕ) (s : S V) : Prop where
  form : ∃ o B m T O, s = { initS opts size o with bounds := B, nvars := size + m, m := m, tab := T, out := O }
  wf : s.tab.WF
  shape : ∀ i j, s.tab.coef i j ≠ 0 → i < s.m ∧ j < s.n
  bvar : ∀ bd ∈ s.bounds, bd.var < s.nvars
  low : ∀ k, Tableau.Low (s.tab.rows k)

theorem PSt.n {opts : Options} {size : ℕ} {s : S V} (h : PSt opts size s) : s.n = size := by
  obtain ⟨ord, B, m, T, O, rfl⟩ := h.form; rfl
theorem PSt.nv {opts : Options} {size : ℕ} {s : S V} (h : PSt opts size s) : s.nvars = s.n + s.m := by
  obtain ⟨ord, B, m, T, O, rfl⟩ := h.form; rfl
theorem PSt.index {opts : Options} {size : ℕ} {s : S V} (h : PSt opts size s) : s.index = id := by
  obtain ⟨ord, B, m, T, O, rfl⟩ := h.form; rfl
theorem PSt.ub {opts : Options} {size : ℕ} {s : S V} (h : PSt opts size s) : s.ub = false := by
  obtain ⟨ord, B, m, T, O, rfl⟩ := h.form; rfl

theorem newRow_spec {s : S V} (hwf : s.tab.WF) (hsh : ∀ i j, s.tab.coef i j ≠ 0 → i < s.m ∧ j < s.n)
    (hnv : s.nvars = s.n + s.m) (hix : s.index = id) {row : List (ℕ × ℚ)}
    (hnd : (row.map (·.1)).Nodup) (hlt : ∀ e ∈ row, e.1 < s.n) :
    (s.newRow row).tab.WF ∧ (∀ i j, (s.newRow row).tab.coef i j ≠ 0 → i < (s.newRow row).m ∧ j < (s.newRow row).n) ∧
    (∀ asg, TabEq (s.newRow row) asg ↔ TabEq s asg ∧ asg s.nvars = rowVal row asg) ∧
    ((∀ k, Tableau.Low (s.tab.rows k)) → ∀ k, Tableau.Low ((s.newRow row).tab.rows k)) := by
  have h0 : ∀ l, s.tab.coef s.m l = 0 := by
    intro l
    by_contra hne
    exact lt_irrefl _ (hsh _ _ hne).1
  obtain ⟨a1, a2, a3, a4, a5⟩ := setRow_spec (V := V) s.m s.n row s.tab hwf hnd hlt (fun e _ => h0 _)
  have htab : (s.newRow row).tab = setRow s.tab s.m row := rfl
  have hm : (s.newRow row).m = s.m + 1 := rfl
  have hn : (s.newRow row).n = s.n := rfl
  have hi : (s.newRow row).index = id := hix
  refine ⟨a1, ?_, ?_, a5⟩
  · intro i j hij
    rw [htab] at hij
    rw [hm, hn]
    by_cases hi : i = s.m
    · subst hi
      refine ⟨Nat.lt_succ_self _, ?_⟩
      by_contra hj
      apply hij
      rw [a3 j (fun e he heq => hj (heq ▸ hlt e he)), h0]
    · rw [a2 i j hi] at hij
      obtain ⟨b1, b2⟩ := hsh _ _ hij
      exact ⟨by omega, b2⟩
  · intro asg
    unfold TabEq
    rw [hi, hix, htab, hm, hn]
    simp only [id]
    constructor
    · intro h
      refine ⟨fun i hi => ?_, ?_⟩
      · rw [h i (by omega)]
        exact sum_congr rfl fun j _ => by rw [a2 i j (by omega)]
      · have := h s.m (by omega)
        rw [a4 asg] at this
        rw [hnv, add_comm, this]
        simp [h0]
    · rintro ⟨h1, h2⟩ i hi
      by_cases him : i = s.m
      · subst him
        rw [a4 asg, add_comm, ← hnv, h2]; simp [h0]
      · rw [h1 i (by omega)]
        exact sum_congr rfl fun j _ => by rw [a2 i j him]

/-- What is known after the inequalities `xs` have been processed. -/
structure IneqInv (env : InitEnv) (opts : Options) (idx : Sym → Option ℕ) (size : ℕ) (master : Bool) (xs : List (Ineq Sym))
    (s : S V) : Prop where
  pst : PSt opts size s
  src : ∀ bd ∈ s.bounds, ∃ x ∈ xs, Represents idx size (TabEq s) x bd
  cov : ∀ x ∈ xs, x.lhs ≠ [] → (∃ bd ∈ s.bounds, Represents idx size (TabEq s) x bd) ∨ ∃ O, O <+: s.out ∧ env.isFalse O x.lit = true
  out : ∀ c ∈ s.out, master = true ∧ ∃ x ∈ xs, x.lhs = [] ∧ c = [-x.lit] ∧ constTest x.rel x.rhs = true
  uniq : ∀ b1 ∈ s.bounds, ∀ b2 ∈ s.bounds, b1.var = b2.var → size ≤ b1.var → b1 = b2
  const : master = true → ∀ x ∈ xs, x.lhs = [] → constTest x.rel x.rhs = true →
    [-x.lit] ∈ s.out ∨ ∃ O, O <+: s.out ∧ env.isFalse O x.lit = true
  rows : ∀ v, size ≤ v → v < s.nvars → ∃ bd ∈ s.bounds, bd.var = v

theorem initS_inv (env : InitEnv) (opts : Options) (idx : Sym → Option ℕ) (size : ℕ) (master : Bool) :
    IneqInv env opts idx size master [] (initS opts size env.order : S V) := by
  refine ⟨⟨⟨env.order, [], 0, Tableau.empty, [], rfl⟩, Tableau.wf_empty, ?_, ?_, fun _ => Tableau.low_default⟩, ?_, ?_, ?_, ?_, ?_, fun v h1 h2 => absurd h2 (not_lt.2 h1)⟩
  · intro i j h; exact absurd (by simp [Tableau.coef, initS, Tableau.empty, Tableau.rowCoef, Tableau.coefL]) h
  all_goals simp [initS]

theorem prepIneq_spec {env : InitEnv} {opts : Options} {idx : Sym → Option ℕ} {size : ℕ} {master : Bool}
    {xs : List (Ineq Sym)} {s : S V} (hinj : IdxInj idx) (h : IneqInv env opts idx size master xs s) (x : Ineq Sym)
    (hnf : NF idx size x.lhs) : IneqInv env opts idx size master (xs ++ [x]) (prepIneq env idx master s x).1 := by
  have hmono : ∀ {s' : S V}, PSt opts size s' → s.out <+: s'.out → (∀ bd ∈ s.bounds, bd ∈ s'.bounds) →
      (∀ bd ∈ s'.bounds, bd ∈ s.bounds ∨ Represents idx size (TabEq s') x bd) →
      (∀ asg, TabEq s' asg → TabEq s asg) →
      (x.lhs ≠ [] → (∃ bd ∈ s'.bounds, Represents idx size (TabEq s') x bd) ∨ ∃ O, O <+: s'.out ∧ env.isFalse O x.lit = true) →
      (∀ c ∈ s'.out, c ∈ s.out ∨ (master = true ∧ x.lhs = [] ∧ c = [-x.lit] ∧ constTest x.rel x.rhs = true)) →
      (master = true → x.lhs = [] → constTest x.rel x.rhs = true → [-x.lit] ∈ s'.out ∨ ∃ O, O <+: s'.out ∧ env.isFalse O x.lit = true) →
      (∀ b1 ∈ s'.bounds, ∀ b2 ∈ s'.bounds, b1.var = b2.var → size ≤ b1.var → b1 = b2) →
      (∀ v, size ≤ v → v < s'.nvars → ∃ bd ∈ s'.bounds, bd.var = v) →
      IneqInv env opts idx size master (xs ++ [x]) s' := by
    intro s' hp ho hb hb' hE hcov hout hcon hun hrows
    refine ⟨hp, ?_, ?_, ?_, hun, ?_, hrows⟩
    · intro bd hbd
      rcases hb' bd hbd with h1 | h1
      · obtain ⟨y, hy, hr⟩ := h.src bd h1
        exact ⟨y, by simp [hy], hr.mono hE⟩
      · exact ⟨x, by simp, h1⟩
    · intro y hy hne
      rcases List.mem_append.1 hy with hy | hy
      · rcases h.cov y hy hne with ⟨bd, h1, h2⟩ | ⟨O, h1, h2⟩
        · exact Or.inl ⟨bd, hb bd h1, h2.mono hE⟩
        · exact Or.inr ⟨O, h1.trans ho, h2⟩
      · rw [List.mem_singleton] at hy; subst hy; exact hcov hne
    · intro c hc
      rcases hout c hc with h1 | ⟨h0, h1⟩
      · obtain ⟨h0, y, hy, h2⟩ := h.out c h1
        exact ⟨h0, y, by simp [hy], h2⟩
      · exact ⟨h0, x, by simp, h1⟩
    · intro hm y hy he ht
      rcases List.mem_append.1 hy with hy | hy
      · rcases h.const hm y hy he ht with h1 | ⟨O, h1, h2⟩
        · exact Or.inl (ho.subset h1)
        · exact Or.inr ⟨O, h1.trans ho, h2⟩
      · rw [List.mem_singleton] at hy; subst hy; exact hcon hm he ht
  unfold prepIneq
  by_cases hf : env.isFalse s.out x.lit = true
  · rw [if_pos hf]
    exact hmono h.pst (List.prefix_rfl) (fun _ h => h) (fun _ h => Or.inl h) (fun _ h => h)
      (fun _ => Or.inr ⟨s.out, List.prefix_rfl, hf⟩) (fun _ h => Or.inl h) (fun _ _ _ => Or.inr ⟨s.out, List.prefix_rfl, hf⟩) h.uniq h.rows
  rw [if_neg hf, addRow_eq (fun t ht => by obtain ⟨j, hj, -⟩ := hnf.known t ht; exact ⟨j, hj⟩)]
  have hrn := row_nodup hnf hinj
  have hlt : ∀ e ∈ (x.lhs.map fun t => (ix idx t.var, t.co)), e.1 < s.n := by
    intro e he
    obtain ⟨t, ht, rfl⟩ := List.mem_map.1 he
    obtain ⟨j, hj, hlt⟩ := hnf.known t ht
    rw [h.pst.n]; simpa [ix, hj] using hlt
  have hrv := rowVal_row (V := V) idx x.lhs
  cases hlhs : x.lhs with
  | nil =>
    simp only [List.map_nil]
    by_cases hm : master = true
    · subst hm
      simp only [Bool.not_true, Bool.false_eq_true, if_false]
      by_cases ht : constTest x.rel x.rhs = true
      · rw [if_pos ht]
        simp only
        refine hmono ?_ (List.prefix_append _ _) (fun _ h => h) (fun _ h => Or.inl h) (fun _ h => h)
          (fun hne => absurd hlhs hne) ?_ ?_ h.uniq h.rows
        · obtain ⟨⟨ord, B, m, T, O, hB⟩, h2, h3, h4, h5⟩ := h.pst
          exact ⟨⟨ord, B, m, T, s.out ++ [[-x.lit]], by rw [hB]⟩, h2, h3, h4, h5⟩
        · intro c hc
          rcases List.mem_append.1 hc with hc | hc
          · exact Or.inl hc
          · rw [List.mem_singleton] at hc; exact Or.inr ⟨rfl, hlhs, hc, ht⟩
        · intro _ _ _; left; simp
      · rw [if_neg ht]
        exact hmono h.pst (List.prefix_rfl) (fun _ h => h) (fun _ h => Or.inl h) (fun _ h => h)
          (fun hne => absurd hlhs hne) (fun _ h => Or.inl h) (fun _ _ h => absurd h ht) h.uniq h.rows
    · have : master = false := by simpa using hm
      subst this
      simp only [Bool.not_false, if_true]
      exact hmono h.pst (List.prefix_rfl) (fun _ h => h) (fun _ h => Or.inl h) (fun _ h => h)
          (fun hne => absurd hlhs hne) (fun _ h => Or.inl h) (fun h => absurd h (by simp)) h.uniq h.rows
  | cons t ts =>
    cases ts with
    | nil =>
      simp only [List.map_cons, List.map_nil]
      have hco : t.co ≠ 0 := hnf.nz t (by rw [hlhs]; simp)
      rw [if_neg hco]
      simp only
      obtain ⟨j, hj, hjlt⟩ := hnf.known t (by rw [hlhs]; simp)
      set b : Bound V := ⟨boundVal (x.rhs / t.co) (if t.co < 0 then x.rel.invert else x.rel), s.index (ix idx t.var), x.lit,
        boundRel (if t.co < 0 then x.rel.invert else x.rel)⟩ with hb
      have hrep : ∀ E : (ℕ → V) → Prop, Represents idx size E x b := fun E =>
        .single t.co t.var hlhs hco rfl ⟨j, hj, by rw [hb]; simp only; rw [h.pst.index]; simp [ix, hj]⟩ rfl rfl
      refine hmono ?_ (List.prefix_rfl) (fun _ h => by simp [h]) ?_ (fun _ h => h) ?_ (fun _ h => Or.inl h)
        (fun _ hn => absurd hn (by rw [hlhs]; simp)) ?_ (fun v h1 h2 => by
          obtain ⟨bd, h3, h4⟩ := h.rows v h1 h2
          exact ⟨bd, List.mem_append_left _ h3, h4⟩)
      · refine ⟨?_, h.pst.wf, h.pst.shape, ?_, h.pst.low⟩
        · obtain ⟨ord, B, m, T, O, hB⟩ := h.pst.form
          exact ⟨ord, B ++ [b], m, T, O, by rw [hB]⟩
        · intro bd hbd
          rcases List.mem_append.1 hbd with h1 | h1
          · exact h.pst.bvar bd h1
          · rw [List.mem_singleton] at h1; subst h1
            show s.index _ < s.nvars
            rw [h.pst.index, h.pst.nv, h.pst.n]; simp only [id, ix, hj, Option.getD_some]; omega
      · intro bd hbd
        rcases List.mem_append.1 hbd with h1 | h1
        · exact Or.inl h1
        · rw [List.mem_singleton] at h1; subst h1; exact Or.inr (hrep _)
      · intro _; exact Or.inl ⟨b, by simp, hrep _⟩
      · have hlt' : b.var < size := by rw [hb]; simp only; rw [h.pst.index]; simpa [ix, hj] using hjlt
        intro b1 h1 b2 h2 he hs
        rcases List.mem_append.1 h1 with h1 | h1
        · rcases List.mem_append.1 h2 with h2 | h2
          · exact h.uniq b1 h1 b2 h2 he hs
          · rw [List.mem_singleton] at h2; subst h2; omega
        · rw [List.mem_singleton] at h1; subst h1; omega
    | cons u us =>
      have hrow : ((t :: u :: us).map fun t => (ix idx t.var, t.co)) = (ix idx t.var, t.co) :: (ix idx u.var, u.co) :: (us.map fun t => (ix idx t.var, t.co)) := rfl
      rw [hlhs] at hrn hlt hrv
      rw [hrow] at hrn hlt hrv ⊢
      simp only
      obtain ⟨a1, a2, a3, a4⟩ := newRow_spec (s := s) h.pst.wf h.pst.shape h.pst.nv h.pst.index hrn hlt
      set s' := s.newRow ((ix idx t.var, t.co) :: (ix idx u.var, u.co) :: (us.map fun t => (ix idx t.var, t.co))) with hs'
      set b : Bound V := ⟨boundVal x.rhs x.rel, s'.nvars - 1, x.lit, boundRel x.rel⟩ with hb
      have hvar : s'.nvars - 1 = s.nvars := rfl
      have hrep : Represents idx size (TabEq s') x b := by
        refine .row (by rw [hlhs]; simp) (by show size ≤ s.nvars; rw [h.pst.nv, h.pst.n]; omega) rfl rfl rfl (fun asg hE => ?_)
        rw [a3] at hE
        rw [hlhs, ← hrv]
        exact hE.2
      refine hmono ?_ (List.prefix_rfl) (fun bd h => by simp [s', newRow, addBasic, h]) ?_ (fun asg h => ((a3 asg).1 h).1) ?_ (fun _ h => Or.inl h)
        (fun _ hn => absurd hn (by rw [hlhs]; simp)) ?_ (fun v h1 h2 => by
          have h2' : v < s.nvars + 1 := h2
          by_cases hv : v < s.nvars
          · obtain ⟨bd, h3, h4⟩ := h.rows v h1 hv
            exact ⟨bd, List.mem_append_left _ h3, h4⟩
          · exact ⟨b, by simp, by show s.nvars = v; omega⟩)
      · refine ⟨?_, a1, a2, ?_, a4 h.pst.low⟩
        · obtain ⟨ord, B, m, T, O, hB⟩ := h.pst.form
          exact ⟨ord, B ++ [b], m + 1, s'.tab, O, by rw [hs']; unfold newRow addBasic; simp only [hB]; rfl⟩
        · intro bd hbd
          show bd.var < s.nvars + 1
          rcases List.mem_append.1 hbd with h1 | h1
          · exact Nat.lt_succ_of_lt (h.pst.bvar bd h1)
          · rw [List.mem_singleton] at h1; subst h1
            show s'.nvars - 1 < _
            omega
      · intro bd hbd
        rcases List.mem_append.1 hbd with h1 | h1
        · exact Or.inl h1
        · rw [List.mem_singleton] at h1; subst h1; exact Or.inr hrep
      · intro _; exact Or.inl ⟨b, by simp, hrep⟩
      · have hbv : b.var = s.nvars := rfl
        intro b1 h1 b2 h2 he hs
        rcases List.mem_append.1 h1 with h1 | h1
        · rcases List.mem_append.1 h2 with h2 | h2
          · exact h.uniq b1 h1 b2 h2 he hs
          · rw [List.mem_singleton] at h2; subst h2; have := h.pst.bvar b1 h1; omega
        · rw [List.mem_singleton] at h1; subst h1
          rcases List.mem_append.1 h2 with h2 | h2
          · have := h.pst.bvar b2 h2; omega
          · rw [List.mem_singleton] at h2; exact h2.symm

theorem prepIneqs_spec {env : InitEnv} {opts : Options} {idx : Sym → Option ℕ} {size : ℕ} {master : Bool} (hinj : IdxInj idx)
    (xs : List (Ineq Sym)) : ∀ {ys : List (Ineq Sym)} {s : S V}, IneqInv env opts idx size master ys s →
    (∀ x ∈ xs, NF idx size x.lhs) →
    ((prepIneqs env idx master xs s).2 = true → IneqInv env opts idx size master (ys ++ xs) (prepIneqs env idx master xs s).1) ∧
    ((prepIneqs env idx master xs s).2 = false → ∃ zs, (∀ z ∈ zs, z ∈ ys ++ xs) ∧ IneqInv env opts idx size master zs (prepIneqs env idx master xs s).1) := by
  induction xs with
  | nil => intro ys s h _; exact ⟨fun _ => by simpa [prepIneqs] using h, fun h => absurd h (by simp [prepIneqs])⟩
  | cons x xs ih =>
    intro ys s h hnf
    have h1 := prepIneq_spec hinj h x (hnf x (by simp))
    obtain ⟨ih1, ih2⟩ := ih h1 (fun y hy => hnf y (by simp [hy]))
    rw [prepIneqs]
    cases hr : (prepIneq env idx master s x).2
    · simp only [Bool.false_eq_true, if_false]
      rw [hr]
      refine ⟨fun h => absurd h (by simp), fun _ => ⟨ys ++ [x], ?_, h1⟩⟩
      intro z hz
      rcases List.mem_append.1 hz with h | h
      · simp [h]
      · simp only [List.mem_singleton] at h; simp [h]
    · simp only [if_true]
      refine ⟨fun h => by have := ih1 h; rwa [List.append_assoc] at this, fun h => ?_⟩
      obtain ⟨zs, h2, h3⟩ := ih2 h
      exact ⟨zs, fun z hz => by have := h2 z hz; rwa [List.append_assoc] at this, h3⟩

end S
end Lpx
