import Verif.Cramer
import Verif.PropsStats

/-!
# C69: the numbers in the tableau stay small

Simplex with exact arithmetic is only usable if the coefficients do not grow without bound while pivoting.
-/

set_option linter.unusedSectionVars false

namespace Lpx.Props
open Lpx Lpx.Witness Finset

variable {V : Type} [LpFull V]

/-- There is an integer of absolute value at most `M` such that the linear expression has integer coefficients of absolute value at most `M` when
multiplied by it. -/
def Scaled (M : ℕ) (ts : List (Term Symbol)) : Prop :=
  ∃ d : ℤ, d ≠ 0 ∧ |d| ≤ M ∧ ∀ t ∈ ts, ∃ k : ℤ, (d : ℚ) * t.co = k ∧ |k| ≤ M

/-- The numerators and the denominator of a row of the tableau are at most `K`. -/
def RowAtMost (K : ℕ) (r : Row) : Prop := |r.den| ≤ K ∧ ∀ c ∈ r.cells, |c.val| ≤ K

/-- The coefficient of an unknown in a linear expression. -/
def coIn (idx : Symbol → Option ℕ) (ts : List (Term Symbol)) (j : ℕ) : ℚ := (ts.map fun t => if ix idx t.var = j then t.co else 0).sum

theorem evalV_coIn {idx : Symbol → Option ℕ} {n : ℕ} (asg : ℕ → V) : ∀ ts : List (Term Symbol), (∀ t ∈ ts, ix idx t.var < n) →
    evalV (fun y => asg (ix idx y)) ts = ∑ j ∈ range n, coIn idx ts j • asg j := by
  intro ts
  induction ts with
  | nil => intro _; simp [evalV, coIn]
  | cons t ts ih =>
    intro h
    have h1 := ih fun u hu => h u (by simp [hu])
    unfold evalV at h1 ⊢
    simp only [List.map_cons, List.sum_cons, h1, coIn, add_smul, sum_add_distrib]
    congr 1
    rw [sum_eq_single (ix idx t.var)]
    · simp
    · intro b _ hb; simp [Ne.symm hb]
    · intro hn; exact absurd (mem_range.2 (h t (by simp))) hn

theorem scaled_coIn {idx : Symbol → Option ℕ} (hinj : IdxInj idx) {size : ℕ} {M : ℕ} {d : ℤ} : ∀ {ts : List (Term Symbol)}, NF idx size ts →
    (∀ t ∈ ts, ∃ k : ℤ, (d : ℚ) * t.co = k ∧ |k| ≤ M) → ∀ j, ∃ k : ℤ, (d : ℚ) * coIn idx ts j = k ∧ |k| ≤ M := by
  intro ts
  induction ts with
  | nil => intro _ _ j; exact ⟨0, by simp [coIn], by simp⟩
  | cons t ts ih =>
    intro hnf h j
    have hnd := hnf.nodup
    simp only [List.map_cons, List.nodup_cons] at hnd
    by_cases hj : ix idx t.var = j
    · obtain ⟨k, h1, h2⟩ := h t (by simp)
      refine ⟨k, ?_, h2⟩
      have h0 : coIn idx ts j = 0 := by
        unfold coIn
        apply List.sum_eq_zero
        intro x hx
        obtain ⟨u, hu, rfl⟩ := List.mem_map.1 hx
        rw [if_neg]
        intro he
        obtain ⟨a, ha, -⟩ := hnf.known t (by simp)
        obtain ⟨b, hb, -⟩ := hnf.known u (by simp [hu])
        have : t.var = u.var := by
          apply hinj _ _ a ha
          have : ix idx u.var = ix idx t.var := he.trans hj.symm
          simp only [ix, ha, hb, Option.getD_some] at this
          rw [hb, this]
        exact hnd.1 (List.mem_map.2 ⟨u, hu, this.symm⟩)
      have : coIn idx (t :: ts) j = t.co + coIn idx ts j := by simp [coIn, hj]
      rw [this, h0, add_zero, h1]
    · have : coIn idx (t :: ts) j = coIn idx ts j := by simp [coIn, hj]
      rw [this]
      exact ih ⟨hnd.2, fun u hu => hnf.nz u (by simp [hu]), fun u hu => hnf.known u (by simp [hu])⟩ (fun u hu => h u (by simp [hu])) j

/-- The bound for a solver whose rows stem from equations with small integer coefficients. -/
theorem rows_bound {s : S V} (hs : S.Struct s) {E0 : (ℕ → V) → Prop} (heqv : ∀ asg, S.TabEq s asg ↔ E0 asg)
    (hext : ∀ g : ℕ → V, ∃ asg, E0 asg ∧ ∀ j, j < s.n → asg j = g j) {M : ℕ}
    (hsrc : ∀ v, s.n ≤ v → v < s.nvars → ∃ (d : ℤ) (k : ℕ → ℤ), d ≠ 0 ∧ |d| ≤ M ∧ (∀ j, |k j| ≤ M) ∧
      ∀ asg, E0 asg → (d : ℚ) • asg v = ∑ j ∈ range s.n, (k j : ℚ) • asg j) :
    ∀ i, i < s.m → RowAtMost (s.m.factorial * M ^ s.m) (s.tab.rows i) := by
  have hnv := hs.nv
  have hsrc' : ∀ i, ∃ (d : ℤ) (k : ℕ → ℤ), i < s.m → d ≠ 0 ∧ |d| ≤ M ∧ (∀ j, |k j| ≤ M) ∧
      ∀ asg, E0 asg → (d : ℚ) • asg (s.n + i) = ∑ j ∈ range s.n, (k j : ℚ) • asg j := by
    intro i
    by_cases hi : i < s.m
    · obtain ⟨d, k, h⟩ := hsrc (s.n + i) (by omega) (by omega)
      exact ⟨d, k, fun _ => h⟩
    · exact ⟨0, fun _ => 0, fun h => absurd h hi⟩
  choose d k hdk using hsrc'
  have e0 : (LpValue.ofRat 1 : V) ≠ 0 := by
    have h1 := LpValue.ofRat_lt (V := V) 0 1 (by norm_num)
    have h2 : (LpValue.ofRat 0 : V) = 0 := by
      have := LpValue.ofRat_smul (V := V) 0 0
      simpa using this
    rw [h2] at h1
    exact h1.ne'
  generalize (LpValue.ofRat 1 : V) = e at e0
  have hsm : ∀ a b : ℚ, a • e = b • e ↔ a = b := by
    intro a b
    constructor
    · intro h
      have : (a - b) • e = 0 := by rw [sub_smul, h, sub_self]
      rcases smul_eq_zero.1 this with h | h
      · linarith
      · exact absurd h e0
    · rintro rfl; rfl
  have hdep : ∀ asg asg' : ℕ → V, (∀ v, v < s.nvars → asg v = asg' v) → E0 asg → E0 asg' := by
    intro asg asg' h h1
    rw [← heqv] at h1 ⊢
    intro i hi
    have := h1 i hi
    rw [← h _ (hs.idx_lt _ (by omega)), this]
    exact sum_congr rfl fun j hj => by rw [h _ (hs.idx_lt _ (by have := mem_range.1 hj; omega))]
  have hT : ∀ q : ℕ → ℚ, S.TabEq s (fun v => q v • e) ↔ ∀ i, i < s.m → q (s.index (i + s.n)) = ∑ j ∈ range s.n, s.tab.coef i j * q (s.index j) := by
    intro q
    unfold S.TabEq
    refine forall_congr' fun i => forall_congr' fun _ => ?_
    rw [show (∑ j ∈ range s.n, s.tab.coef i j • q (s.index j) • e) = (∑ j ∈ range s.n, s.tab.coef i j * q (s.index j)) • e by
      rw [sum_smul]; exact sum_congr rfl fun j _ => by rw [smul_smul], hsm]
  have hE : ∀ q : ℕ → ℚ, E0 (fun v => q v • e) ↔ ∀ i, i < s.m → (d i : ℚ) * q (s.n + i) = ∑ j ∈ range s.n, (k i j : ℚ) * q j := by
    intro q
    constructor
    · intro h i hi
      have := (hdk i hi).2.2.2 _ h
      rw [smul_smul, show (∑ j ∈ range s.n, (k i j : ℚ) • q j • e) = (∑ j ∈ range s.n, (k i j : ℚ) * q j) • e by
        rw [sum_smul]; exact sum_congr rfl fun j _ => by rw [smul_smul], hsm] at this
      exact this
    · intro h
      obtain ⟨asg, h1, h2⟩ := hext fun v => q v • e
      refine hdep asg _ (fun v hv => ?_) h1
      by_cases hvn : v < s.n
      · exact h2 v hvn
      · obtain ⟨i, rfl⟩ : ∃ i, v = s.n + i := ⟨v - s.n, by omega⟩
        have hi : i < s.m := by omega
        obtain ⟨g1, -, -, g4⟩ := hdk i hi
        have h3 := g4 asg h1
        rw [sum_congr rfl fun j hj => by rw [h2 j (mem_range.1 hj)]] at h3
        rw [show (∑ j ∈ range s.n, (k i j : ℚ) • q j • e) = (∑ j ∈ range s.n, (k i j : ℚ) * q j) • e by
          rw [sum_smul]; exact sum_congr rfl fun j _ => by rw [smul_smul], ← h i hi, ← smul_smul] at h3
        have g1' : (d i : ℚ) ≠ 0 := by exact_mod_cast g1
        exact smul_right_injective V g1' h3
  obtain ⟨D, hD, hDM, hP⟩ := cramer_bound (n := s.n) (m := s.m) (index := s.index) (rindex := s.rindex) (T := fun i j => s.tab.coef i j) (d := d) (k := k) (M := M)
    (by rw [← hnv]; exact hs.idx_lt) (by rw [← hnv]; exact hs.ri) (by rw [← hnv]; exact hs.ridx_lt) (by rw [← hnv]; exact hs.ir)
    (fun i hi => (hdk i hi).2.1) (fun i hi j _ => (hdk i hi).2.2.1 j) (fun q => by rw [← hT, ← hE, heqv])
  have hP' : ∀ j, ∃ P : ℕ → ℤ, j < s.n → ∀ i, i < s.m → |P i| ≤ s.m.factorial * M ^ s.m ∧ (D : ℚ) * s.tab.coef i j = P i := by
    intro j
    by_cases hj : j < s.n
    · obtain ⟨P, h⟩ := hP j hj; exact ⟨P, fun _ => h⟩
    · exact ⟨fun _ => 0, fun h => absurd h hj⟩
  choose P hP2 using hP'
  intro i hi
  have hcol : ∀ c ∈ (s.tab.rows i).cells, c.col < s.n := fun c hc =>
    (hs.shape i c.col ((Tableau.coef_ne_zero hs.wf).2 ⟨c.val, hc⟩)).2
  obtain ⟨r1, r2⟩ := (hs.low i).bound (hs.wf.row i) hD (k := fun j => P j i) (fun c hc => (hP2 c.col (hcol c hc) i hi).2)
  refine ⟨by push_cast; exact r1.trans hDM, fun c hc => ?_⟩
  push_cast
  exact (r2 c hc).trans (hP2 c.col (hcol c hc) i hi).1

section
variable {be : Backend} {opts : Options} {Q : Restr V} {p : Propagator V} {g : Ghost V}

/-- **C69.** For arbitrary histories: if all constraints over several variables and the objective can be written with integers of absolute value at most
`M`, then after any number of pivots the numbers in the tableau with `m` rows are at most `m! * M ^ m`. -/
theorem C69_numbers_bounded (hr : Reach be opts Q p g) {th : ℕ} {gt : GThr} (hg : g.thrs[th]? = some gt) {t : Thr V} (ht : p.thrs[th]? = some t) {M : ℕ}
    (hM : ∀ x ∈ p.prog.iqs, 2 ≤ x.lhs.length → Scaled M x.lhs) (hO : p.prog.objective ≠ [] → Scaled M p.prog.objective) {i : ℕ} (hi : i < t.slv.m) :
    RowAtMost (t.slv.m.factorial * M ^ t.slv.m) (t.slv.tab.rows i) := by
  obtain ⟨t', ht', E0, base, hd⟩ := hr.weak.thr th gt hg
  obtain rfl := Option.some.inj (ht'.symm.trans ht)
  have hst := hr.weak.stat
  have hlv := hst.alive hg
  have hn := hd.n
  refine rows_bound hd.winv.struct hd.winv.eqv (by rw [hn]; exact hd.set.ext) (fun v h1 h2 => ?_) i hi
  rw [hn] at h1
  -- the expression of the row
  obtain ⟨ts, hnf, hsc, hev⟩ : ∃ ts, NF p.lookup p.varMap.length ts ∧ Scaled M ts ∧ ∀ asg, E0 asg → asg v = evalV (fun y => asg (ix p.lookup y)) ts := by
    rcases hd.rows v h1 h2 with ⟨bd, hb, rfl⟩ | ⟨hne, rfl | ⟨hgl, rfl⟩⟩
    · obtain ⟨x, hx, hR⟩ := hd.set.src bd hb
      cases hR with
      | single a y hl ha hlit hvar hval hrel =>
        obtain ⟨j, hj, hbv⟩ := hvar
        obtain ⟨j', hj', hlt⟩ := (hst.nf hlv x hx).known ⟨a, y⟩ (by rw [hl]; simp)
        have : j = j' := Option.some.inj (hj.symm.trans hj')
        omega
      | row hlen hnew hlit hval hrel hvar => exact ⟨x.lhs, hst.nf hlv x hx, hM x hx hlen, hvar⟩
    · exact ⟨_, hst.onf hlv, hO hne, (hd.set.ovar hne).2⟩
    · exact ⟨_, hst.onf hlv, hO hne, (hd.set.bvar hne hgl).2.2⟩
  obtain ⟨d, g1, g2, g3⟩ := hsc
  choose k hk using scaled_coIn (idx := p.lookup) (M := M) (d := d) hst.vars.inj hnf g3
  refine ⟨d, k, g1, g2, fun j => (hk j).2, fun asg hE => ?_⟩
  rw [hev asg hE, evalV_coIn (n := t'.slv.n) asg ts (fun t ht => by
    obtain ⟨j, hj, hlt⟩ := hnf.known t ht
    simp only [ix, hj, Option.getD_some]; omega), smul_sum]
  exact sum_congr rfl fun j _ => by rw [smul_smul, (hk j).1]

/-- **C69**, a bound that only depends on the program. -/
theorem C69_numbers_bounded_by_program (hr : Reach be opts Q p g) {th : ℕ} {gt : GThr} (hg : g.thrs[th]? = some gt) {t : Thr V} (ht : p.thrs[th]? = some t)
    {M : ℕ} (hM : ∀ x ∈ p.prog.iqs, 2 ≤ x.lhs.length → Scaled M x.lhs) (hO : p.prog.objective ≠ [] → Scaled M p.prog.objective) {i : ℕ} (hi : i < t.slv.m) :
    RowAtMost ((S.numRows p.prog.iqs p.prog.objective).factorial * M ^ S.numRows p.prog.iqs p.prog.objective) (t.slv.tab.rows i) := by
  have h := C69_numbers_bounded hr hg ht hM hO hi
  obtain ⟨t', ht', E0, base, hd⟩ := hr.weak.thr th gt hg
  obtain rfl := Option.some.inj (ht'.symm.trans ht)
  have hle : t'.slv.m ≤ S.numRows p.prog.iqs p.prog.objective := by
    have h1 := hd.nv
    have h2 := hd.n
    have h3 := hd.winv.struct.nv
    omega
  have hM1 : 1 ≤ M := by
    have hd0 := (hd.winv.struct.wf.row i).den
    rcases Nat.eq_zero_or_pos M with h0 | h0
    · subst h0
      have := h.1
      rw [zero_pow (by omega), mul_zero, Nat.cast_zero] at this
      exact absurd (abs_nonpos_iff.1 this) hd0
    · exact h0
  have hK : t'.slv.m.factorial * M ^ t'.slv.m ≤ (S.numRows p.prog.iqs p.prog.objective).factorial * M ^ S.numRows p.prog.iqs p.prog.objective :=
    Nat.mul_le_mul (Nat.factorial_le hle) (Nat.pow_le_pow_right hM1 hle)
  have hK' : ((t'.slv.m.factorial * M ^ t'.slv.m : ℕ) : ℤ) ≤ _ := Int.ofNat_le.2 hK
  exact ⟨h.1.trans hK', fun c hc => (h.2 c hc).trans hK'⟩

/-- **C69.** The rows of the tableau are in lowest terms: the denominator and the numerators have no common divisor but 1 and -1. -/
theorem C69_lowest_terms (hr : Reach be opts Q p g) {th : ℕ} {gt : GThr} (hg : g.thrs[th]? = some gt) {t : Thr V} (ht : p.thrs[th]? = some t) (i : ℕ) (k : ℤ)
    (hden : k ∣ (t.slv.tab.rows i).den) (hnum : ∀ c ∈ (t.slv.tab.rows i).cells, k ∣ c.val) : k = 1 ∨ k = -1 := by
  obtain ⟨t', ht', E0, base, hd⟩ := hr.weak.thr th gt hg
  obtain rfl := Option.some.inj (ht'.symm.trans ht)
  exact Int.isUnit_iff.1 (hd.winv.struct.low i k hden hnum)

end

/-! ### example: two pivots -/

/-- `a * x + b * y >= k`. -/
def coAtom (a b k lit : ℤ) : TAtom where
  term := .symbol "sum".toList
  elements := [⟨[.func ['*'] [.number a, .symbol ['x']]], [], 0⟩, ⟨[.func ['*'] [.number b, .symbol ['y']]], [], 0⟩]
  guard := some (">=", .number k)
  literal := lit

/-- `2 x + 3 y >= 1` and `4 x - 5 y >= 10`. -/
def numEvents : List Ev := [.init [coAtom 2 3 1 2, coAtom 4 (-5) 10 3] 1, .prop 1 0 [2, 3] true]

/-- The program, the number of rows, and the first row after the two pivots. -/
def numCheck (p : Propagator ℚ) (g : Ghost ℚ) : Bool :=
  p.prog.objective.isEmpty && p.prog.iqs.all (fun x => x.lhs.all fun t => decide (t.co.den = 1 ∧ |t.co.num| ≤ 5)) && g.thrs[0]?.isSome &&
    (p.thrs[0]?).any fun t => decide (t.slv.m = 2 ∧ t.slv.pivots = 2 ∧ (t.slv.tab.rows 0).den = -22 ∧ (t.slv.tab.rows 1).den = -11)

/-- The hypotheses of `C69_numbers_bounded` are met with `M = 5` in a state after two pivots; the bound is `2! * 5 ^ 2 = 50`, and the denominators are `-22`
and `-11`. -/
example : ∃ (p : Propagator ℚ) (g : Ghost ℚ) (gt : GThr) (t : Thr ℚ), Reach .imath {} Intact p g ∧ g.thrs[0]? = some gt ∧ p.thrs[0]? = some t ∧
    (∀ x ∈ p.prog.iqs, 2 ≤ x.lhs.length → Scaled 5 x.lhs) ∧ (p.prog.objective ≠ [] → Scaled 5 p.prog.objective) ∧ t.slv.m = 2 ∧ t.slv.pivots = 2 ∧
    (t.slv.tab.rows 0).den = -22 ∧ (t.slv.tab.rows 1).den = -11 := by
  obtain ⟨p, g, h1, -, h2⟩ := exists_reach (V := ℚ) (be := .imath) (mode := .intact) (opts := {}) numEvents (P := numCheck) (by decide +kernel)
  unfold numCheck at h2
  simp only [Bool.and_eq_true] at h2
  obtain ⟨⟨⟨ho, hx⟩, hg⟩, ht⟩ := h2
  obtain ⟨gt, hg⟩ := Option.isSome_iff_exists.1 hg
  rw [Option.any_eq_true] at ht
  obtain ⟨t, ht, hc⟩ := ht
  obtain ⟨c1, c2, c3, c4⟩ := of_decide_eq_true hc
  refine ⟨p, g, gt, t, h1, hg, ht, fun x hx' _ => ⟨1, by norm_num, by norm_num, fun u hu => ?_⟩, fun hne => absurd (List.isEmpty_iff.1 ho) hne, c1, c2, c3, c4⟩
  obtain ⟨k1, k2⟩ := of_decide_eq_true (List.all_eq_true.1 (List.all_eq_true.1 hx x hx') u hu)
  refine ⟨u.co.num, ?_, k2⟩
  rw [Int.cast_one, one_mul]
  exact ((Rat.den_eq_one_iff _).1 k1).symm

end Lpx.Props
