import Verif.AssertsMain
import Verif.SysStat

/-! # The assertions evaluated by `prepare` and `init` -/

set_option linter.unusedSectionVars false

namespace Lpx
open Finset

namespace S
variable {V : Type} [LpValue V] {Sym : Type}

theorem addRowAsserts_true {idx : Sym → Option ℕ} {size : ℕ} {ts : List (Term Sym)} (h : NF idx size ts) : addRowAsserts idx ts = true := by
  unfold addRowAsserts
  rw [List.all_eq_true]
  intro t ht
  obtain ⟨j, hj, _⟩ := h.known t ht
  rw [hj]; rfl

theorem prepIneqsAsserts_true {strict : Bool} {env : InitEnv} {idx : Sym → Option ℕ} {size : ℕ} {master : Bool} (xs : List (Ineq Sym)) :
    ∀ {s : S V}, (∀ x ∈ xs, NF idx size x.lhs) → (∀ x ∈ xs, x.lhs ≠ [] → boundValAssert strict x.rel = true) →
    prepIneqsAsserts strict env idx master xs s = true := by
  induction xs with
  | nil => intro s _ _; rfl
  | cons x xs ih =>
    intro s hnf hb
    unfold prepIneqsAsserts
    simp only
    rw [Bool.and_eq_true]
    constructor
    · unfold prepIneqAsserts
      split
      · rfl
      · rw [addRowAsserts_true (hnf x (by simp)), Bool.true_and]
        cases hl : x.lhs with
        | nil => rfl
        | cons t ts =>
          have hb' := hb x (by simp) (by rw [hl]; simp)
          cases ts with
          | nil => simp only [hb', Bool.or_true]
          | cons t' ts => exact hb'
    · split
      · exact ih (fun y hy => hnf y (by simp [hy])) (fun y hy => hb y (by simp [hy]))
      · rfl

/-- The assertions of `prepare`. -/
theorem prepareAsserts_true {extra strict : Bool} {env : InitEnv} {opts : Options} {idx : Sym → Option ℕ} {size : ℕ} {master : Bool}
    (hinj : IdxInj idx) {ineqs : List (Ineq Sym)} {objective : List (Term Sym)} (hnf : ∀ x ∈ ineqs, NF idx size x.lhs)
    (hobj : NF idx size objective) (hb : ∀ x ∈ ineqs, x.lhs ≠ [] → boundValAssert strict x.rel = true) :
    prepareAsserts V extra strict env opts idx size ineqs objective master = true := by
  unfold prepareAsserts
  rw [prepIneqsAsserts_true ineqs hnf hb, Bool.true_and]
  simp only
  cases hr : (prepIneqs env idx master ineqs (initS opts size env.order : S V)).2
  · rfl
  · obtain ⟨p1, p2⟩ := prepIneqs_spec hinj ineqs (initS_inv (V := V) env opts idx size master) hnf
    have hi := p1 hr
    rw [List.nil_append] at hi
    simp only [Bool.not_true, Bool.false_eq_true, if_false]
    rw [addRowAsserts_true hobj, Bool.true_and]
    generalize (prepIneqs env idx master ineqs (initS opts size env.order : S V)).1 = s0 at hi
    obtain ⟨q1, -⟩ := prepObjective_spec hinj hi.pst hobj
    generalize prepObjective idx objective s0 = s1 at q1
    obtain ⟨ord, B, m, T, O, ob, hf⟩ := q1.form
    have e1 : s1.lower = fun _ => none := by rw [hf]; rfl
    have e2 : s1.upper = fun _ => none := by rw [hf]; rfl
    obtain ⟨⟨pr, pq, hef⟩, hpq⟩ := enqueue_all (List.range s1.m) e1 e2 (fun i hi => List.mem_range.1 hi)
      (show PQ s1 by rw [hf]; intro i hi; simp [initS] at hi)
    unfold prepEndAsserts
    rw [Bool.and_eq_true]
    constructor
    · rw [List.all_eq_true]; exact fun i hi => decide_eq_true (List.mem_range.1 hi)
    · generalize (List.range s1.m).foldl (fun s i => s.enqueue i) s1 = s2 at hef hpq
      simp only
      have hs3 : ∃ vb, s2.fillBounds = { s1 with prop := pr, pqueue := pq, vbounds := vb } := by
        rw [hef]; unfold fillBounds; exact ⟨_, rfl⟩
      obtain ⟨vb, hs3⟩ := hs3
      rw [hs3]
      generalize hs : ({ s1 with prop := pr, pqueue := pq, vbounds := vb } : S V) = s
      have hst : Struct s := by
        rw [← hs]
        refine ⟨by rw [hf]; rfl, ?_, ?_, ?_, ?_, q1.wf, q1.shape, q1.low⟩ <;> (rw [hf]; intro v hv; first | exact hv | rfl)
      have hwin : ∀ v, s.Win v := by
        intro v; unfold Win S.lo S.up bval; rw [← hs]; simp only [e1, e2]; exact ⟨by simp, by simp⟩
      have hTE : TabEq s s.value := by
        have : s.value = fun _ => 0 := by rw [← hs, hf]; rfl
        intro i hi; rw [this]; simp
      rw [Bool.and_eq_true, Bool.and_eq_true]
      exact ⟨⟨assertExtra_of fun _ => (checkTableau_iff hst).2 hTE, assertExtra_of fun _ => (checkBasic_iff s).2 fun i _ _ hn => absurd (hwin _) hn⟩,
        assertExtra_of fun _ => (checkNonBasic_iff s).2 fun l _ => hwin _⟩

end S
end Lpx
