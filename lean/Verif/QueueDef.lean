import Verif.Solver

/-! # The queue of rows for bound propagation: what the flags say -/

set_option linter.unusedSectionVars false

namespace Lpx
namespace S
variable {V : Type} [LpValue V]

/-- The rows whose flag is set are those in the queue, none is in it twice, and the queue is only used with
`--propagate-bounds=changed`. -/
def PF (s : S V) : Prop := (∀ i, s.prop i = true ↔ i ∈ s.pqueue) ∧ s.pqueue.Nodup ∧ (s.opts.propagateMode ≠ .changed → s.pqueue = [])

/-- The queue only grows and the flags agree with it. -/
structure Grow (s t : S V) : Prop where
  opts : t.opts = s.opts
  pf : PF s → PF t
  sub : ∀ i ∈ s.pqueue, i ∈ t.pqueue

theorem Grow.refl (s : S V) : Grow s s := ⟨rfl, id, fun _ h => h⟩
theorem Grow.trans {a b c : S V} (h : Grow a b) (k : Grow b c) : Grow a c :=
  ⟨k.opts.trans h.opts, k.pf ∘ h.pf, fun i hi => k.sub i (h.sub i hi)⟩

theorem Grow.foldl {A : Type} (f : S V → A → S V) (hf : ∀ s a, Grow s (f s a)) (l : List A) : ∀ s, Grow s (l.foldl f s) := by
  induction l with
  | nil => exact fun s => Grow.refl s
  | cons a l ih => exact fun s => (hf s a).trans (ih _)

theorem grow_setValue (s : S V) (lvl v : ℕ) (x : V) (add : Bool) : Grow s (s.setValue lvl v x add) := by
  unfold setValue
  split <;> exact ⟨rfl, id, fun _ h => h⟩

theorem grow_enqueue (s : S V) (i : ℕ) : Grow s (s.enqueue i) := by
  unfold enqueue
  dsimp only
  have key : ∀ t : S V, t.opts = s.opts → t.prop = Function.update s.prop i true → t.pqueue = s.pqueue ++ [i] →
      (decide (s.opts.propagateMode = .changed) && !s.prop i) = true → Grow s t := by
    intro t h1 h2 h3 h4
    simp only [Bool.and_eq_true, decide_eq_true_eq, Bool.not_eq_true'] at h4
    refine ⟨h1, fun h => ⟨fun k => ?_, ?_, fun hm => absurd h4.1 (by rw [← h1]; exact hm)⟩, fun k hk => by rw [h3]; exact List.mem_append_left _ hk⟩
    · rw [h2, h3]
      by_cases hki : k = i
      · subst hki; simp
      · rw [Function.update_of_ne hki, h.1 k]; simp [hki]
    · rw [h3]
      refine List.nodup_append.2 ⟨h.2.1, by simp, ?_⟩
      intro a ha b hb hab
      rw [List.mem_singleton.1 hb] at hab
      subst hab
      have := (h.1 a).2 ha
      rw [h4.2] at this; cases this
  split <;> split
  · rename_i hc; exact key _ rfl rfl rfl hc
  · exact ⟨rfl, id, fun _ h => h⟩
  · rename_i hc; exact key _ rfl rfl rfl hc
  · exact Grow.refl _

end S
end Lpx
