import Mathlib.Data.List.Perm.Subperm
import Verif.Proofs.Basic

namespace Nestcheck
variable {σ K α : Type} [LinearOrder K] [Zero K] [One K] (R : Rng σ K)

theorem npChoice_nil (w : World σ) : npChoice R ([] : List α) w = (.error .value, w) := rfl

theorem npChoice_spec {xs : List α} (h : xs ≠ []) (w : World σ) :
    ∃ x ∈ xs, npChoice R xs w = (.ok x, { w with rng := (R.randint 0 xs.length 1 w.rng).2 }) := by
  have hpos : 0 < xs.length := List.length_pos_iff.mpr h
  have h1 := R.randint_length 0 xs.length 1 w.rng
  have h2 := R.randint_range 0 xs.length 1 w.rng hpos
  unfold npChoice
  rw [if_neg (by simpa using h)]
  cases hk : (R.randint 0 xs.length 1 w.rng).1 with
  | nil => rw [hk] at h1; simp at h1
  | cons k ks =>
    rw [hk] at h1 h2
    have : ks = [] := by simpa using h1
    subst this
    have hlt : k < xs.length := (h2 k (by simp)).2
    refine ⟨xs[k], List.getElem_mem hlt, ?_⟩
    simp [M.bind_apply, hk, gather, hlt]

theorem npChoiceN_spec {xs : List α} (h : xs ≠ []) (n : Nat) (w : World σ) :
    ∃ ys, ys.length = n ∧ (∀ y ∈ ys, y ∈ xs) ∧
      npChoiceN R xs n w = (.ok ys, { w with rng := (R.randint 0 xs.length n w.rng).2 }) := by
  have hpos : 0 < xs.length := List.length_pos_iff.mpr h
  have h1 := R.randint_length 0 xs.length n w.rng
  have h2 := R.randint_range 0 xs.length n w.rng hpos
  unfold npChoiceN
  rw [if_neg (by simpa using h)]
  refine ⟨gather xs (R.randint 0 xs.length n w.rng).1, ?_, fun y hy => mem_of_mem_gather hy, ?_⟩
  · rw [length_gather (fun i hi => (h2 i hi).2), h1]
  · simp [M.bind_apply]

theorem npShuffle_spec (xs : List α) (w : World σ) :
    ∃ ys, ys.Perm xs ∧
      npShuffle R xs w = (.ok ys, { w with rng := (R.shuffle xs.length w.rng).2 }) := by
  refine ⟨gather xs (R.shuffle xs.length w.rng).1, gather_perm (R.shuffle_perm _ _), ?_⟩
  simp [npShuffle, M.bind_apply]

end Nestcheck
