import Verif.Proofs.SampleLess
import Verif.Model.Instances

/-
C06: sample_less_than_condition fails only when no allocation exists.
-/

namespace Nestcheck
variable {σ K : Type} [CommRing K] [LinearOrder K]

/-- `out` is an allocation: as many elements as both arrays can provide, taken
from distinct positions of `choices` (a sub-multiset), each below the
corresponding element of `condition`. -/
def Spec.Allocates (choices condition out : List Nat) : Prop :=
  out.length = min condition.length choices.length ∧ out.Subperm choices ∧
    ∀ (i x c : Nat), out[i]? = some x → condition[i]? = some c → x < c

theorem allocation_iff {choices condition out : List Nat} :
    Spec.Allocates choices condition out ↔
      Allocation choices (condition.take (min condition.length choices.length)) out := by
  unfold Spec.Allocates Allocation
  rw [List.forall₂_iff_get]
  constructor
  · rintro ⟨h1, h2, h3⟩
    refine ⟨⟨by rw [h1, List.length_take]; omega, ?_⟩, h2⟩
    intro i hi1 hi2
    refine h3 i _ _ (List.getElem?_eq_getElem hi1) ?_
    simp only [List.get_eq_getElem, List.getElem_take]
    rw [List.getElem?_eq_getElem]
  · rintro ⟨⟨h1, h2⟩, h3⟩
    have hl : out.length = min condition.length choices.length := by
      rw [h1, List.length_take]; omega
    refine ⟨hl, h3, ?_⟩
    intro i x c hx hc
    obtain ⟨hi, rfl⟩ := List.getElem?_eq_some_iff.mp hx
    obtain ⟨hi', rfl⟩ := List.getElem?_eq_some_iff.mp hc
    have := h2 i hi (by rw [← h1]; exact hi)
    simpa using this

/-- For every ascending condition and every sequence of random draws,
`sample_less_than_condition` either returns an allocation, or raises `ValueError`
in the case that there is none.  Only the random state changes. -/
theorem C06_sample_less (R : Rng σ K) (choices condition : List Nat)
    (hs : condition.Pairwise (· ≤ ·)) (w : World σ) :
    (∃ out s, sampleLess R choices condition w = (.ok out, { w with rng := s }) ∧
      Spec.Allocates choices condition out) ∨
    (∃ s, sampleLess R choices condition w = (.error .value, { w with rng := s }) ∧
      ¬ ∃ out, Spec.Allocates choices condition out) := by
  simp only [allocation_iff]
  exact sampleLessLoop_spec R _ choices (hs.sublist (List.take_sublist _ _)) w

/-- In particular the outcome (success or failure) is the same for all random
number generators and states. -/
theorem C06_outcome_independent (R R' : Rng σ K) (choices condition : List Nat)
    (hs : condition.Pairwise (· ≤ ·)) (w w' : World σ) :
    (∃ out, (sampleLess R choices condition w).1 = .ok out) ↔
      ∃ out, (sampleLess R' choices condition w').1 = .ok out := by
  rcases C06_sample_less R choices condition hs w with ⟨o, s, h, ha⟩ | ⟨s, h, hn⟩ <;>
    rcases C06_sample_less R' choices condition hs w' with ⟨o', s', h', ha'⟩ | ⟨s', h', hn'⟩ <;>
    rw [h, h'] <;> simp
  · exact hn' ⟨_, ha⟩
  · exact hn ⟨_, ha'⟩

section examples
/-- Solvable: 3 deaths, births at 1, 2, 5. -/
example : (sampleLess (counterRng ℤ (by decide)) [0, 1, 4] [1, 2, 5] ⟨7, []⟩).1 = .ok [0, 1, 4] := by
  rfl
/-- Not solvable: two births before the second death. -/
example : (sampleLess (counterRng ℤ (by decide)) [0, 3, 4] [1, 2, 5] ⟨7, []⟩).1 = .error .value := by
  rfl
example : Spec.Allocates [0, 3, 4] [2, 5] [0, 3] := by
  refine ⟨rfl, (List.sublist_append_left [0, 3] [4]).subperm, ?_⟩
  rintro (_ | _ | i) x c h1 h2 <;> simp at h1 h2 <;> omega
/-- Without the ascending order the greedy draw can fail although an allocation
exists, so the hypothesis is needed. -/
example : (sampleLess (counterRng ℤ (by decide)) [0, 3] [5, 2] ⟨0, []⟩).1 = .error .value ∧
    Spec.Allocates [0, 3] [5, 2] [3, 0] := by
  refine ⟨rfl, rfl, (List.Perm.swap 0 3 []).subperm, ?_⟩
  rintro (_ | _ | i) x c h1 h2 <;> simp at h1 h2 <;> omega
end examples
end Nestcheck
