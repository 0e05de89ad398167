import Verif.Proofs.BirthInds
import Verif.Proofs.ThreadStep

/-
process_samples_array.
-/

set_option linter.unusedSectionVars false

namespace Nestcheck
open Finset
variable {σ K : Type} [CommRing K] [LinearOrder K] (R : Rng σ K)

theorem IsThreads.unique_labels {b : List Int} {labels : List Nat} (h : IsThreads b labels) :
    unique labels = List.range (starters b).length := by
  rw [unique_eq_range]
  intro k
  constructor
  · intro hk
    obtain ⟨i, hi⟩ := List.mem_iff_getElem?.mp hk
    exact h.lt_of_label hi
  · intro hk
    exact List.mem_of_getElem? (h.start_label (List.getElem?_eq_getElem hk))

theorem list_range_map_sum (n : Nat) (f : Nat → Int) :
    ((List.range n).map f).sum = ∑ k ∈ range n, f k := by
  induction n with
  | zero => rfl
  | succ n ih => rw [List.range_succ, List.map_append, List.sum_append, ih, Finset.sum_range_succ]; simp

/-- The loop over threads, for valid birth indexes and their thread labels. -/
theorem assemble {logl : List K} {b : List Int} {labels : List Nat} (hb : BirthsValid b)
    (hth : IsThreads b labels) (hl : logl.length = b.length) :
    ∃ (acc : ThreadAcc K) (st en : Nat → Nat),
      threadStepLoop logl b labels (unique labels)
        { tmm := List.replicate (unique labels).length ((0 : K), 0),
          delta := List.replicate (b.length + 1) 0 } = .ok acc ∧
      acc.tmm.length = (starters b).length ∧
      (∀ k < (starters b).length, (starters b)[k]? = some (st k) ∧ ThreadAt b labels k (st k) (en k) ∧
        acc.tmm[k]? = some (threadRange logl b (st k) (en k))) ∧
      (cumsum acc.delta).dropLast.length = b.length ∧
      ∀ i < b.length, (cumsum acc.delta).dropLast[i]? =
        some (((range b.length).filter (fun j => bAt b j < i ∧ i ≤ j)).card : Int) := by
  have hst : ∀ k, ∃ s, k < (starters b).length → (starters b)[k]? = some s := by
    intro k
    by_cases hk : k < (starters b).length
    · exact ⟨_, fun _ => List.getElem?_eq_getElem hk⟩
    · exact ⟨0, fun h => absurd h hk⟩
  choose st hst using hst
  have hen : ∀ k, ∃ e, k < (starters b).length → EndsAt labels k e := by
    intro k
    by_cases hk : k < (starters b).length
    · obtain ⟨e, he⟩ := exists_endsAt (hth.start_label (hst k hk))
      exact ⟨e, fun _ => he⟩
    · exact ⟨0, fun h => absurd h hk⟩
  choose en hen using hen
  have hTA : ∀ k < (starters b).length, ThreadAt b labels k (st k) (en k) := by
    intro k hk
    exact ⟨hth.start_label (hst k hk), fun j hj => hth.start_le hb (hst k hk) hj, hen k hk⟩
  rw [hth.unique_labels]
  obtain ⟨acc, h1, h2, h3, h4, h5⟩ := threadStepLoop_spec (logl := logl) hb hl hth.1 st en
    (List.range (starters b).length) (fun k hk => hTA k (List.mem_range.mp hk)) List.nodup_range
    { tmm := List.replicate (List.range (starters b).length).length ((0 : K), 0),
      delta := List.replicate (b.length + 1) 0 } (by simp)
  refine ⟨acc, st, en, h1, by simpa using h2, ?_, ?_, ?_⟩
  · intro k hk
    refine ⟨hst k hk, hTA k hk, ?_⟩
    rw [h3, if_pos]
    simpa using hk
  · rw [List.length_dropLast, cumsum, length_cumsumFrom, h4]; simp
  · intro i hi
    have hlen : acc.delta.length = b.length + 1 := by rw [h4]; simp
    rw [List.getElem?_dropLast, cumsum, length_cumsumFrom, if_pos (by omega),
      getElem?_cumsumFrom _ _ _ (by omega), h5 i (by omega), list_range_map_sum,
      nlive_telescope hb hth st en hst hen]
    have : ((List.replicate (b.length + 1) (0 : Int)).take (i + 1)).sum = 0 := by
      simp
    simp only [this]
    simp

/-- A successful `process_samples_array`, given valid birth indexes. -/
theorem processSamples_of {A : Argsort K} {samples : List (Sample K)} {da dw : Bool} {w w' : World σ}
    {b : List Int} (hB : birthInds A R ((sortBy A (·.logl) samples).map (·.birth))
      ((sortBy A (·.logl) samples).map (·.logl)) da dw w = (.ok b, w'))
    (hbl : b.length = samples.length) (hb : BirthsValid b) :
    ∃ (labels : List Nat) (tmm : List (WithBot K × K)) (nlive : List Int) (st en : Nat → Nat),
      IsThreads b labels ∧
      processSamples A R samples da dw w =
        (.ok { logl := (sortBy A (·.logl) samples).map (·.logl), nlive := nlive,
               theta := (sortBy A (·.logl) samples).map (·.theta),
               labels := some (labels.map Int.ofNat), tmm := some tmm }, w') ∧
      tmm.length = (starters b).length ∧
      (∀ k < (starters b).length, (starters b)[k]? = some (st k) ∧ ThreadAt b labels k (st k) (en k) ∧
        tmm[k]? = some (threadRange ((sortBy A (·.logl) samples).map (·.logl)) b (st k) (en k))) ∧
      nlive.length = b.length ∧
      ∀ i < b.length, nlive[i]? =
        some (((range b.length).filter (fun j => bAt b j < i ∧ i ≤ j)).card : Int) := by
  obtain ⟨labels, hth, hT⟩ := threadsGivenBirthInds_valid (σ := σ) R hb
  have hsl : (sortBy A (·.logl) samples).length = b.length := by
    rw [(sortBy_perm A _ samples).length_eq, hbl]
  obtain ⟨acc, st, en, h1, h2, h3, h4, h5⟩ := assemble
    (logl := (sortBy A (·.logl) samples).map (·.logl)) hb hth (by simpa using hsl)
  refine ⟨labels, acc.tmm, (cumsum acc.delta).dropLast, st, en, hth, ?_, h2, h3, h4, h5⟩
  unfold processSamples
  rw [M.bind_ok hB, M.bind_ok (hT w')]
  have hu : decide (unique labels = List.range (unique labels).length) = true := by
    rw [decide_eq_true_iff, hth.unique_labels]; simp
  rw [M.bind_ok (a := ()) (w' := w') (by rw [M.assert_apply, hu]; rfl)]
  rw [M.bind_ok (a := acc) (w' := w') (by rw [M.lift_apply, hsl, h1])]
  rfl

end Nestcheck
