import Verif.Proofs.Consistent
import Verif.Model.Instances

/-
C01-C04: process_samples_array on dead-birth arrays with distinct
loglikelihoods.
-/

namespace Nestcheck
open Spec
variable {σ K : Type} [CommRing K] [LinearOrder K] (R : Rng σ K)

/-- C01.  Processing succeeds, leaves the world unchanged (no warning, same random
state), and every entry of `nlive_array` is the number of samples born strictly
below that contour and dying at or above it. -/
theorem C01_nlive_exact {samples : List (Sample K)} {init : K} (hc : Consistent samples init)
    (A : Argsort K) (da dw : Bool) :
    ∃ r : Run K, (∀ w : World σ, processSamples A R samples da dw w = (.ok r, w)) ∧
      r.logl.length = samples.length ∧ r.nlive.length = samples.length ∧
      ∀ (i : Nat) (l : K), r.logl[i]? = some l → r.nlive[i]? = some (liveAt samples l : Int) := by
  obtain ⟨r, labels, tmm, h1, h2, -, -, -, -, h3, h4, -⟩ := process_consistent R hc A da dw (σ := σ)
  refine ⟨r, h1, ?_, h3, h4⟩
  rw [h2, List.length_map, (sortBy_perm A _ samples).length_eq]

/-- The row of the input with the logl found at position `i` of the run. -/
theorem row_of_logl {samples : List (Sample K)} {init : K} (hc : Consistent samples init)
    {A : Argsort K} {i : Nat} {s : Sample K} (hs : s ∈ samples)
    (h : ((sortBy A (·.logl) samples).map (·.logl))[i]? = some s.logl) :
    (sortBy A (·.logl) samples)[i]? = some s := by
  rw [List.getElem?_map] at h
  cases ht : (sortBy A (·.logl) samples)[i]? with
  | none => rw [ht] at h; simp at h
  | some t =>
    rw [ht] at h
    have h' : t.logl = s.logl := by simpa using h
    rw [List.inj_on_of_nodup_map hc.distinct (hc.mem_sorted A ht) hs h']

/-- C02.  The labels partition the samples into threads numbered from 0, in which
every sample but the first was born on the contour of its predecessor;
`thread_min_max` holds the contour on which the thread starts (-inf for the whole
prior) and the logl of its last sample. -/
theorem C02_thread_partition {samples : List (Sample K)} {init : K} (hc : Consistent samples init)
    (A : Argsort K) (da dw : Bool) (w w' : World σ) {r : Run K}
    (h : processSamples A R samples da dw w = (.ok r, w')) :
    ∃ labels tmm, r.labels = some labels ∧ r.tmm = some tmm ∧ labels.length = samples.length ∧
      (∀ k : Int, k ∈ labels ↔ 0 ≤ k ∧ k < tmm.length) ∧
      (∀ i j : Nat, ∀ s ∈ samples, ∀ t ∈ samples, Consecutive labels i j →
        r.logl[i]? = some s.logl → r.logl[j]? = some t.logl → t.birth = s.logl) ∧
      (∀ k i : Nat, ∀ s ∈ samples, ∀ mm, FirstOf labels k i → r.logl[i]? = some s.logl →
        tmm[k]? = some mm → mm.1 = if s.birth = init then ⊥ else (s.birth : WithBot K)) ∧
      (∀ k i : Nat, ∀ s ∈ samples, ∀ mm, LastOf labels k i → r.logl[i]? = some s.logl →
        tmm[k]? = some mm → mm.2 = s.logl) := by
  obtain ⟨r', labels, tmm, h1, h2, -, h3, h4, h5, -, -, h6, h7, h8, h9, -⟩ :=
    process_consistent R hc A da dw (σ := σ)
  rw [h1 w] at h
  cases h
  refine ⟨labels, tmm, h3, h4, h5, h6, ?_, ?_, ?_⟩
  · intro i j s hs t ht hcon hi hj
    rw [h2] at hi hj
    exact h7 i j s t hcon (row_of_logl hc hs hi) (row_of_logl hc ht hj)
  · intro k i s hs mm hf hi hmm
    rw [h2] at hi
    exact h8 k i s mm hf hmm (row_of_logl hc hs hi)
  · intro k i s hs mm hf hi hmm
    rw [h2] at hi
    exact h9 k i s mm hf hmm (row_of_logl hc hs hi)

/-- C03.  The processed run has the documented format, passes `check_ns_run` with
any settings, and its (logl, theta) rows are a permutation of those of the input. -/
theorem C03_valid_lossless {samples : List (Sample K)} {init : K} (hc : Consistent samples init)
    (A : Argsort K) (da dw : Bool) (w w' : World σ) {r : Run K}
    (h : processSamples A R samples da dw w = (.ok r, w')) :
    Valid r ∧ Distinct r.logl ∧ (∀ (da' dw' : Bool) (v : World σ), checkRun A r da' dw' v = (.ok (), v)) ∧
      r.logl.length = samples.length ∧ r.theta.length = samples.length ∧
      (r.logl.zip r.theta).Perm (samples.map (fun s => (s.logl, s.theta))) := by
  obtain ⟨r', labels, tmm, h1, h2, hth, h3, h4, h5, hn, -, h6, h7, h8, h9, h10⟩ :=
    process_consistent R hc A da dw (σ := σ)
  rw [h1 w] at h
  cases h
  have hlen : r.logl.length = samples.length := by
    rw [h2, List.length_map, (sortBy_perm A _ samples).length_eq]
  have hstrict : r.logl.Pairwise (· < ·) := by rw [h2]; exact hc.sorted_strict A
  have hrow : ∀ (i : Nat) (l : K), r.logl[i]? = some l →
      ∃ s, (sortBy A (·.logl) samples)[i]? = some s ∧ s.logl = l := by
    intro i l hl
    rw [h2, List.getElem?_map] at hl
    simpa using hl
  have hvalid : Valid r := by
    refine ⟨labels, tmm, ⟨h3, h4, by omega, by omega, ?_, ?_, h6, h10, ?_, ?_⟩⟩
    · rw [hth, List.length_map, (sortBy_perm A _ samples).length_eq, hlen]
    · intro i j x y hij hx hy
      exact le_of_lt (pairwise_iff_getElem?.mp hstrict i j x y hij hx hy)
    · intro k mm i l hmm hf hl
      obtain ⟨s, hs, rfl⟩ := hrow i l hl
      rw [h8 k i s mm hf hmm hs]
      have hsm := hc.mem_sorted A hs
      split_ifs with hb
      · exact bot_le
      · rcases hc.births s hsm with h | ⟨t, -, e1, e2⟩
        · exact absurd h hb
        · rw [e1]; exact WithBot.coe_le_coe.mpr (le_of_lt e2)
    · intro k mm i l hmm hf hl
      obtain ⟨s, hs, rfl⟩ := hrow i l hl
      exact h9 k i s mm hf hmm hs
  have hdist : Distinct r.logl := by
    intro i j x y hij hx hy
    exact ne_of_lt (pairwise_iff_getElem?.mp hstrict i j x y hij hx hy)
  refine ⟨hvalid, hdist, ?_, hlen, ?_, ?_⟩
  · intro da' dw' v
    have hok := (checkRun_ok_iff A r da' dw' v).mpr ⟨hvalid, fun _ => hdist⟩
    obtain ⟨hw1, hw2 | ⟨-, -, hc', -⟩⟩ := checkRun_world A r da' dw' v
    · rcases hr : checkRun A r da' dw' v with ⟨e, v'⟩
      rw [hr] at hok hw1 hw2
      simp only at hok hw1 hw2
      rw [hok]
      cases v; cases v'
      simp only at hw1 hw2
      rw [hw1, hw2]
    · exact absurd hstrict hc'
  · rw [hth, List.length_map, (sortBy_perm A _ samples).length_eq]
  · rw [h2, hth, List.zip_map']
    exact (sortBy_perm A _ samples).map _

/-- C04.  The row order of the input (and numpy's sorting algorithm) is irrelevant
if the loglikelihoods are distinct: same run, or same exception, and same effects. -/
theorem C04_row_order (A A' : Argsort K) {samples samples' : List (Sample K)}
    (hp : samples.Perm samples') (hd : (samples.map (·.logl)).Nodup) (da dw : Bool) (w : World σ) :
    processSamples A R samples da dw w = processSamples A' R samples' da dw w := by
  have hb : ∀ births logls, birthInds A R births logls da dw w = birthInds A' R births logls da dw w := by
    intro births logls
    rw [birthInds_eq, birthInds_eq]
  unfold processSamples
  rw [sortBy_congr A' hp hd]
  simp only [M.bind_apply, hb]

section examples

/-- Six samples, unsorted; -100 marks the whole prior.  Two initial threads; two
points are born on contour 3, so a third thread starts there. -/
def exSamples : List (Sample ℤ) :=
  [⟨[1], 5, -100⟩, ⟨[2], 3, -100⟩, ⟨[3], 7, 3⟩, ⟨[4], 8, 3⟩, ⟨[5], 9, 5⟩, ⟨[6], 12, 8⟩]

theorem exSamples_consistent : Consistent exSamples (-100) where
  nonempty := by decide
  distinct := by decide
  below := by decide
  births := by decide

/-- The run that `process_samples_array` makes of it. -/
def exProcessed : Run ℤ :=
  { logl := [3, 5, 7, 8, 9, 12], nlive := [2, 3, 3, 2, 2, 1],
    theta := [[2], [1], [3], [4], [5], [6]], labels := some [0, 1, 0, 2, 1, 2],
    tmm := some [(⊥, 7), (⊥, 9), ((3 : ℤ), 12)] }

example (s : Nat) : processSamples (stableSort ℤ) (counterRng ℤ (by decide)) exSamples true false
    ⟨s, []⟩ = (.ok exProcessed, ⟨s, []⟩) := by rfl

example : exProcessed.logl.map (fun l => (liveAt exSamples l : ℤ)) = exProcessed.nlive := by decide

example : Consecutive [0, 1, 0, 2, 1, 2] 1 4 :=
  ⟨by decide, 1, rfl, rfl, fun m h1 h2 => by
    have : m = 2 ∨ m = 3 := by omega
    rcases this with rfl | rfl <;> decide⟩

/-- Without the consistency of births the count can fail: a point born on the
contour of a missing sample is rejected. -/
example : (processSamples (stableSort ℤ) (counterRng ℤ (by decide))
    [⟨[1], 5, -100⟩, ⟨[2], 7, 4⟩] true false ⟨0, []⟩).1 = .error .assertion := by rfl

end examples
end Nestcheck
