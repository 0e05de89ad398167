import Verif.Props.Combine
import Verif.Props.Process
import Verif.Props.Estimators
import Verif.Proofs.Bootstrap

/-
C64: no sample is lost, repeated or invented on the way from the dead points file
to a combined run, so `count_samples` adds up.
-/

namespace Nestcheck
open Spec
variable {σ : Type}

theorem flatMap_zip_length {l : List (Run ℝ)} (h : ∀ t ∈ l, t.theta.length = t.logl.length) :
    (l.flatMap (fun t => t.logl.zip t.theta)).length = (l.map (fun t => t.logl.length)).sum := by
  rw [List.length_flatMap]
  congr 1
  apply List.map_congr_left
  intro t ht
  rw [List.length_zip, h t ht, Nat.min_self]

theorem sum_counts (l : List (Run ℝ)) :
    (l.map countSamples).sum = (((l.map (fun t => t.logl.length)).sum : Nat) : ℝ) := by
  induction l with
  | nil => simp
  | cons a l ih => simp [ih, countSamples]

/-- C64, `process_samples_array`: as many samples as there are dead points. -/
theorem C64_process (R : Rng σ ℝ) {samples : List (Sample ℝ)} {init : ℝ} (hc : Consistent samples init)
    (A : Argsort ℝ) (da dw : Bool) {w w' : World σ} {r : Run ℝ}
    (h : processSamples A R samples da dw w = (.ok r, w')) : countSamples r = samples.length := by
  obtain ⟨r', h1, h2, -⟩ := C01_nlive_exact R hc A da dw (σ := σ)
  rw [h1 w] at h
  cases h
  rw [countSamples, h2]

/-- C64, `get_run_threads`: the counts of the threads add up to that of the run. -/
theorem C64_threads {r : Run ℝ} (h : Valid r) {w w' : World σ} {ts : List (Run ℝ)}
    (ht : getRunThreads r w = (.ok ts, w')) : (ts.map countSamples).sum = countSamples r := by
  obtain ⟨labels, tmm, hv⟩ := h
  obtain ⟨ts', h1, h2, h3, h4⟩ := C17_split (σ := σ) hv
  rw [h1 w] at ht
  cases ht
  have hth : ∀ t ∈ ts, t.theta.length = t.logl.length := by
    intro t htm
    obtain ⟨k, hk⟩ := List.mem_iff_getElem?.mp htm
    have hkl : k < tmm.length := by rw [← h2]; exact (List.getElem?_eq_some_iff.mp hk).1
    obtain ⟨e1, e2, -⟩ := h3 k t _ hk (List.getElem?_eq_getElem hkl)
    rw [e1, e2]
    rw [length_pick (by rw [hv.labels_len, hv.theta_len]), length_pick (by rw [hv.labels_len])]
  have := h4.length_eq
  rw [flatMap_zip_length hth, List.length_zip, hv.theta_len, Nat.min_self] at this
  rw [sum_counts, this, countSamples]

/-- C64, `combine_threads`: whatever threads it is given, and whether or not their
births can be made consistent, a run it returns has exactly their samples. -/
theorem C64_combine_threads (R : Rng σ ℝ) {A : Argsort ℝ} {threads : List (Run ℝ)} {abp : Bool}
    (hl : ∀ t ∈ threads, t.theta.length = t.logl.length) {run : Run ℝ} {w w' : World σ}
    (h : combineThreads A R threads abp w = (.ok run, w')) :
    (run.logl.zip run.theta).Perm (threads.flatMap (fun t => t.logl.zip t.theta)) ∧
    countSamples run = (threads.map countSamples).sum := by
  obtain ⟨h1, -, h2, -⟩ := combineThreads_inv R h
  refine ⟨h1, ?_⟩
  have := h1.length_eq
  rw [flatMap_zip_length hl, List.length_zip, h2, Nat.min_self] at this
  rw [sum_counts, ← this, countSamples]

theorem relabelled_length {runs : List (Run ℝ)} (h : ∀ r ∈ runs, Valid r) (n : Nat) :
    (relabelled n runs).length = (runs.map (fun t => t.logl.length)).sum := by
  induction runs generalizing n with
  | nil => rfl
  | cons r rs ih =>
    obtain ⟨labels, tmm, hv⟩ := h r (by simp)
    have h1 := hv.labels_len
    have h2 := hv.theta_len
    rw [relabelled, List.length_append, ih (fun r hr => h r (by simp [hr])), List.map_cons, List.sum_cons]
    rw [hv.labels_eq]
    simp only [Option.getD_some, List.length_zip, List.length_map]
    omega

/-- C64, `combine_ns_runs`: the counts of the runs add up to that of their combination. -/
theorem C64_combine_runs (A : Argsort ℝ) (da dw : Bool) {runs : List (Run ℝ)} {m : ℝ}
    (h : Combinable runs m) {w w' : World σ} {c : Run ℝ}
    (hc : combineRuns A runs da dw w = (.ok c, w')) : countSamples c = (runs.map countSamples).sum := by
  obtain ⟨c', labels, h1, h2, -, h4, -⟩ := C19_combine_runs (σ := σ) A da dw h
  rw [h1 w] at hc
  cases hc
  have e := h4.length_eq
  have e1 := h2.labels_len
  have e2 := h2.theta_len
  rw [relabelled_length h.valid, List.length_zip, List.length_zip] at e
  rw [sum_counts, ← e, countSamples]
  congr 1
  omega

section examples

example : Consistent [(⟨[0], 1, -5⟩ : Sample ℝ), ⟨[1], 2, 1⟩, ⟨[7], 3, -5⟩] (-5) where
  nonempty := by simp
  distinct := by norm_num
  below := by simp only [List.mem_cons, List.not_mem_nil, or_false, forall_eq_or_imp, forall_eq]; norm_num
  births := by simp only [List.mem_cons, List.not_mem_nil, or_false, forall_eq_or_imp, forall_eq,
    exists_eq_or_imp, exists_eq_left]; norm_num

/-- Two runs with one thread each. -/
noncomputable def exCountA : Run ℝ :=
  { logl := [1, 3], nlive := [1, 1], theta := [[5], [6]], labels := some [0, 0], tmm := some [(⊥, 3)] }

noncomputable def exCountB : Run ℝ :=
  { logl := [2], nlive := [1], theta := [[4]], labels := some [0], tmm := some [(⊥, 2)] }

theorem exCountA_valid : Valid exCountA := by
  refine ⟨_, _, validWith_iff.mpr ⟨rfl, rfl, rfl, rfl, rfl, ?_, ?_⟩⟩
  · simp [exCountA]
  · show ThreadsOK ([1, 3] : List ℝ) [0, 0] [(⊥, 3)]
    rw [threadsOK_iff_pick (K := ℝ) (logl := [1, 3]) (labels := [0, 0]) (by simp) rfl]
    refine ⟨?_, ⟨(⊥, 3), List.mem_singleton_self _, rfl⟩, ?_⟩
    · intro k; simp; omega
    · intro k mm hk
      obtain ⟨rfl, rfl⟩ : k = 0 ∧ mm = (⊥, 3) := by
        cases k with
        | zero => exact ⟨rfl, by simpa using hk.symm⟩
        | succ k => simp at hk
      simp [pick]

theorem exCountB_valid : Valid exCountB := by
  refine ⟨_, _, validWith_iff.mpr ⟨rfl, rfl, rfl, rfl, rfl, ?_, ?_⟩⟩
  · simp [exCountB]
  · show ThreadsOK ([2] : List ℝ) [0] [(⊥, 2)]
    rw [threadsOK_iff_pick (K := ℝ) (logl := [2]) (labels := [0]) (by simp) rfl]
    refine ⟨?_, ⟨(⊥, 2), List.mem_singleton_self _, rfl⟩, ?_⟩
    · intro k; simp; omega
    · intro k mm hk
      obtain ⟨rfl, rfl⟩ : k = 0 ∧ mm = (⊥, 2) := by
        cases k with
        | zero => exact ⟨rfl, by simpa using hk.symm⟩
        | succ k => simp at hk
      simp [pick]

example : Combinable [exCountA, exCountB] 1 where
  valid := by simp [exCountA_valid, exCountB_valid]
  pos := by simp [exCountA, exCountB]
  last := by simp [exCountA, exCountB]
  distinct := by simp [exCountA, exCountB]
  dim := by simp [SameDim, exCountA, exCountB]
  low_mem := by simp [exCountA, exCountB]
  low := by simp [exCountA, exCountB]
  first := by simp [exCountA, exCountB]
  onLow := by simp [exCountA, exCountB, allStarts]

end examples
end Nestcheck
