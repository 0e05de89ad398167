import Verif.Props.AnyErrors
import Verif.Props.EndToEnd

/-
C115: estimates for runs whose dead-birth arrays have plateaus and surplus births.
-/

set_option linter.unusedSectionVars false

namespace Nestcheck
open Spec

noncomputable section
variable {σ : Type} (A : Argsort ℝ) (R : Rng σ ℝ)

/-- C115.  A run returned for samples with `d` parameters born strictly below their loglikelihoods: estimators apply to
it. -/
theorem C115_estimable {samples : List (Sample ℝ)} (hlt : ∀ s ∈ samples, s.birth < s.logl) {d : Nat}
    (hd : ∀ s ∈ samples, s.theta.length = d) {da dw : Bool} {w w' : World σ} {r : Run ℝ}
    (h : processSamples A R samples da dw w = (.ok r, w')) : Valid r ∧ Estimable d r := by
  obtain ⟨rows, -, -, -, labels, tmm, hp, hl, ht, hv, -⟩ := C115_returns R h
  obtain ⟨hpos, -, -⟩ := C115_live R hlt h
  refine ⟨⟨labels, tmm, hv⟩, ⟨?_, fun n hn => by have := hpos n hn; omega, hv.nlive_len⟩, hv.theta_len, ?_⟩
  · intro e
    obtain ⟨p, hmem, -⟩ := hv.init
    have h0 : (0 : Int) ∈ labels := (hv.labels_range 0).mpr ⟨le_refl _, by
      have := List.length_pos_of_mem hmem
      omega⟩
    have hll := hv.labels_len
    rw [e, List.length_nil] at hll
    rw [List.length_eq_zero_iff.mp hll] at h0
    cases h0
  · intro t hm
    rw [ht] at hm
    obtain ⟨s, hs, rfl⟩ := List.mem_map.mp hm
    exact hd s (hp.mem_iff.mp hs)

/-- C115.  From a dead-birth array with plateaus and any number of births on a contour to estimates: if every sample was
born strictly below its own loglikelihood and all birth contours but one are loglikelihoods of samples, then a run is
returned, and the estimators of the package which apply to its number of parameters are computed from it with expected
and with simulated weights, and for each of its threads.  No call raises and no value is nan. -/
theorem C115_estimates {samples : List (Sample ℝ)} (hne : samples ≠ []) (hlt : ∀ s ∈ samples, s.birth < s.logl)
    {init : ℝ} (hb : ∀ s ∈ samples, s.birth = init ∨ ∃ t ∈ samples, t.logl = s.birth) {d : Nat}
    (hd : ∀ s ∈ samples, s.theta.length = d) {es : List Estimator} (he : ∀ e ∈ es, Applies d e)
    (hu : PositiveDraws R) (dw sim : Bool) {n : Nat} (hn : 2 ≤ n) (w : World σ) :
    ∃ (r : Run ℝ) (w' : World σ), processSamples A R samples false dw w = (.ok r, w') ∧
      (∀ v : World σ, ∃ (vs : List ℝ) (v' : World σ),
        runEstimators R r (es.map (·.call A R)) sim v = (.ok (vs.map some), v') ∧ vs.length = es.length) ∧
      (∀ v : World σ, ∃ (stds : List ℝ) (v' : World σ),
        runStdSimulate R r (es.map (·.call A R)) (some n) v = (.ok (stds.map some), v') ∧ stds.length = es.length ∧
        ∀ x ∈ stds, 0 ≤ x) ∧
      ∀ v : World σ, ∃ vals : List (List ℝ),
        runThreadValues R r (es.map (·.call A R)) v = (.ok (vals.map (·.map some)), v) ∧ vals.length = es.length := by
  obtain ⟨r, hr⟩ := (C115_strict R A false dw w hne hlt).1.mpr ⟨⟨init, hb⟩, by simp⟩
  have h : processSamples A R samples false dw w = (.ok r, (processSamples A R samples false dw w).2) := by
    rw [← hr]
  obtain ⟨⟨labels, tmm, hv⟩, hest⟩ := C115_estimable A R hlt hd h
  refine ⟨r, _, h, fun v => ?_, fun v => ?_, fun v => ?_⟩
  · obtain ⟨vs, e1, e2⟩ := C82_estimates A R hest he sim v (fun _ => hu _ _)
    exact ⟨vs, _, e1, e2⟩
  · obtain ⟨vs, v', e1, e2, e3, -⟩ := C82_simulate A R hest he hu hn v
    exact ⟨vs, v', e1, e2, e3⟩
  · obtain ⟨vs, e1, e2, -⟩ := C82_threads A R hv hest.dim he v
    exact ⟨vs, e1, e2⟩

/-- Two samples on a plateau at 1 and three samples born on it: more births than deaths. -/
def crowdedReal : List (Sample ℝ) :=
  [⟨[10, 1], 1, -100⟩, ⟨[20, 4], 1, -100⟩, ⟨[30, 9], 2, 1⟩, ⟨[40, 2], 3, 1⟩, ⟨[50, 3], 4, 1⟩]

/-- The hypotheses can be met, with seven estimators. -/
example (w : World Nat) : ∃ (r : Run ℝ) (w' : World Nat),
    processSamples A halfRng crowdedReal false false w = (.ok r, w') ∧
    ∀ v : World Nat, ∃ (vs : List ℝ) (v' : World Nat),
      runEstimators halfRng r ([Estimator.logz, .evidence, .paramMean 1 false, .paramCred 0.5 0, .paramSquaredMean 1, .rMean,
        .rCred 0.84].map (·.call A halfRng)) true v = (.ok (vs.map some), v') ∧ vs.length = 7 := by
  obtain ⟨r, w', h1, h2, -⟩ := C115_estimates A halfRng (samples := crowdedReal) (by simp [crowdedReal])
    (by simp [crowdedReal]; norm_num) (init := -100) (by simp [crowdedReal]) (d := 2) (by simp [crowdedReal])
    (es := [Estimator.logz, .evidence, .paramMean 1 false, .paramCred 0.5 0, .paramSquaredMean 1, .rMean, .rCred 0.84])
    (by simp [Applies]; norm_num) halfRng_positive false true (n := 10) (by norm_num) w
  exact ⟨r, w', h1, h2⟩

end
end Nestcheck
