import Verif.Props.PosteriorEstimates
import Verif.Props.EvidenceExamples

/-! Examples for C96 and C97. -/

namespace Nestcheck
open Spec MeasureTheory ENNReal Filter Topology

noncomputable section

theorem prod_points {E : Type} [MeasurableSpace E] (ν : Measure E) (n : Nat) : IidPoints ((unifPow n).prod (Measure.pi fun _ : Fin n => ν)) ν
    (fun ω => ω.1) (fun ω : (Fin n → ℝ) × (Fin n → E) => ω.2) := by
  unfold IidPoints
  simp only [Prod.mk.eta]
  exact Measure.map_id

theorem growing_starts : Tendsto (fun k : ℕ => (Finset.univ.filter (fun i : Fin (k + 1 + 10) => (i : Nat) < k + 1)).card) atTop atTop := by
  have : ∀ k : ℕ, (Finset.univ.filter (fun i : Fin (k + 1 + 10) => (i : Nat) < k + 1)).card = k + 1 := fun k => by
    rw [Fin.card_filter_val_lt]
    omega
  simp only [this]
  exact tendsto_add_atTop_nat 1

/-- A fair coin. -/
def coin : Measure Bool := (1 / 2 : ℝ≥0∞) • Measure.dirac true + (1 / 2 : ℝ≥0∞) • Measure.dirac false

instance : IsProbabilityMeasure coin := ⟨by simp [coin, ENNReal.inv_two_add_inv_two]⟩

/-- A parameter with a uniform prior on `(-1, 1)` and a likelihood which depends on its absolute value, for samplers which stop at half of
the prior volume: `param_mean` converges. -/
example : Tendsto (fun k : ℕ => (unifPow (k + 1 + 10)).prod (Measure.pi fun _ : Fin (k + 1 + 10) => coin)
      {ω | Misses (cubeRng 3) (fun x => -x) (fun x e => [if e then x else -x]) (untilHalf (k + 1) 10)
        (Finset.univ.filter (fun i : Fin (k + 1 + 10) => (i : Nat) < k + 1)) ω.1 ω.2 (-2) fun _ r w => ∀ handle, ∃ m,
        paramMean (cubeRng 3) r none false 0 handle w = (.ok (some m), w) ∧
          |m - posteriorMean (fun x => -x) coin (fun x e => if e then x else -x)| < 1 / 100}) atTop (𝓝 0) :=
  C96_param_mean (ind := 0) (N := fun k => k + 1 + 10) (rule := fun k => untilHalf (k + 1) 10) (fun k => untilHalf_stopping 10 (Nat.succ_pos k))
    (fun k => prod_points coin _) growing_starts (loglike := fun x => -x) (init := -2) (fun x _ y _ h => by simpa using h)
    (fun x hx => by have := hx.2; linarith) (b := 0) (fun x hx => by have := hx.1; linarith) (fun x _ e => rfl)
    (Measurable.ite (measurable_snd (measurableSet_singleton true)) measurable_fst measurable_fst.neg) (B := 1) (fun x hx e => by
      have := hx.1
      have := hx.2
      cases e <;> simp [abs_of_pos hx.1] <;> linarith) (by
      have h : ∀ x : ℝ, ∫ e, (if e then x else -x) ∂coin = coin.real {true} * x + coin.real {false} * -x := fun x => by
        rw [integral_fintype Integrable.of_finite, Fintype.sum_bool]
        rfl
      simp only [h]
      exact ae_of_all _ fun x => by fun_prop) (by norm_num)

theorem uniform_cdf (t : ℝ) : unif.real {e : ℝ | e ≤ t} = min (max t 0) 1 := by
  unfold unif
  rw [measureReal_restrict_apply (s := Set.Ico 0 1) (show MeasurableSet {e : ℝ | e ≤ t} from measurableSet_Iic)]
  by_cases h : t < 1
  · have : {e : ℝ | e ≤ t} ∩ Set.Ico 0 1 = Set.Icc 0 t := by
      ext e
      simp only [Set.mem_inter_iff, Set.mem_ofPred_eq, Set.mem_Ico, Set.mem_Icc]
      constructor
      · rintro ⟨h1, h2, _⟩
        exact ⟨h2, h1⟩
      · rintro ⟨h1, h2⟩
        exact ⟨h2, h1, lt_of_le_of_lt h2 h⟩
    rw [this, Real.volume_real_Icc, sub_zero, min_eq_left (max_le h.le zero_le_one)]
  · push Not at h
    have : {e : ℝ | e ≤ t} ∩ Set.Ico 0 1 = Set.Ico 0 1 := by
      apply Set.inter_eq_right.mpr
      intro e he
      exact he.2.le.trans h
    rw [this, Real.volume_real_Ico_of_le zero_le_one, sub_zero, min_eq_right (le_max_of_le_left h)]

/-- The second parameter of these points is uniform and independent of the likelihood, and `param_cred` converges to its median. -/
example : Tendsto (fun k : ℕ => (unifPow (k + 1 + 10)).prod (Measure.pi fun _ : Fin (k + 1 + 10) => unif)
      {ω | Misses (cubeRng 3) (fun x => -x) (fun x e => [x, e]) (untilHalf (k + 1) 10)
        (Finset.univ.filter (fun i : Fin (k + 1 + 10) => (i : Nat) < k + 1)) ω.1 ω.2 (-2) fun A r w => ∃ y,
        paramCred A (cubeRng 3) r none false (1 / 2) 1 w = (.ok y, w) ∧ |y - 1 / 2| < 1 / 100}) atTop (𝓝 0) :=
  C97_param_cred (ind := 1) (N := fun k => k + 1 + 10) (rule := fun k => untilHalf (k + 1) 10) (fun k => untilHalf_stopping 10 (Nat.succ_pos k))
    (fun k => prod_points unif _) growing_starts (loglike := fun x => -x) (init := -2) (fun x _ y _ h => by simpa using h)
    (fun x hx => by have := hx.2; linarith) (b := 0) (fun x hx => by have := hx.1; linarith) (q := fun _ e => e) (fun x _ e => rfl)
    measurable_snd (fun t => ae_of_all _ fun x => continuousAt_const) (by norm_num) (by norm_num) (by
      have hcdf : ∀ t, posteriorCdf (fun x => -x) unif (fun _ e => e) t = min (max t 0) 1 := by
        intro t
        have hZ := evidence_pos (loglike := fun x => -x) (fun x _ y _ h => by simpa using h) (b := 0) (fun x hx => by have := hx.1; linarith)
        unfold posteriorCdf posteriorMean
        have hi := indicator_cdf (ν := unif) (q := fun _ e => e) measurable_snd t 0
        rw [intervalIntegral.integral_mul_const, mul_comm, mul_div_assoc, div_self hZ.ne', mul_one, hi, uniform_cdf]
      refine ⟨fun t ht => ?_, fun t ht => ?_⟩
      · rw [hcdf]
        exact lt_of_le_of_lt (min_le_left _ _) (max_lt ht (by norm_num))
      · rw [hcdf]
        exact lt_min (lt_of_lt_of_le ht (le_max_left _ _)) (by norm_num)) (by norm_num)

end

end Nestcheck
