import Verif.Props.SeveralSimulated
import Verif.Props.SimulatedExamples

/-! Examples for C108. -/

namespace Nestcheck
open Spec MeasureTheory ENNReal Filter Topology

noncomputable section

/-- The points of the samplers, when the points of all of them are given. -/
def apart {α : Type} {m : Nat} {n : Fin m → Nat} (f : Fin (∑ i, n i) → α) : ∀ i, Fin (n i) → α := fun i b => f (idx i b)

theorem together_apart {α : Type} {m : Nat} {n : Fin m → Nat} (f : Fin (∑ i, n i) → α) : together (apart f) = f := by
  funext j
  obtain ⟨i, b, rfl⟩ := exists_idx j
  rw [together_idx]
  rfl

theorem apart_points {E : Type} [MeasurableSpace E] (ν : Measure E) {m : Nat} (n : Fin m → Nat) :
    IidPoints ((unifPow (∑ i, n i)).prod (Measure.pi fun _ : Fin (∑ i, n i) => ν)) ν
      (fun ω : (Fin (∑ i, n i) → ℝ) × (Fin (∑ i, n i) → E) => together (apart ω.1)) (fun ω => together (apart ω.2)) := by
  simp only [together_apart]
  exact prod_points ν _

theorem untilHalf_slow (n m : Nat) (start : Finset (Fin (n + m))) : SlowStart (untilHalf n m) start := by
  intro a _ t
  unfold untilHalf
  split_ifs <;> simp

/-- The starting points of `untilHalf`. -/
def firstPoints (n m : Nat) : Finset (Fin (n + m)) := Finset.univ.filter (fun i => (i : Nat) < n)

theorem firstPoints_card (n m : Nat) : (firstPoints n m).card = n := by
  rw [firstPoints, Fin.card_filter_val_lt]
  omega

/-- `k + 1` samplers, the `i`-th of which has `i + 1` live points and stops at half of the prior volume: `param_mean` of the combined run
converges. -/
example : Tendsto (fun k : ℕ => (unifPow (∑ i : Fin (k + 1), ((i : Nat) + 1 + 10))).prod
        (Measure.pi fun _ : Fin (∑ i : Fin (k + 1), ((i : Nat) + 1 + 10)) => coin)
      {ω | CombinedMisses (cubeRng 3) (fun x => -x) (fun x e => [if e then x else -x]) (fun i : Fin (k + 1) => untilHalf ((i : Nat) + 1) 10)
        (fun i => firstPoints ((i : Nat) + 1) 10) (apart ω.1) (apart ω.2) (-2) fun _ c w => ∀ handle, ∃ m,
        paramMean (cubeRng 3) c none false 0 handle w = (.ok (some m), w) ∧
          |m - posteriorMean (fun x => -x) coin (fun x e => if e then x else -x)| < 1 / 100}) atTop (𝓝 0) :=
  C108_param_mean (ind := 0) (m := fun k => k + 1) (n := fun k i => (i : Nat) + 1 + 10) (rule := fun k i => untilHalf ((i : Nat) + 1) 10)
    (start := fun k i => firstPoints ((i : Nat) + 1) 10)
    (fun k i => untilHalf_stopping 10 (Nat.succ_pos i)) (fun k i => untilHalf_slow _ _ _)
    (fun k => apart_points coin _) (by
      simp only [firstPoints_card]
      refine tendsto_atTop_mono (fun k => ?_) (tendsto_add_atTop_nat 1)
      calc k + 1 = ∑ i : Fin (k + 1), 1 := by simp
        _ ≤ ∑ i : Fin (k + 1), ((i : Nat) + 1) := Finset.sum_le_sum fun i _ => Nat.le_add_left _ _)
    (loglike := fun x => -x) (init := -2) (fun x _ y _ h => by simpa using h)
    (fun x hx => by have := hx.2; linarith) (b := 0) (fun x hx => by have := hx.1; linarith) (fun _ _ _ _ => rfl) (fun x _ e => rfl)
    (Measurable.ite (measurable_snd (measurableSet_singleton true)) measurable_fst measurable_fst.neg) (B := 1) (fun x hx e => by
      have := hx.1
      have := hx.2
      cases e <;> simp [abs_of_pos hx.1] <;> linarith) (by
      have h : ∀ x : ℝ, ∫ e, (if e then x else -x) ∂coin = coin.real {true} * x + coin.real {false} * -x := fun x => by
        rw [integral_fintype Integrable.of_finite, Fintype.sum_bool]
        rfl
      simp only [h]
      exact ae_of_all _ fun x => by fun_prop) (by norm_num)

theorem apart_simulated {E : Type} [MeasurableSpace E] (ν : Measure E) {m : Nat} (n : Fin m → Nat) :
    IidSimulated (((unifPow (∑ i, n i)).prod (unifPow (∑ i, n i))).prod (Measure.pi fun _ : Fin (∑ i, n i) => ν)) ν
      (fun ω : ((Fin (∑ i, n i) → ℝ) × (Fin (∑ i, n i) → ℝ)) × (Fin (∑ i, n i) → E) => together (apart ω.1.1)) (fun ω => ω.1.2)
      (fun ω => together (apart ω.2)) := by
  simp only [together_apart]
  exact prod_simulated ν _

/-- `k + 1` samplers, the `i`-th of which has `i + 1` live points and stops at half of the prior volume: `param_mean` of the combined run with simulated
prior volumes converges. -/
example : Tendsto (fun k : ℕ => ((unifPow (∑ i : Fin (k + 1), ((i : Nat) + 1 + 10))).prod (unifPow (∑ i : Fin (k + 1), ((i : Nat) + 1 + 10)))).prod
        (Measure.pi fun _ : Fin (∑ i : Fin (k + 1), ((i : Nat) + 1 + 10)) => coin)
      {ω | SimCombinedMisses streamRng (fun x => -x) (fun x e => [if e then x else -x]) (fun i : Fin (k + 1) => untilHalf ((i : Nat) + 1) 10)
        (fun i => firstPoints ((i : Nat) + 1) 10) (apart ω.1.1) ω.1.2 (apart ω.2) (-2) fun _ c w => ∀ handle, ∃ m w',
        paramMean streamRng c none true 0 handle w = (.ok (some m), w') ∧
          |m - posteriorMean (fun x => -x) coin (fun x e => if e then x else -x)| < 1 / 100}) atTop (𝓝 0) :=
  C108_simulated_param_mean (ind := 0) (m := fun k => k + 1) (n := fun k i => (i : Nat) + 1 + 10) (rule := fun k i => untilHalf ((i : Nat) + 1) 10)
    (start := fun k i => firstPoints ((i : Nat) + 1) 10)
    (fun k i => untilHalf_stopping 10 (Nat.succ_pos i)) (fun k i => untilHalf_slow _ _ _)
    (fun k => apart_simulated coin _) (by
      simp only [firstPoints_card]
      refine tendsto_atTop_mono (fun k => ?_) (tendsto_add_atTop_nat 1)
      calc k + 1 = ∑ i : Fin (k + 1), 1 := by simp
        _ ≤ ∑ i : Fin (k + 1), ((i : Nat) + 1) := Finset.sum_le_sum fun i _ => Nat.le_add_left _ _)
    (loglike := fun x => -x) (init := -2) (fun x _ y _ h => by simpa using h)
    (fun x hx => by have := hx.2; linarith) (b := 0) (fun x hx => by have := hx.1; linarith) (fun _ _ _ _ => rfl) (fun x _ e => rfl)
    (Measurable.ite (measurable_snd (measurableSet_singleton true)) measurable_fst measurable_fst.neg) (B := 1) (fun x hx e => by
      have := hx.1
      have := hx.2
      cases e <;> simp [abs_of_pos hx.1] <;> linarith) (by
      have h : ∀ x : ℝ, ∫ e, (if e then x else -x) ∂coin = coin.real {true} * x + coin.real {false} * -x := fun x => by
        rw [integral_fintype Integrable.of_finite, Fintype.sum_bool]
        rfl
      simp only [h]
      exact ae_of_all _ fun x => by fun_prop) (by norm_num)

/-- These samplers have executions. -/
example (k : ℕ) : ∀ᵐ ω ∂(unifPow (∑ i : Fin (k + 1), ((i : Nat) + 1 + 10))).prod
        (Measure.pi fun _ : Fin (∑ i : Fin (k + 1), ((i : Nat) + 1 + 10)) => coin),
    ∃ live its, SeveralExecutions (fun x => -x) (fun x e => [if e then x else -x]) (fun i : Fin (k + 1) => untilHalf ((i : Nat) + 1) 10)
        (fun i => firstPoints ((i : Nat) + 1) 10) (apart ω.1) (apart ω.2) (-2) live its :=
  C108_exists (fun i => untilHalf_stopping 10 (Nat.succ_pos i)) (apart_points coin _) (fun x _ y _ h => by simpa using h)
    (fun x hx => by have := hx.2; linarith) _

end

end Nestcheck
