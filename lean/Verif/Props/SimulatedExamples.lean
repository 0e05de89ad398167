import Verif.Props.SimulatedEstimates
import Verif.Props.PosteriorExamples

/-! Examples for C98 and C99. -/

namespace Nestcheck
open Spec MeasureTheory ENNReal Filter Topology

noncomputable section

/-- For every `C` there are runs to which `C98_run` applies. -/
example (C : Nat) : Weighable { exReal with logl := [0, 1, 2], nlive := [(C : Int) + 3, C + 2, C + 1] } ∧
    ([0, 1, 2] : List ℝ).Pairwise (· ≤ ·) ∧ (∀ n ∈ [(C : Int) + 3, C + 2, C + 1].head?, (C : Int) ≤ n) ∧
    [(C : Int) + 3, C + 2, C + 1].IsChain (fun a b => a ≤ b + 1) ∧
    IidUniform (unifPow 3) 3 (fun s => ((cubeRng 3).uniform 3 (⟨s, []⟩ : World (Fin 3 → ℝ)).rng).1) := by
  refine ⟨⟨by simp, ?_, by simp⟩, ?_, ?_, ?_, cubeRng_iid 3⟩
  · simp
    omega
  · norm_num
  · simp
  · simp
    omega

/-- With probability one there is a world in which the generator delivers the numbers. -/
example (n : Nat) : ∀ᵐ s ∂unifPow n, ∃ w, Delivers streamRng w (List.ofFn s) := by
  filter_upwards [pi_pos n] with s hs
  exact ⟨_, streamRng_delivers hs []⟩

/-- `logz` with simulated prior volumes, for samplers which stop at half of the prior volume. -/
example : Tendsto (fun k : ℕ => (unifPow (k + 1 + 10)).prod (Measure.pi fun _ : Fin (k + 1 + 10) => volume.restrict (Set.Ico (0 : ℝ) 1))
      {ω | ∃ live its samples, AdaptiveExecution (fun x => -x) (untilHalf (k + 1) 10)
        (Finset.univ.filter (fun i : Fin (k + 1 + 10) => (i : Nat) < k + 1)) ω.1 (-2) live its ∧
      samples.Perm (its.map (·.dead)) ∧ ∃ (A : Argsort ℝ) (da dw : Bool) (w : World (Nat → ℝ)), Delivers streamRng w (List.ofFn ω.2) ∧
        ¬ ∃ (r : Run ℝ) (z : ℝ) (w' : World (Nat → ℝ)), processSamples A streamRng samples da dw w = (.ok r, w) ∧
          logz streamRng r none true w = (.ok z, w') ∧ |z - Real.log (∫ x in (0 : ℝ)..1, Real.exp (-x))| < 1 / 100}) atTop (𝓝 0) :=
  C98_logz (N := fun k => k + 1 + 10) (rule := fun k => untilHalf (k + 1) 10) (fun k => untilHalf_stopping 10 (Nat.succ_pos k))
    (fun k => prod_points _ _) growing_starts (loglike := fun x => -x) (init := -2) (fun x _ y _ h => by simpa using h)
    (fun x hx => by have := hx.2; linarith) (b := 0) (fun x hx => by have := hx.1; linarith) (by norm_num)

theorem prod_simulated {E : Type} [MeasurableSpace E] (ν : Measure E) (n : Nat) :
    IidSimulated (((unifPow n).prod (unifPow n)).prod (Measure.pi fun _ : Fin n => ν)) ν (fun ω => ω.1.1) (fun ω => ω.1.2)
      (fun ω : ((Fin n → ℝ) × (Fin n → ℝ)) × (Fin n → E) => ω.2) := by
  unfold IidSimulated
  simp only [Prod.mk.eta]
  exact Measure.map_id

/-- `param_mean` with simulated prior volumes, for a parameter with a uniform prior on `(-1, 1)` and a likelihood which depends on its absolute
value. -/
example : Tendsto (fun k : ℕ => ((unifPow (k + 1 + 10)).prod (unifPow (k + 1 + 10))).prod (Measure.pi fun _ : Fin (k + 1 + 10) => coin)
      {ω | SimMisses streamRng (fun x => -x) (fun x e => [if e then x else -x]) (untilHalf (k + 1) 10)
        (Finset.univ.filter (fun i : Fin (k + 1 + 10) => (i : Nat) < k + 1)) ω.1.1 ω.1.2 ω.2 (-2) fun _ r w => ∀ handle, ∃ m w',
        paramMean streamRng r none true 0 handle w = (.ok (some m), w') ∧
          |m - posteriorMean (fun x => -x) coin (fun x e => if e then x else -x)| < 1 / 100}) atTop (𝓝 0) :=
  C99_param_mean (ind := 0) (N := fun k => k + 1 + 10) (rule := fun k => untilHalf (k + 1) 10) (fun k => untilHalf_stopping 10 (Nat.succ_pos k))
    (fun k => prod_simulated coin _) growing_starts (loglike := fun x => -x) (init := -2) (fun x _ y _ h => by simpa using h)
    (fun x hx => by have := hx.2; linarith) (b := 0) (fun x hx => by have := hx.1; linarith) (fun x _ e => rfl)
    (Measurable.ite (measurable_snd (measurableSet_singleton true)) measurable_fst measurable_fst.neg) (B := 1) (fun x hx e => by
      have := hx.1
      have := hx.2
      cases e <;> simp [abs_of_pos hx.1] <;> linarith) (by
      have h : ∀ x : ℝ, ∫ e, (if e then x else -x) ∂coin = coin.real {true} * x + coin.real {false} * -x := fun x => by
        rw [integral_fintype Integrable.of_finite, Fintype.sum_bool]
        rfl
      simp only [h]
      exact ae_of_all _ fun x => by fun_prop) (by norm_num)

end

end Nestcheck
