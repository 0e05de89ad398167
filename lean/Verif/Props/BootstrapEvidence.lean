import Mathlib.MeasureTheory.Measure.Prod
import Verif.Props.BootstrapLevels

/-! C101: the mean distance between the evidence of a bootstrap replication and the evidence of the run. -/

namespace Nestcheck
open Spec MeasureTheory ProbabilityTheory ENNReal

noncomputable section

section draws
variable {n : Nat} {sep : Option Nat} (hsep : ∀ k, sep = some k → k ≤ n)
include hsep

theorem sum_variance_le (F : Nat → ℝ) :
    ∑ i ∈ Finset.range n, (F i - meanOver (group n sep i) F) ^ 2 ≤ ∑ i ∈ Finset.range n, F i ^ 2 := by
  rw [← sum_meanOver hsep (fun s i => (F i - meanOver s F) ^ 2), ← sum_meanOver hsep (fun _ i => F i ^ 2)]
  apply Finset.sum_le_sum
  intro j hj
  have := group_prob hsep (n := n) ⟨j, Finset.mem_range.mp hj⟩
  rw [← variance_uniformOn, ← integral_uniformOn]
  exact variance_le_expectation_sq (by fun_prop)

/-- The mean deviation of a sum over independent draws from its mean. -/
theorem draws_deviation (F : Nat → ℝ) :
    ∫⁻ u : Fin n → Nat, ENNReal.ofReal |∑ j, F (u j) - ∑ i ∈ Finset.range n, F i|
      ∂Measure.pi (fun j : Fin n => uniformOn (group n sep j : Set Nat)) ≤ ENNReal.ofReal (√(∑ i ∈ Finset.range n, F i ^ 2)) := by
  have hprob := fun j => group_prob hsep (n := n) j
  set Q := Measure.pi (fun j : Fin n => uniformOn (group n sep j : Set Nat)) with hQ
  have hev : ∀ j : Fin n, MeasurePreserving (fun u : Fin n → Nat => u j) Q (uniformOn (group n sep j : Set Nat)) :=
    fun j => measurePreserving_eval _ j
  have hmem : MemLp (fun u : Fin n → Nat => ∑ j, F (u j)) 2 Q :=
    memLp_finsetSum _ fun j _ => (memLp_uniformOn _ F).comp_measurePreserving (hev j)
  have hX : MemLp (fun u : Fin n → Nat => ∑ j, F (u j) - ∑ i ∈ Finset.range n, F i) 2 Q := hmem.sub (memLp_const _)
  have hA : MemLp (fun u : Fin n → Nat => |∑ j, F (u j) - ∑ i ∈ Finset.range n, F i|) 2 Q := hX.abs
  have hmean := (sum_mean hsep F).2
  have hvar := sum_variance hsep F
  rw [← hQ] at hmean
  rw [variance_eq_integral hmem.aemeasurable, hmean] at hvar
  have h1 : 0 ≤ Var[fun u : Fin n → Nat => |∑ j, F (u j) - ∑ i ∈ Finset.range n, F i|; Q] := variance_nonneg _ _
  rw [variance_eq_sub hA] at h1
  have h2 : ∫ u, (fun u : Fin n → Nat => |∑ j, F (u j) - ∑ i ∈ Finset.range n, F i|) u ^ 2 ∂Q ≤ ∑ i ∈ Finset.range n, F i ^ 2 := by
    simp only [sq_abs]
    rw [hvar]
    exact sum_variance_le hsep F
  rw [← ofReal_integral_eq_lintegral_ofReal (hA.integrable (by norm_num)) (Filter.Eventually.of_forall fun _ => abs_nonneg _)]
  apply ENNReal.ofReal_le_ofReal
  apply Real.le_sqrt_of_sq_le
  have h3 : ∫ u, ((fun u : Fin n → Nat => |∑ j, F (u j) - ∑ i ∈ Finset.range n, F i|) ^ 2) u ∂Q =
      ∫ u, (fun u : Fin n → Nat => |∑ j, F (u j) - ∑ i ∈ Finset.range n, F i|) u ^ 2 ∂Q := rfl
  rw [h3] at h1
  linarith

end draws

/-- The evidence of a replication as a function of the draws. -/
def drawnEvidence (labels : List Int) (logl : List ℝ) (N : Nat) (b : ℝ) (u : Fin N → Nat) : ℝ :=
  ∫ t in Set.Ioo 0 (Real.exp b), level N (drawnLogl labels logl (List.ofFn u)) t

theorem drawnEvidence_mean {labels : List Int} {logl : List ℝ} {N : Nat} (hN : 0 < N) (hll : labels.length = logl.length)
    (hr : ∀ k ∈ labels, 0 ≤ k ∧ k < (N : Int)) (hsort : logl.Pairwise (· ≤ ·)) {e0 : ℝ}
    (hone : ∀ k < N, (pick labels (k : Nat) logl).countP (fun x => decide (e0 ≤ x)) = 1)
    {sep : Option Nat} (hsep : ∀ k, sep = some k → k ≤ N) (k0 : Nat) (b : ℝ) :
    ∫⁻ u : Fin N → Nat, ENNReal.ofReal |drawnEvidence labels logl N b u - ∫ t in Set.Ioo 0 (Real.exp b), level N logl t|
      ∂Measure.pi (fun j : Fin N => uniformOn (group N sep j : Set Nat)) ≤
    ENNReal.ofReal (Real.exp b * ((√(∑ k ∈ Finset.range N, ((labels.take k0).count (k : Int) : ℝ) ^ 2) + √N + 2) / N +
      Real.exp (-((k0 : ℝ) / N)))) := by
  have hprob := fun j => group_prob hsep (n := N) j
  have hN' : (0 : ℝ) < N := by exact_mod_cast hN
  set Q := Measure.pi (fun j : Fin N => uniformOn (group N sep j : Set Nat)) with hQ
  set V := (volume : Measure ℝ).restrict (Set.Ioo 0 (Real.exp b)) with hV
  let Lo : ℝ → Nat → ℝ := fun t k => loCount e0 t (pick (labels.take k0) k (logl.take k0))
  let Hi : ℝ → Nat → ℝ := fun t k => hiCount e0 t (pick labels k logl)
  have hmLo : ∀ k, Measurable (fun t => Lo t k) := fun k =>
    measurable_from_top.comp (measurable_countP (fun x => x < e0) _)
  have hmHi : ∀ k, Measurable (fun t => Hi t k) := fun k =>
    measurable_from_top.comp (measurable_countP (fun x => e0 ≤ x) _)
  let X : (Nat → ℝ) → (Fin N → Nat) → ℝ := fun F u => |∑ j, F (u j) - ∑ i ∈ Finset.range N, F i|
  -- pointwise
  have hin : ∀ᵐ u ∂Q, ∀ j, u j < N := by
    rw [ae_all_iff]
    intro j
    have hev : MeasurePreserving (fun u : Fin N → Nat => u j) Q (uniformOn (group N sep j : Set Nat)) := measurePreserving_eval _ j
    have h1 : ∀ᵐ k ∂uniformOn (group N sep j : Set Nat), k < N := by
      have h2 : ∀ᵐ k ∂uniformOn (group N sep j : Set Nat), k ∈ (group N sep j : Set Nat) := by
        unfold uniformOn
        rw [ProbabilityTheory.cond]
        exact Measure.ae_smul_measure (ae_restrict_mem (Finset.measurableSet _)) _
      filter_upwards [h2] with k hk
      have hk : k ∈ group N sep j := hk
      unfold group at hk
      cases sep with
      | none => simpa using hk
      | some m =>
        have := hsep m rfl
        simp only at hk
        split_ifs at hk
        · rw [Finset.mem_range] at hk; omega
        · exact (Finset.mem_Ico.mp hk).2
    exact hev.quasiMeasurePreserving.ae h1
  have hpt : ∀ u : Fin N → Nat, (∀ j, u j < N) → ∀ t,
      |level N (drawnLogl labels logl (List.ofFn u)) t - level N logl t| ≤
        (X (Lo t) u + X (Hi t) u + 2) / N + Real.exp (-((k0 : ℝ) / N)) := by
    intro u hu t
    have := drawn_close hN hll hr hsort hone (inds := List.ofFn u) (by
      intro k hk
      obtain ⟨j, rfl⟩ := (List.mem_ofFn' _ _).mp hk
      exact hu j) (by simp) k0 t
    rw [List.map_ofFn, List.sum_ofFn, List.map_ofFn, List.sum_ofFn] at this
    exact this
  have hdiff : ∀ u : Fin N → Nat, ENNReal.ofReal |drawnEvidence labels logl N b u - ∫ t, level N logl t ∂V| ≤
      ∫⁻ t, ENNReal.ofReal |level N (drawnLogl labels logl (List.ofFn u)) t - level N logl t| ∂V := by
    intro u
    unfold drawnEvidence
    rw [← integral_sub (integrable_level _ _ _) (integrable_level _ _ _), ← Real.norm_eq_abs]
    refine (ENNReal.ofReal_le_ofReal (norm_integral_le_integral_norm _)).trans ?_
    have hi : Integrable (fun t => ‖level N (drawnLogl labels logl (List.ofFn u)) t - level N logl t‖) V :=
      ((integrable_level _ _ _).sub (integrable_level _ _ _)).norm
    exact (ofReal_integral_eq_lintegral_ofReal hi (Filter.Eventually.of_forall fun _ => norm_nonneg _)).le
  have hXm : ∀ F : ℝ → Nat → ℝ, (∀ k, Measurable (fun t => F t k)) → ∀ u, Measurable (fun t => X (F t) u) := by
    intro F hF u
    have h1 : Measurable (fun t => ∑ j, F t (u j) - ∑ i ∈ Finset.range N, F t i) :=
      (Finset.measurable_sum _ fun j _ => hF _).sub (Finset.measurable_sum _ fun i _ => hF _)
    exact h1.abs
  have hjoint : ∀ F : ℝ → Nat → ℝ, (∀ k, Measurable (fun t => F t k)) →
      AEMeasurable (Function.uncurry fun (u : Fin N → Nat) (t : ℝ) => ENNReal.ofReal (X (F t) u)) (Q.prod V) := by
    intro F hF
    refine Measurable.aemeasurable ?_
    exact measurable_from_prod_countable_right (fun u => (hXm F hF u).ennreal_ofReal)
  have hswap : ∀ (F : ℝ → Nat → ℝ) (s : ℝ), (∀ k, Measurable (fun t => F t k)) → (∀ t, ∑ i ∈ Finset.range N, F t i ^ 2 ≤ s) →
      ∫⁻ u, ∫⁻ t, ENNReal.ofReal (X (F t) u) ∂V ∂Q ≤ ENNReal.ofReal (√s) * V Set.univ := by
    intro F s hF hs
    rw [lintegral_lintegral_swap (hjoint F hF), ← lintegral_const]
    apply lintegral_mono
    intro t
    refine (draws_deviation hsep (F t)).trans ?_
    exact ENNReal.ofReal_le_ofReal (Real.sqrt_le_sqrt (hs t))
  have hVu : V Set.univ = ENNReal.ofReal (Real.exp b) := by
    rw [hV, Measure.restrict_apply_univ, Real.volume_Ioo, sub_zero]
  have hLo := hswap Lo (∑ k ∈ Finset.range N, ((labels.take k0).count (k : Int) : ℝ) ^ 2) hmLo (by
    intro t
    apply Finset.sum_le_sum
    intro k _
    have : loCount e0 t (pick (labels.take k0) k (logl.take k0)) ≤ (labels.take k0).count (k : Int) := by
      refine List.countP_le_length.trans ?_
      rw [length_pick (by simp [hll])]
    have h3 : (loCount e0 t (pick (labels.take k0) k (logl.take k0)) : ℝ) ≤ (labels.take k0).count (k : Int) := by exact_mod_cast this
    exact pow_le_pow_left₀ (by positivity) h3 2)
  have hHi := hswap Hi N hmHi (by
    intro t
    calc ∑ i ∈ Finset.range N, Hi t i ^ 2 ≤ ∑ i ∈ Finset.range N, 1 := by
          apply Finset.sum_le_sum
          intro k hk
          have : hiCount e0 t (pick labels k logl) ≤ 1 := by
            rw [← hone k (Finset.mem_range.mp hk)]
            apply List.countP_mono_left
            intro x _ hx
            simp only [decide_eq_true_eq] at hx ⊢
            exact hx.1
          have h3 : (hiCount e0 t (pick labels k logl) : ℝ) ≤ 1 := by exact_mod_cast this
          have h4 : (0 : ℝ) ≤ hiCount e0 t (pick labels k logl) := by positivity
          show (hiCount e0 t (pick labels k logl) : ℝ) ^ 2 ≤ 1
          nlinarith
      _ = N := by simp)
  set S := ∑ k ∈ Finset.range N, ((labels.take k0).count (k : Int) : ℝ) ^ 2 with hS
  set c : ℝ := 2 / N + Real.exp (-((k0 : ℝ) / N)) with hc
  have hc0 : 0 ≤ c := by positivity
  have hX0 : ∀ F u, 0 ≤ X F u := fun F u => abs_nonneg _
  have hsplit : ∀ u t, ENNReal.ofReal ((X (Lo t) u + X (Hi t) u + 2) / N + Real.exp (-((k0 : ℝ) / N))) =
      ENNReal.ofReal (1 / N) * ENNReal.ofReal (X (Lo t) u) + ENNReal.ofReal (1 / N) * ENNReal.ofReal (X (Hi t) u) + ENNReal.ofReal c := by
    intro u t
    have h1 := hX0 (Lo t) u
    have h2 := hX0 (Hi t) u
    rw [← ENNReal.ofReal_mul (by positivity), ← ENNReal.ofReal_mul (by positivity), ← ENNReal.ofReal_add (by positivity) (by positivity),
      ← ENNReal.ofReal_add (by positivity) hc0]
    congr 1
    rw [hc]
    ring
  calc ∫⁻ u, ENNReal.ofReal |drawnEvidence labels logl N b u - ∫ t, level N logl t ∂V| ∂Q
      ≤ ∫⁻ u, ∫⁻ t, ENNReal.ofReal |level N (drawnLogl labels logl (List.ofFn u)) t - level N logl t| ∂V ∂Q := lintegral_mono hdiff
    _ ≤ ∫⁻ u, ∫⁻ t, (ENNReal.ofReal (1 / N) * ENNReal.ofReal (X (Lo t) u) + ENNReal.ofReal (1 / N) * ENNReal.ofReal (X (Hi t) u) +
          ENNReal.ofReal c) ∂V ∂Q := by
        apply lintegral_mono_ae
        filter_upwards [hin] with u hu
        apply lintegral_mono
        intro t
        beta_reduce
        rw [← hsplit]
        exact ENNReal.ofReal_le_ofReal (hpt u hu t)
    _ = ∫⁻ u, (ENNReal.ofReal (1 / N) * ∫⁻ t, ENNReal.ofReal (X (Lo t) u) ∂V + ENNReal.ofReal (1 / N) * ∫⁻ t, ENNReal.ofReal (X (Hi t) u) ∂V +
          ENNReal.ofReal c * V Set.univ) ∂Q := by
        congr 1
        funext u
        have m1 := (hXm Lo hmLo u).ennreal_ofReal
        have m2 := (hXm Hi hmHi u).ennreal_ofReal
        rw [lintegral_add_right _ measurable_const, lintegral_add_left (m1.const_mul _), lintegral_const_mul _ m1, lintegral_const_mul _ m2,
          lintegral_const]
    _ = ENNReal.ofReal (1 / N) * ∫⁻ u, ∫⁻ t, ENNReal.ofReal (X (Lo t) u) ∂V ∂Q +
          ENNReal.ofReal (1 / N) * ∫⁻ u, ∫⁻ t, ENNReal.ofReal (X (Hi t) u) ∂V ∂Q + ENNReal.ofReal c * V Set.univ := by
        rw [lintegral_add_right _ measurable_const, lintegral_add_left Measurable.of_discrete, lintegral_const_mul _ Measurable.of_discrete,
          lintegral_const_mul _ Measurable.of_discrete, lintegral_const, measure_univ (μ := Q), mul_one]
    _ ≤ ENNReal.ofReal (1 / N) * (ENNReal.ofReal (√S) * V Set.univ) + ENNReal.ofReal (1 / N) * (ENNReal.ofReal (√N) * V Set.univ) +
          ENNReal.ofReal c * V Set.univ := by gcongr
    _ = _ := by
        rw [hVu]
        have h1 := Real.sqrt_nonneg S
        have h2 := Real.sqrt_nonneg (N : ℝ)
        have h3 := (Real.exp_pos b).le
        rw [← ENNReal.ofReal_mul h1, ← ENNReal.ofReal_mul h2, ← ENNReal.ofReal_mul hc0, ← ENNReal.ofReal_mul (by positivity),
          ← ENNReal.ofReal_mul (by positivity), ← ENNReal.ofReal_add (by positivity) (by positivity),
          ← ENNReal.ofReal_add (by positivity) (by positivity)]
        congr 1
        rw [hc]
        ring

end
end Nestcheck
