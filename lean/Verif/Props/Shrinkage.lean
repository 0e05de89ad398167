import Mathlib.Analysis.SpecialFunctions.Integrals.Basic
import Mathlib.Probability.Moments.Variance
import Mathlib.Algebra.BigOperators.Fin
import Verif.Props.Weights

/-! C77: the distribution of simulated prior volumes. -/

namespace Nestcheck
open Spec MeasureTheory ProbabilityTheory
variable {σ Ω : Type} {R : Rng σ ℝ}

noncomputable section

/-- The uniform distribution on [0, 1). -/
def Spec.unif : Measure ℝ := volume.restrict (Set.Ico 0 1)

instance : IsProbabilityMeasure unif := ⟨by simp [unif]⟩

/-- The `n` draws are independent and uniform on [0, 1). -/
def Spec.IidUniform [MeasurableSpace Ω] (P : Measure Ω) (n : Nat) (draws : Ω → List ℝ) : Prop :=
  P.map (fun ω (i : Fin n) => (draws ω).getD i 0) = Measure.pi (fun _ => unif)

/-! ### Integrals over the unit interval -/

theorem integral_unif (f : ℝ → ℝ) : ∫ x, f x ∂unif = ∫ x in (0 : ℝ)..1, f x := by
  rw [intervalIntegral.integral_of_le zero_le_one, unif, integral_Ico_eq_integral_Ioc]

theorem integrable_unif {f : ℝ → ℝ} : Integrable f unif ↔ IntervalIntegrable f volume 0 1 := by
  rw [intervalIntegrable_iff_integrableOn_Ico_of_le zero_le_one]
  rfl

theorem unif_pos : ∀ᵐ x ∂unif, 0 < x ∧ x < 1 := by
  rw [unif, Measure.restrict_congr_set Ioo_ae_eq_Ico.symm]
  exact ae_restrict_mem measurableSet_Ioo

theorem integrable_log_unif : Integrable Real.log unif := integrable_unif.mpr intervalIntegral.intervalIntegrable_log'

theorem integral_log_unif : ∫ x, Real.log x ∂unif = -1 := by
  rw [integral_unif, integral_log]
  simp

def logSqPrim (x : ℝ) : ℝ := 4 * (Real.sqrt x * Real.log (Real.sqrt x)) ^ 2 - 2 * (x * Real.log x) + 2 * x

theorem logSqPrim_cont : Continuous logSqPrim := by
  unfold logSqPrim
  have h1 : Continuous (fun x : ℝ => Real.sqrt x * Real.log (Real.sqrt x)) :=
    Real.continuous_mul_log.comp Real.continuous_sqrt
  have h2 := Real.continuous_mul_log
  fun_prop

theorem logSqPrim_deriv {x : ℝ} (hx : 0 < x) : HasDerivAt logSqPrim (Real.log x ^ 2) x := by
  have he : logSqPrim =ᶠ[nhds x] fun x => x * Real.log x ^ 2 - 2 * (x * Real.log x) + 2 * x := by
    filter_upwards [lt_mem_nhds hx] with y hy
    unfold logSqPrim
    rw [Real.log_sqrt hy.le, mul_pow, Real.sq_sqrt hy.le]
    ring
  refine HasDerivAt.congr_of_eventuallyEq ?_ he
  have hl := Real.hasDerivAt_log hx.ne'
  have h1 := (hasDerivAt_id x).mul (hl.pow 2)
  have h2 := ((hasDerivAt_id x).mul hl).const_mul 2
  have h3 := (hasDerivAt_id x).const_mul 2
  have he2 : 1 * (Real.log ^ 2) x + id x * (((2 : Nat) : ℝ) * Real.log x ^ (2 - 1) * x⁻¹) -
      2 * (1 * Real.log x + id x * x⁻¹) + 2 * 1 = Real.log x ^ 2 := by
    simp only [Pi.pow_apply, id]
    field_simp
    push_cast
    ring
  rw [← he2]
  exact (h1.sub h2).add h3

theorem integrable_logSq_unif : Integrable (fun x => Real.log x ^ 2) unif := by
  rw [integrable_unif, intervalIntegrable_iff_integrableOn_Ioc_of_le zero_le_one]
  exact intervalIntegral.integrableOn_deriv_of_nonneg logSqPrim_cont.continuousOn
    (fun x hx => logSqPrim_deriv hx.1) (fun x _ => sq_nonneg _)

theorem integral_logSq_unif : ∫ x, Real.log x ^ 2 ∂unif = 2 := by
  rw [integral_unif, intervalIntegral.integral_eq_sub_of_hasDerivAt_of_le zero_le_one logSqPrim_cont.continuousOn
    (fun x hx => logSqPrim_deriv hx.1) (integrable_unif.mp integrable_logSq_unif)]
  simp [logSqPrim]

theorem memLp_log_unif : MemLp Real.log 2 unif :=
  (memLp_two_iff_integrable_sq Real.measurable_log.aestronglyMeasurable).mpr integrable_logSq_unif

theorem variance_log_unif : Var[Real.log; unif] = 1 := by
  rw [variance_eq_sub memLp_log_unif]
  simp only [Pi.pow_apply]
  rw [integral_logSq_unif, integral_log_unif]
  norm_num

/-- The mean of the largest of `n` uniform draws. -/
theorem integral_rpow_unif {n : ℝ} (hn : 0 < n) : ∫ x, Real.exp (Real.log x / n) ∂unif = n / (n + 1) := by
  have h1 : ∫ x, Real.exp (Real.log x / n) ∂unif = ∫ x, x ^ (1 / n) ∂unif := by
    apply integral_congr_ae
    filter_upwards [unif_pos] with x hx
    rw [Real.rpow_def_of_pos hx.1]
    congr 1
    ring
  have h2 : -1 < 1 / n := by have : 0 < 1 / n := by positivity
                             linarith
  rw [h1, integral_unif, integral_rpow (Or.inl h2), Real.one_rpow, Real.zero_rpow (by linarith)]
  field_simp
  ring

/-! ### The positions -/

/-- The sum of the first `i + 1` steps, for the draws `u`. -/
def simPos {n : Nat} (a : Fin n → ℝ) (i : Nat) (u : Fin n → ℝ) : ℝ :=
  ∑ j : Fin n, (if (j : Nat) ≤ i then Real.log (u j) / a j else 0)

theorem positions_simulated {nlive : List Int} {us : List ℝ} (hl : us.length = nlive.length) {i : Nat}
    (hi : i < nlive.length) : (positions (simulatedSteps us nlive)).getD i 0 =
      simPos (n := nlive.length) (fun j => (nlive[j] : ℝ)) i (fun j => us.getD j 0) := by
  have hs : simulatedSteps us nlive = List.ofFn (fun j : Fin nlive.length => Real.log (us.getD j 0) / (nlive[j] : ℝ)) := by
    apply List.ext_getElem
    · simp [simulatedSteps, hl]
    · intro k h1 h2
      simp only [simulatedSteps, List.getElem_zipWith, List.getElem_ofFn]
      rw [List.getD_eq_getElem?_getD, List.getElem?_eq_getElem (by simp at h2; omega)]
      rfl
  have hlen : (simulatedSteps us nlive).length = nlive.length := by simp [simulatedSteps, hl]
  unfold positions
  rw [List.getD_eq_getElem?_getD, List.getElem?_map, List.getElem?_range (by omega)]
  simp only [Option.map_some, Option.getD_some]
  rw [hs, List.sum_take_ofFn, Finset.sum_filter]
  unfold simPos
  apply Finset.sum_congr rfl
  intro j _
  simp only [Nat.lt_succ_iff]

theorem sum_take_expected {nlive : List Int} {i : Nat} (hi : i < nlive.length) :
    (positions (expectedSteps nlive)).getD i 0 =
      ∑ j : Fin nlive.length, (if (j : Nat) ≤ i then -1 / (nlive[j] : ℝ) else 0) := by
  have hs : expectedSteps nlive = List.ofFn (fun j : Fin nlive.length => -1 / (nlive[j] : ℝ)) := by
    apply List.ext_getElem
    · simp [expectedSteps]
    · intro k h1 h2
      simp [expectedSteps]
  have hlen : (expectedSteps nlive).length = nlive.length := by simp [expectedSteps]
  unfold positions
  rw [List.getD_eq_getElem?_getD, List.getElem?_map, List.getElem?_range (by omega)]
  simp only [Option.map_some, Option.getD_some]
  rw [hs, List.sum_take_ofFn, Finset.sum_filter]
  apply Finset.sum_congr rfl
  intro j _
  simp only [Nat.lt_succ_iff]

section pi
variable {n : Nat} (a : Fin n → ℝ) (i : Nat)

theorem eval_unif (j : Fin n) : MeasurePreserving (fun u : Fin n → ℝ => u j) (Measure.pi (fun _ => unif)) unif :=
  measurePreserving_eval (fun _ => unif) j

theorem simPos_memLp : MemLp (simPos a i) 2 (Measure.pi (fun _ : Fin n => unif)) := by
  have : simPos a i = fun u : Fin n → ℝ => ∑ j : Fin n, (fun (j : Fin n) (u : Fin n → ℝ) =>
      (fun x => if (j : Nat) ≤ i then Real.log x / a j else 0) (u j)) j u := rfl
  rw [this]
  apply memLp_finsetSum
  intro j _
  refine MemLp.comp_measurePreserving (g := fun x => if (j : Nat) ≤ i then Real.log x / a j else 0) ?_
    (eval_unif j)
  by_cases hj : (j : Nat) ≤ i
  · simp only [if_pos hj, div_eq_mul_inv]
    exact memLp_log_unif.mul_const _
  · simp only [if_neg hj]
    exact MemLp.zero

theorem simPos_measurable : Measurable (simPos a i) := by
  unfold simPos
  refine Finset.measurable_sum _ (fun j _ => ?_)
  by_cases hj : (j : Nat) ≤ i
  · simp only [if_pos hj]
    exact (Real.measurable_log.comp (measurable_pi_apply j)).div_const _
  · simp only [if_neg hj]
    exact measurable_const

theorem simPos_mean : ∫ u, simPos a i u ∂(Measure.pi (fun _ : Fin n => unif)) =
    ∑ j : Fin n, (if (j : Nat) ≤ i then -1 / a j else 0) := by
  unfold simPos
  have hi : ∀ j : Fin n, Integrable (fun x => if (j : Nat) ≤ i then Real.log x / a j else 0) unif := by
    intro j
    by_cases hj : (j : Nat) ≤ i
    · simp only [if_pos hj]
      exact integrable_log_unif.div_const _
    · simp only [if_neg hj]
      exact integrable_zero _ _ _
  rw [integral_finsetSum]
  · apply Finset.sum_congr rfl
    intro j _
    rw [show (∫ u : Fin n → ℝ, (if (j : Nat) ≤ i then Real.log (u j) / a j else 0) ∂(Measure.pi fun _ => unif)) =
        ∫ x, (if (j : Nat) ≤ i then Real.log x / a j else 0) ∂unif from by
      have := integral_map (eval_unif j).measurable.aemeasurable
        (f := fun x => if (j : Nat) ≤ i then Real.log x / a j else 0)
        (by rw [(eval_unif j).map_eq]; exact (hi j).aestronglyMeasurable)
      rw [(eval_unif j).map_eq] at this
      exact this.symm]
    by_cases hj : (j : Nat) ≤ i
    · simp only [if_pos hj]
      rw [integral_div, integral_log_unif]
    · simp only [if_neg hj]
      exact integral_zero _ _
  · intro j _
    exact (eval_unif j).integrable_comp_of_integrable (hi j)

theorem simPos_variance : Var[simPos a i; Measure.pi (fun _ : Fin n => unif)] =
    ∑ j : Fin n, (if (j : Nat) ≤ i then 1 / a j ^ 2 else 0) := by
  have h : ∀ j : Fin n, MemLp (fun x => if (j : Nat) ≤ i then Real.log x / a j else 0) 2 unif := by
    intro j
    by_cases hj : (j : Nat) ≤ i
    · simp only [if_pos hj, div_eq_mul_inv]
      exact memLp_log_unif.mul_const _
    · simp only [if_neg hj]
      exact MemLp.zero
  have h1 := variance_sum_pi h
  have h2 : (∑ j : Fin n, fun u : Fin n → ℝ => if (j : Nat) ≤ i then Real.log (u j) / a j else 0) = simPos a i := by
    funext u
    simp [simPos]
  rw [h2] at h1
  rw [h1]
  apply Finset.sum_congr rfl
  intro j _
  by_cases hj : (j : Nat) ≤ i
  · simp only [if_pos hj, div_eq_mul_inv]
    rw [variance_mul_const, variance_log_unif]
    simp
  · simp only [if_neg hj]
    exact variance_zero _

theorem simPos_exp (ha : ∀ j, 0 < a j) : ∫ u, Real.exp (simPos a i u) ∂(Measure.pi (fun _ : Fin n => unif)) =
    ∏ j : Fin n, (if (j : Nat) ≤ i then a j / (a j + 1) else 1) := by
  have : ∀ u : Fin n → ℝ, Real.exp (simPos a i u) =
      ∏ j : Fin n, (fun (j : Fin n) x => if (j : Nat) ≤ i then Real.exp (Real.log x / a j) else 1) j (u j) := by
    intro u
    unfold simPos
    rw [Real.exp_sum]
    apply Finset.prod_congr rfl
    intro j _
    by_cases hj : (j : Nat) ≤ i
    · simp only [if_pos hj]
    · simp only [if_neg hj, Real.exp_zero]
  simp only [this]
  rw [integral_fintype_prod_eq_prod (fun (j : Fin n) x => if (j : Nat) ≤ i then Real.exp (Real.log x / a j) else 1)]
  apply Finset.prod_congr rfl
  intro j _
  by_cases hj : (j : Nat) ≤ i
  · simp only [if_pos hj]
    exact integral_rpow_unif (ha j)
  · simp only [if_neg hj]
    simp

end pi

/-! ### Random draws -/

theorem Spec.IidUniform.aemeasurable [MeasurableSpace Ω] {P : Measure Ω} {n : Nat} {draws : Ω → List ℝ}
    (h : IidUniform P n draws) : AEMeasurable (fun ω (i : Fin n) => (draws ω).getD i 0) P := by
  by_contra hc
  have h1 := Measure.map_of_not_aemeasurable hc
  rw [h] at h1
  have h2 : (Measure.pi (fun _ : Fin n => unif)) Set.univ = 1 := measure_univ
  rw [h1] at h2
  simp at h2

theorem Spec.IidUniform.integral [MeasurableSpace Ω] {P : Measure Ω} {n : Nat} {draws : Ω → List ℝ}
    (h : IidUniform P n draws) {g : (Fin n → ℝ) → ℝ} (hg : Measurable g) :
    ∫ ω, g (fun i : Fin n => (draws ω).getD i 0) ∂P = ∫ u, g u ∂(Measure.pi (fun _ : Fin n => unif)) := by
  rw [← h, integral_map h.aemeasurable hg.aestronglyMeasurable]

theorem Spec.IidUniform.integrable [MeasurableSpace Ω] {P : Measure Ω} {n : Nat} {draws : Ω → List ℝ}
    (h : IidUniform P n draws) {g : (Fin n → ℝ) → ℝ} (hg : Integrable g (Measure.pi (fun _ : Fin n => unif))) :
    Integrable (fun ω => g (fun i : Fin n => (draws ω).getD i 0)) P := by
  rw [← h] at hg
  exact hg.comp_aemeasurable h.aemeasurable

theorem pi_pos (n : Nat) : ∀ᵐ u ∂(Measure.pi (fun _ : Fin n => unif)), ∀ j, 0 < u j ∧ u j < 1 := by
  rw [ae_all_iff]
  intro j
  exact (eval_unif j).quasiMeasurePreserving.ae unif_pos

theorem Spec.IidUniform.pos [MeasurableSpace Ω] {P : Measure Ω} {n : Nat} {draws : Ω → List ℝ}
    (h : IidUniform P n draws) (hl : ∀ ω, (draws ω).length = n) : ∀ᵐ ω ∂P, ∀ u ∈ draws ω, 0 < u := by
  have h1 := pi_pos n
  rw [← h] at h1
  filter_upwards [ae_of_ae_map h.aemeasurable h1] with ω hω u hu
  obtain ⟨k, hk, rfl⟩ := List.getElem_of_mem hu
  have := (hω ⟨k, (hl ω) ▸ hk⟩).1
  rw [List.getD_eq_getElem?_getD, List.getElem?_eq_getElem hk] at this
  exact this

/-- Entry `i` of the array returned. -/
def Spec.entry (r : Py (List ℝ)) (i : Nat) : ℝ := match r with
  | .ok l => l.getD i 0
  | .error _ => 0

theorem entry_simulated [MeasurableSpace Ω] {P : Measure Ω} {w : Ω → World σ} {nlive : List Int} (h0 : nlive ≠ [])
    (hp : ∀ n ∈ nlive, 0 < n) (hu : IidUniform P nlive.length (fun ω => (R.uniform nlive.length (w ω).rng).1)) :
    ∀ᵐ ω ∂P, getLogx R nlive true (w ω) = (.ok (positions (simulatedSteps (R.uniform nlive.length (w ω).rng).1 nlive)),
        { w ω with rng := (R.uniform nlive.length (w ω).rng).2 }) ∧
      ∀ i < nlive.length, entry (getLogx R nlive true (w ω)).1 i =
        simPos (n := nlive.length) (fun j => (nlive[j] : ℝ)) i (fun j => (R.uniform nlive.length (w ω).rng).1.getD j 0) := by
  filter_upwards [hu.pos (fun ω => R.uniform_length _ _)] with ω hω
  have h := getLogx_simulated (R := R) h0 hp (w ω) hω
  refine ⟨h, fun i hi => ?_⟩
  rw [h]
  exact positions_simulated (R.uniform_length _ _) hi

theorem sum_take_map {nlive : List Int} (f : Int → ℝ) (i : Nat) : ((nlive.take (i + 1)).map f).sum =
    ∑ j : Fin nlive.length, (if (j : Nat) ≤ i then f nlive[j] else 0) := by
  have hs : nlive.map f = List.ofFn (fun j : Fin nlive.length => f nlive[j]) := by
    apply List.ext_getElem
    · simp
    · intro k h1 h2
      simp
  rw [List.map_take, hs, List.sum_take_ofFn, Finset.sum_filter]
  apply Finset.sum_congr rfl
  intro j _
  simp only [Nat.lt_succ_iff]

theorem prod_take_map {nlive : List Int} (f : Int → ℝ) (i : Nat) : ((nlive.take (i + 1)).map f).prod =
    ∏ j : Fin nlive.length, (if (j : Nat) ≤ i then f nlive[j] else 1) := by
  have hs : nlive.map f = List.ofFn (fun j : Fin nlive.length => f nlive[j]) := by
    apply List.ext_getElem
    · simp
    · intro k h1 h2
      simp
  rw [List.map_take, hs, List.prod_take_ofFn, Finset.prod_filter]
  apply Finset.prod_congr rfl
  intro j _
  simp only [Nat.lt_succ_iff]

/-- C77.  If the draws of `np.random.random` are independent and uniform, then `get_logx` with `simulate=True`
almost surely returns; each simulated log volume has the log volume returned with `simulate=False` as its mean, and
the sum of 1/nlive² as its variance; the mean of the volume itself is the product of nlive/(nlive+1). -/
theorem C77 [MeasurableSpace Ω] {P : Measure Ω} {w : Ω → World σ} {nlive : List Int} (h0 : nlive ≠ [])
    (hp : ∀ n ∈ nlive, 0 < n) (hu : IidUniform P nlive.length (fun ω => (R.uniform nlive.length (w ω).rng).1)) :
    (∀ᵐ ω ∂P, ∃ logx w', getLogx R nlive true (w ω) = (.ok logx, w') ∧ logx.length = nlive.length) ∧
    ∃ logx, (∀ w0, getLogx R nlive false w0 = (.ok logx, w0)) ∧ logx.length = nlive.length ∧
      ∀ i < nlive.length,
        Integrable (fun ω => entry (getLogx R nlive true (w ω)).1 i) P ∧
        ∫ ω, entry (getLogx R nlive true (w ω)).1 i ∂P = logx.getD i 0 ∧
        Var[fun ω => entry (getLogx R nlive true (w ω)).1 i; P] =
          ((nlive.take (i + 1)).map (fun n : Int => 1 / (n : ℝ) ^ 2)).sum ∧
        ∫ ω, Real.exp (entry (getLogx R nlive true (w ω)).1 i) ∂P =
          ((nlive.take (i + 1)).map (fun n : Int => (n : ℝ) / (n + 1))).prod := by
  have hev := entry_simulated h0 hp hu
  constructor
  · filter_upwards [hev] with ω hω
    exact ⟨_, _, hω.1, by simp [length_positions, simulatedSteps, R.uniform_length]⟩
  refine ⟨_, getLogx_expected h0 hp, by simp [length_positions, expectedSteps], fun i hi => ?_⟩
  set a : Fin nlive.length → ℝ := fun j => (nlive[j] : ℝ) with ha
  have hapos : ∀ j, 0 < a j := fun j => by
    have := hp nlive[j] (List.getElem_mem _)
    simp only [ha]
    exact_mod_cast this
  have heq : (fun ω => entry (getLogx R nlive true (w ω)).1 i) =ᵐ[P]
      fun ω => simPos a i (fun j => (R.uniform nlive.length (w ω).rng).1.getD j 0) := by
    filter_upwards [hev] with ω hω
    exact hω.2 i hi
  have hint := (simPos_memLp a i).integrable (by norm_num)
  refine ⟨(hu.integrable hint).congr heq.symm, ?_, ?_, ?_⟩
  · rw [integral_congr_ae heq, hu.integral (simPos_measurable a i), simPos_mean, sum_take_expected hi]
  · rw [variance_congr heq, sum_take_map]
    have hv := variance_map (X := simPos a i) (μ := P)
      (Y := fun ω (j : Fin nlive.length) => (R.uniform nlive.length (w ω).rng).1.getD j 0)
      (simPos_measurable a i).aemeasurable hu.aemeasurable
    rw [hu, simPos_variance] at hv
    exact hv.symm
  · have heq2 : (fun ω => Real.exp (entry (getLogx R nlive true (w ω)).1 i)) =ᵐ[P]
        fun ω => Real.exp (simPos a i (fun j => (R.uniform nlive.length (w ω).rng).1.getD j 0)) := by
      filter_upwards [heq] with ω hω
      rw [hω]
    rw [integral_congr_ae heq2, prod_take_map]
    have := hu.integral (g := fun u => Real.exp (simPos a i u)) (Real.measurable_exp.comp (simPos_measurable a i))
    rw [simPos_exp a i hapos] at this
    exact this

/-- The largest of `n` uniform draws. -/
theorem largest_law (n : Nat) {t : ℝ} (h0 : 0 ≤ t) (h1 : t ≤ 1) :
    (Measure.pi (fun _ : Fin n => unif)) {v | ∀ k, v k ≤ t} = ENNReal.ofReal (t ^ n) := by
  have hs : {v : Fin n → ℝ | ∀ k, v k ≤ t} = Set.pi Set.univ (fun _ => Set.Iic t) := by
    ext v
    exact ⟨fun h k _ => h k, fun h k => h k trivial⟩
  have hm : unif (Set.Iic t) = ENNReal.ofReal t := by
    rw [unif, Measure.restrict_congr_set Ico_ae_eq_Icc, Measure.restrict_apply measurableSet_Iic]
    have : Set.Iic t ∩ Set.Icc 0 1 = Set.Icc 0 t := by
      ext x
      simp only [Set.mem_inter_iff, Set.mem_Iic, Set.mem_Icc]
      constructor
      · rintro ⟨a, b, c⟩; exact ⟨b, a⟩
      · rintro ⟨a, b⟩; exact ⟨b, a, b.trans h1⟩
    rw [this, Real.volume_Icc, sub_zero]
  rw [hs, Measure.pi_pi]
  simp [hm, ENNReal.ofReal_pow h0]

/-- C77: the shrinkage at each sample is distributed like the largest of as many uniform draws as there are live
points. -/
theorem C77_law [MeasurableSpace Ω] {P : Measure Ω} {w : Ω → World σ} {nlive : List Int} (h0 : nlive ≠ [])
    (hp : ∀ n ∈ nlive, 0 < n) (hu : IidUniform P nlive.length (fun ω => (R.uniform nlive.length (w ω).rng).1))
    {i : Nat} {n : Nat} (hi : nlive[i]? = some (n : Int)) {t : ℝ} (ht : 0 < t) (ht1 : t ≤ 1) :
    P {ω | Real.exp (entry (getLogx R nlive true (w ω)).1 i) ≤
        t * (if i = 0 then 1 else Real.exp (entry (getLogx R nlive true (w ω)).1 (i - 1)))} =
      (Measure.pi (fun _ : Fin n => unif)) {v | ∀ k, v k ≤ t} := by
  obtain ⟨hil, hin⟩ := List.getElem?_eq_some_iff.mp hi
  have hn : 0 < (n : ℝ) := by
    have := hp n (hin ▸ List.getElem_mem _)
    exact_mod_cast this
  set draws : Ω → Fin nlive.length → ℝ := fun ω j => (R.uniform nlive.length (w ω).rng).1.getD j 0 with hd
  set a : Fin nlive.length → ℝ := fun j => (nlive[j] : ℝ) with ha
  have hev := entry_simulated h0 hp hu
  have hposu : ∀ᵐ ω ∂P, ∀ j, 0 < draws ω j ∧ draws ω j < 1 := by
    have h1 := pi_pos nlive.length
    rw [← hu] at h1
    exact ae_of_ae_map hu.aemeasurable h1
  have hset : {ω | Real.exp (entry (getLogx R nlive true (w ω)).1 i) ≤
        t * (if i = 0 then 1 else Real.exp (entry (getLogx R nlive true (w ω)).1 (i - 1)))} =ᵐ[P]
      draws ⁻¹' {u | u ⟨i, hil⟩ ≤ t ^ n} := by
    filter_upwards [hev, hposu] with ω hω hpos
    apply propext
    show Real.exp (entry (getLogx R nlive true (w ω)).1 i) ≤
        t * (if i = 0 then 1 else Real.exp (entry (getLogx R nlive true (w ω)).1 (i - 1))) ↔ draws ω ⟨i, hil⟩ ≤ t ^ n
    have hstep : simPos a i (draws ω) =
        (if i = 0 then 0 else simPos a (i - 1) (draws ω)) + Real.log (draws ω ⟨i, hil⟩) / n := by
      have e1 : ∀ b : ℝ, ∑ j : Fin nlive.length, (if j = ⟨i, hil⟩ then b else 0) = b := by
        intro b
        rw [Finset.sum_ite_eq' Finset.univ]
        simp
      have e2 : (if i = 0 then 0 else simPos a (i - 1) (draws ω)) =
          ∑ j : Fin nlive.length, (if (j : Nat) < i then Real.log (draws ω j) / a j else 0) := by
        by_cases hi0 : i = 0
        · rw [if_pos hi0, hi0]
          simp
        · rw [if_neg hi0]
          unfold simPos
          apply Finset.sum_congr rfl
          intro j _
          have : ((j : Nat) ≤ i - 1) ↔ (j : Nat) < i := by omega
          simp only [this]
      rw [e2, ← e1 (Real.log (draws ω ⟨i, hil⟩) / n), ← Finset.sum_add_distrib]
      unfold simPos
      apply Finset.sum_congr rfl
      intro j _
      by_cases hji : j = ⟨i, hil⟩
      · subst hji
        simp [ha, hin]
      · have hne : (j : Nat) ≠ i := fun h => hji (Fin.ext h)
        rw [if_neg hji, add_zero]
        have : ((j : Nat) ≤ i) ↔ (j : Nat) < i := by omega
        simp only [this]
    have hu0 := (hpos ⟨i, hil⟩).1
    have hprev : (if i = 0 then 1 else Real.exp (entry (getLogx R nlive true (w ω)).1 (i - 1))) =
        Real.exp (if i = 0 then 0 else simPos a (i - 1) (draws ω)) := by
      by_cases hi0 : i = 0
      · simp [hi0]
      · rw [if_neg hi0, if_neg hi0, hω.2 (i - 1) (by omega)]
    rw [hprev, hω.2 i hil, hstep, Real.exp_add, mul_comm t, mul_le_mul_iff_right₀ (Real.exp_pos _)]
    rw [← Real.log_le_log_iff (Real.exp_pos _) ht, Real.log_exp, div_le_iff₀ hn, mul_comm, ← Real.log_pow,
      Real.log_le_log_iff hu0 (by positivity)]
  have hms : MeasurableSet {u : Fin nlive.length → ℝ | u ⟨i, hil⟩ ≤ t ^ n} :=
    measurableSet_le (measurable_pi_apply _) measurable_const
  have ht' : t ^ n ≤ 1 := pow_le_one₀ ht.le ht1
  rw [measure_congr hset, ← Measure.map_apply_of_aemeasurable hu.aemeasurable hms, hu, largest_law n ht.le ht1]
  have h1 : {u : Fin nlive.length → ℝ | u ⟨i, hil⟩ ≤ t ^ n} =
      (fun u : Fin nlive.length → ℝ => u ⟨i, hil⟩) ⁻¹' (Set.Iic (t ^ n)) := rfl
  rw [h1, (eval_unif ⟨i, hil⟩).measure_preimage measurableSet_Iic.nullMeasurableSet]
  have h2 := largest_law 1 (pow_nonneg ht.le n) ht'
  have h3 : {v : Fin 1 → ℝ | ∀ k, v k ≤ t ^ n} = (fun v : Fin 1 → ℝ => v 0) ⁻¹' (Set.Iic (t ^ n)) := by
    ext v; simp [Fin.forall_fin_one]
  rw [h3, (eval_unif (0 : Fin 1)).measure_preimage measurableSet_Iic.nullMeasurableSet, pow_one] at h2
  exact h2

/-! ### The evidence -/

/-- The edge number `k` between the prior volumes of `n` points. -/
def edgeAt (n : Nat) (X : Nat → ℝ) (k : Nat) : ℝ :=
  if k = 0 then 1 else if k < n then (X (k - 1) + X k) / 2 else 0

theorem edges_getElem {Xs : List ℝ} {k : Nat} (h : k < (edges Xs).length) (hne : Xs ≠ []) :
    (edges Xs)[k] = edgeAt Xs.length (fun j => Xs.getD j 0) k := by
  have hpos := List.length_pos_of_ne_nil hne
  unfold edges at h ⊢
  simp only [List.length_cons, List.length_append, List.length_zipWith, List.length_tail, List.length_nil] at h
  unfold edgeAt
  cases k with
  | zero => simp
  | succ k =>
    rw [List.getElem_cons_succ, if_neg (by omega)]
    by_cases hk : k + 1 < Xs.length
    · rw [if_pos hk, List.getElem_append_left (by simp; omega), List.getElem_zipWith, List.getElem_tail,
        Nat.add_sub_cancel]
      simp only
      rw [List.getD_eq_getElem?_getD, List.getD_eq_getElem?_getD, List.getElem?_eq_getElem (by omega),
        List.getElem?_eq_getElem hk]
      rfl
    · rw [if_neg hk, List.getElem_append_right (by simp; omega)]
      simp

theorem weighted_shells {Xs ls : List ℝ} (hne : Xs ≠ []) (hl : Xs.length = ls.length) :
    (List.zipWith (fun v l => v * Real.exp l) (shells Xs) ls).sum =
      ∑ k : Fin ls.length, (edgeAt Xs.length (fun j => Xs.getD j 0) k -
        edgeAt Xs.length (fun j => Xs.getD j 0) (k + 1)) * Real.exp ls[k] := by
  have hpos := List.length_pos_of_ne_nil hne
  have hel : (edges Xs).length = Xs.length + 1 := by
    unfold edges
    simp
    omega
  rw [← List.sum_ofFn]
  congr 1
  apply List.ext_getElem
  · simp [shells, hel, hl]
  · intro k h1 h2
    simp only [List.length_ofFn] at h2
    rw [List.getElem_zipWith, List.getElem_ofFn]
    unfold shells
    rw [List.getElem_zipWith, List.getElem_tail, edges_getElem _ hne, edges_getElem _ hne]
    rfl

/-- The number returned. -/
def Spec.number (r : Py ℝ) : ℝ := match r with
  | .ok x => x
  | .error _ => 0

/-- The mean prior volumes: products of nlive/(nlive+1). -/
def Spec.meanVolumes (nlive : List Int) : List ℝ :=
  (List.range nlive.length).map (fun i => ((nlive.take (i + 1)).map (fun n : Int => (n : ℝ) / (n + 1))).prod)

theorem integrable_of_integral_ne_zero' {α : Type} [MeasurableSpace α] {μ : Measure α} {f : α → ℝ} (h : ∫ x, f x ∂μ ≠ 0) :
    Integrable f μ := by
  by_contra hc
  exact h (integral_undef hc)

/-- C77: with independent uniform draws the evidence estimated with simulated weights is, on average, the sum of the
likelihoods times the prior volumes around the samples, found from the mean volumes. -/
theorem C77_evidence [MeasurableSpace Ω] {P : Measure Ω} {w : Ω → World σ} {r : Run ℝ} (h : Weighable r)
    (hu : IidUniform P r.nlive.length (fun ω => (R.uniform r.nlive.length (w ω).rng).1)) :
    (∀ᵐ ω ∂P, ∃ z w', evidence R r none true (w ω) = (.ok z, w')) ∧
    Integrable (fun ω => number (evidence R r none true (w ω)).1) P ∧
    ∫ ω, number (evidence R r none true (w ω)).1 ∂P =
      (List.zipWith (fun v l => v * Real.exp l) (shells (meanVolumes r.nlive)) r.logl).sum := by
  have h0 := h.nlive_ne
  have hpos0 := List.length_pos_of_ne_nil h0
  have hP : IsProbabilityMeasure P := by
    constructor
    have h1 : (Measure.pi (fun _ : Fin r.nlive.length => unif)) Set.univ = 1 := measure_univ
    rw [← hu, Measure.map_apply_of_aemeasurable hu.aemeasurable MeasurableSet.univ] at h1
    exact h1
  set n := r.nlive.length with hn
  set a : Fin n → ℝ := fun j => (r.nlive[j] : ℝ) with ha
  have hapos : ∀ j, 0 < a j := fun j => by
    have := h.pos r.nlive[j] (List.getElem_mem _)
    simp only [ha]
    exact_mod_cast this
  set draws : Ω → Fin n → ℝ := fun ω j => (R.uniform n (w ω).rng).1.getD j 0 with hd
  set X : Nat → Ω → ℝ := fun i ω => Real.exp (simPos a i (draws ω)) with hX
  have hXint : ∀ i, ∫ ω, X i ω ∂P = ∏ j : Fin n, (if (j : Nat) ≤ i then a j / (a j + 1) else 1) := by
    intro i
    have := hu.integral (g := fun u => Real.exp (simPos a i u)) (Real.measurable_exp.comp (simPos_measurable a i))
    rw [simPos_exp a i hapos] at this
    exact this
  have hXI : ∀ i, Integrable (X i) P := by
    intro i
    apply integrable_of_integral_ne_zero'
    rw [hXint]
    apply ne_of_gt
    apply Finset.prod_pos
    intro j _
    have := hapos j
    split_ifs
    · positivity
    · exact one_pos
  have hev : ∀ᵐ ω ∂P, ∃ w', evidence R r none true (w ω) = (.ok (∑ k : Fin r.logl.length,
      (edgeAt n (fun j => X j ω) k - edgeAt n (fun j => X j ω) (k + 1)) * Real.exp r.logl[k]), w') := by
    filter_upwards [hu.pos (fun ω => R.uniform_length _ _)] with ω hω
    obtain ⟨z, -, h2, h3, -⟩ := C29_evidence (R := R) h true (w ω) (fun _ => hω)
    refine ⟨afterWeights R r none true (w ω), ?_⟩
    rw [h2, h3]
    set Xs := (positions (simulatedSteps (R.uniform n (w ω).rng).1 r.nlive)).map Real.exp with hXs
    have hl : Xs.length = n := by simp [hXs, length_positions, simulatedSteps, R.uniform_length, hn]
    have hpv : priorVolumes true (R.uniform n (w ω).rng).1 r.nlive = shells Xs := rfl
    rw [hpv, weighted_shells (by intro hc; rw [hc] at hl; simp at hl; omega) (hl.trans h.len), hl]
    congr 2
    apply Finset.sum_congr rfl
    intro k _
    have hXe : ∀ j < n, Xs.getD j 0 = X j ω := by
      intro j hj
      have := positions_simulated (us := (R.uniform n (w ω).rng).1) (R.uniform_length _ _) (nlive := r.nlive) hj
      simp only [hX]
      rw [← this, hXs, List.getD_eq_getElem?_getD, List.getD_eq_getElem?_getD, List.getElem?_map]
      rw [List.getElem?_eq_getElem (by simp [length_positions, simulatedSteps, R.uniform_length, ← hn, hj])]
      simp
    have hedge : ∀ k, edgeAt n (fun j => Xs.getD j 0) k = edgeAt n (fun j => X j ω) k := by
      intro k
      unfold edgeAt
      split_ifs with h1 h2
      · rfl
      · simp only
        rw [hXe _ (by omega), hXe _ h2]
      · rfl
    rw [hedge, hedge]
  have hnum : (fun ω => number (evidence R r none true (w ω)).1) =ᵐ[P] fun ω => ∑ k : Fin r.logl.length,
      (edgeAt n (fun j => X j ω) k - edgeAt n (fun j => X j ω) (k + 1)) * Real.exp r.logl[k] := by
    filter_upwards [hev] with ω hω
    obtain ⟨w', hw⟩ := hω
    rw [hw]
    rfl
  have hE : ∀ k, Integrable (fun ω => edgeAt n (fun j => X j ω) k) P ∧
      ∫ ω, edgeAt n (fun j => X j ω) k ∂P = edgeAt n (fun j => ∫ ω, X j ω ∂P) k := by
    intro k
    unfold edgeAt
    by_cases h1 : k = 0
    · simp only [if_pos h1]
      exact ⟨integrable_const _, by simp⟩
    · simp only [if_neg h1]
      by_cases h2 : k < n
      · simp only [if_pos h2]
        refine ⟨((hXI _).add (hXI _)).div_const _, ?_⟩
        rw [integral_div, integral_add (hXI _) (hXI _)]
      · simp only [if_neg h2]
        exact ⟨integrable_const _, by simp⟩
  have hterm : ∀ k : Fin r.logl.length, Integrable (fun ω =>
      (edgeAt n (fun j => X j ω) k - edgeAt n (fun j => X j ω) (k + 1)) * Real.exp r.logl[k]) P :=
    fun k => ((hE k).1.sub (hE (k + 1)).1).mul_const _
  refine ⟨?_, (integrable_finsetSum _ (fun k _ => hterm k)).congr hnum.symm, ?_⟩
  · filter_upwards [hev] with ω hω
    obtain ⟨w', hw⟩ := hω
    exact ⟨_, w', hw⟩
  · have hml : (meanVolumes r.nlive).length = n := by simp [meanVolumes, hn]
    rw [integral_congr_ae hnum, integral_finsetSum _ (fun k _ => hterm k),
      weighted_shells (by intro hc; rw [hc] at hml; simp at hml; omega) (hml.trans h.len), hml]
    apply Finset.sum_congr rfl
    intro k _
    rw [integral_mul_const, integral_sub (hE k).1 (hE (k + 1)).1, (hE k).2, (hE (k + 1)).2]
    have hmv : ∀ j < n, (meanVolumes r.nlive).getD j 0 = ∫ ω, X j ω ∂P := by
      intro j hj
      rw [hXint, List.getD_eq_getElem?_getD, meanVolumes, List.getElem?_map, List.getElem?_range hj]
      simp only [Option.map_some, Option.getD_some]
      rw [prod_take_map]
    have hedge : ∀ k, edgeAt n (fun j => (meanVolumes r.nlive).getD j 0) k = edgeAt n (fun j => ∫ ω, X j ω ∂P) k := by
      intro k
      unfold edgeAt
      split_ifs with h1 h2
      · rfl
      · simp only
        rw [hmv _ (by omega), hmv _ h2]
      · rfl
    rw [hedge, hedge]

/-! ### An example -/

/-- A generator whose state holds the next three draws. -/
def threeRng : Rng (Fin 3 → ℝ) ℝ where
  seed _ := fun _ => 0
  seedOS _ := fun _ => 0
  randint lo _ n s := (List.replicate n lo, s)
  randint_length := by simp
  randint_range := by
    intro lo hi n s h x hx
    rw [List.eq_of_mem_replicate hx]
    exact ⟨le_rfl, h⟩
  shuffle n s := (List.range n, s)
  shuffle_perm _ _ := List.Perm.refl _
  uniform n s := (List.ofFn (fun k : Fin n => if h : (k : Nat) < 3 then
    (if 0 ≤ s ⟨k, h⟩ ∧ s ⟨k, h⟩ < 1 then s ⟨k, h⟩ else 0) else 0), s)
  uniform_length := by simp
  uniform_range := by
    intro n s x hx
    obtain ⟨k, rfl⟩ := List.mem_ofFn.mp hx
    split_ifs with h1 h2
    · exact h2
    · exact ⟨le_rfl, one_pos⟩
    · exact ⟨le_rfl, one_pos⟩

theorem threeRng_iid : IidUniform (Measure.pi (fun _ : Fin 3 => unif)) 3 (fun s => (threeRng.uniform 3 s).1) := by
  unfold IidUniform
  rw [Measure.map_congr (g := id), Measure.map_id]
  filter_upwards [pi_pos 3] with s hs
  funext i
  rw [List.getD_eq_getElem?_getD, List.getElem?_eq_getElem (by simp [threeRng])]
  have h0 := hs 0
  have h1 := hs 1
  have h2 := hs 2
  fin_cases i <;> simp [threeRng, h0.1.le, h0.2, h1.1.le, h1.2, h2.1.le, h2.2]

/-- C77 applies: with 5, 4 and 3 live points the mean of the last simulated log volume is -1/5 - 1/4 - 1/3. -/
example : ∫ s, entry (getLogx threeRng [5, 4, 3] true ⟨s, []⟩).1 2 ∂(Measure.pi (fun _ : Fin 3 => unif)) =
    -1 / 5 - 1 / 4 - 1 / 3 := by
  obtain ⟨-, logx, h1, -, h2⟩ := C77 (R := threeRng) (P := Measure.pi (fun _ : Fin 3 => unif))
    (w := fun s => ⟨s, []⟩) (nlive := [5, 4, 3]) (by simp) (by decide) threeRng_iid
  rw [(h2 2 (by decide)).2.1]
  have h3 := getLogx_expected (R := threeRng) (nlive := [5, 4, 3]) (by simp) (by decide) ⟨fun _ => 0, []⟩
  rw [h1] at h3
  simp only [Prod.mk.injEq, Except.ok.injEq, and_true] at h3
  rw [h3]
  simp [positions, expectedSteps, List.range_succ]
  norm_num

end
end Nestcheck
