import Verif.Props.PosteriorLimit
import Verif.Props.Estimators

/-! C96: the estimates of posterior means converge. -/

namespace Nestcheck
open Spec MeasureTheory ProbabilityTheory ENNReal Filter Topology
variable {σ E : Type} {N : Nat}

noncomputable section

/-- Convergence in mean of two estimates gives convergence in probability of their ratio. -/
theorem ratio_in_probability {Ω : ℕ → Type} [∀ k, MeasurableSpace (Ω k)] {P : ∀ k, Measure (Ω k)} {num den : ∀ k, Ω k → ℝ}
    (h1 : ∀ k, AEMeasurable (num k) (P k)) (h2 : ∀ k, AEMeasurable (den k) (P k)) {A Z : ℝ} (hZ : Z ≠ 0)
    (l1 : Tendsto (fun k => ∫⁻ ω, ‖num k ω - A‖ₑ ∂P k) atTop (𝓝 0)) (l2 : Tendsto (fun k => ∫⁻ ω, ‖den k ω - Z‖ₑ ∂P k) atTop (𝓝 0))
    {δ : ℝ} (hδ : 0 < δ) {bad : ∀ k, Set (Ω k)} (hbad : ∀ k, ∀ᵐ ω ∂P k, |num k ω / den k ω - A / Z| < δ → ω ∉ bad k) :
    Tendsto (fun k => P k (bad k)) atTop (𝓝 0) := by
  have hc : ContinuousAt (fun p : ℝ × ℝ => p.1 / p.2) (A, Z) := continuousAt_fst.div continuousAt_snd hZ
  obtain ⟨ε, hε, hcl⟩ := Metric.continuousAt_iff.mp hc δ hδ
  have hε' : ENNReal.ofReal ε ≠ 0 := by simpa using hε
  have h3 : Tendsto (fun k => (∫⁻ ω, ‖num k ω - A‖ₑ ∂P k) / ENNReal.ofReal ε + (∫⁻ ω, ‖den k ω - Z‖ₑ ∂P k) / ENNReal.ofReal ε) atTop (𝓝 0) := by
    have := (ENNReal.Tendsto.div_const l1 (Or.inr hε')).add (ENNReal.Tendsto.div_const l2 (Or.inr hε'))
    simpa using this
  refine tendsto_of_tendsto_of_tendsto_of_le_of_le tendsto_const_nhds h3 (fun k => zero_le) fun k => ?_
  refine le_trans ?_ (add_le_add (meas_ge_le_lintegral_div ((h1 k).sub_const A).enorm hε' ENNReal.ofReal_ne_top)
    (meas_ge_le_lintegral_div ((h2 k).sub_const Z).enorm hε' ENNReal.ofReal_ne_top))
  refine le_trans (measure_mono_ae ?_) (measure_union_le _ _)
  filter_upwards [hbad k] with ω h4 h5
  by_contra hlt
  have h6 : ¬ (ENNReal.ofReal ε ≤ ‖num k ω - A‖ₑ ∨ ENNReal.ofReal ε ≤ ‖den k ω - Z‖ₑ) := hlt
  rw [not_or, not_le, not_le, Real.enorm_eq_ofReal_abs, Real.enorm_eq_ofReal_abs, ENNReal.ofReal_lt_ofReal_iff hε,
    ENNReal.ofReal_lt_ofReal_iff hε] at h6
  have h7 := hcl (x := (num k ω, den k ω)) (by
    rw [Prod.dist_eq, Real.dist_eq, Real.dist_eq]
    exact max_lt h6.1 h6.2)
  rw [Real.dist_eq] at h7
  exact h4 h7 h5

/-- The weights of a run with these volumes and numbers of live points. -/
theorem run_weights {r : Run ℝ} {loglike g : ℝ → ℝ} {l : List (Removal N)} (hl : r.logl = l.map (fun s => loglike s.volume))
    (hn : r.nlive = l.map (fun s => (s.alive : Int))) (hne : l ≠ []) (hv : ∀ s ∈ l, s.volume ∈ Set.Ioo (0 : ℝ) 1)
    (hin : ∀ x ∈ Set.Ioo (0 : ℝ) 1, g x = Real.exp (loglike x)) (us : List ℝ) :
    sampleWeights r none false us = List.ofFn (fun i : Fin l.length => (cut (l.map (·.alive)) i - cut (l.map (·.alive)) (i + 1)) * g l[i].volume) := by
  have hn' : r.nlive = (l.map (·.alive)).map (fun m : Nat => (m : Int)) := by rw [hn, List.map_map]; rfl
  rw [sampleWeights, hl, hn', priorVolumes_eq (by simpa using hne)]
  apply List.ext_getElem
  · simp
  · intro i h1 h2
    have hi : i < l.length := by simpa using h2
    simp [hin _ (hv _ (List.getElem_mem hi))]

theorem run_weights_sum {r : Run ℝ} {loglike g : ℝ → ℝ} {l : List (Removal N)} (hl : r.logl = l.map (fun s => loglike s.volume))
    (hn : r.nlive = l.map (fun s => (s.alive : Int))) (hne : l ≠ []) (hv : ∀ s ∈ l, s.volume ∈ Set.Ioo (0 : ℝ) 1)
    (hin : ∀ x ∈ Set.Ioo (0 : ℝ) 1, g x = Real.exp (loglike x)) (us : List ℝ) :
    (sampleWeights r none false us).sum = weighted g (l.map (·.alive)) (l.map (·.volume)) := by
  rw [run_weights hl hn hne hv hin, weighted_eq (by simpa using hne) (by simp), List.sum_ofFn, List.length_map, Finset.sum_range]
  refine Finset.sum_congr rfl fun i _ => ?_
  simp [List.getD_eq_getElem?_getD]

theorem run_weights_mul {r : Run ℝ} {loglike g : ℝ → ℝ} {l : List (Removal N)} (hl : r.logl = l.map (fun s => loglike s.volume))
    (hn : r.nlive = l.map (fun s => (s.alive : Int))) (hne : l ≠ []) (hv : ∀ s ∈ l, s.volume ∈ Set.Ioo (0 : ℝ) 1)
    (hin : ∀ x ∈ Set.Ioo (0 : ℝ) 1, g x = Real.exp (loglike x)) (us : List ℝ) {q : ℝ → E → ℝ} {e : Fin N → E} :
    (List.zipWith (· * ·) (sampleWeights r none false us) (l.map (fun s => q s.volume (e s.point)))).sum =
      spotted (fun v e => g v * if v ∈ Set.Ioo (0 : ℝ) 1 then q v e else 0) e l := by
  rw [run_weights hl hn hne hv hin, spotted, Finset.sum_range, ← List.sum_ofFn]
  congr 1
  apply List.ext_getElem
  · simp
  · intro i h1 h2
    have hi : i < l.length := by simpa using h2
    have := hv _ (List.getElem_mem hi)
    simp only [Set.mem_Ioo] at this
    simp [this, mul_assoc]

/-- What the weighted means over the samples of such a run are. -/
theorem run_average {r : Run ℝ} {loglike g : ℝ → ℝ} {l : List (Removal N)} {place : ℝ → E → List ℝ} {e : Fin N → E} {f : List ℝ → ℝ}
    {q : ℝ → E → ℝ} (e2 : r.logl = l.map (fun s => loglike s.volume)) (e3 : r.theta = l.map (fun s => place s.volume (e s.point)))
    (e4 : r.nlive = l.map (fun s => (s.alive : Int))) (hne : l ≠ []) (h4 : ∀ s ∈ l, 0 < s.volume ∧ 0 < s.alive)
    (h5 : ∀ v ∈ shrinkages 1 l, 0 < v ∧ v < 1) (hin : ∀ x ∈ Set.Ioo (0 : ℝ) 1, g x = Real.exp (loglike x))
    (hf : ∀ x ∈ Set.Ioo (0 : ℝ) 1, ∀ e, f (place x e) = q x e) (us : List ℝ) : Usable r none false us ∧
    (∀ t ∈ r.theta, ∃ x ∈ Set.Ioo (0 : ℝ) 1, ∃ e, t = place x e) ∧
    Spec.mean (sampleWeights r none false us) (r.theta.map f) =
      spotted (fun v e => g v * if v ∈ Set.Ioo (0 : ℝ) 1 then q v e else 0) e l / weighted g (l.map (·.alive)) (l.map (·.volume)) := by
  have hvol : ∀ s ∈ l, s.volume ∈ Set.Ioo (0 : ℝ) 1 := by
    intro s hs'
    have hch := (chain_of_shrinkages l one_pos h4 (fun v hv => (h5 v hv).2))
    have hpw := List.isChain_iff_pairwise.mp hch
    exact ⟨(h4 s hs').1, (List.pairwise_cons.mp hpw).1 _ (List.mem_map_of_mem hs')⟩
  have hW : Weighable r := by
    refine ⟨by rw [e2]; simpa using hne, ?_, by rw [e2, e4]; simp⟩
    intro m hm
    rw [e4] at hm
    obtain ⟨s, hs', rfl⟩ := List.mem_map.mp hm
    exact_mod_cast (h4 s hs').2
  refine ⟨⟨by rw [e2, e3]; simp, hW.nonempty, hW, by simp⟩, ?_, ?_⟩
  · intro t ht
    rw [e3] at ht
    obtain ⟨s, hs', rfl⟩ := List.mem_map.mp ht
    exact ⟨s.volume, hvol s hs', _, rfl⟩
  have hth : r.theta.map f = l.map (fun s => q s.volume (e s.point)) := by
    rw [e3, List.map_map]
    exact List.map_congr_left fun s hs' => hf _ (hvol s hs') _
  rw [Spec.mean, hth, run_weights_mul e2 e4 hne hvol hin, run_weights_sum e2 e4 hne hvol hin]

section

variable {Ω : ℕ → Type} [∀ k, MeasurableSpace (Ω k)] {P : ∀ k, Measure (Ω k)} {N : ℕ → Nat} {rule : ∀ k, Rule (N k)}
  {start : ∀ k, Finset (Fin (N k))} [MeasurableSpace E] {ν : Measure E} [IsProbabilityMeasure ν]
  {draws : ∀ k, Ω k → Fin (N k) → ℝ} {spots : ∀ k, Ω k → Fin (N k) → E}

/-- C96.  As the number of points with which they start grows, the weighted means over the samples of the runs of ideal samplers converge
in probability to the means over the posterior distribution, for every bounded quantity `f` of the parameters. -/
theorem C96_average {R : Rng σ ℝ} (hs : ∀ k, StoppingSchedule (rule k) (start k)) (hu : ∀ k, IidPoints (P k) ν (draws k) (spots k))
    (hn : Tendsto (fun k => (start k).card) atTop atTop)
    {loglike : ℝ → ℝ} (hanti : StrictAntiOn loglike (Set.Ioo 0 1)) {init : ℝ} (hinit : ∀ x ∈ Set.Ioo (0 : ℝ) 1, init < loglike x)
    {b : ℝ} (hb : ∀ x ∈ Set.Ioo (0 : ℝ) 1, loglike x ≤ b) {place : ℝ → E → List ℝ} {f : List ℝ → ℝ} {q : ℝ → E → ℝ}
    (hf : ∀ x ∈ Set.Ioo (0 : ℝ) 1, ∀ e, f (place x e) = q x e) (hq : Measurable (fun p : ℝ × E => q p.1 p.2)) {B : ℝ}
    (hB : ∀ x ∈ Set.Ioo (0 : ℝ) 1, ∀ e, |q x e| ≤ B)
    (hcont : ∀ᵐ x ∂volume.restrict (Set.Ioo (0 : ℝ) 1), ContinuousAt (fun x => ∫ e, q x e ∂ν) x) {δ : ℝ} (hδ : 0 < δ) :
    Tendsto (fun k => P k {ω | ∃ live its samples, PosteriorExecution loglike place (rule k) (start k) (draws k ω) (spots k ω) init live its ∧
      samples.Perm (its.map (·.dead)) ∧ ∃ (A : Argsort ℝ) (da dw : Bool) (w : World σ) (us : List ℝ),
        ¬ ∃ r : Run ℝ, processSamples A R samples da dw w = (.ok r, w) ∧ Usable r none false us ∧
          (∀ t ∈ r.theta, ∃ x ∈ Set.Ioo (0 : ℝ) 1, ∃ e, t = place x e) ∧
          |Spec.mean (sampleWeights r none false us) (r.theta.map f) - posteriorMean loglike ν q| < δ}) atTop (𝓝 0) := by
  classical
  obtain ⟨g, hganti, hM, hin⟩ := exists_extension hanti hb
  set G : ℝ → E → ℝ := fun v e => g v * if v ∈ Set.Ioo (0 : ℝ) 1 then q v e else 0 with hGd
  have hGm : Measurable (fun p : ℝ × E => G p.1 p.2) :=
    (hganti.measurable.comp measurable_fst).mul (Measurable.ite (measurable_fst measurableSet_Ioo) hq measurable_const)
  have hB0 : 0 ≤ |B| := abs_nonneg _
  have hGM : ∀ v e, |G v e| ≤ Real.exp b * |B| := by
    intro v e
    simp only [hGd]
    rw [abs_mul]
    refine mul_le_mul (hM v) ?_ (abs_nonneg _) (Real.exp_pos b).le
    split_ifs with h
    · exact (hB v h e).trans (le_abs_self B)
    · simpa using hB0
  have hGi : ∀ x ∈ Set.Ioo (0 : ℝ) 1, ∫ e, G x e ∂ν = g x * ∫ e, q x e ∂ν := by
    intro x hx
    simp only [hGd, if_pos hx]
    rw [integral_const_mul]
  have hGc : ∀ᵐ x ∂volume.restrict (Set.Ioo (0 : ℝ) 1), ContinuousAt (fun x => ∫ e, G x e ∂ν) x := by
    filter_upwards [hcont, antitone_continuous_ae hganti, ae_restrict_mem measurableSet_Ioo] with x h1 h2 h3
    refine (h2.mul h1).congr ?_
    filter_upwards [Ioo_mem_nhds h3.1 h3.2] with y hy
    exact (hGi y hy).symm
  have l1 := spotted_tendsto hs hu hn hGM hGm hGc
  have l2 := C95_integral hs (fun k => (hu k).uniform) hn hM hganti.measurable (antitone_continuous_ae hganti)
  rw [integral_extension hin] at l2
  have hvec : ∀ k ω, (fun i : Fin (N k) => (List.ofFn (draws k ω)).getD i 0) = draws k ω := fun k ω => by
    funext i
    simp [List.getD_eq_getElem?_getD]
  simp only [weighted_def, hvec] at l2
  have hA : ∫ x in (0 : ℝ)..1, ∫ e, G x e ∂ν = ∫ x in (0 : ℝ)..1, Real.exp (loglike x) * ∫ e, q x e ∂ν := by
    rw [intervalIntegral.integral_of_le zero_le_one, intervalIntegral.integral_of_le zero_le_one, ← restrict_Ioo_eq_restrict_Ioc]
    refine setIntegral_congr_fun measurableSet_Ioo fun x hx => ?_
    change ∫ e, G x e ∂ν = _
    rw [hGi x hx, hin x hx]
  rw [hA] at l1
  have m1 : ∀ k, AEMeasurable (fun ω => spotted G (spots k ω) (removals (rule k) (start k) (draws k ω))) (P k) := fun k =>
    (spotted_measurable (hs k) hGm).comp_aemeasurable (hu k).aemeasurable
  have m2 : ∀ k, AEMeasurable (fun ω => weighted g ((removals (rule k) (start k) (draws k ω)).map (fun s : Removal (N k) => s.alive))
      ((removals (rule k) (start k) (draws k ω)).map (fun s : Removal (N k) => s.volume))) (P k) := fun k =>
    (weighted_removals_measurable (hs k) hganti.measurable).comp_aemeasurable (measurable_fst.comp_aemeasurable (hu k).aemeasurable)
  refine ratio_in_probability m1 m2 (evidence_pos hanti hb).ne' l1 l2 hδ fun k => ?_
  filter_upwards [C96_run (R := R) (hs k) (hu k) hanti hinit place, adaptive_ae (hs k) (hu k).uniform] with ω ⟨_, h2⟩ ⟨_, h4, h5⟩ hlt
  rw [hvec] at h4 h5
  rintro ⟨live, its, samples, hex, hsam, A, da, dw, w, us, hbad⟩
  obtain ⟨r, e1, e2, e3, e4⟩ := h2 live its hex samples hsam A da dw
  obtain ⟨g1, g3, g2⟩ := run_average (q := q) e2 e3 e4 (removals_ne_nil (hs k) (draws k ω)) h4 h5 hin hf us
  refine hbad ⟨r, e1 w, g1, g3, ?_⟩
  rw [g2, posteriorMean]
  exact hlt

end

end

end Nestcheck
