import Verif.Props.SimulatedMean

/-! C99: the estimators with simulated prior volumes, applied to runs of ideal samplers. -/

namespace Nestcheck
open Spec MeasureTheory ProbabilityTheory ENNReal Filter Topology
variable {σ E : Type} {N : Nat}

noncomputable section

attribute [local irreducible] simSum simWidth

/-! ### The random numbers -/

section

variable {Ω : Type} [MeasurableSpace Ω] {P : Measure Ω} [MeasurableSpace E] {ν : Measure E} [IsProbabilityMeasure ν]
  {draws sims : Ω → Fin N → ℝ} {spots : Ω → Fin N → E}

theorem Spec.IidSimulated.law (h : IidSimulated P ν draws sims spots) : P.map (fun ω => ((draws ω, sims ω), spots ω)) =
    ((unifPow N).prod (unifPow N)).prod (Measure.pi fun _ : Fin N => ν) := h

theorem Spec.IidSimulated.aemeasurable (h : IidSimulated P ν draws sims spots) : AEMeasurable (fun ω => ((draws ω, sims ω), spots ω)) P := by
  refine aemeasurable_of_map_neZero ⟨fun h0 => ?_⟩
  rw [h.law] at h0
  have := congrArg (fun m => m Set.univ) h0
  simp only [measure_univ, Measure.coe_zero, Pi.zero_apply] at this
  exact one_ne_zero this

theorem Spec.IidSimulated.points (h : IidSimulated P ν draws sims spots) : IidPoints P ν draws spots := by
  have h1 : P.map (fun ω => (draws ω, spots ω)) = (P.map (fun ω => ((draws ω, sims ω), spots ω))).map (Prod.map Prod.fst id) := by
    rw [AEMeasurable.map_map_of_aemeasurable (measurable_fst.prodMap measurable_id).aemeasurable h.aemeasurable]
    rfl
  unfold IidPoints
  rw [h1, h.law, ← Measure.map_prod_map _ _ measurable_fst measurable_id, Measure.map_id, Measure.map_fst_prod, measure_univ, one_smul]
  rfl

theorem Spec.IidSimulated.simulated (h : IidSimulated P ν draws sims spots) : IidPoints P (volume.restrict (Set.Ico (0 : ℝ) 1)) draws sims := by
  have h1 : P.map (fun ω => (draws ω, sims ω)) = (P.map (fun ω => ((draws ω, sims ω), spots ω))).map Prod.fst := by
    rw [AEMeasurable.map_map_of_aemeasurable measurable_fst.aemeasurable h.aemeasurable]
    rfl
  unfold IidPoints
  rw [h1, h.law, Measure.map_fst_prod, measure_univ, one_smul]
  rfl

theorem Spec.IidSimulated.lintegral (h : IidSimulated P ν draws sims spots) {f : ((Fin N → ℝ) × (Fin N → ℝ)) × (Fin N → E) → ℝ≥0∞}
    (hf : Measurable f) : ∫⁻ ω, f ((draws ω, sims ω), spots ω) ∂P = ∫⁻ q, f q ∂(((unifPow N).prod (unifPow N)).prod (Measure.pi fun _ : Fin N => ν)) := by
  rw [← h.law, lintegral_map' hf.aemeasurable h.aemeasurable]

theorem Spec.IidSimulated.pos (h : IidSimulated P ν draws sims spots) : ∀ᵐ ω ∂P, ∀ j, 0 < sims ω j ∧ sims ω j < 1 := by
  have h1 : ∀ᵐ q ∂(P.map (fun ω => ((draws ω, sims ω), spots ω))), ∀ j, 0 < q.1.2 j ∧ q.1.2 j < 1 := by
    rw [h.law]
    have h2 : ∀ᵐ q ∂((unifPow N).prod (unifPow N)), ∀ j, 0 < q.2 j ∧ q.2 j < 1 := Measure.quasiMeasurePreserving_snd.ae (pi_pos N)
    exact Measure.quasiMeasurePreserving_fst.ae h2
  exact ae_of_ae_map h.aemeasurable h1

end

/-! ### Runs -/

/-- Some run with these draws is not processed, or the processed run is not `good` when the generator delivers the numbers `s`. -/
def SimMisses (R : Rng σ ℝ) (loglike : ℝ → ℝ) (place : ℝ → E → List ℝ) (rule : Rule N) (start : Finset (Fin N)) (u s : Fin N → ℝ) (e : Fin N → E)
    (init : ℝ) (good : Argsort ℝ → Run ℝ → World σ → Prop) : Prop :=
  ∃ live its samples, PosteriorExecution loglike place rule start u e init live its ∧ samples.Perm (its.map (·.dead)) ∧
    ∃ (A : Argsort ℝ) (da dw : Bool) (w : World σ), Delivers R w (List.ofFn s) ∧
      ¬ ∃ r : Run ℝ, processSamples A R samples da dw w = (.ok r, w) ∧ good A r w

theorem SimMisses.split {R : Rng σ ℝ} {loglike : ℝ → ℝ} {place : ℝ → E → List ℝ} {rule : Rule N} {start : Finset (Fin N)} {u s : Fin N → ℝ}
    {e : Fin N → E} {init : ℝ} {good good₁ good₂ : Argsort ℝ → Run ℝ → World σ → Prop} (hg : ∀ A r w, good₁ A r w → good₂ A r w → good A r w)
    (h : SimMisses R loglike place rule start u s e init good) :
    SimMisses R loglike place rule start u s e init good₁ ∨ SimMisses R loglike place rule start u s e init good₂ := by
  obtain ⟨live, its, samples, hex, hsam, A, da, dw, w, hw, hbad⟩ := h
  by_cases h1 : ∃ r : Run ℝ, processSamples A R samples da dw w = (.ok r, w) ∧ good₁ A r w
  · refine .inr ⟨live, its, samples, hex, hsam, A, da, dw, w, hw, ?_⟩
    rintro ⟨r', e', g'⟩
    obtain ⟨r, e, g⟩ := h1
    obtain rfl : r = r' := by
      have := congrArg Prod.fst (e.symm.trans e')
      simpa using this
    exact hbad ⟨r, e, hg A r w g g'⟩
  · exact .inl ⟨live, its, samples, hex, hsam, A, da, dw, w, hw, h1⟩

/-- What the weighted means over the samples of a run are, with simulated volumes. -/
theorem run_simulated_mul {r : Run ℝ} {loglike g : ℝ → ℝ} {l : List (Removal N)} (hl : r.logl = l.map (fun s => loglike s.volume))
    (hn : r.nlive = l.map (fun s => (s.alive : Int))) (hne : l ≠ []) (hN : l.length ≤ N) (hv : ∀ s ∈ l, s.volume ∈ Set.Ioo (0 : ℝ) 1)
    (hin : ∀ x ∈ Set.Ioo (0 : ℝ) 1, g x = Real.exp (loglike x)) (s : Fin N → ℝ) {q : ℝ → E → ℝ} {e : Fin N → E} :
    (List.zipWith (· * ·) (sampleWeights r none true ((List.ofFn s).take r.nlive.length)) (l.map (fun t => q t.volume (e t.point)))).sum =
      simSpotted (fun v e => g v * if v ∈ Set.Ioo (0 : ℝ) 1 then q v e else 0) s e l := by
  rw [run_simulated hl hn hne hN hv hin, simSpotted, Finset.sum_range, ← List.sum_ofFn]
  congr 1
  apply List.ext_getElem
  · simp
  · intro i h1 h2
    have hi : i < l.length := by simpa using h2
    have := hv _ (List.getElem_mem hi)
    simp only [Set.mem_Ioo] at this
    simp [this, mul_assoc]

section

variable {Ω : ℕ → Type} [∀ k, MeasurableSpace (Ω k)] {P : ∀ k, Measure (Ω k)} {N : ℕ → Nat} {rule : ∀ k, Rule (N k)}
  {start : ∀ k, Finset (Fin (N k))} [MeasurableSpace E] {ν : Measure E}
  {draws sims : ∀ k, Ω k → Fin (N k) → ℝ} {spots : ∀ k, Ω k → Fin (N k) → E}

theorem simMisses_tendsto {R : Rng σ ℝ} {loglike : ℝ → ℝ} {place : ℝ → E → List ℝ} {init : ℝ} {good good₁ good₂ : Argsort ℝ → Run ℝ → World σ → Prop}
    (hg : ∀ A r w, good₁ A r w → good₂ A r w → good A r w)
    (h1 : Tendsto (fun k => P k {ω | SimMisses R loglike place (rule k) (start k) (draws k ω) (sims k ω) (spots k ω) init good₁}) atTop (𝓝 0))
    (h2 : Tendsto (fun k => P k {ω | SimMisses R loglike place (rule k) (start k) (draws k ω) (sims k ω) (spots k ω) init good₂}) atTop (𝓝 0)) :
    Tendsto (fun k => P k {ω | SimMisses R loglike place (rule k) (start k) (draws k ω) (sims k ω) (spots k ω) init good}) atTop (𝓝 0) := by
  have h3 := h1.add h2
  rw [add_zero] at h3
  refine tendsto_of_tendsto_of_tendsto_of_le_of_le tendsto_const_nhds h3 (fun k => zero_le) fun k => ?_
  exact le_trans (measure_mono fun ω h => h.split hg) (measure_union_le _ _)

variable [IsProbabilityMeasure ν]

/-- C99.  As the number of points with which they start grows, the weighted means over the samples of the runs of ideal samplers, with
simulated prior volumes, converge in probability to the means over the posterior distribution, for every bounded quantity `f` of the
parameters. -/
theorem C99_average {R : Rng σ ℝ} (hs : ∀ k, StoppingSchedule (rule k) (start k)) (hu : ∀ k, IidSimulated (P k) ν (draws k) (sims k) (spots k))
    (hn : Tendsto (fun k => (start k).card) atTop atTop)
    {loglike : ℝ → ℝ} (hanti : StrictAntiOn loglike (Set.Ioo 0 1)) {init : ℝ} (hinit : ∀ x ∈ Set.Ioo (0 : ℝ) 1, init < loglike x)
    {b : ℝ} (hb : ∀ x ∈ Set.Ioo (0 : ℝ) 1, loglike x ≤ b) {place : ℝ → E → List ℝ} {f : List ℝ → ℝ} {q : ℝ → E → ℝ}
    (hf : ∀ x ∈ Set.Ioo (0 : ℝ) 1, ∀ e, f (place x e) = q x e) (hq : Measurable (fun p : ℝ × E => q p.1 p.2)) {B : ℝ}
    (hB : ∀ x ∈ Set.Ioo (0 : ℝ) 1, ∀ e, |q x e| ≤ B)
    (hcont : ∀ᵐ x ∂volume.restrict (Set.Ioo (0 : ℝ) 1), ContinuousAt (fun x => ∫ e, q x e ∂ν) x) {δ : ℝ} (hδ : 0 < δ) :
    Tendsto (fun k => P k {ω | SimMisses R loglike place (rule k) (start k) (draws k ω) (sims k ω) (spots k ω) init fun _ r w =>
      Usable r none true (R.uniform r.nlive.length w.rng).1 ∧ (∀ t ∈ r.theta, ∃ x ∈ Set.Ioo (0 : ℝ) 1, ∃ e, t = place x e) ∧
      |Spec.mean (sampleWeights r none true (R.uniform r.nlive.length w.rng).1) (r.theta.map f) - posteriorMean loglike ν q| < δ})
      atTop (𝓝 0) := by
  classical
  have hI : IsProbabilityMeasure (volume.restrict (Set.Ico (0 : ℝ) 1)) := inferInstanceAs (IsProbabilityMeasure unif)
  obtain ⟨g, hganti, hM, hin⟩ := exists_extension hanti hb
  set G : ℝ → E → ℝ := fun v e => g v * if v ∈ Set.Ioo (0 : ℝ) 1 then q v e else 0 with hGd
  have hGm : Measurable (fun p : ℝ × E => G p.1 p.2) :=
    (hganti.measurable.comp measurable_fst).mul (Measurable.ite (measurable_fst measurableSet_Ioo) hq measurable_const)
  have hB0 : 0 ≤ |B| := abs_nonneg _
  have hGM : ∀ v e, |G v e| ≤ Real.exp b * |B| := by
    intro v e
    simp only [hGd]
    rw [abs_mul]
    refine mul_le_mul (hM v) ?_ (abs_nonneg _) (Real.exp_pos b).le
    split_ifs with h
    · exact (hB v h e).trans (le_abs_self B)
    · simpa using hB0
  have hGi : ∀ x ∈ Set.Ioo (0 : ℝ) 1, ∫ e, G x e ∂ν = g x * ∫ e, q x e ∂ν := by
    intro x hx
    simp only [hGd, if_pos hx]
    rw [integral_const_mul]
  have hGc : ∀ᵐ x ∂volume.restrict (Set.Ioo (0 : ℝ) 1), ContinuousAt (fun x => ∫ e, G x e ∂ν) x := by
    filter_upwards [hcont, antitone_continuous_ae hganti, ae_restrict_mem measurableSet_Ioo] with x h1 h2 h3
    refine (h2.mul h1).congr ?_
    filter_upwards [Ioo_mem_nhds h3.1 h3.2] with y hy
    exact (hGi y hy).symm
  have hA : ∫ x in (0 : ℝ)..1, ∫ e, G x e ∂ν = ∫ x in (0 : ℝ)..1, Real.exp (loglike x) * ∫ e, q x e ∂ν := by
    rw [intervalIntegral.integral_of_le zero_le_one, intervalIntegral.integral_of_le zero_le_one, ← restrict_Ioo_eq_restrict_Ioc]
    refine setIntegral_congr_fun measurableSet_Ioo fun x hx => ?_
    change ∫ e, G x e ∂ν = _
    rw [hGi x hx, hin x hx]
  have l1 : Tendsto (fun k => ∫⁻ ω, ‖simSpotted G (sims k ω) (spots k ω) (removals (rule k) (start k) (draws k ω)) -
      ∫ x in (0 : ℝ)..1, Real.exp (loglike x) * ∫ e, q x e ∂ν‖ₑ ∂P k) atTop (𝓝 0) := by
    rw [← hA]
    refine (simSpotted_tendsto hs hn hGM hGm hGc).congr fun k => ?_
    exact ((hu k).lintegral ((simSpotted_measurable (hs k) hGm).sub_const (∫ x in (0 : ℝ)..1, ∫ e, G x e ∂ν)).enorm).symm
  have l2 := simLimit_points hs (simLimit_continuous hs hn hM hganti.measurable (antitone_continuous_ae hganti)) hganti.measurable
    (fun k => (hu k).simulated)
  rw [integral_extension hin] at l2
  have m1 : ∀ k, AEMeasurable (fun ω => simSpotted G (sims k ω) (spots k ω) (removals (rule k) (start k) (draws k ω))) (P k) := fun k =>
    (simSpotted_measurable (hs k) hGm).comp_aemeasurable (hu k).aemeasurable
  have m2 : ∀ k, AEMeasurable (fun ω => simSum g (sims k ω) (removals (rule k) (start k) (draws k ω))) (P k) := fun k =>
    (simSum_measurable (hs k) hganti.measurable).comp_aemeasurable (hu k).simulated.aemeasurable
  refine ratio_in_probability m1 m2 (evidence_pos hanti hb).ne' l1 l2 hδ fun k => ?_
  have hvec : ∀ ω, (fun i : Fin (N k) => (List.ofFn (draws k ω)).getD i 0) = draws k ω := fun ω => by
    funext i
    simp [List.getD_eq_getElem?_getD]
  filter_upwards [C96_run (R := R) (hs k) (hu k).points hanti hinit place, adaptive_ae (hs k) (hu k).points.uniform, (hu k).pos]
    with ω ⟨_, h2⟩ ⟨_, h4, h5⟩ h6 hlt
  rw [hvec] at h4 h5
  rintro ⟨live, its, samples, hex, hsam, A, da, dw, w, hw, hbad⟩
  obtain ⟨r, e1, e2, e3, e4⟩ := h2 live its hex samples hsam A da dw
  have hne := removals_ne_nil (hs k) (draws k ω)
  have hN := removals_length_le (hs k) (draws k ω)
  generalize removals (rule k) (start k) (draws k ω) = l at *
  have hvol := volumes_inside h4 h5
  have hus : (R.uniform r.nlive.length w.rng).1 = (List.ofFn (sims k ω)).take r.nlive.length := hw _ (by rw [e4]; simpa using hN)
  have hW := weighable_removals e2 e4 hne h4
  refine hbad ⟨r, e1 w, ⟨by rw [e2, e3]; simp, hW.nonempty, hW, fun _ u hu' => ?_⟩, ?_, ?_⟩
  · rw [hus] at hu'
    obtain ⟨j, rfl⟩ := List.mem_ofFn.mp (List.mem_of_mem_take hu')
    exact (h6 j).1
  · intro t ht
    rw [e3] at ht
    obtain ⟨s, hs', rfl⟩ := List.mem_map.mp ht
    exact ⟨s.volume, hvol s hs', _, rfl⟩
  · have hth : r.theta.map f = l.map (fun s => q s.volume (spots k ω s.point)) := by
      rw [e3, List.map_map]
      exact List.map_congr_left fun s hs' => hf _ (hvol s hs') _
    rw [hus, Spec.mean, hth, run_simulated_mul e2 e4 hne hN hvol hin, run_simulated_sum e2 e4 hne hN hvol hin, posteriorMean]
    exact hlt

/-- C99 for `param_mean`. -/
theorem C99_param_mean {R : Rng σ ℝ} (hs : ∀ k, StoppingSchedule (rule k) (start k)) (hu : ∀ k, IidSimulated (P k) ν (draws k) (sims k) (spots k))
    (hn : Tendsto (fun k => (start k).card) atTop atTop)
    {loglike : ℝ → ℝ} (hanti : StrictAntiOn loglike (Set.Ioo 0 1)) {init : ℝ} (hinit : ∀ x ∈ Set.Ioo (0 : ℝ) 1, init < loglike x)
    {b : ℝ} (hb : ∀ x ∈ Set.Ioo (0 : ℝ) 1, loglike x ≤ b) {place : ℝ → E → List ℝ} {ind : Nat} {q : ℝ → E → ℝ}
    (hp : ∀ x ∈ Set.Ioo (0 : ℝ) 1, ∀ e, (place x e)[ind]? = some (q x e)) (hq : Measurable (fun p : ℝ × E => q p.1 p.2)) {B : ℝ}
    (hB : ∀ x ∈ Set.Ioo (0 : ℝ) 1, ∀ e, |q x e| ≤ B)
    (hcont : ∀ᵐ x ∂volume.restrict (Set.Ioo (0 : ℝ) 1), ContinuousAt (fun x => ∫ e, q x e ∂ν) x) {δ : ℝ} (hδ : 0 < δ) :
    Tendsto (fun k => P k {ω | SimMisses R loglike place (rule k) (start k) (draws k ω) (sims k ω) (spots k ω) init fun _ r w => ∀ handle, ∃ m w',
      paramMean R r none true ind handle w = (.ok (some m), w') ∧ |m - posteriorMean loglike ν q| < δ}) atTop (𝓝 0) := by
  have h := C99_average (R := R) hs hu hn hanti hinit hb (place := place) (f := fun t : List ℝ => t[ind]?.getD 0) (fun x hx e => by simp [hp x hx e]) hq hB hcont hδ
  refine simMisses_tendsto ?_ h h
  rintro _ r w ⟨h1, h2, h3⟩ - handle
  obtain ⟨m, e1, e2, -⟩ := C30_param_mean R h1 (column_of (f := fun t : List ℝ => t[ind]?.getD 0) hp (fun t y e => by simp [e]) h2) handle
  exact ⟨m, _, e1, by rw [e2]; exact h3⟩

/-- C99 for `param_squared_mean`. -/
theorem C99_squared {R : Rng σ ℝ} (hs : ∀ k, StoppingSchedule (rule k) (start k)) (hu : ∀ k, IidSimulated (P k) ν (draws k) (sims k) (spots k))
    (hn : Tendsto (fun k => (start k).card) atTop atTop)
    {loglike : ℝ → ℝ} (hanti : StrictAntiOn loglike (Set.Ioo 0 1)) {init : ℝ} (hinit : ∀ x ∈ Set.Ioo (0 : ℝ) 1, init < loglike x)
    {b : ℝ} (hb : ∀ x ∈ Set.Ioo (0 : ℝ) 1, loglike x ≤ b) {place : ℝ → E → List ℝ} {ind : Nat} {q : ℝ → E → ℝ}
    (hp : ∀ x ∈ Set.Ioo (0 : ℝ) 1, ∀ e, (place x e)[ind]? = some (q x e)) (hq : Measurable (fun p : ℝ × E => q p.1 p.2)) {B : ℝ}
    (hB : ∀ x ∈ Set.Ioo (0 : ℝ) 1, ∀ e, |q x e| ≤ B)
    (hcont : ∀ᵐ x ∂volume.restrict (Set.Ioo (0 : ℝ) 1), ContinuousAt (fun x => ∫ e, q x e ^ 2 ∂ν) x) {δ : ℝ} (hδ : 0 < δ) :
    Tendsto (fun k => P k {ω | SimMisses R loglike place (rule k) (start k) (draws k ω) (sims k ω) (spots k ω) init fun _ r w => ∃ m w',
      paramSquaredMean R r none true ind w = (.ok m, w') ∧ |m - posteriorMean loglike ν (fun x e => q x e ^ 2)| < δ}) atTop (𝓝 0) := by
  have h := C99_average (R := R) hs hu hn hanti hinit hb (place := place) (f := fun t : List ℝ => t[ind]?.getD 0 * t[ind]?.getD 0) (q := fun x e => q x e ^ 2)
    (fun x hx e => by simp [hp x hx e, pow_two]) (hq.pow_const 2) (B := B ^ 2)
    (fun x hx e => by rw [abs_pow]; exact pow_le_pow_left₀ (abs_nonneg _) (hB x hx e) 2) hcont hδ
  refine simMisses_tendsto ?_ h h
  rintro _ r w ⟨h1, h2, h3⟩ -
  obtain ⟨m, _, w', e1, e2, e3, -⟩ := C30_squared R h1 (column_of (f := fun t : List ℝ => t[ind]?.getD 0) hp (fun t y e => by simp [e]) h2) true
  refine ⟨m, w', e1, ?_⟩
  rw [e3, List.map_map]
  exact h3

/-- C99 for `r_mean`. -/
theorem C99_r_mean {R : Rng σ ℝ} (hs : ∀ k, StoppingSchedule (rule k) (start k)) (hu : ∀ k, IidSimulated (P k) ν (draws k) (sims k) (spots k))
    (hn : Tendsto (fun k => (start k).card) atTop atTop)
    {loglike : ℝ → ℝ} (hanti : StrictAntiOn loglike (Set.Ioo 0 1)) {init : ℝ} (hinit : ∀ x ∈ Set.Ioo (0 : ℝ) 1, init < loglike x)
    {b : ℝ} (hb : ∀ x ∈ Set.Ioo (0 : ℝ) 1, loglike x ≤ b) {place : ℝ → E → List ℝ} {q : ℝ → E → ℝ}
    (hp : ∀ x ∈ Set.Ioo (0 : ℝ) 1, ∀ e, radius (place x e) = q x e) (hq : Measurable (fun p : ℝ × E => q p.1 p.2)) {B : ℝ}
    (hB : ∀ x ∈ Set.Ioo (0 : ℝ) 1, ∀ e, |q x e| ≤ B)
    (hcont : ∀ᵐ x ∂volume.restrict (Set.Ioo (0 : ℝ) 1), ContinuousAt (fun x => ∫ e, q x e ∂ν) x) {δ : ℝ} (hδ : 0 < δ) :
    Tendsto (fun k => P k {ω | SimMisses R loglike place (rule k) (start k) (draws k ω) (sims k ω) (spots k ω) init fun _ r w => ∃ m w',
      rMean R r none true w = (.ok m, w') ∧ |m - posteriorMean loglike ν q| < δ}) atTop (𝓝 0) := by
  have h := C99_average (R := R) hs hu hn hanti hinit hb hp hq hB hcont hδ
  refine simMisses_tendsto ?_ h h
  rintro _ r w ⟨h1, h2, h3⟩ -
  obtain ⟨m, e1, e2, -⟩ := C32_r_mean R h1
  exact ⟨m, _, e1, by rw [e2]; exact h3⟩

/-! ### No sample dominates -/

/-- C99: as the number of starting points grows, the largest share which a single sample has in the sum of the simulated weights tends to
zero in probability. -/
theorem C99_weights {R : Rng σ ℝ} (hs : ∀ k, StoppingSchedule (rule k) (start k)) (hu : ∀ k, IidSimulated (P k) ν (draws k) (sims k) (spots k))
    (hn : Tendsto (fun k => (start k).card) atTop atTop)
    {loglike : ℝ → ℝ} (hanti : StrictAntiOn loglike (Set.Ioo 0 1)) {init : ℝ} (hinit : ∀ x ∈ Set.Ioo (0 : ℝ) 1, init < loglike x)
    {b : ℝ} (hb : ∀ x ∈ Set.Ioo (0 : ℝ) 1, loglike x ≤ b) (place : ℝ → E → List ℝ) {κ : ℝ} (hκ : 0 < κ) :
    Tendsto (fun k => P k {ω | SimMisses R loglike place (rule k) (start k) (draws k ω) (sims k ω) (spots k ω) init fun _ r w =>
      ∀ v ∈ sampleWeights r none true (R.uniform r.nlive.length w.rng).1,
        v ≤ κ * (sampleWeights r none true (R.uniform r.nlive.length w.rng).1).sum}) atTop (𝓝 0) := by
  classical
  have hI : IsProbabilityMeasure (volume.restrict (Set.Ico (0 : ℝ) 1)) := inferInstanceAs (IsProbabilityMeasure unif)
  obtain ⟨g, hganti, hM, hin⟩ := exists_extension hanti hb
  have l2 := simLimit_points hs (simLimit_continuous hs hn hM hganti.measurable (antitone_continuous_ae hganti)) hganti.measurable
    (fun k => (hu k).simulated)
  rw [integral_extension hin] at l2
  have hZ := evidence_pos hanti hb
  set Z := ∫ x in (0 : ℝ)..1, Real.exp (loglike x) with hZd
  have m2 : ∀ k, AEMeasurable (fun ω => simSum g (sims k ω) (removals (rule k) (start k) (draws k ω))) (P k) := fun k =>
    (simSum_measurable (hs k) hganti.measurable).comp_aemeasurable (hu k).simulated.aemeasurable
  have m3 : ∀ k, AEMeasurable (fun ω => squares (sims k ω) (removals (rule k) (start k) (draws k ω))) (P k) := fun k =>
    (squares_measurable (hs k)).comp_aemeasurable (hu k).simulated.aemeasurable
  have hsq0 : ∀ {n : Nat} (s : Fin n → ℝ) (l : List (Removal n)), 0 ≤ squares s l := fun s l => by
    rw [squares]
    exact Finset.sum_nonneg fun i _ => sq_nonneg _
  have l3 : Tendsto (fun k => ∫⁻ ω, ‖squares (sims k ω) (removals (rule k) (start k) (draws k ω)) - 0‖ₑ ∂P k) atTop (𝓝 0) := by
    have h0 := simWidth_squares hs hn
    have hsq : ∀ k (q : (Fin (N k) → ℝ) × (Fin (N k) → ℝ)), ∑ i ∈ Finset.range (removals (rule k) (start k) q.1).length,
        simWidth (removals (rule k) (start k) q.1) q.2 i ^ 2 = squares q.2 (removals (rule k) (start k) q.1) := fun k q => by rw [squares]
    simp only [hsq] at h0
    refine h0.congr fun k => ?_
    have hm := (squares_measurable (hs k)).ennreal_ofReal
    have h1 := lintegral_map' hm.aemeasurable (hu k).simulated.aemeasurable
    have h2 := congrArg (fun m => ∫⁻ q, ENNReal.ofReal (squares q.2 (removals (rule k) (start k) q.1)) ∂m) (hu k).simulated.symm
    refine Eq.trans h2 (h1.trans ?_)
    refine lintegral_congr fun ω => ?_
    rw [sub_zero, Real.enorm_eq_ofReal_abs, abs_of_nonneg (hsq0 _ _)]
  set κ' : ℝ := κ * (Z / 2) / Real.exp b with hκ'
  have hκ0 : 0 < κ' := by positivity
  have b1 := ratio_in_probability m2 (den := fun _ _ => 1) (fun k => aemeasurable_const) one_ne_zero l2 (by simp) (δ := Z / 2) (by positivity)
    (bad := fun k => {ω | ¬ |simSum g (sims k ω) (removals (rule k) (start k) (draws k ω)) / 1 - Z / 1| < Z / 2}) fun k =>
      ae_of_all _ fun ω h1 h2 => h2 h1
  have b2 := ratio_in_probability m3 (den := fun _ _ => 1) (fun k => aemeasurable_const) one_ne_zero l3 (by simp) (δ := κ' ^ 2) (by positivity)
    (bad := fun k => {ω | ¬ |squares (sims k ω) (removals (rule k) (start k) (draws k ω)) / 1 - 0 / 1| < κ' ^ 2}) fun k =>
      ae_of_all _ fun ω h1 h2 => h2 h1
  have b3 := b1.add b2
  rw [add_zero] at b3
  refine tendsto_of_tendsto_of_tendsto_of_le_of_le tendsto_const_nhds b3 (fun k => zero_le) fun k => ?_
  refine le_trans (measure_mono_ae ?_) (measure_union_le _ _)
  have hvec : ∀ ω, (fun i : Fin (N k) => (List.ofFn (draws k ω)).getD i 0) = draws k ω := fun ω => by
    funext i
    simp [List.getD_eq_getElem?_getD]
  filter_upwards [C96_run (R := R) (hs k) (hu k).points hanti hinit place, adaptive_ae (hs k) (hu k).points.uniform, (hu k).pos]
    with ω ⟨_, h2⟩ ⟨_, h4, h5⟩ h6 hmiss
  rw [hvec] at h4 h5
  by_contra hout
  change ω ∉ {ω | _} ∪ {ω | _} at hout
  simp only [Set.mem_union, Set.mem_ofPred_eq, not_or, not_not] at hout
  obtain ⟨hlt, hsq⟩ := hout
  obtain ⟨live, its, samples, hex, hsam, A, da, dw, w, hw, hbad⟩ := hmiss
  obtain ⟨r, e1, e2, e3, e4⟩ := h2 live its hex samples hsam A da dw
  have hne := removals_ne_nil (hs k) (draws k ω)
  have hN := removals_length_le (hs k) (draws k ω)
  generalize removals (rule k) (start k) (draws k ω) = l at *
  have hvol := volumes_inside h4 h5
  have hus : (R.uniform r.nlive.length w.rng).1 = (List.ofFn (sims k ω)).take r.nlive.length := hw _ (by rw [e4]; simpa using hN)
  refine hbad ⟨r, e1 w, fun v hv => ?_⟩
  rw [hus] at hv ⊢
  rw [run_simulated_sum e2 e4 hne hN hvol hin]
  rw [run_simulated e2 e4 hne hN hvol hin] at hv
  obtain ⟨i, rfl⟩ := List.mem_ofFn.mp hv
  rw [div_one, div_one, abs_lt] at hlt
  rw [div_one, div_one, sub_zero, abs_of_nonneg (hsq0 _ _)] at hsq
  have hw0 := simWidth_nonneg h6 hN (i : Nat)
  have hw1 : simWidth l (sims k ω) i ≤ κ' := by
    refine le_of_lt (lt_of_pow_lt_pow_left₀ 2 hκ0.le (lt_of_le_of_lt ?_ hsq))
    rw [squares]
    exact Finset.single_le_sum (f := fun i => simWidth l (sims k ω) i ^ 2) (fun j _ => sq_nonneg _) (Finset.mem_range.mpr i.2)
  have hg : g l[i].volume ≤ Real.exp b := (le_abs_self _).trans (hM _)
  have hg0 : 0 ≤ g l[i].volume := by
    have := hin _ (hvol l[i] (List.getElem_mem _))
    rw [this]
    exact (Real.exp_pos _).le
  calc simWidth l (sims k ω) i * g l[i].volume
      ≤ κ' * Real.exp b := mul_le_mul hw1 hg hg0 hκ0.le
    _ = κ * (Z / 2) := by rw [hκ', div_mul_cancel₀ _ (Real.exp_pos b).ne']
    _ ≤ _ := mul_le_mul_of_nonneg_left (by linarith [hlt.1]) hκ.le

/-! ### Quantiles -/

/-- The weighted quantiles of a quantity of the parameters, in terms of `SimMisses`. -/
theorem simMisses_quantile {R : Rng σ ℝ} (hs : ∀ k, StoppingSchedule (rule k) (start k)) (hu : ∀ k, IidSimulated (P k) ν (draws k) (sims k) (spots k))
    (hn : Tendsto (fun k => (start k).card) atTop atTop)
    {loglike : ℝ → ℝ} (hanti : StrictAntiOn loglike (Set.Ioo 0 1)) {init : ℝ} (hinit : ∀ x ∈ Set.Ioo (0 : ℝ) 1, init < loglike x)
    {b : ℝ} (hb : ∀ x ∈ Set.Ioo (0 : ℝ) 1, loglike x ≤ b) {place : ℝ → E → List ℝ} {f : List ℝ → ℝ} {q : ℝ → E → ℝ}
    (hf : ∀ x ∈ Set.Ioo (0 : ℝ) 1, ∀ e, f (place x e) = q x e) (hq : Measurable (fun p : ℝ × E => q p.1 p.2))
    (hcont : ∀ t, ∀ᵐ x ∂volume.restrict (Set.Ioo (0 : ℝ) 1), ContinuousAt (fun x => ν.real {e | q x e ≤ t}) x)
    {prob : ℝ} (hp0 : 0 < prob) (hp1 : prob < 1) {Q : ℝ} (hQ : PosteriorQuantile loglike ν q prob Q) {δ : ℝ} (hδ : 0 < δ) :
    Tendsto (fun k => P k {ω | SimMisses R loglike place (rule k) (start k) (draws k ω) (sims k ω) (spots k ω) init fun A r w =>
      Usable r none true (R.uniform r.nlive.length w.rng).1 ∧ (∀ t ∈ r.theta, ∃ x ∈ Set.Ioo (0 : ℝ) 1, ∃ e, t = place x e) ∧
      ∃ y, weightedQuantile A prob (r.theta.map f) (sampleWeights r none true (R.uniform r.nlive.length w.rng).1) = .ok y ∧ |y - Q| < δ})
      atTop (𝓝 0) := by
  have hcdf : ∀ (t : ℝ) {η : ℝ} (_ : 0 < η), _ := fun t η hη =>
    C99_average (R := R) (init := init) hs hu hn hanti hinit hb (place := place) (f := fun θ => if f θ ≤ t then 1 else 0)
      (q := fun x e => if q x e ≤ t then 1 else 0) (fun x hx e => by rw [hf x hx e])
      (Measurable.ite (hq measurableSet_Iic) measurable_const measurable_const) (B := 1)
      (fun x _ e => by split_ifs <;> simp) (by simpa only [indicator_cdf hq] using hcont t) hη
  have hlo := hQ.1 (Q - δ / 2) (by linarith)
  have hhi := hQ.2 (Q + δ / 2) (by linarith)
  unfold posteriorCdf at hlo hhi
  set lo := posteriorMean loglike ν fun x e => if q x e ≤ Q - δ / 2 then 1 else 0 with hlod
  set hi := posteriorMean loglike ν fun x e => if q x e ≤ Q + δ / 2 then 1 else 0 with hhid
  have hc1 := hcdf (Q - δ / 2) (η := (prob - lo) / 2) (by linarith)
  have hc2 := hcdf (Q + δ / 2) (η := (hi - prob) / 2) (by linarith)
  set κ := min (prob - lo) (hi - prob) / 4 with hκd
  have hκ : 0 < κ := by
    have := lt_min (sub_pos.mpr hlo) (sub_pos.mpr hhi)
    positivity
  have hk1 : 4 * κ ≤ prob - lo := by
    rw [hκd]
    linarith [min_le_left (prob - lo) (hi - prob)]
  have hk2 : 4 * κ ≤ hi - prob := by
    rw [hκd]
    linarith [min_le_right (prob - lo) (hi - prob)]
  refine simMisses_tendsto ?_ (simMisses_tendsto (fun A r w h1 h2 => And.intro h1 h2) hc1 hc2)
    (C99_weights (R := R) hs hu hn hanti hinit hb place hκ)
  rintro A r w ⟨⟨g1, g2, g3⟩, -, -, g4⟩ g5
  refine ⟨g1, g2, ?_⟩
  obtain ⟨s1, s2, s3⟩ := sampleWeights_spec g1
  have hS := sum_pos_of s1 s3
  have hl : (r.theta.map f).length = (sampleWeights r none true (R.uniform r.nlive.length w.rng).1).length := by
    rw [s2, List.length_map, g1.1]
  have e1 := weightBelow_mean (values := r.theta.map f) (Q - δ / 2) hS
  have e2 := weightBelow_mean (values := r.theta.map f) (Q + δ / 2) hS
  rw [List.map_map, Function.comp_def] at e1 e2
  rw [abs_lt] at g3 g4
  generalize sampleWeights r none true (R.uniform r.nlive.length w.rng).1 = ws at *
  obtain ⟨y, hy, hy1, hy2⟩ := quantile_bounds A hl (W := κ * ws.sum) (fun v hv => ⟨(s3 v hv).le, g5 v hv⟩) hS hp0 hp1
    (a := Q - δ / 2) (b := Q + δ / 2) (by
      rw [← e1, ← add_mul]
      exact mul_le_mul_of_nonneg_right (by linarith [g3.2]) hS.le) (by
      rw [← e2, ← add_mul]
      exact mul_lt_mul_of_pos_right (by linarith [g4.1]) hS)
  exact ⟨y, hy, by rw [abs_lt]; constructor <;> linarith⟩

/-- C99 for `param_cred`. -/
theorem C99_param_cred {R : Rng σ ℝ} (hs : ∀ k, StoppingSchedule (rule k) (start k)) (hu : ∀ k, IidSimulated (P k) ν (draws k) (sims k) (spots k))
    (hn : Tendsto (fun k => (start k).card) atTop atTop)
    {loglike : ℝ → ℝ} (hanti : StrictAntiOn loglike (Set.Ioo 0 1)) {init : ℝ} (hinit : ∀ x ∈ Set.Ioo (0 : ℝ) 1, init < loglike x)
    {b : ℝ} (hb : ∀ x ∈ Set.Ioo (0 : ℝ) 1, loglike x ≤ b) {place : ℝ → E → List ℝ} {ind : Nat} {q : ℝ → E → ℝ}
    (hp : ∀ x ∈ Set.Ioo (0 : ℝ) 1, ∀ e, (place x e)[ind]? = some (q x e)) (hq : Measurable (fun p : ℝ × E => q p.1 p.2))
    (hcont : ∀ t, ∀ᵐ x ∂volume.restrict (Set.Ioo (0 : ℝ) 1), ContinuousAt (fun x => ν.real {e | q x e ≤ t}) x)
    {prob : ℝ} (hp0 : 0 < prob) (hp1 : prob < 1) {Q : ℝ} (hQ : PosteriorQuantile loglike ν q prob Q) {δ : ℝ} (hδ : 0 < δ) :
    Tendsto (fun k => P k {ω | SimMisses R loglike place (rule k) (start k) (draws k ω) (sims k ω) (spots k ω) init fun A r w => ∃ y w',
      paramCred A R r none true prob ind w = (.ok y, w') ∧ |y - Q| < δ}) atTop (𝓝 0) := by
  have h := simMisses_quantile (R := R) hs hu hn hanti hinit hb (place := place) (f := fun t : List ℝ => t[ind]?.getD 0)
    (fun x hx e => by simp [hp x hx e]) hq hcont hp0 hp1 hQ hδ
  refine simMisses_tendsto ?_ h h
  rintro A r w ⟨h1, h2, y, h3, h4⟩ -
  refine ⟨y, afterWeights R r none true w, ?_, h4⟩
  rw [C31_param_cred A R h1 (column_of (f := fun t : List ℝ => t[ind]?.getD 0) hp (fun t y e => by simp [e]) h2) prob, h3]

/-- C99 for `r_cred`. -/
theorem C99_r_cred {R : Rng σ ℝ} (hs : ∀ k, StoppingSchedule (rule k) (start k)) (hu : ∀ k, IidSimulated (P k) ν (draws k) (sims k) (spots k))
    (hn : Tendsto (fun k => (start k).card) atTop atTop)
    {loglike : ℝ → ℝ} (hanti : StrictAntiOn loglike (Set.Ioo 0 1)) {init : ℝ} (hinit : ∀ x ∈ Set.Ioo (0 : ℝ) 1, init < loglike x)
    {b : ℝ} (hb : ∀ x ∈ Set.Ioo (0 : ℝ) 1, loglike x ≤ b) {place : ℝ → E → List ℝ} {q : ℝ → E → ℝ}
    (hp : ∀ x ∈ Set.Ioo (0 : ℝ) 1, ∀ e, radius (place x e) = q x e) (hq : Measurable (fun p : ℝ × E => q p.1 p.2))
    (hcont : ∀ t, ∀ᵐ x ∂volume.restrict (Set.Ioo (0 : ℝ) 1), ContinuousAt (fun x => ν.real {e | q x e ≤ t}) x)
    {prob : ℝ} (hp0 : 0 < prob) (hp1 : prob < 1) {Q : ℝ} (hQ : PosteriorQuantile loglike ν q prob Q) {δ : ℝ} (hδ : 0 < δ) :
    Tendsto (fun k => P k {ω | SimMisses R loglike place (rule k) (start k) (draws k ω) (sims k ω) (spots k ω) init fun A r w => ∃ y w',
      rCred A R r none true prob w = (.ok y, w') ∧ |y - Q| < δ}) atTop (𝓝 0) := by
  have h := simMisses_quantile (R := R) hs hu hn hanti hinit hb (place := place) hp hq hcont hp0 hp1 hQ hδ
  refine simMisses_tendsto ?_ h h
  rintro A r w ⟨h1, h2, y, h3, h4⟩ -
  refine ⟨y, afterWeights R r none true w, ?_, h4⟩
  rw [(C32_r_cred A R h1 prob).1, h3]

end

end

end Nestcheck
