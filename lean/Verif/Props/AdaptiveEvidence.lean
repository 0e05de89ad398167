import Verif.Props.AdaptiveConsistency
import Verif.Props.CombinedLaw

/-! C95: the evidence of adaptive samplers, of samplers which stop by themselves, and of combined runs. -/

namespace Nestcheck
open Spec MeasureTheory ENNReal Filter Topology
variable {σ : Type}

noncomputable section

/-- The sum over the samples of the prior volumes which nestcheck expects for these numbers of live points, times a function of the
volumes the samples enclose. -/
def weighted (g : ℝ → ℝ) (ns : List Nat) (vs : List ℝ) : ℝ :=
  (List.zipWith (fun w v => w * g v) (priorVolumes false [] (ns.map (fun m : Nat => (m : Int)))) vs).sum

theorem weighted_eq {g : ℝ → ℝ} {ns : List Nat} {vs : List ℝ} (hne : ns ≠ []) (hlen : ns.length = vs.length) :
    weighted g ns vs = ∑ i ∈ Finset.range ns.length, (cut ns i - cut ns (i + 1)) * g (vs.getD i 0) := by
  rw [weighted, priorVolumes_eq hne, Finset.sum_range, ← List.sum_ofFn]
  congr 1
  apply List.ext_getElem
  · simp [hlen]
  · intro i h1 h2
    have hi : i < vs.length := by
      simp only [List.length_zipWith] at h1
      omega
    simp [List.getD_eq_getElem?_getD, List.getElem?_eq_getElem hi]

theorem weighted_def {g : ℝ → ℝ} {ns : List Nat} {vs : List ℝ} :
    (List.zipWith (fun w v => w * g v) (priorVolumes false [] (ns.map (fun m : Nat => (m : Int)))) vs).sum = weighted g ns vs := rfl

attribute [irreducible] weighted

theorem Spec.IidUniform.lintegral {Ω : Type} [MeasurableSpace Ω] {P : Measure Ω} {n : Nat} {draws : Ω → List ℝ} (h : IidUniform P n draws)
    {f : (Fin n → ℝ) → ℝ≥0∞} (hf : Measurable f) : ∫⁻ ω, f (fun i => (draws ω).getD i 0) ∂P = ∫⁻ u, f u ∂unifPow n := by
  rw [unifPow, ← h, lintegral_map' hf.aemeasurable h.aemeasurable]

theorem weighted_removals_measurable {N : Nat} {rule : Rule N} {start : Finset (Fin N)} (hs : StoppingSchedule rule start) {g : ℝ → ℝ}
    (hg : Measurable g) : Measurable (fun u : Fin N → ℝ => weighted g ((removals rule start u).map (·.alive)) ((removals rule start u).map (·.volume))) := by
  refine removals_measurable hs.measurable (Φ := fun l => weighted g (l.map (·.alive)) (l.map (·.volume))) fun ds => ?_
  have hl : MList ds.length (fun q : (Fin N → ℝ) × (Fin ds.length → ℝ) => List.ofFn q.2) := MList.ofFn measurable_snd
  have e1 : ∀ q : (Fin N → ℝ) × (Fin ds.length → ℝ), (withVolumes ds (List.ofFn q.2)).map (·.alive) = ds.map (·.2.1) := fun q =>
    (withVolumes_alive ds _ (hl.len q)).1
  have e2 : ∀ q : (Fin N → ℝ) × (Fin ds.length → ℝ), (withVolumes ds (List.ofFn q.2)).map (·.volume) = List.ofFn q.2 := fun q =>
    (withVolumes_alive ds _ (hl.len q)).2
  simp only [e1, e2]
  by_cases hds : ds = []
  · subst hds
    have : ∀ q : (Fin N → ℝ) × (Fin ([] : List (Fin N × Nat × Finset (Fin N))).length → ℝ), List.ofFn q.2 = [] := fun q => by simp
    simp only [this]
    exact measurable_const
  · have : ∀ q : (Fin N → ℝ) × (Fin ds.length → ℝ), weighted g (ds.map (·.2.1)) (List.ofFn q.2) = _ := fun q =>
      weighted_eq (by simpa using hds) (by simp)
    simp only [this]
    exact Finset.measurable_fun_sum _ fun i _ => (hg.comp (hl.meas i)).const_mul _

section

variable {Ω : ℕ → Type} [∀ k, MeasurableSpace (Ω k)] {P : ∀ k, Measure (Ω k)} {N : ℕ → Nat} {rule : ∀ k, Rule (N k)}
  {start : ∀ k, Finset (Fin (N k))} {draws : ∀ k, Ω k → List ℝ}

/-- C95.  For the volumes which the points of adaptive ideal samplers enclose, weighted with the prior volumes which nestcheck expects,
sums over the samples converge in mean to integrals over the prior volume, as the number of points with which they start grows. -/
theorem C95_integral (hs : ∀ k, StoppingSchedule (rule k) (start k)) (hu : ∀ k, IidUniform (P k) (N k) (draws k))
    (hn : Tendsto (fun k => (start k).card) atTop atTop)
    {g : ℝ → ℝ} {M : ℝ} (hM : ∀ v, |g v| ≤ M) (hg : Measurable g)
    (hcont : ∀ᵐ x ∂volume.restrict (Set.Ioo (0 : ℝ) 1), ContinuousAt g x) :
    Tendsto (fun k => ∫⁻ ω, ‖(List.zipWith (fun w v => w * g v)
        (priorVolumes false [] (((removals (rule k) (start k) (fun i => (draws k ω).getD i 0)).map (·.alive)).map (fun m : Nat => (m : Int))))
        ((removals (rule k) (start k) (fun i => (draws k ω).getD i 0)).map (·.volume))).sum - ∫ x in (0 : ℝ)..1, g x‖ₑ ∂P k) atTop (𝓝 0) := by
  simp only [weighted_def]
  refine tendsto_of_tendsto_of_tendsto_of_le_of_le tendsto_const_nhds (removals_error_tendsto hs hn hM hg hcont) (fun k => zero_le) ?_
  intro k
  have h1 := (hu k).lintegral (f := fun u => ‖weighted g ((removals (rule k) (start k) u).map (·.alive))
    ((removals (rule k) (start k) u).map (·.volume)) - ∫ x in (0 : ℝ)..1, g x‖ₑ) ((weighted_removals_measurable (hs k) hg).sub_const _).enorm
  refine (le_of_eq h1).trans (lintegral_mono fun u => ?_)
  have hne := removals_ne_nil (hs k) u
  have h2 := weighted_error hM hg (ns := (removals (rule k) (start k) u).map (·.alive)) (by simpa using hne)
    (fun i => ((removals (rule k) (start k) u).map (·.volume)).getD i 0)
  rw [lintegral_cellError hg hne]
  simp only []
  rw [weighted_eq (by simpa using hne) (by simp)]
  refine h2.trans (le_of_eq ?_)
  rw [List.length_map]

end

/-! ### Evidence -/

theorem exists_extension {loglike : ℝ → ℝ} (hanti : StrictAntiOn loglike (Set.Ioo 0 1)) {b : ℝ} (hb : ∀ x ∈ Set.Ioo (0 : ℝ) 1, loglike x ≤ b) :
    ∃ g : ℝ → ℝ, Antitone g ∧ (∀ v, |g v| ≤ Real.exp b) ∧ ∀ x ∈ Set.Ioo (0 : ℝ) 1, g x = Real.exp (loglike x) := by
  refine ⟨fun x => if x ≤ 0 then Real.exp b else if x < 1 then Real.exp (loglike x) else 0, ?_, ?_, ?_⟩
  · intro x y hxy
    dsimp only
    by_cases h1 : x ≤ 0
    · rw [if_pos h1]
      split_ifs with h2 h3
      · exact le_rfl
      · exact Real.exp_le_exp.mpr (hb y ⟨not_le.mp h2, h3⟩)
      · exact (Real.exp_pos _).le
    · rw [if_neg h1, if_neg (not_le.mpr (lt_of_lt_of_le (not_le.mp h1) hxy))]
      by_cases h2 : y < 1
      · rw [if_pos h2, if_pos (lt_of_le_of_lt hxy h2)]
        exact Real.exp_le_exp.mpr (hanti.antitoneOn ⟨not_le.mp h1, lt_of_le_of_lt hxy h2⟩ ⟨lt_of_lt_of_le (not_le.mp h1) hxy, h2⟩ hxy)
      · rw [if_neg h2]
        split_ifs
        · exact (Real.exp_pos _).le
        · exact le_rfl
  · intro v
    dsimp only
    split_ifs with h1 h2
    · rw [abs_of_pos (Real.exp_pos _)]
    · rw [abs_of_pos (Real.exp_pos _)]
      exact Real.exp_le_exp.mpr (hb v ⟨not_le.mp h1, h2⟩)
    · simpa using (Real.exp_pos b).le
  · intro x hx
    dsimp only
    rw [if_neg (not_le.mpr hx.1), if_pos hx.2]

theorem antitone_continuous_ae {g : ℝ → ℝ} (hg : Antitone g) : ∀ᵐ x ∂volume.restrict (Set.Ioo (0 : ℝ) 1), ContinuousAt g x :=
  ae_restrict_of_ae ((hg.countable_not_continuousAt.ae_notMem volume).mono fun x hx => by simpa using hx)

theorem integral_extension {g loglike : ℝ → ℝ} (hin : ∀ x ∈ Set.Ioo (0 : ℝ) 1, g x = Real.exp (loglike x)) :
    ∫ x in (0 : ℝ)..1, g x = ∫ x in (0 : ℝ)..1, Real.exp (loglike x) := by
  rw [intervalIntegral.integral_of_le zero_le_one, intervalIntegral.integral_of_le zero_le_one, ← restrict_Ioo_eq_restrict_Ioc]
  exact setIntegral_congr_fun measurableSet_Ioo hin

/-- What `evidence` and `logz` return for a run with these volumes and numbers of live points. -/
theorem run_evidence {R : Rng σ ℝ} {r : Run ℝ} {loglike g : ℝ → ℝ} {ns : List Nat} {vs : List ℝ} (hl : r.logl = vs.map loglike)
    (hn : r.nlive = ns.map (fun m : Nat => (m : Int))) (hlen : ns.length = vs.length) (hne : vs ≠ []) (hpos : ∀ m ∈ ns, 0 < m)
    (hv : ∀ v ∈ vs, v ∈ Set.Ioo (0 : ℝ) 1) (hin : ∀ x ∈ Set.Ioo (0 : ℝ) 1, g x = Real.exp (loglike x)) (w : World σ) :
    0 < weighted g ns vs ∧ evidence R r none false w = (.ok (weighted g ns vs), w) ∧
      logz R r none false w = (.ok (Real.log (weighted g ns vs)), w) := by
  have hW : Weighable r := by
    refine ⟨by rw [hl]; simpa using hne, ?_, by rw [hl, hn]; simp [hlen]⟩
    intro m hm
    rw [hn] at hm
    obtain ⟨m, hm', rfl⟩ := List.mem_map.mp hm
    exact_mod_cast hpos m hm'
  obtain ⟨z, z1, z2, z3, -⟩ := C29_evidence (R := R) hW false w (by simp)
  have hw : afterWeights R r none false w = w := by simp [afterWeights]
  rw [hw] at z1 z2
  have hz : Real.exp z = weighted g ns vs := by
    rw [z3, hl, hn, List.zipWith_map_right, ← weighted_def]
    congr 1
    apply List.ext_getElem
    · simp [priorVolumes]
    · intro i h4 h5
      rw [List.getElem_zipWith, List.getElem_zipWith]
      simp only [List.length_zipWith] at h5
      rw [hin _ (hv _ (List.getElem_mem (by omega)))]
      rfl
  rw [← hz]
  exact ⟨Real.exp_pos z, z2, by rw [Real.log_exp]; exact z1⟩

/-- Convergence in mean of positive estimates gives convergence in probability of their logarithms. -/
theorem log_in_probability {Ω : ℕ → Type} [∀ k, MeasurableSpace (Ω k)] {P : ∀ k, Measure (Ω k)} {est : ∀ k, Ω k → ℝ}
    (hm : ∀ k, AEMeasurable (est k) (P k)) {Z : ℝ} (hZ : 0 < Z) (hlim : Tendsto (fun k => ∫⁻ ω, ‖est k ω - Z‖ₑ ∂P k) atTop (𝓝 0))
    {δ : ℝ} (hδ : 0 < δ) {bad : ∀ k, Set (Ω k)} (hbad : ∀ k, ∀ᵐ ω ∂P k, |Real.log (est k ω) - Real.log Z| < δ → ω ∉ bad k) :
    Tendsto (fun k => P k (bad k)) atTop (𝓝 0) := by
  obtain ⟨ε, hε, hcl⟩ := Metric.continuousAt_iff.mp (Real.continuousAt_log hZ.ne') δ hδ
  have hε' : ENNReal.ofReal ε ≠ 0 := by simpa using hε
  have h3 : Tendsto (fun k => (∫⁻ ω, ‖est k ω - Z‖ₑ ∂P k) / ENNReal.ofReal ε) atTop (𝓝 0) := by
    have := ENNReal.Tendsto.div_const hlim (Or.inr hε')
    simpa using this
  refine tendsto_of_tendsto_of_tendsto_of_le_of_le tendsto_const_nhds h3 (fun k => zero_le) fun k => ?_
  refine le_trans (measure_mono_ae ?_) (meas_ge_le_lintegral_div ((hm k).sub_const Z).enorm hε' ENNReal.ofReal_ne_top)
  filter_upwards [hbad k] with ω h4 h5
  by_contra hlt
  have h6 : ‖est k ω - Z‖ₑ < ENNReal.ofReal ε := not_le.mp hlt
  rw [Real.enorm_eq_ofReal_abs, ENNReal.ofReal_lt_ofReal_iff hε] at h6
  have h7 := hcl (x := est k ω) (by rwa [Real.dist_eq])
  rw [Real.dist_eq] at h7
  exact h4 h7 h5

section

variable {Ω : ℕ → Type} [∀ k, MeasurableSpace (Ω k)] {P : ∀ k, Measure (Ω k)} {N : ℕ → Nat} {rule : ∀ k, Rule (N k)}
  {start : ∀ k, Finset (Fin (N k))} {draws : ∀ k, Ω k → List ℝ}

/-- C95.  As the number of points with which they start grows, the evidence which nestcheck finds for the runs of adaptive ideal samplers,
which may add points and stop as they like, converges in mean to the evidence. -/
theorem C95_evidence {R : Rng σ ℝ} (hs : ∀ k, StoppingSchedule (rule k) (start k)) (hu : ∀ k, IidUniform (P k) (N k) (draws k))
    (hn : Tendsto (fun k => (start k).card) atTop atTop)
    {loglike : ℝ → ℝ} (hanti : StrictAntiOn loglike (Set.Ioo 0 1)) {init : ℝ} (hinit : ∀ x ∈ Set.Ioo (0 : ℝ) 1, init < loglike x)
    {b : ℝ} (hb : ∀ x ∈ Set.Ioo (0 : ℝ) 1, loglike x ≤ b) :
    ∃ est : ∀ k, Ω k → ℝ, (∀ k, AEMeasurable (est k) (P k)) ∧ (∀ k, ∀ᵐ ω ∂P k,
      (∃ live its, AdaptiveExecution loglike (rule k) (start k) (fun i => (draws k ω).getD i 0) init live its) ∧
      ∀ live its, AdaptiveExecution loglike (rule k) (start k) (fun i => (draws k ω).getD i 0) init live its →
        ∀ samples, samples.Perm (its.map (·.dead)) → ∀ (A : Argsort ℝ) (da dw : Bool) (w : World σ),
          0 < est k ω ∧ ∃ r : Run ℝ, processSamples A R samples da dw w = (.ok r, w) ∧
            evidence R r none false w = (.ok (est k ω), w) ∧ logz R r none false w = (.ok (Real.log (est k ω)), w)) ∧
      Tendsto (fun k => ∫⁻ ω, ‖est k ω - ∫ x in (0 : ℝ)..1, Real.exp (loglike x)‖ₑ ∂P k) atTop (𝓝 0) := by
  obtain ⟨g, hganti, hM, hin⟩ := exists_extension hanti hb
  have hlim := C95_integral hs hu hn hM hganti.measurable (antitone_continuous_ae hganti)
  rw [integral_extension hin] at hlim
  simp only [weighted_def] at hlim
  refine ⟨fun k ω => weighted g ((removals (rule k) (start k) (fun i => (draws k ω).getD i 0)).map (fun s : Removal (N k) => s.alive))
    ((removals (rule k) (start k) (fun i => (draws k ω).getD i 0)).map (fun s : Removal (N k) => s.volume)),
    fun k => (weighted_removals_measurable (hs k) hganti.measurable).comp_aemeasurable (hu k).aemeasurable, fun k => ?_, hlim⟩
  filter_upwards [C92_run (R := R) (hs k) (hu k) hanti hinit, (hu k).vector_ae (removals_descend (hs k)), adaptive_ae (hs k) (hu k)]
    with ω ⟨h1, h2⟩ h3 ⟨_, h4, h5⟩
  refine ⟨h1, fun live its hex samples hsam A da dw w => ?_⟩
  obtain ⟨r, e1, e2, e3⟩ := h2 live its hex samples hsam A da dw
  have hne := removals_ne_nil (hs k) (fun i => (draws k ω).getD i 0)
  set l := removals (rule k) (start k) (fun i => (draws k ω).getD i 0) with hl
  have hvol : ∀ v ∈ l.map (·.volume), v ∈ Set.Ioo (0 : ℝ) 1 := by
    intro v hv
    obtain ⟨s, hs', rfl⟩ := List.mem_map.mp hv
    have hch := (chain_of_shrinkages l one_pos h4 (fun v hv => (h5 v hv).2))
    have hpw := List.isChain_iff_pairwise.mp hch
    exact ⟨(h4 s hs').1, (List.pairwise_cons.mp hpw).1 _ (List.mem_map_of_mem hs')⟩
  obtain ⟨g1, g2, g3⟩ := run_evidence (R := R) (r := r) (loglike := loglike) (g := g) (ns := l.map (·.alive)) (vs := l.map (·.volume))
    (by rw [e2, List.map_map]; rfl) (by rw [e3, List.map_map]; rfl) (by simp) (by simpa using hne)
    (fun m hm => by
      obtain ⟨s, hs', rfl⟩ := List.mem_map.mp hm
      exact (h4 s hs').2) hvol hin w
  exact ⟨g1, r, e1 w, g2, g3⟩

/-- C95.  As the number of points with which they start grows, `logz` of the runs of adaptive ideal samplers converges in probability to
the logarithm of the evidence. -/
theorem C95_logz {R : Rng σ ℝ} (hs : ∀ k, StoppingSchedule (rule k) (start k)) (hu : ∀ k, IidUniform (P k) (N k) (draws k))
    (hn : Tendsto (fun k => (start k).card) atTop atTop)
    {loglike : ℝ → ℝ} (hanti : StrictAntiOn loglike (Set.Ioo 0 1)) {init : ℝ} (hinit : ∀ x ∈ Set.Ioo (0 : ℝ) 1, init < loglike x)
    {b : ℝ} (hb : ∀ x ∈ Set.Ioo (0 : ℝ) 1, loglike x ≤ b) {δ : ℝ} (hδ : 0 < δ) :
    Tendsto (fun k => P k {ω | ∃ live its samples, AdaptiveExecution loglike (rule k) (start k) (fun i => (draws k ω).getD i 0) init live its ∧
      samples.Perm (its.map (·.dead)) ∧ ∃ (A : Argsort ℝ) (da dw : Bool) (w : World σ),
        ¬ ∃ (r : Run ℝ) (z : ℝ), processSamples A R samples da dw w = (.ok r, w) ∧ logz R r none false w = (.ok z, w) ∧
          |z - Real.log (∫ x in (0 : ℝ)..1, Real.exp (loglike x))| < δ}) atTop (𝓝 0) := by
  obtain ⟨est, h0, h1, h2⟩ := C95_evidence (R := R) hs hu hn hanti hinit hb
  refine log_in_probability h0 (evidence_pos hanti hb) h2 hδ fun k => ?_
  filter_upwards [h1 k] with ω h4 hlt
  rintro ⟨live, its, samples, hex, hsam, A, da, dw, w, hbad⟩
  obtain ⟨_, r, e1, _, e3⟩ := h4.2 live its hex samples hsam A da dw w
  exact hbad ⟨r, _, e1, e3, hlt⟩

end

/-! ### Combined runs -/

theorem Layout.start_card {ps : List SamplerPlan} {owner : Fin (planned ps) → Nat}
    (L : Layout (planned ps) ps.length (startOfPlan ps) (addsOfPlan ps) (pointsOfPlan ps) owner) :
    (jointStart (startOfPlan ps) (pointsOfPlan ps) owner).card = (ps.map Prod.fst).sum := by
  have h1 := Finset.card_eq_sum_card_fiberwise (s := jointStart (startOfPlan ps) (pointsOfPlan ps) owner) (t := Finset.range ps.length)
    (f := owner) (fun p _ => by simpa using L.lt p)
  have h2 : ∀ i < ps.length, ((jointStart (startOfPlan ps) (pointsOfPlan ps) owner).filter (fun p => owner p = i)).card = startOfPlan ps i := by
    intro i hi
    have := L.start.card i hi
    simpa [removed, drawn] using this
  rw [h1, Finset.sum_congr rfl fun i hi => h2 i (Finset.mem_range.mp hi), Finset.sum_range, ← List.sum_ofFn]
  congr 1
  apply List.ext_getElem
  · simp
  · intro i h3 h4
    have hi : i < ps.length := by simpa using h4
    simp [startOfPlan, List.getD_eq_getElem?_getD, List.getElem?_eq_getElem hi]

section

variable {Ω : ℕ → Type} [∀ k, MeasurableSpace (Ω k)] {P : ∀ k, Measure (Ω k)} {ps : ℕ → List SamplerPlan}
  {draws : ∀ k, Ω k → List (List ℝ)}

/-- C95.  As the number of points with which several ideal samplers start together grows, the evidence of their combined run converges in mean to
the evidence, and `logz` in probability to its logarithm. -/
theorem C95_combined {R : Rng σ ℝ} (hne : ∀ k, ps k ≠ []) (hs : ∀ k, ∀ p ∈ ps k, VolumeSchedule p.1 p.2)
    (hhead : ∀ k, ∀ p ∈ ps k, p.2.headD 0 ≤ 1) (hlen : ∀ k ω, (draws k ω).map List.length = (ps k).map SamplerPlan.size)
    (hu : ∀ k, IidUniform (P k) (planned (ps k)) (fun ω => (draws k ω).flatten))
    (hn : Tendsto (fun k => ((ps k).map Prod.fst).sum) atTop atTop)
    {loglike : ℝ → ℝ} (hanti : StrictAntiOn loglike (Set.Ioo 0 1)) {init : ℝ} (hinit : ∀ x ∈ Set.Ioo (0 : ℝ) 1, init < loglike x)
    {b : ℝ} (hb : ∀ x ∈ Set.Ioo (0 : ℝ) 1, loglike x ≤ b) :
    (∃ est : ∀ k, Ω k → ℝ, (∀ k, AEMeasurable (est k) (P k)) ∧ (∀ k, ∀ᵐ ω ∂P k,
      (∀ i : Fin (ps k).length, ∃ live its, IdealExecution loglike (ps k)[i].1 (ps k)[i].2 ((draws k ω).getD i []) init live its) ∧
      ∀ (live : Fin (ps k).length → List (Sample ℝ)) (its : Fin (ps k).length → List (Iteration ℝ))
        (samples : Fin (ps k).length → List (Sample ℝ)),
        (∀ i : Fin (ps k).length, IdealExecution loglike (ps k)[i].1 (ps k)[i].2 ((draws k ω).getD i []) init (live i) (its i)) →
        (∀ i, (samples i).Perm ((its i).map (·.dead))) → SameDim ((List.ofFn samples).flatten.map (·.theta)) →
        ∀ (A : Argsort ℝ) (da dw da' dw' : Bool) (w : World σ), 0 < est k ω ∧ ∃ (r : Fin (ps k).length → Run ℝ) (c : Run ℝ),
          (∀ i, processSamples A R (samples i) da dw w = (.ok (r i), w)) ∧ combineRuns A (List.ofFn r) da' dw' w = (.ok c, w) ∧
          evidence R c none false w = (.ok (est k ω), w) ∧ logz R c none false w = (.ok (Real.log (est k ω)), w)) ∧
      Tendsto (fun k => ∫⁻ ω, ‖est k ω - ∫ x in (0 : ℝ)..1, Real.exp (loglike x)‖ₑ ∂P k) atTop (𝓝 0)) ∧
    ∀ δ > (0 : ℝ), Tendsto (fun k => P k {ω | ∃ (live : Fin (ps k).length → List (Sample ℝ)) (its : Fin (ps k).length → List (Iteration ℝ))
        (samples : Fin (ps k).length → List (Sample ℝ)),
        (∀ i : Fin (ps k).length, IdealExecution loglike (ps k)[i].1 (ps k)[i].2 ((draws k ω).getD i []) init (live i) (its i)) ∧
        (∀ i, (samples i).Perm ((its i).map (·.dead))) ∧ SameDim ((List.ofFn samples).flatten.map (·.theta)) ∧
        ∃ (A : Argsort ℝ) (da dw da' dw' : Bool) (w : World σ), ¬ ∃ (r : Fin (ps k).length → Run ℝ) (c : Run ℝ) (z : ℝ),
          (∀ i, processSamples A R (samples i) da dw w = (.ok (r i), w)) ∧ combineRuns A (List.ofFn r) da' dw' w = (.ok c, w) ∧
          logz R c none false w = (.ok z, w) ∧ |z - Real.log (∫ x in (0 : ℝ)..1, Real.exp (loglike x))| < δ}) atTop (𝓝 0) := by
  obtain ⟨g, hganti, hM, hin⟩ := exists_extension hanti hb
  choose owner L using fun k => exists_layout (hne k) (hs k)
  have hstop := fun k => (L k).adaptive.stopping
  have hae := fun k => merged_ae (hlen k) (hu k) (L k)
  have hn' : Tendsto (fun k => (jointStart (startOfPlan (ps k)) (pointsOfPlan (ps k)) (owner k)).card) atTop atTop := by
    refine hn.congr fun k => ?_
    exact ((L k).start_card).symm
  have hlim := C95_integral hstop hu hn' hM hganti.measurable (antitone_continuous_ae hganti)
  rw [integral_extension hin] at hlim
  simp only [weighted_def] at hlim
  have hmain : ∃ est : ∀ k, Ω k → ℝ, (∀ k, AEMeasurable (est k) (P k)) ∧ (∀ k, ∀ᵐ ω ∂P k,
      (∀ i : Fin (ps k).length, ∃ live its, IdealExecution loglike (ps k)[i].1 (ps k)[i].2 ((draws k ω).getD i []) init live its) ∧
      ∀ (live : Fin (ps k).length → List (Sample ℝ)) (its : Fin (ps k).length → List (Iteration ℝ))
        (samples : Fin (ps k).length → List (Sample ℝ)),
        (∀ i : Fin (ps k).length, IdealExecution loglike (ps k)[i].1 (ps k)[i].2 ((draws k ω).getD i []) init (live i) (its i)) →
        (∀ i, (samples i).Perm ((its i).map (·.dead))) → SameDim ((List.ofFn samples).flatten.map (·.theta)) →
        ∀ (A : Argsort ℝ) (da dw da' dw' : Bool) (w : World σ), 0 < est k ω ∧ ∃ (r : Fin (ps k).length → Run ℝ) (c : Run ℝ),
          (∀ i, processSamples A R (samples i) da dw w = (.ok (r i), w)) ∧ combineRuns A (List.ofFn r) da' dw' w = (.ok c, w) ∧
          evidence R c none false w = (.ok (est k ω), w) ∧ logz R c none false w = (.ok (Real.log (est k ω)), w)) ∧
      Tendsto (fun k => ∫⁻ ω, ‖est k ω - ∫ x in (0 : ℝ)..1, Real.exp (loglike x)‖ₑ ∂P k) atTop (𝓝 0) := by
    refine ⟨fun k ω => weighted g ((removals (byOrder (joint (startOfPlan (ps k)) (addsOfPlan (ps k))
      (pointsOfPlan (ps k)) (owner k))) (jointStart (startOfPlan (ps k)) (pointsOfPlan (ps k)) (owner k))
      (fun i => (draws k ω).flatten.getD i 0)).map (fun s : Removal (planned (ps k)) => s.alive)) ((removals (byOrder (joint (startOfPlan (ps k)) (addsOfPlan (ps k))
      (pointsOfPlan (ps k)) (owner k))) (jointStart (startOfPlan (ps k)) (pointsOfPlan (ps k)) (owner k))
      (fun i => (draws k ω).flatten.getD i 0)).map (fun s : Removal (planned (ps k)) => s.volume)),
      fun k => (weighted_removals_measurable (hstop k) hganti.measurable).comp_aemeasurable (hu k).aemeasurable, fun k => ?_, hlim⟩
    filter_upwards [C93_combined (R := R) (hne k) (hs k) (hhead k) (hlen k) (hu k) hanti hinit, hae k] with ω ⟨h1, h2⟩ ⟨⟨_, h3⟩, h4, h5⟩
    refine ⟨h1, fun live its samples hex hsam hdim A da dw da' dw' w => ?_⟩
    obtain ⟨r, c, e1, e2, e3, e4⟩ := h2 live its samples hex hsam hdim A da dw da' dw'
    have hnil := removals_ne_nil (hstop k) (fun i => (draws k ω).flatten.getD i 0)
    have hal := iterate_alive (rule := byOrder (joint (startOfPlan (ps k)) (addsOfPlan (ps k)) (pointsOfPlan (ps k)) (owner k)))
      (hist := []) (A := jointStart (startOfPlan (ps k)) (pointsOfPlan (ps k)) (owner k)) (x := fun i => (draws k ω).flatten.getD i 0) (planned (ps k))
    have h6 : (mergedVolumes (ps k) (draws k ω)) ≠ [] := by rw [← h4]; simpa using hnil
    have h7 : (mergedLive (ps k) (draws k ω)).length = (mergedVolumes (ps k) (draws k ω)).length := by rw [← h4, ← h5]; simp
    have h8 : ∀ m ∈ mergedLive (ps k) (draws k ω), 0 < m := by
      rw [← h5]
      intro m hm
      obtain ⟨s, hs', rfl⟩ := List.mem_map.mp hm
      exact hal s hs'
    obtain ⟨g1, g2, g3⟩ := run_evidence (R := R) (g := g) e3 e4 h7 h6 h8 h3 hin w
    rw [h4, h5]
    exact ⟨g1, r, c, fun i => e1 i w, e2 w, g2, g3⟩
  refine ⟨hmain, fun δ hδ => ?_⟩
  obtain ⟨est, h0, h1, h2⟩ := hmain
  refine log_in_probability h0 (evidence_pos hanti hb) h2 hδ fun k => ?_
  filter_upwards [h1 k] with ω h4 hlt
  rintro ⟨live, its, samples, hex, hsam, hdim, A, da, dw, da', dw', w, hbad⟩
  obtain ⟨_, r, c, e1, e2, _, e4⟩ := h4.2 live its samples hex hsam hdim A da dw da' dw' w
  exact hbad ⟨r, c, _, e1, e2, e4, hlt⟩

end

end

end Nestcheck
