import Verif.Props.Posterior
import Verif.Props.QuantileBounds
import Verif.Props.Estimators

/-! C96 and C97: the estimators applied to runs of ideal samplers. -/

namespace Nestcheck
open Spec MeasureTheory ProbabilityTheory ENNReal Filter Topology
variable {σ E : Type} {N : Nat}

noncomputable section

/-- Some run with these draws is not processed, or the processed run is not `good`. -/
def Misses (R : Rng σ ℝ) (loglike : ℝ → ℝ) (place : ℝ → E → List ℝ) (rule : Rule N) (start : Finset (Fin N)) (u : Fin N → ℝ) (e : Fin N → E)
    (init : ℝ) (good : Argsort ℝ → Run ℝ → World σ → Prop) : Prop :=
  ∃ live its samples, PosteriorExecution loglike place rule start u e init live its ∧ samples.Perm (its.map (·.dead)) ∧
    ∃ (A : Argsort ℝ) (da dw : Bool) (w : World σ), ¬ ∃ r : Run ℝ, processSamples A R samples da dw w = (.ok r, w) ∧ good A r w

theorem Misses.split {R : Rng σ ℝ} {loglike : ℝ → ℝ} {place : ℝ → E → List ℝ} {rule : Rule N} {start : Finset (Fin N)} {u : Fin N → ℝ}
    {e : Fin N → E} {init : ℝ} {good good₁ good₂ : Argsort ℝ → Run ℝ → World σ → Prop} (hg : ∀ A r w, good₁ A r w → good₂ A r w → good A r w)
    (h : Misses R loglike place rule start u e init good) :
    Misses R loglike place rule start u e init good₁ ∨ Misses R loglike place rule start u e init good₂ := by
  obtain ⟨live, its, samples, hex, hsam, A, da, dw, w, hbad⟩ := h
  by_cases h1 : ∃ r : Run ℝ, processSamples A R samples da dw w = (.ok r, w) ∧ good₁ A r w
  · refine .inr ⟨live, its, samples, hex, hsam, A, da, dw, w, ?_⟩
    rintro ⟨r', e', g'⟩
    obtain ⟨r, e, g⟩ := h1
    obtain rfl : r = r' := by
      have := congrArg Prod.fst (e.symm.trans e')
      simpa using this
    exact hbad ⟨r, e, hg A r w g g'⟩
  · exact .inl ⟨live, its, samples, hex, hsam, A, da, dw, w, h1⟩

section

variable {Ω : ℕ → Type} [∀ k, MeasurableSpace (Ω k)] {P : ∀ k, Measure (Ω k)} {N : ℕ → Nat} {rule : ∀ k, Rule (N k)}
  {start : ∀ k, Finset (Fin (N k))} [MeasurableSpace E] {ν : Measure E}
  {draws : ∀ k, Ω k → Fin (N k) → ℝ} {spots : ∀ k, Ω k → Fin (N k) → E}

theorem misses_tendsto {R : Rng σ ℝ} {loglike : ℝ → ℝ} {place : ℝ → E → List ℝ} {init : ℝ} {good good₁ good₂ : Argsort ℝ → Run ℝ → World σ → Prop}
    (hg : ∀ A r w, good₁ A r w → good₂ A r w → good A r w)
    (h1 : Tendsto (fun k => P k {ω | Misses R loglike place (rule k) (start k) (draws k ω) (spots k ω) init good₁}) atTop (𝓝 0))
    (h2 : Tendsto (fun k => P k {ω | Misses R loglike place (rule k) (start k) (draws k ω) (spots k ω) init good₂}) atTop (𝓝 0)) :
    Tendsto (fun k => P k {ω | Misses R loglike place (rule k) (start k) (draws k ω) (spots k ω) init good}) atTop (𝓝 0) := by
  have h3 := h1.add h2
  rw [add_zero] at h3
  refine tendsto_of_tendsto_of_tendsto_of_le_of_le tendsto_const_nhds h3 (fun k => zero_le) fun k => ?_
  exact le_trans (measure_mono fun ω h => h.split hg) (measure_union_le _ _)

variable [IsProbabilityMeasure ν]

/-- The quantity `f` of the parameters has the posterior mean `q`, in terms of `Misses`. -/
theorem misses_average {R : Rng σ ℝ} (hs : ∀ k, StoppingSchedule (rule k) (start k)) (hu : ∀ k, IidPoints (P k) ν (draws k) (spots k))
    (hn : Tendsto (fun k => (start k).card) atTop atTop)
    {loglike : ℝ → ℝ} (hanti : StrictAntiOn loglike (Set.Ioo 0 1)) {init : ℝ} (hinit : ∀ x ∈ Set.Ioo (0 : ℝ) 1, init < loglike x)
    {b : ℝ} (hb : ∀ x ∈ Set.Ioo (0 : ℝ) 1, loglike x ≤ b) {place : ℝ → E → List ℝ} {f : List ℝ → ℝ} {q : ℝ → E → ℝ}
    (hf : ∀ x ∈ Set.Ioo (0 : ℝ) 1, ∀ e, f (place x e) = q x e) (hq : Measurable (fun p : ℝ × E => q p.1 p.2)) {B : ℝ}
    (hB : ∀ x ∈ Set.Ioo (0 : ℝ) 1, ∀ e, |q x e| ≤ B)
    (hcont : ∀ᵐ x ∂volume.restrict (Set.Ioo (0 : ℝ) 1), ContinuousAt (fun x => ∫ e, q x e ∂ν) x) {δ : ℝ} (hδ : 0 < δ) :
    Tendsto (fun k => P k {ω | Misses R loglike place (rule k) (start k) (draws k ω) (spots k ω) init fun _ r w =>
      Usable r none false (R.uniform r.nlive.length w.rng).1 ∧ (∀ t ∈ r.theta, ∃ x ∈ Set.Ioo (0 : ℝ) 1, ∃ e, t = place x e) ∧
      |Spec.mean (sampleWeights r none false (R.uniform r.nlive.length w.rng).1) (r.theta.map f) - posteriorMean loglike ν q| < δ})
      atTop (𝓝 0) := by
  refine tendsto_of_tendsto_of_tendsto_of_le_of_le tendsto_const_nhds (C96_average (R := R) hs hu hn hanti hinit hb hf hq hB hcont hδ)
    (fun k => zero_le) fun k => measure_mono ?_
  rintro ω ⟨live, its, samples, hex, hsam, A, da, dw, w, hbad⟩
  refine ⟨live, its, samples, hex, hsam, A, da, dw, w, ?_⟩
  by_contra hcon
  push Not at hcon
  obtain ⟨r, e, -⟩ := hcon []
  obtain ⟨r', e', h1, h2, h3⟩ := hcon (R.uniform r.nlive.length w.rng).1
  obtain rfl : r = r' := by
    have := congrArg Prod.fst (e.symm.trans e')
    simpa using this
  exact hbad ⟨r, e, h1, h2, h3⟩

theorem column_of {r : Run ℝ} {place : ℝ → E → List ℝ} {ind : Nat} {q : ℝ → E → ℝ} {f : List ℝ → ℝ}
    (hp : ∀ x ∈ Set.Ioo (0 : ℝ) 1, ∀ e, (place x e)[ind]? = some (q x e)) (hf : ∀ (t : List ℝ) y, t[ind]? = some y → f t = y)
    (h : ∀ t ∈ r.theta, ∃ x ∈ Set.Ioo (0 : ℝ) 1, ∃ e, t = place x e) :
    r.theta.map (·[ind]?) = (r.theta.map f).map some := by
  rw [List.map_map]
  refine List.map_congr_left fun t ht => ?_
  obtain ⟨x, hx, e, rfl⟩ := h t ht
  rw [hp x hx e, Function.comp, hf _ _ (hp x hx e)]

/-- C96 for `param_mean`. -/
theorem C96_param_mean {R : Rng σ ℝ} (hs : ∀ k, StoppingSchedule (rule k) (start k)) (hu : ∀ k, IidPoints (P k) ν (draws k) (spots k))
    (hn : Tendsto (fun k => (start k).card) atTop atTop)
    {loglike : ℝ → ℝ} (hanti : StrictAntiOn loglike (Set.Ioo 0 1)) {init : ℝ} (hinit : ∀ x ∈ Set.Ioo (0 : ℝ) 1, init < loglike x)
    {b : ℝ} (hb : ∀ x ∈ Set.Ioo (0 : ℝ) 1, loglike x ≤ b) {place : ℝ → E → List ℝ} {ind : Nat} {q : ℝ → E → ℝ}
    (hp : ∀ x ∈ Set.Ioo (0 : ℝ) 1, ∀ e, (place x e)[ind]? = some (q x e)) (hq : Measurable (fun p : ℝ × E => q p.1 p.2)) {B : ℝ}
    (hB : ∀ x ∈ Set.Ioo (0 : ℝ) 1, ∀ e, |q x e| ≤ B)
    (hcont : ∀ᵐ x ∂volume.restrict (Set.Ioo (0 : ℝ) 1), ContinuousAt (fun x => ∫ e, q x e ∂ν) x) {δ : ℝ} (hδ : 0 < δ) :
    Tendsto (fun k => P k {ω | Misses R loglike place (rule k) (start k) (draws k ω) (spots k ω) init fun _ r w => ∀ handle, ∃ m,
      paramMean R r none false ind handle w = (.ok (some m), w) ∧ |m - posteriorMean loglike ν q| < δ}) atTop (𝓝 0) := by
  have h := misses_average (R := R) hs hu hn hanti hinit hb (place := place) (f := fun t : List ℝ => t[ind]?.getD 0) (fun x hx e => by simp [hp x hx e]) hq hB hcont hδ
  refine misses_tendsto ?_ h h
  rintro _ r w ⟨h1, h2, h3⟩ - handle
  obtain ⟨m, e1, e2, -⟩ := C30_param_mean R h1 (column_of (f := fun t : List ℝ => t[ind]?.getD 0) hp (fun t y e => by simp [e]) h2) handle
  exact ⟨m, e1, by rw [e2]; exact h3⟩

/-- C96 for `param_squared_mean`. -/
theorem C96_squared {R : Rng σ ℝ} (hs : ∀ k, StoppingSchedule (rule k) (start k)) (hu : ∀ k, IidPoints (P k) ν (draws k) (spots k))
    (hn : Tendsto (fun k => (start k).card) atTop atTop)
    {loglike : ℝ → ℝ} (hanti : StrictAntiOn loglike (Set.Ioo 0 1)) {init : ℝ} (hinit : ∀ x ∈ Set.Ioo (0 : ℝ) 1, init < loglike x)
    {b : ℝ} (hb : ∀ x ∈ Set.Ioo (0 : ℝ) 1, loglike x ≤ b) {place : ℝ → E → List ℝ} {ind : Nat} {q : ℝ → E → ℝ}
    (hp : ∀ x ∈ Set.Ioo (0 : ℝ) 1, ∀ e, (place x e)[ind]? = some (q x e)) (hq : Measurable (fun p : ℝ × E => q p.1 p.2)) {B : ℝ}
    (hB : ∀ x ∈ Set.Ioo (0 : ℝ) 1, ∀ e, |q x e| ≤ B)
    (hcont : ∀ᵐ x ∂volume.restrict (Set.Ioo (0 : ℝ) 1), ContinuousAt (fun x => ∫ e, q x e ^ 2 ∂ν) x) {δ : ℝ} (hδ : 0 < δ) :
    Tendsto (fun k => P k {ω | Misses R loglike place (rule k) (start k) (draws k ω) (spots k ω) init fun _ r w => ∃ m,
      paramSquaredMean R r none false ind w = (.ok m, w) ∧ |m - posteriorMean loglike ν (fun x e => q x e ^ 2)| < δ}) atTop (𝓝 0) := by
  have h := misses_average (R := R) hs hu hn hanti hinit hb (place := place) (f := fun t : List ℝ => t[ind]?.getD 0 * t[ind]?.getD 0) (q := fun x e => q x e ^ 2)
    (fun x hx e => by simp [hp x hx e, pow_two]) (hq.pow_const 2) (B := B ^ 2)
    (fun x hx e => by rw [abs_pow]; exact pow_le_pow_left₀ (abs_nonneg _) (hB x hx e) 2) hcont hδ
  refine misses_tendsto ?_ h h
  rintro _ r w ⟨h1, h2, h3⟩ -
  obtain ⟨m, _, w', e1, e2, e3, -⟩ := C30_squared R h1 (column_of (f := fun t : List ℝ => t[ind]?.getD 0) hp (fun t y e => by simp [e]) h2) true
  refine ⟨m, by rw [e1, e2]; rfl, ?_⟩
  rw [e3, List.map_map]
  exact h3

/-- C96 for `r_mean`. -/
theorem C96_r_mean {R : Rng σ ℝ} (hs : ∀ k, StoppingSchedule (rule k) (start k)) (hu : ∀ k, IidPoints (P k) ν (draws k) (spots k))
    (hn : Tendsto (fun k => (start k).card) atTop atTop)
    {loglike : ℝ → ℝ} (hanti : StrictAntiOn loglike (Set.Ioo 0 1)) {init : ℝ} (hinit : ∀ x ∈ Set.Ioo (0 : ℝ) 1, init < loglike x)
    {b : ℝ} (hb : ∀ x ∈ Set.Ioo (0 : ℝ) 1, loglike x ≤ b) {place : ℝ → E → List ℝ} {q : ℝ → E → ℝ}
    (hp : ∀ x ∈ Set.Ioo (0 : ℝ) 1, ∀ e, radius (place x e) = q x e) (hq : Measurable (fun p : ℝ × E => q p.1 p.2)) {B : ℝ}
    (hB : ∀ x ∈ Set.Ioo (0 : ℝ) 1, ∀ e, |q x e| ≤ B)
    (hcont : ∀ᵐ x ∂volume.restrict (Set.Ioo (0 : ℝ) 1), ContinuousAt (fun x => ∫ e, q x e ∂ν) x) {δ : ℝ} (hδ : 0 < δ) :
    Tendsto (fun k => P k {ω | Misses R loglike place (rule k) (start k) (draws k ω) (spots k ω) init fun _ r w => ∃ m,
      rMean R r none false w = (.ok m, w) ∧ |m - posteriorMean loglike ν q| < δ}) atTop (𝓝 0) := by
  have h := misses_average (R := R) hs hu hn hanti hinit hb hp hq hB hcont hδ
  refine misses_tendsto ?_ h h
  rintro _ r w ⟨h1, h2, h3⟩ -
  obtain ⟨m, e1, e2, -⟩ := C32_r_mean R h1
  exact ⟨m, e1, by rw [e2]; exact h3⟩

/-! ### No sample dominates -/

/-- C97: as the number of starting points grows, the largest share which a single sample has in the sum of the weights tends to zero in
probability. -/
theorem C97_weights {R : Rng σ ℝ} (hs : ∀ k, StoppingSchedule (rule k) (start k)) (hu : ∀ k, IidPoints (P k) ν (draws k) (spots k))
    (hn : Tendsto (fun k => (start k).card) atTop atTop)
    {loglike : ℝ → ℝ} (hanti : StrictAntiOn loglike (Set.Ioo 0 1)) {init : ℝ} (hinit : ∀ x ∈ Set.Ioo (0 : ℝ) 1, init < loglike x)
    {b : ℝ} (hb : ∀ x ∈ Set.Ioo (0 : ℝ) 1, loglike x ≤ b) (place : ℝ → E → List ℝ) {κ : ℝ} (hκ : 0 < κ) :
    Tendsto (fun k => P k {ω | Misses R loglike place (rule k) (start k) (draws k ω) (spots k ω) init fun _ r w =>
      ∀ v ∈ sampleWeights r none false (R.uniform r.nlive.length w.rng).1,
        v ≤ κ * (sampleWeights r none false (R.uniform r.nlive.length w.rng).1).sum}) atTop (𝓝 0) := by
  classical
  obtain ⟨g, hganti, hM, hin⟩ := exists_extension hanti hb
  have l2 := C95_integral hs (fun k => (hu k).uniform) hn hM hganti.measurable (antitone_continuous_ae hganti)
  rw [integral_extension hin] at l2
  have hvec : ∀ k ω, (fun i : Fin (N k) => (List.ofFn (draws k ω)).getD i 0) = draws k ω := fun k ω => by
    funext i
    simp [List.getD_eq_getElem?_getD]
  simp only [weighted_def, hvec] at l2
  have hZ := evidence_pos hanti hb
  set Z := ∫ x in (0 : ℝ)..1, Real.exp (loglike x) with hZd
  have m2 : ∀ k, AEMeasurable (fun ω => weighted g ((removals (rule k) (start k) (draws k ω)).map (fun s : Removal (N k) => s.alive))
      ((removals (rule k) (start k) (draws k ω)).map (fun s : Removal (N k) => s.volume))) (P k) := fun k =>
    (weighted_removals_measurable (hs k) hganti.measurable).comp_aemeasurable (measurable_fst.comp_aemeasurable (hu k).aemeasurable)
  -- from some `k` on, all cells are small
  set κ' : ℝ := κ * (Z / 2) / Real.exp b with hκ'
  have hκ0 : 0 < κ' := by positivity
  obtain ⟨n, hn1⟩ := exists_nat_gt (max (4 / κ') 2)
  have hn2 : 2 ≤ n := by
    have : (2 : ℝ) < n := lt_of_le_of_lt (le_max_right _ _) hn1
    exact_mod_cast this.le
  have hn3 : 2 / (n : ℝ) ≤ κ' / 2 := by
    have h1 : 4 / κ' < n := lt_of_le_of_lt (le_max_left _ _) hn1
    have h2 : (0 : ℝ) < n := by exact_mod_cast (by omega : 0 < n)
    rw [div_lt_iff₀ hκ0] at h1
    rw [div_le_iff₀ h2]
    linarith
  obtain ⟨C, hC⟩ := exists_nat_gt (n / (κ' / 4))
  set bad : ∀ k, Set (Ω k) := fun k => {ω | C ≤ (start k).card ∧ Misses R loglike place (rule k) (start k) (draws k ω) (spots k ω) init fun _ r w =>
      ∀ v ∈ sampleWeights r none false (R.uniform r.nlive.length w.rng).1,
        v ≤ κ * (sampleWeights r none false (R.uniform r.nlive.length w.rng).1).sum} with hbad
  have main : Tendsto (fun k => P k (bad k)) atTop (𝓝 0) := by
    refine ratio_in_probability m2 (den := fun _ _ => 1) (fun k => aemeasurable_const) one_ne_zero l2 (by simp) (δ := Z / 2) (by positivity) fun k => ?_
    filter_upwards [C96_run (R := R) (hs k) (hu k) hanti hinit place, adaptive_ae (hs k) (hu k).uniform] with ω ⟨_, h2⟩ ⟨_, h4, h5⟩ hlt
    rw [hvec] at h4 h5
    rintro ⟨hcard, live, its, samples, hex, hsam, A, da, dw, w, hbad⟩
    obtain ⟨r, e1, e2, e3, e4⟩ := h2 live its hex samples hsam A da dw
    refine hbad ⟨r, e1 w, fun v hv => ?_⟩
    have hne := removals_ne_nil (hs k) (draws k ω)
    have hstart : n < κ' / 4 * ((start k).card + 1) := by
      have h4 : (C : ℝ) ≤ (start k).card := by exact_mod_cast hcard
      rw [div_lt_iff₀ (by positivity)] at hC
      nlinarith
    have hcell := fun i (hi : i < ((removals (rule k) (start k) (draws k ω)).map (·.alive)).length) =>
      cell_width (removals_last (hs k) (draws k ω)) hn2 (removals_plenty (hs k) (draws k ω) hstart) (i := i) hi (by positivity)
    generalize removals (rule k) (start k) (draws k ω) = l at *
    have hvol : ∀ s ∈ l, s.volume ∈ Set.Ioo (0 : ℝ) 1 := by
      intro s hs'
      have hch := (chain_of_shrinkages l one_pos h4 (fun v hv => (h5 v hv).2))
      have hpw := List.isChain_iff_pairwise.mp hch
      exact ⟨(h4 s hs').1, (List.pairwise_cons.mp hpw).1 _ (List.mem_map_of_mem hs')⟩
    rw [run_weights_sum e2 e4 hne hvol hin]
    rw [run_weights e2 e4 hne hvol hin] at hv
    obtain ⟨i, rfl⟩ := List.mem_ofFn.mp hv
    have hc := hcell i (by simp)
    rw [div_one, div_one, abs_lt] at hlt
    have hg : g l[i].volume ≤ Real.exp b := (le_abs_self _).trans (hM _)
    have hg0 : 0 ≤ g l[i].volume := by
      have := hin _ (hvol l[i] (List.getElem_mem _))
      rw [this]
      exact (Real.exp_pos _).le
    calc (cut (l.map (·.alive)) i - cut (l.map (·.alive)) (i + 1)) * g l[i].volume
        ≤ κ' * Real.exp b := mul_le_mul (by linarith) hg hg0 hκ0.le
      _ = κ * (Z / 2) := by rw [hκ', div_mul_cancel₀ _ (Real.exp_pos b).ne']
      _ ≤ _ := mul_le_mul_of_nonneg_left (by linarith [hlt.1]) hκ.le
  refine main.congr' ?_
  filter_upwards [hn.eventually_ge_atTop C] with k hk
  simp only [hbad, hk, true_and]

/-! ### Quantiles -/

theorem weightBelow_mean {values weights : List ℝ} (a : ℝ) (hS : 0 < weights.sum) :
    Spec.mean weights (values.map (fun v => if v ≤ a then 1 else 0)) * weights.sum = weightBelow a (values.zip weights) := by
  unfold Spec.mean weightBelow
  rw [div_mul_cancel₀ _ hS.ne', List.zipWith_map_right, List.zipWith_comm, List.zip, List.map_zipWith]
  congr 2
  funext v x
  split_ifs <;> simp

theorem indicator_cdf {q : ℝ → E → ℝ} (hq : Measurable (fun p : ℝ × E => q p.1 p.2)) (t x : ℝ) :
    ∫ e, (if q x e ≤ t then (1 : ℝ) else 0) ∂ν = ν.real {e | q x e ≤ t} := by
  have hm : MeasurableSet {e | q x e ≤ t} := (hq.comp measurable_prodMk_left) measurableSet_Iic
  rw [← integral_indicator_one hm]
  refine integral_congr_ae (ae_of_all _ fun e => ?_)
  simp [Set.indicator_apply]

/-- The weighted quantiles of a quantity of the parameters, in terms of `Misses`. -/
theorem misses_quantile {R : Rng σ ℝ} (hs : ∀ k, StoppingSchedule (rule k) (start k)) (hu : ∀ k, IidPoints (P k) ν (draws k) (spots k))
    (hn : Tendsto (fun k => (start k).card) atTop atTop)
    {loglike : ℝ → ℝ} (hanti : StrictAntiOn loglike (Set.Ioo 0 1)) {init : ℝ} (hinit : ∀ x ∈ Set.Ioo (0 : ℝ) 1, init < loglike x)
    {b : ℝ} (hb : ∀ x ∈ Set.Ioo (0 : ℝ) 1, loglike x ≤ b) {place : ℝ → E → List ℝ} {f : List ℝ → ℝ} {q : ℝ → E → ℝ}
    (hf : ∀ x ∈ Set.Ioo (0 : ℝ) 1, ∀ e, f (place x e) = q x e) (hq : Measurable (fun p : ℝ × E => q p.1 p.2))
    (hcont : ∀ t, ∀ᵐ x ∂volume.restrict (Set.Ioo (0 : ℝ) 1), ContinuousAt (fun x => ν.real {e | q x e ≤ t}) x)
    {prob : ℝ} (hp0 : 0 < prob) (hp1 : prob < 1) {Q : ℝ} (hQ : PosteriorQuantile loglike ν q prob Q) {δ : ℝ} (hδ : 0 < δ) :
    Tendsto (fun k => P k {ω | Misses R loglike place (rule k) (start k) (draws k ω) (spots k ω) init fun A r w =>
      Usable r none false (R.uniform r.nlive.length w.rng).1 ∧ (∀ t ∈ r.theta, ∃ x ∈ Set.Ioo (0 : ℝ) 1, ∃ e, t = place x e) ∧
      ∃ y, weightedQuantile A prob (r.theta.map f) (sampleWeights r none false (R.uniform r.nlive.length w.rng).1) = .ok y ∧ |y - Q| < δ})
      atTop (𝓝 0) := by
  have hcdf : ∀ (t : ℝ) {η : ℝ} (_ : 0 < η), _ := fun t η hη =>
    misses_average (R := R) (init := init) hs hu hn hanti hinit hb (place := place) (f := fun θ => if f θ ≤ t then 1 else 0)
      (q := fun x e => if q x e ≤ t then 1 else 0) (fun x hx e => by rw [hf x hx e])
      (Measurable.ite (hq measurableSet_Iic) measurable_const measurable_const) (B := 1)
      (fun x _ e => by split_ifs <;> simp) (by simpa only [indicator_cdf hq] using hcont t) hη
  have hlo := hQ.1 (Q - δ / 2) (by linarith)
  have hhi := hQ.2 (Q + δ / 2) (by linarith)
  unfold posteriorCdf at hlo hhi
  set lo := posteriorMean loglike ν fun x e => if q x e ≤ Q - δ / 2 then 1 else 0 with hlod
  set hi := posteriorMean loglike ν fun x e => if q x e ≤ Q + δ / 2 then 1 else 0 with hhid
  have hc1 := hcdf (Q - δ / 2) (η := (prob - lo) / 2) (by linarith)
  have hc2 := hcdf (Q + δ / 2) (η := (hi - prob) / 2) (by linarith)
  set κ := min (prob - lo) (hi - prob) / 4 with hκd
  have hκ : 0 < κ := by
    have := lt_min (sub_pos.mpr hlo) (sub_pos.mpr hhi)
    positivity
  have hk1 : 4 * κ ≤ prob - lo := by
    rw [hκd]
    linarith [min_le_left (prob - lo) (hi - prob)]
  have hk2 : 4 * κ ≤ hi - prob := by
    rw [hκd]
    linarith [min_le_right (prob - lo) (hi - prob)]
  refine misses_tendsto ?_ (misses_tendsto (fun A r w h1 h2 => And.intro h1 h2) hc1 hc2)
    (C97_weights (R := R) hs hu hn hanti hinit hb place hκ)
  rintro A r w ⟨⟨g1, g2, g3⟩, -, -, g4⟩ g5
  refine ⟨g1, g2, ?_⟩
  obtain ⟨s1, s2, s3⟩ := sampleWeights_spec g1
  have hS := sum_pos_of s1 s3
  have hl : (r.theta.map f).length = (sampleWeights r none false (R.uniform r.nlive.length w.rng).1).length := by
    rw [s2, List.length_map, g1.1]
  have e1 := weightBelow_mean (values := r.theta.map f) (Q - δ / 2) hS
  have e2 := weightBelow_mean (values := r.theta.map f) (Q + δ / 2) hS
  rw [List.map_map, Function.comp_def] at e1 e2
  rw [abs_lt] at g3 g4
  generalize sampleWeights r none false (R.uniform r.nlive.length w.rng).1 = ws at *
  obtain ⟨y, hy, hy1, hy2⟩ := quantile_bounds A hl (W := κ * ws.sum) (fun v hv => ⟨(s3 v hv).le, g5 v hv⟩) hS hp0 hp1
    (a := Q - δ / 2) (b := Q + δ / 2) (by
      rw [← e1, ← add_mul]
      exact mul_le_mul_of_nonneg_right (by linarith [g3.2]) hS.le) (by
      rw [← e2, ← add_mul]
      exact mul_lt_mul_of_pos_right (by linarith [g4.1]) hS)
  exact ⟨y, hy, by rw [abs_lt]; constructor <;> linarith⟩

/-- C97 for `param_cred`. -/
theorem C97_param_cred {R : Rng σ ℝ} (hs : ∀ k, StoppingSchedule (rule k) (start k)) (hu : ∀ k, IidPoints (P k) ν (draws k) (spots k))
    (hn : Tendsto (fun k => (start k).card) atTop atTop)
    {loglike : ℝ → ℝ} (hanti : StrictAntiOn loglike (Set.Ioo 0 1)) {init : ℝ} (hinit : ∀ x ∈ Set.Ioo (0 : ℝ) 1, init < loglike x)
    {b : ℝ} (hb : ∀ x ∈ Set.Ioo (0 : ℝ) 1, loglike x ≤ b) {place : ℝ → E → List ℝ} {ind : Nat} {q : ℝ → E → ℝ}
    (hp : ∀ x ∈ Set.Ioo (0 : ℝ) 1, ∀ e, (place x e)[ind]? = some (q x e)) (hq : Measurable (fun p : ℝ × E => q p.1 p.2))
    (hcont : ∀ t, ∀ᵐ x ∂volume.restrict (Set.Ioo (0 : ℝ) 1), ContinuousAt (fun x => ν.real {e | q x e ≤ t}) x)
    {prob : ℝ} (hp0 : 0 < prob) (hp1 : prob < 1) {Q : ℝ} (hQ : PosteriorQuantile loglike ν q prob Q) {δ : ℝ} (hδ : 0 < δ) :
    Tendsto (fun k => P k {ω | Misses R loglike place (rule k) (start k) (draws k ω) (spots k ω) init fun A r w => ∃ y,
      paramCred A R r none false prob ind w = (.ok y, w) ∧ |y - Q| < δ}) atTop (𝓝 0) := by
  have h := misses_quantile (R := R) hs hu hn hanti hinit hb (place := place) (f := fun t : List ℝ => t[ind]?.getD 0)
    (fun x hx e => by simp [hp x hx e]) hq hcont hp0 hp1 hQ hδ
  refine misses_tendsto ?_ h h
  rintro A r w ⟨h1, h2, y, h3, h4⟩ -
  refine ⟨y, ?_, h4⟩
  rw [C31_param_cred A R h1 (column_of (f := fun t : List ℝ => t[ind]?.getD 0) hp (fun t y e => by simp [e]) h2) prob, h3]
  rfl

/-- C97 for `r_cred`. -/
theorem C97_r_cred {R : Rng σ ℝ} (hs : ∀ k, StoppingSchedule (rule k) (start k)) (hu : ∀ k, IidPoints (P k) ν (draws k) (spots k))
    (hn : Tendsto (fun k => (start k).card) atTop atTop)
    {loglike : ℝ → ℝ} (hanti : StrictAntiOn loglike (Set.Ioo 0 1)) {init : ℝ} (hinit : ∀ x ∈ Set.Ioo (0 : ℝ) 1, init < loglike x)
    {b : ℝ} (hb : ∀ x ∈ Set.Ioo (0 : ℝ) 1, loglike x ≤ b) {place : ℝ → E → List ℝ} {q : ℝ → E → ℝ}
    (hp : ∀ x ∈ Set.Ioo (0 : ℝ) 1, ∀ e, radius (place x e) = q x e) (hq : Measurable (fun p : ℝ × E => q p.1 p.2))
    (hcont : ∀ t, ∀ᵐ x ∂volume.restrict (Set.Ioo (0 : ℝ) 1), ContinuousAt (fun x => ν.real {e | q x e ≤ t}) x)
    {prob : ℝ} (hp0 : 0 < prob) (hp1 : prob < 1) {Q : ℝ} (hQ : PosteriorQuantile loglike ν q prob Q) {δ : ℝ} (hδ : 0 < δ) :
    Tendsto (fun k => P k {ω | Misses R loglike place (rule k) (start k) (draws k ω) (spots k ω) init fun A r w => ∃ y,
      rCred A R r none false prob w = (.ok y, w) ∧ |y - Q| < δ}) atTop (𝓝 0) := by
  have h := misses_quantile (R := R) hs hu hn hanti hinit hb (place := place) hp hq hcont hp0 hp1 hQ hδ
  refine misses_tendsto ?_ h h
  rintro A r w ⟨h1, h2, y, h3, h4⟩ -
  refine ⟨y, ?_, h4⟩
  rw [(C32_r_cred A R h1 prob).1, h3]
  rfl

end

end

end Nestcheck
