import Verif.Props.Several
import Verif.Props.SimulatedEstimates

/-! C108: the estimators with simulated prior volumes, applied to combined runs of several adaptive samplers. -/

namespace Nestcheck
open Spec MeasureTheory ENNReal Filter Topology
variable {E σ : Type}

noncomputable section

/-- Some family of runs with these draws is not processed, or not combined, or the combined run is not `good` when the generator delivers
the numbers `s`. -/
def SimCombinedMisses {m : Nat} {n : Fin m → Nat} (R : Rng σ ℝ) (loglike : ℝ → ℝ) (place : ℝ → E → List ℝ) (rule : ∀ i, Rule (n i))
    (start : ∀ i, Finset (Fin (n i))) (u : ∀ i, Fin (n i) → ℝ) (s : Fin (∑ i, n i) → ℝ) (e : ∀ i, Fin (n i) → E) (init : ℝ)
    (good : Argsort ℝ → Run ℝ → World σ → Prop) : Prop :=
  ∃ (live : Fin m → List (Sample ℝ)) (its : Fin m → List (Iteration ℝ)) (samples : Fin m → List (Sample ℝ)),
    SeveralExecutions loglike place rule start u e init live its ∧ (∀ i, (samples i).Perm ((its i).map (·.dead))) ∧
    ∃ (A : Argsort ℝ) (da dw da' dw' : Bool) (w : World σ), Delivers R w (List.ofFn s) ∧ ¬ ∃ (r : Fin m → Run ℝ) (c : Run ℝ),
      (∀ i, processSamples A R (samples i) da dw w = (.ok (r i), w)) ∧ combineRuns A (List.ofFn r) da' dw' w = (.ok c, w) ∧ good A c w

theorem simCombinedMisses_le {m : Nat} [NeZero m] {n : Fin m → Nat} {Ω : Type} [MeasurableSpace Ω] {P : Measure Ω} [MeasurableSpace E]
    {ν : Measure E} [IsProbabilityMeasure ν] {draws : Ω → ∀ i, Fin (n i) → ℝ} {sims : Ω → Fin (∑ i, n i) → ℝ} {spots : Ω → ∀ i, Fin (n i) → E}
    {R : Rng σ ℝ} {rule : ∀ i, Rule (n i)} {start : ∀ i, Finset (Fin (n i))} (hs : ∀ i, StoppingSchedule (rule i) (start i))
    (hslow : ∀ i, SlowStart (rule i) (start i)) (hu : IidPoints P ν (fun ω => together (draws ω)) (fun ω => together (spots ω)))
    {loglike : ℝ → ℝ} (hanti : StrictAntiOn loglike (Set.Ioo 0 1)) {init : ℝ} (hinit : ∀ x ∈ Set.Ioo (0 : ℝ) 1, init < loglike x)
    {place : ℝ → E → List ℝ} (hd : ∀ x e x' e', (place x e).length = (place x' e').length) {good : Argsort ℝ → Run ℝ → World σ → Prop}
    (hg : ∀ A r c w, r.logl = c.logl → r.theta = c.theta → r.nlive = c.nlive → good A r w → good A c w) :
    P {ω | SimCombinedMisses R loglike place rule start (draws ω) (sims ω) (spots ω) init good} ≤
      P {ω | SimMisses R loglike place (sideBySide rule) (startOfAll start) (together (draws ω)) (sims ω) (together (spots ω)) init good} := by
  refine measure_mono_ae ?_
  filter_upwards [C108_run (R := R) hs hslow hu hanti hinit hd] with ω h
  rintro ⟨live, its, samples, hex, hsam, A, da, dw, da', dw', w, hw, hbad⟩
  obtain ⟨liveJ, itsJ, hJ, hperm, h⟩ := h live its samples hex hsam
  obtain ⟨r, c, c', k1, k2, k3, k4, k5, k6⟩ := h A da dw da' dw'
  refine ⟨liveJ, itsJ, _, hJ, hperm, A, da, dw, w, hw, ?_⟩
  rintro ⟨r', er, gr⟩
  obtain rfl : c' = r' := by
    have := congrArg Prod.fst ((k3 w).symm.trans er)
    simpa using this
  exact hbad ⟨r, c, fun i => k1 i w, k2 w, hg A c' c w k4 k5 k6 gr⟩

variable {Ω : ℕ → Type} [∀ k, MeasurableSpace (Ω k)] {P : ∀ k, Measure (Ω k)} {m : ℕ → Nat} [∀ k, NeZero (m k)] {n : ∀ k, Fin (m k) → Nat}
  {rule : ∀ k i, Rule (n k i)} {start : ∀ k i, Finset (Fin (n k i))} [MeasurableSpace E] {ν : Measure E} [IsProbabilityMeasure ν]
  {draws : ∀ k, Ω k → ∀ i, Fin (n k i) → ℝ} {sims : ∀ k, Ω k → Fin (∑ i, n k i) → ℝ} {spots : ∀ k, Ω k → ∀ i, Fin (n k i) → E}

theorem simMisses_logz {N : ℕ → Nat} {rule : ∀ k, Rule (N k)} {start : ∀ k, Finset (Fin (N k))} {draws sims : ∀ k, Ω k → Fin (N k) → ℝ}
    {spots : ∀ k, Ω k → Fin (N k) → E} {R : Rng σ ℝ} (hs : ∀ k, StoppingSchedule (rule k) (start k))
    (hu : ∀ k, IidSimulated (P k) ν (draws k) (sims k) (spots k)) (hn : Tendsto (fun k => (start k).card) atTop atTop)
    {loglike : ℝ → ℝ} (hanti : StrictAntiOn loglike (Set.Ioo 0 1)) {init : ℝ} (hinit : ∀ x ∈ Set.Ioo (0 : ℝ) 1, init < loglike x)
    {b : ℝ} (hb : ∀ x ∈ Set.Ioo (0 : ℝ) 1, loglike x ≤ b) {place : ℝ → E → List ℝ} {δ : ℝ} (hδ : 0 < δ) :
    Tendsto (fun k => P k {ω | SimMisses R loglike place (rule k) (start k) (draws k ω) (sims k ω) (spots k ω) init fun _ r w => ∃ z w',
      logz R r none true w = (.ok z, w') ∧ |z - Real.log (∫ x in (0 : ℝ)..1, Real.exp (loglike x))| < δ}) atTop (𝓝 0) := by
  refine tendsto_of_tendsto_of_tendsto_of_le_of_le tendsto_const_nhds
    (C98_logz (R := R) hs (fun k => (hu k).simulated) hn hanti hinit hb hδ) (fun k => zero_le) fun k => measure_mono ?_
  rintro ω ⟨live, its, samples, hex, hsam, A, da, dw, w, hw, hbad⟩
  refine ⟨live, its, samples, hex.adaptive, hsam, A, da, dw, w, hw, ?_⟩
  rintro ⟨r, z, w', e1, e2, e3⟩
  exact hbad ⟨r, e1, z, w', e2, e3⟩

/-- C108 for `logz` with simulated volumes: as the total number of starting points grows, `logz` of the combined run converges in probability to the log evidence. -/
theorem C108_simulated_logz {R : Rng σ ℝ} (hs : ∀ k i, StoppingSchedule (rule k i) (start k i)) (hslow : ∀ k i, SlowStart (rule k i) (start k i))
    (hu : ∀ k, IidSimulated (P k) ν (fun ω => together (draws k ω)) (sims k) (fun ω => together (spots k ω)))
    (hn : Tendsto (fun k => ∑ i, (start k i).card) atTop atTop)
    {loglike : ℝ → ℝ} (hanti : StrictAntiOn loglike (Set.Ioo 0 1)) {init : ℝ} (hinit : ∀ x ∈ Set.Ioo (0 : ℝ) 1, init < loglike x)
    {b : ℝ} (hb : ∀ x ∈ Set.Ioo (0 : ℝ) 1, loglike x ≤ b) {place : ℝ → E → List ℝ} (hd : ∀ x e x' e', (place x e).length = (place x' e').length)
    {δ : ℝ} (hδ : 0 < δ) :
    Tendsto (fun k => P k {ω | SimCombinedMisses R loglike place (rule k) (start k) (draws k ω) (sims k ω) (spots k ω) init fun _ c w => ∃ z w',
      logz R c none true w = (.ok z, w') ∧ |z - Real.log (∫ x in (0 : ℝ)..1, Real.exp (loglike x))| < δ}) atTop (𝓝 0) := by
  refine tendsto_of_tendsto_of_tendsto_of_le_of_le tendsto_const_nhds
    (simMisses_logz (R := R) (fun k => sideBySide_stopping (hs k)) hu (total_start hn) hanti hinit hb hδ)
    (fun k => zero_le) fun k => simCombinedMisses_le (hs k) (hslow k) (hu k).points hanti hinit hd ?_
  rintro A r c w e1 e2 e3 ⟨m, w', e4, e5⟩
  exact ⟨m, w', by rw [← e4, SamePoints.logz ⟨e1, e2, e3⟩], e5⟩


/-- C108 for `param_mean` with simulated volumes. -/
theorem C108_simulated_param_mean {R : Rng σ ℝ} (hs : ∀ k i, StoppingSchedule (rule k i) (start k i)) (hslow : ∀ k i, SlowStart (rule k i) (start k i))
    (hu : ∀ k, IidSimulated (P k) ν (fun ω => together (draws k ω)) (sims k) (fun ω => together (spots k ω)))
    (hn : Tendsto (fun k => ∑ i, (start k i).card) atTop atTop)
    {loglike : ℝ → ℝ} (hanti : StrictAntiOn loglike (Set.Ioo 0 1)) {init : ℝ} (hinit : ∀ x ∈ Set.Ioo (0 : ℝ) 1, init < loglike x)
    {b : ℝ} (hb : ∀ x ∈ Set.Ioo (0 : ℝ) 1, loglike x ≤ b) {place : ℝ → E → List ℝ} (hd : ∀ x e x' e', (place x e).length = (place x' e').length)
    {ind : Nat} {q : ℝ → E → ℝ}
    (hp : ∀ x ∈ Set.Ioo (0 : ℝ) 1, ∀ e, (place x e)[ind]? = some (q x e)) (hq : Measurable (fun p : ℝ × E => q p.1 p.2)) {B : ℝ}
    (hB : ∀ x ∈ Set.Ioo (0 : ℝ) 1, ∀ e, |q x e| ≤ B)
    (hcont : ∀ᵐ x ∂volume.restrict (Set.Ioo (0 : ℝ) 1), ContinuousAt (fun x => ∫ e, q x e ∂ν) x) {δ : ℝ} (hδ : 0 < δ) :
    Tendsto (fun k => P k {ω | SimCombinedMisses R loglike place (rule k) (start k) (draws k ω) (sims k ω) (spots k ω) init fun _ c w => ∀ handle, ∃ m w',
      paramMean R c none true ind handle w = (.ok (some m), w') ∧ |m - posteriorMean loglike ν q| < δ}) atTop (𝓝 0) := by
  refine tendsto_of_tendsto_of_tendsto_of_le_of_le tendsto_const_nhds
    (C99_param_mean (R := R) (fun k => sideBySide_stopping (hs k)) hu (total_start hn) hanti hinit hb hp hq hB hcont hδ)
    (fun k => zero_le) fun k => simCombinedMisses_le (hs k) (hslow k) (hu k).points hanti hinit hd ?_
  rintro A r c w e1 e2 e3 h handle
  obtain ⟨m, w', e4, e5⟩ := h handle
  exact ⟨m, w', by rw [← e4, SamePoints.paramMean ⟨e1, e2, e3⟩], e5⟩


/-- C108 for `param_squared_mean` with simulated volumes. -/
theorem C108_simulated_squared {R : Rng σ ℝ} (hs : ∀ k i, StoppingSchedule (rule k i) (start k i)) (hslow : ∀ k i, SlowStart (rule k i) (start k i))
    (hu : ∀ k, IidSimulated (P k) ν (fun ω => together (draws k ω)) (sims k) (fun ω => together (spots k ω)))
    (hn : Tendsto (fun k => ∑ i, (start k i).card) atTop atTop)
    {loglike : ℝ → ℝ} (hanti : StrictAntiOn loglike (Set.Ioo 0 1)) {init : ℝ} (hinit : ∀ x ∈ Set.Ioo (0 : ℝ) 1, init < loglike x)
    {b : ℝ} (hb : ∀ x ∈ Set.Ioo (0 : ℝ) 1, loglike x ≤ b) {place : ℝ → E → List ℝ} (hd : ∀ x e x' e', (place x e).length = (place x' e').length)
    {ind : Nat} {q : ℝ → E → ℝ}
    (hp : ∀ x ∈ Set.Ioo (0 : ℝ) 1, ∀ e, (place x e)[ind]? = some (q x e)) (hq : Measurable (fun p : ℝ × E => q p.1 p.2)) {B : ℝ}
    (hB : ∀ x ∈ Set.Ioo (0 : ℝ) 1, ∀ e, |q x e| ≤ B)
    (hcont : ∀ᵐ x ∂volume.restrict (Set.Ioo (0 : ℝ) 1), ContinuousAt (fun x => ∫ e, q x e ^ 2 ∂ν) x) {δ : ℝ} (hδ : 0 < δ) :
    Tendsto (fun k => P k {ω | SimCombinedMisses R loglike place (rule k) (start k) (draws k ω) (sims k ω) (spots k ω) init fun _ c w => ∃ m w',
      paramSquaredMean R c none true ind w = (.ok m, w') ∧ |m - posteriorMean loglike ν (fun x e => q x e ^ 2)| < δ}) atTop (𝓝 0) := by
  refine tendsto_of_tendsto_of_tendsto_of_le_of_le tendsto_const_nhds
    (C99_squared (R := R) (fun k => sideBySide_stopping (hs k)) hu (total_start hn) hanti hinit hb hp hq hB hcont hδ)
    (fun k => zero_le) fun k => simCombinedMisses_le (hs k) (hslow k) (hu k).points hanti hinit hd ?_
  rintro A r c w e1 e2 e3 ⟨m, w', e4, e5⟩
  exact ⟨m, w', by rw [← e4, SamePoints.paramSquaredMean ⟨e1, e2, e3⟩], e5⟩


/-- C108 for `r_mean` with simulated volumes. -/
theorem C108_simulated_r_mean {R : Rng σ ℝ} (hs : ∀ k i, StoppingSchedule (rule k i) (start k i)) (hslow : ∀ k i, SlowStart (rule k i) (start k i))
    (hu : ∀ k, IidSimulated (P k) ν (fun ω => together (draws k ω)) (sims k) (fun ω => together (spots k ω)))
    (hn : Tendsto (fun k => ∑ i, (start k i).card) atTop atTop)
    {loglike : ℝ → ℝ} (hanti : StrictAntiOn loglike (Set.Ioo 0 1)) {init : ℝ} (hinit : ∀ x ∈ Set.Ioo (0 : ℝ) 1, init < loglike x)
    {b : ℝ} (hb : ∀ x ∈ Set.Ioo (0 : ℝ) 1, loglike x ≤ b) {place : ℝ → E → List ℝ} (hd : ∀ x e x' e', (place x e).length = (place x' e').length)
    {q : ℝ → E → ℝ}
    (hp : ∀ x ∈ Set.Ioo (0 : ℝ) 1, ∀ e, radius (place x e) = q x e) (hq : Measurable (fun p : ℝ × E => q p.1 p.2)) {B : ℝ}
    (hB : ∀ x ∈ Set.Ioo (0 : ℝ) 1, ∀ e, |q x e| ≤ B)
    (hcont : ∀ᵐ x ∂volume.restrict (Set.Ioo (0 : ℝ) 1), ContinuousAt (fun x => ∫ e, q x e ∂ν) x) {δ : ℝ} (hδ : 0 < δ) :
    Tendsto (fun k => P k {ω | SimCombinedMisses R loglike place (rule k) (start k) (draws k ω) (sims k ω) (spots k ω) init fun _ c w => ∃ m w',
      rMean R c none true w = (.ok m, w') ∧ |m - posteriorMean loglike ν q| < δ}) atTop (𝓝 0) := by
  refine tendsto_of_tendsto_of_tendsto_of_le_of_le tendsto_const_nhds
    (C99_r_mean (R := R) (fun k => sideBySide_stopping (hs k)) hu (total_start hn) hanti hinit hb hp hq hB hcont hδ)
    (fun k => zero_le) fun k => simCombinedMisses_le (hs k) (hslow k) (hu k).points hanti hinit hd ?_
  rintro A r c w e1 e2 e3 ⟨m, w', e4, e5⟩
  exact ⟨m, w', by rw [← e4, SamePoints.rMean ⟨e1, e2, e3⟩], e5⟩


/-- C108 for `param_cred` with simulated volumes. -/
theorem C108_simulated_param_cred {R : Rng σ ℝ} (hs : ∀ k i, StoppingSchedule (rule k i) (start k i)) (hslow : ∀ k i, SlowStart (rule k i) (start k i))
    (hu : ∀ k, IidSimulated (P k) ν (fun ω => together (draws k ω)) (sims k) (fun ω => together (spots k ω)))
    (hn : Tendsto (fun k => ∑ i, (start k i).card) atTop atTop)
    {loglike : ℝ → ℝ} (hanti : StrictAntiOn loglike (Set.Ioo 0 1)) {init : ℝ} (hinit : ∀ x ∈ Set.Ioo (0 : ℝ) 1, init < loglike x)
    {b : ℝ} (hb : ∀ x ∈ Set.Ioo (0 : ℝ) 1, loglike x ≤ b) {place : ℝ → E → List ℝ} (hd : ∀ x e x' e', (place x e).length = (place x' e').length)
    {ind : Nat} {q : ℝ → E → ℝ}
    (hp : ∀ x ∈ Set.Ioo (0 : ℝ) 1, ∀ e, (place x e)[ind]? = some (q x e)) (hq : Measurable (fun p : ℝ × E => q p.1 p.2))
    (hcont : ∀ t, ∀ᵐ x ∂volume.restrict (Set.Ioo (0 : ℝ) 1), ContinuousAt (fun x => ν.real {e | q x e ≤ t}) x)
    {prob : ℝ} (hp0 : 0 < prob) (hp1 : prob < 1) {Q : ℝ} (hQ : PosteriorQuantile loglike ν q prob Q) {δ : ℝ} (hδ : 0 < δ) :
    Tendsto (fun k => P k {ω | SimCombinedMisses R loglike place (rule k) (start k) (draws k ω) (sims k ω) (spots k ω) init fun A c w => ∃ y w',
      paramCred A R c none true prob ind w = (.ok y, w') ∧ |y - Q| < δ}) atTop (𝓝 0) := by
  refine tendsto_of_tendsto_of_tendsto_of_le_of_le tendsto_const_nhds
    (C99_param_cred (R := R) (fun k => sideBySide_stopping (hs k)) hu (total_start hn) hanti hinit hb hp hq hcont hp0 hp1 hQ hδ)
    (fun k => zero_le) fun k => simCombinedMisses_le (hs k) (hslow k) (hu k).points hanti hinit hd ?_
  rintro A r c w e1 e2 e3 ⟨m, w', e4, e5⟩
  exact ⟨m, w', by rw [← e4, SamePoints.paramCred ⟨e1, e2, e3⟩], e5⟩


/-- C108 for `r_cred` with simulated volumes. -/
theorem C108_simulated_r_cred {R : Rng σ ℝ} (hs : ∀ k i, StoppingSchedule (rule k i) (start k i)) (hslow : ∀ k i, SlowStart (rule k i) (start k i))
    (hu : ∀ k, IidSimulated (P k) ν (fun ω => together (draws k ω)) (sims k) (fun ω => together (spots k ω)))
    (hn : Tendsto (fun k => ∑ i, (start k i).card) atTop atTop)
    {loglike : ℝ → ℝ} (hanti : StrictAntiOn loglike (Set.Ioo 0 1)) {init : ℝ} (hinit : ∀ x ∈ Set.Ioo (0 : ℝ) 1, init < loglike x)
    {b : ℝ} (hb : ∀ x ∈ Set.Ioo (0 : ℝ) 1, loglike x ≤ b) {place : ℝ → E → List ℝ} (hd : ∀ x e x' e', (place x e).length = (place x' e').length)
    {q : ℝ → E → ℝ}
    (hp : ∀ x ∈ Set.Ioo (0 : ℝ) 1, ∀ e, radius (place x e) = q x e) (hq : Measurable (fun p : ℝ × E => q p.1 p.2))
    (hcont : ∀ t, ∀ᵐ x ∂volume.restrict (Set.Ioo (0 : ℝ) 1), ContinuousAt (fun x => ν.real {e | q x e ≤ t}) x)
    {prob : ℝ} (hp0 : 0 < prob) (hp1 : prob < 1) {Q : ℝ} (hQ : PosteriorQuantile loglike ν q prob Q) {δ : ℝ} (hδ : 0 < δ) :
    Tendsto (fun k => P k {ω | SimCombinedMisses R loglike place (rule k) (start k) (draws k ω) (sims k ω) (spots k ω) init fun A c w => ∃ y w',
      rCred A R c none true prob w = (.ok y, w') ∧ |y - Q| < δ}) atTop (𝓝 0) := by
  refine tendsto_of_tendsto_of_tendsto_of_le_of_le tendsto_const_nhds
    (C99_r_cred (R := R) (fun k => sideBySide_stopping (hs k)) hu (total_start hn) hanti hinit hb hp hq hcont hp0 hp1 hQ hδ)
    (fun k => zero_le) fun k => simCombinedMisses_le (hs k) (hslow k) (hu k).points hanti hinit hd ?_
  rintro A r c w e1 e2 e3 ⟨m, w', e4, e5⟩
  exact ⟨m, w', by rw [← e4, SamePoints.rCred ⟨e1, e2, e3⟩], e5⟩


end

end Nestcheck
