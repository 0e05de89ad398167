import Verif.Props.SeveralCombined
import Verif.Props.AdaptiveEvidence

/-! C108: the estimators applied to combined runs of several adaptive samplers. -/

namespace Nestcheck
open Spec MeasureTheory ENNReal Filter Topology
variable {E σ : Type}

noncomputable section

/-- Runs with the same points and numbers of live points. -/
structure SamePoints (r c : Run ℝ) : Prop where
  logl : r.logl = c.logl
  theta : r.theta = c.theta
  nlive : r.nlive = c.nlive

theorem SamePoints.logz {R : Rng σ ℝ} {r c : Run ℝ} (h : SamePoints r c) {sim : Bool} : Nestcheck.logz R c none sim = Nestcheck.logz R r none sim := by
  obtain ⟨h1, h2, h3⟩ := h
  cases r
  cases c
  simp only at h1 h2 h3
  subst h1 h2 h3
  rfl

theorem SamePoints.paramMean {R : Rng σ ℝ} {r c : Run ℝ} (h : SamePoints r c) {sim : Bool} {ind : Nat} {handle : Bool} : Nestcheck.paramMean R c none sim ind handle = Nestcheck.paramMean R r none sim ind handle := by
  obtain ⟨h1, h2, h3⟩ := h
  cases r
  cases c
  simp only at h1 h2 h3
  subst h1 h2 h3
  rfl

theorem SamePoints.paramSquaredMean {R : Rng σ ℝ} {r c : Run ℝ} (h : SamePoints r c) {sim : Bool} {ind : Nat} : Nestcheck.paramSquaredMean R c none sim ind = Nestcheck.paramSquaredMean R r none sim ind := by
  obtain ⟨h1, h2, h3⟩ := h
  cases r
  cases c
  simp only at h1 h2 h3
  subst h1 h2 h3
  rfl

theorem SamePoints.rMean {R : Rng σ ℝ} {r c : Run ℝ} (h : SamePoints r c) {sim : Bool} : Nestcheck.rMean R c none sim = Nestcheck.rMean R r none sim := by
  obtain ⟨h1, h2, h3⟩ := h
  cases r
  cases c
  simp only at h1 h2 h3
  subst h1 h2 h3
  rfl

theorem SamePoints.paramCred {R : Rng σ ℝ} {r c : Run ℝ} (h : SamePoints r c) {sim : Bool} {A : Argsort ℝ} {prob : ℝ} {ind : Nat} : Nestcheck.paramCred A R c none sim prob ind = Nestcheck.paramCred A R r none sim prob ind := by
  obtain ⟨h1, h2, h3⟩ := h
  cases r
  cases c
  simp only at h1 h2 h3
  subst h1 h2 h3
  rfl

theorem SamePoints.rCred {R : Rng σ ℝ} {r c : Run ℝ} (h : SamePoints r c) {sim : Bool} {A : Argsort ℝ} {prob : ℝ} : Nestcheck.rCred A R c none sim prob = Nestcheck.rCred A R r none sim prob := by
  obtain ⟨h1, h2, h3⟩ := h
  cases r
  cases c
  simp only at h1 h2 h3
  subst h1 h2 h3
  rfl

theorem startOfAll_card {m : Nat} {n : Fin m → Nat} (start : ∀ i, Finset (Fin (n i))) : (startOfAll start).card = ∑ i, (start i).card := by
  have e : startOfAll start = Finset.univ.biUnion (fun i => (start i).image (idx i)) := by
    ext j
    obtain ⟨i, b, rfl⟩ := exists_idx j
    rw [← mem_ownSet, ownSet_start]
    simp only [Finset.mem_biUnion, Finset.mem_univ, true_and, Finset.mem_image]
    constructor
    · intro h
      exact ⟨i, b, h, rfl⟩
    · rintro ⟨i', b', h, e⟩
      by_cases hi : i' = i
      · subst hi
        rwa [← idx_injective i' e]
      · exact absurd e (idx_ne hi _ _)
  rw [e, Finset.card_biUnion]
  · exact Finset.sum_congr rfl fun i _ => Finset.card_image_of_injective _ (idx_injective i)
  · intro i _ i' _ hne
    rw [Function.onFun, Finset.disjoint_left]
    intro j h1 h2
    obtain ⟨b, _, rfl⟩ := Finset.mem_image.mp h1
    obtain ⟨b', _, e⟩ := Finset.mem_image.mp h2
    exact idx_ne (Ne.symm hne) _ _ e

variable {Ω : ℕ → Type} [∀ k, MeasurableSpace (Ω k)] {P : ∀ k, Measure (Ω k)} {m : ℕ → Nat} [∀ k, NeZero (m k)] {n : ∀ k, Fin (m k) → Nat}
  {rule : ∀ k i, Rule (n k i)} {start : ∀ k i, Finset (Fin (n k i))} [MeasurableSpace E] {ν : Measure E} [IsProbabilityMeasure ν]
  {draws : ∀ k, Ω k → ∀ i, Fin (n k i) → ℝ} {spots : ∀ k, Ω k → ∀ i, Fin (n k i) → E}

omit [∀ k, NeZero (m k)] in
theorem total_start (hn : Tendsto (fun k => ∑ i, (start k i).card) atTop atTop) :
    Tendsto (fun k => (startOfAll (start k)).card) atTop atTop := by
  simp only [startOfAll_card]
  exact hn

theorem misses_logz {N : ℕ → Nat} {rule : ∀ k, Rule (N k)} {start : ∀ k, Finset (Fin (N k))} {draws : ∀ k, Ω k → Fin (N k) → ℝ}
    {spots : ∀ k, Ω k → Fin (N k) → E} {R : Rng σ ℝ} (hs : ∀ k, StoppingSchedule (rule k) (start k))
    (hu : ∀ k, IidPoints (P k) ν (draws k) (spots k)) (hn : Tendsto (fun k => (start k).card) atTop atTop)
    {loglike : ℝ → ℝ} (hanti : StrictAntiOn loglike (Set.Ioo 0 1)) {init : ℝ} (hinit : ∀ x ∈ Set.Ioo (0 : ℝ) 1, init < loglike x)
    {b : ℝ} (hb : ∀ x ∈ Set.Ioo (0 : ℝ) 1, loglike x ≤ b) {place : ℝ → E → List ℝ} {δ : ℝ} (hδ : 0 < δ) :
    Tendsto (fun k => P k {ω | Misses R loglike place (rule k) (start k) (draws k ω) (spots k ω) init fun _ r w => ∃ z,
      logz R r none false w = (.ok z, w) ∧ |z - Real.log (∫ x in (0 : ℝ)..1, Real.exp (loglike x))| < δ}) atTop (𝓝 0) := by
  refine tendsto_of_tendsto_of_tendsto_of_le_of_le tendsto_const_nhds
    (C95_logz (R := R) hs (fun k => (hu k).uniform) hn hanti hinit hb hδ) (fun k => zero_le) fun k => measure_mono ?_
  rintro ω ⟨live, its, samples, hex, hsam, A, da, dw, w, hbad⟩
  refine ⟨live, its, samples, ?_, hsam, A, da, dw, w, ?_⟩
  · have e : (fun i : Fin (N k) => (List.ofFn (draws k ω)).getD i 0) = draws k ω := by
      funext i
      simp [List.getD_eq_getElem?_getD]
    rw [e]
    exact hex.adaptive
  · rintro ⟨r, z, e1, e2, e3⟩
    exact hbad ⟨r, e1, z, e2, e3⟩

/-- C108 for `logz`: as the total number of starting points grows, `logz` of the combined run converges in probability to the log evidence. -/
theorem C108_logz {R : Rng σ ℝ} (hs : ∀ k i, StoppingSchedule (rule k i) (start k i)) (hslow : ∀ k i, SlowStart (rule k i) (start k i))
    (hu : ∀ k, IidPoints (P k) ν (fun ω => together (draws k ω)) (fun ω => together (spots k ω)))
    (hn : Tendsto (fun k => ∑ i, (start k i).card) atTop atTop)
    {loglike : ℝ → ℝ} (hanti : StrictAntiOn loglike (Set.Ioo 0 1)) {init : ℝ} (hinit : ∀ x ∈ Set.Ioo (0 : ℝ) 1, init < loglike x)
    {b : ℝ} (hb : ∀ x ∈ Set.Ioo (0 : ℝ) 1, loglike x ≤ b) {place : ℝ → E → List ℝ} (hd : ∀ x e x' e', (place x e).length = (place x' e').length)
    {δ : ℝ} (hδ : 0 < δ) :
    Tendsto (fun k => P k {ω | CombinedMisses R loglike place (rule k) (start k) (draws k ω) (spots k ω) init fun _ c w => ∃ z,
      logz R c none false w = (.ok z, w) ∧ |z - Real.log (∫ x in (0 : ℝ)..1, Real.exp (loglike x))| < δ}) atTop (𝓝 0) := by
  refine tendsto_of_tendsto_of_tendsto_of_le_of_le tendsto_const_nhds
    (misses_logz (R := R) (fun k => sideBySide_stopping (hs k)) hu (total_start hn) hanti hinit hb hδ)
    (fun k => zero_le) fun k => combinedMisses_le (hs k) (hslow k) (hu k) hanti hinit hd ?_
  rintro A r c w e1 e2 e3 ⟨m, e4, e5⟩
  exact ⟨m, by rw [← e4, SamePoints.logz ⟨e1, e2, e3⟩], e5⟩


/-- C108 for `param_mean`. -/
theorem C108_param_mean {R : Rng σ ℝ} (hs : ∀ k i, StoppingSchedule (rule k i) (start k i)) (hslow : ∀ k i, SlowStart (rule k i) (start k i))
    (hu : ∀ k, IidPoints (P k) ν (fun ω => together (draws k ω)) (fun ω => together (spots k ω)))
    (hn : Tendsto (fun k => ∑ i, (start k i).card) atTop atTop)
    {loglike : ℝ → ℝ} (hanti : StrictAntiOn loglike (Set.Ioo 0 1)) {init : ℝ} (hinit : ∀ x ∈ Set.Ioo (0 : ℝ) 1, init < loglike x)
    {b : ℝ} (hb : ∀ x ∈ Set.Ioo (0 : ℝ) 1, loglike x ≤ b) {place : ℝ → E → List ℝ} (hd : ∀ x e x' e', (place x e).length = (place x' e').length)
    {ind : Nat} {q : ℝ → E → ℝ}
    (hp : ∀ x ∈ Set.Ioo (0 : ℝ) 1, ∀ e, (place x e)[ind]? = some (q x e)) (hq : Measurable (fun p : ℝ × E => q p.1 p.2)) {B : ℝ}
    (hB : ∀ x ∈ Set.Ioo (0 : ℝ) 1, ∀ e, |q x e| ≤ B)
    (hcont : ∀ᵐ x ∂volume.restrict (Set.Ioo (0 : ℝ) 1), ContinuousAt (fun x => ∫ e, q x e ∂ν) x) {δ : ℝ} (hδ : 0 < δ) :
    Tendsto (fun k => P k {ω | CombinedMisses R loglike place (rule k) (start k) (draws k ω) (spots k ω) init fun _ c w => ∀ handle, ∃ m,
      paramMean R c none false ind handle w = (.ok (some m), w) ∧ |m - posteriorMean loglike ν q| < δ}) atTop (𝓝 0) := by
  refine tendsto_of_tendsto_of_tendsto_of_le_of_le tendsto_const_nhds
    (C96_param_mean (R := R) (fun k => sideBySide_stopping (hs k)) hu (total_start hn) hanti hinit hb hp hq hB hcont hδ)
    (fun k => zero_le) fun k => combinedMisses_le (hs k) (hslow k) (hu k) hanti hinit hd ?_
  rintro A r c w e1 e2 e3 h handle
  obtain ⟨m, e4, e5⟩ := h handle
  exact ⟨m, by rw [← e4, SamePoints.paramMean ⟨e1, e2, e3⟩], e5⟩


/-- C108 for `param_squared_mean`. -/
theorem C108_squared {R : Rng σ ℝ} (hs : ∀ k i, StoppingSchedule (rule k i) (start k i)) (hslow : ∀ k i, SlowStart (rule k i) (start k i))
    (hu : ∀ k, IidPoints (P k) ν (fun ω => together (draws k ω)) (fun ω => together (spots k ω)))
    (hn : Tendsto (fun k => ∑ i, (start k i).card) atTop atTop)
    {loglike : ℝ → ℝ} (hanti : StrictAntiOn loglike (Set.Ioo 0 1)) {init : ℝ} (hinit : ∀ x ∈ Set.Ioo (0 : ℝ) 1, init < loglike x)
    {b : ℝ} (hb : ∀ x ∈ Set.Ioo (0 : ℝ) 1, loglike x ≤ b) {place : ℝ → E → List ℝ} (hd : ∀ x e x' e', (place x e).length = (place x' e').length)
    {ind : Nat} {q : ℝ → E → ℝ}
    (hp : ∀ x ∈ Set.Ioo (0 : ℝ) 1, ∀ e, (place x e)[ind]? = some (q x e)) (hq : Measurable (fun p : ℝ × E => q p.1 p.2)) {B : ℝ}
    (hB : ∀ x ∈ Set.Ioo (0 : ℝ) 1, ∀ e, |q x e| ≤ B)
    (hcont : ∀ᵐ x ∂volume.restrict (Set.Ioo (0 : ℝ) 1), ContinuousAt (fun x => ∫ e, q x e ^ 2 ∂ν) x) {δ : ℝ} (hδ : 0 < δ) :
    Tendsto (fun k => P k {ω | CombinedMisses R loglike place (rule k) (start k) (draws k ω) (spots k ω) init fun _ c w => ∃ m,
      paramSquaredMean R c none false ind w = (.ok m, w) ∧ |m - posteriorMean loglike ν (fun x e => q x e ^ 2)| < δ}) atTop (𝓝 0) := by
  refine tendsto_of_tendsto_of_tendsto_of_le_of_le tendsto_const_nhds
    (C96_squared (R := R) (fun k => sideBySide_stopping (hs k)) hu (total_start hn) hanti hinit hb hp hq hB hcont hδ)
    (fun k => zero_le) fun k => combinedMisses_le (hs k) (hslow k) (hu k) hanti hinit hd ?_
  rintro A r c w e1 e2 e3 ⟨m, e4, e5⟩
  exact ⟨m, by rw [← e4, SamePoints.paramSquaredMean ⟨e1, e2, e3⟩], e5⟩


/-- C108 for `r_mean`. -/
theorem C108_r_mean {R : Rng σ ℝ} (hs : ∀ k i, StoppingSchedule (rule k i) (start k i)) (hslow : ∀ k i, SlowStart (rule k i) (start k i))
    (hu : ∀ k, IidPoints (P k) ν (fun ω => together (draws k ω)) (fun ω => together (spots k ω)))
    (hn : Tendsto (fun k => ∑ i, (start k i).card) atTop atTop)
    {loglike : ℝ → ℝ} (hanti : StrictAntiOn loglike (Set.Ioo 0 1)) {init : ℝ} (hinit : ∀ x ∈ Set.Ioo (0 : ℝ) 1, init < loglike x)
    {b : ℝ} (hb : ∀ x ∈ Set.Ioo (0 : ℝ) 1, loglike x ≤ b) {place : ℝ → E → List ℝ} (hd : ∀ x e x' e', (place x e).length = (place x' e').length)
    {q : ℝ → E → ℝ}
    (hp : ∀ x ∈ Set.Ioo (0 : ℝ) 1, ∀ e, radius (place x e) = q x e) (hq : Measurable (fun p : ℝ × E => q p.1 p.2)) {B : ℝ}
    (hB : ∀ x ∈ Set.Ioo (0 : ℝ) 1, ∀ e, |q x e| ≤ B)
    (hcont : ∀ᵐ x ∂volume.restrict (Set.Ioo (0 : ℝ) 1), ContinuousAt (fun x => ∫ e, q x e ∂ν) x) {δ : ℝ} (hδ : 0 < δ) :
    Tendsto (fun k => P k {ω | CombinedMisses R loglike place (rule k) (start k) (draws k ω) (spots k ω) init fun _ c w => ∃ m,
      rMean R c none false w = (.ok m, w) ∧ |m - posteriorMean loglike ν q| < δ}) atTop (𝓝 0) := by
  refine tendsto_of_tendsto_of_tendsto_of_le_of_le tendsto_const_nhds
    (C96_r_mean (R := R) (fun k => sideBySide_stopping (hs k)) hu (total_start hn) hanti hinit hb hp hq hB hcont hδ)
    (fun k => zero_le) fun k => combinedMisses_le (hs k) (hslow k) (hu k) hanti hinit hd ?_
  rintro A r c w e1 e2 e3 ⟨m, e4, e5⟩
  exact ⟨m, by rw [← e4, SamePoints.rMean ⟨e1, e2, e3⟩], e5⟩


/-- C108 for `param_cred`. -/
theorem C108_param_cred {R : Rng σ ℝ} (hs : ∀ k i, StoppingSchedule (rule k i) (start k i)) (hslow : ∀ k i, SlowStart (rule k i) (start k i))
    (hu : ∀ k, IidPoints (P k) ν (fun ω => together (draws k ω)) (fun ω => together (spots k ω)))
    (hn : Tendsto (fun k => ∑ i, (start k i).card) atTop atTop)
    {loglike : ℝ → ℝ} (hanti : StrictAntiOn loglike (Set.Ioo 0 1)) {init : ℝ} (hinit : ∀ x ∈ Set.Ioo (0 : ℝ) 1, init < loglike x)
    {b : ℝ} (hb : ∀ x ∈ Set.Ioo (0 : ℝ) 1, loglike x ≤ b) {place : ℝ → E → List ℝ} (hd : ∀ x e x' e', (place x e).length = (place x' e').length)
    {ind : Nat} {q : ℝ → E → ℝ}
    (hp : ∀ x ∈ Set.Ioo (0 : ℝ) 1, ∀ e, (place x e)[ind]? = some (q x e)) (hq : Measurable (fun p : ℝ × E => q p.1 p.2))
    (hcont : ∀ t, ∀ᵐ x ∂volume.restrict (Set.Ioo (0 : ℝ) 1), ContinuousAt (fun x => ν.real {e | q x e ≤ t}) x)
    {prob : ℝ} (hp0 : 0 < prob) (hp1 : prob < 1) {Q : ℝ} (hQ : PosteriorQuantile loglike ν q prob Q) {δ : ℝ} (hδ : 0 < δ) :
    Tendsto (fun k => P k {ω | CombinedMisses R loglike place (rule k) (start k) (draws k ω) (spots k ω) init fun A c w => ∃ y,
      paramCred A R c none false prob ind w = (.ok y, w) ∧ |y - Q| < δ}) atTop (𝓝 0) := by
  refine tendsto_of_tendsto_of_tendsto_of_le_of_le tendsto_const_nhds
    (C97_param_cred (R := R) (fun k => sideBySide_stopping (hs k)) hu (total_start hn) hanti hinit hb hp hq hcont hp0 hp1 hQ hδ)
    (fun k => zero_le) fun k => combinedMisses_le (hs k) (hslow k) (hu k) hanti hinit hd ?_
  rintro A r c w e1 e2 e3 ⟨m, e4, e5⟩
  exact ⟨m, by rw [← e4, SamePoints.paramCred ⟨e1, e2, e3⟩], e5⟩


/-- C108 for `r_cred`. -/
theorem C108_r_cred {R : Rng σ ℝ} (hs : ∀ k i, StoppingSchedule (rule k i) (start k i)) (hslow : ∀ k i, SlowStart (rule k i) (start k i))
    (hu : ∀ k, IidPoints (P k) ν (fun ω => together (draws k ω)) (fun ω => together (spots k ω)))
    (hn : Tendsto (fun k => ∑ i, (start k i).card) atTop atTop)
    {loglike : ℝ → ℝ} (hanti : StrictAntiOn loglike (Set.Ioo 0 1)) {init : ℝ} (hinit : ∀ x ∈ Set.Ioo (0 : ℝ) 1, init < loglike x)
    {b : ℝ} (hb : ∀ x ∈ Set.Ioo (0 : ℝ) 1, loglike x ≤ b) {place : ℝ → E → List ℝ} (hd : ∀ x e x' e', (place x e).length = (place x' e').length)
    {q : ℝ → E → ℝ}
    (hp : ∀ x ∈ Set.Ioo (0 : ℝ) 1, ∀ e, radius (place x e) = q x e) (hq : Measurable (fun p : ℝ × E => q p.1 p.2))
    (hcont : ∀ t, ∀ᵐ x ∂volume.restrict (Set.Ioo (0 : ℝ) 1), ContinuousAt (fun x => ν.real {e | q x e ≤ t}) x)
    {prob : ℝ} (hp0 : 0 < prob) (hp1 : prob < 1) {Q : ℝ} (hQ : PosteriorQuantile loglike ν q prob Q) {δ : ℝ} (hδ : 0 < δ) :
    Tendsto (fun k => P k {ω | CombinedMisses R loglike place (rule k) (start k) (draws k ω) (spots k ω) init fun A c w => ∃ y,
      rCred A R c none false prob w = (.ok y, w) ∧ |y - Q| < δ}) atTop (𝓝 0) := by
  refine tendsto_of_tendsto_of_tendsto_of_le_of_le tendsto_const_nhds
    (C97_r_cred (R := R) (fun k => sideBySide_stopping (hs k)) hu (total_start hn) hanti hinit hb hp hq hcont hp0 hp1 hQ hδ)
    (fun k => zero_le) fun k => combinedMisses_le (hs k) (hslow k) (hu k) hanti hinit hd ?_
  rintro A r c w e1 e2 e3 ⟨m, e4, e5⟩
  exact ⟨m, by rw [← e4, SamePoints.rCred ⟨e1, e2, e3⟩], e5⟩


end

end Nestcheck
