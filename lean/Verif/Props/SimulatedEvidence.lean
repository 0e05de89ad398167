import Verif.Props.SimulatedIntegral
import Verif.Props.PosteriorEstimates
import Verif.Spec.Simulated

/-! C98: the evidence with simulated prior volumes. -/

namespace Nestcheck
open Spec MeasureTheory ProbabilityTheory ENNReal Filter Topology
variable {σ E : Type} {N : Nat}

noncomputable section

attribute [local irreducible] simSum

/-! ### One run -/

theorem take_all {n : Nat} {us : List ℝ} (h : us.length = n) : (List.ofFn (fun i : Fin n => us.getD i 0)).take n = us := by
  rw [List.take_of_length_le (by simp)]
  apply List.ext_getElem
  · simp [h]
  · intro i h1 h2
    simp [List.getD_eq_getElem?_getD, List.getElem?_eq_getElem h2]

/-- C98.  For every run whose first number of live points is large enough and whose number of live points falls by at most one from each
sample to the next, the evidence with simulated prior volumes is in the mean close to the one without, on the scale of the largest
likelihood. -/
theorem C98_run {τ : ℝ} (hτ : 0 < τ) : ∃ C : Nat, ∀ {r : Run ℝ}, Weighable r → r.logl.Pairwise (· ≤ ·) →
    (∀ n ∈ r.nlive.head?, (C : Int) ≤ n) → r.nlive.IsChain (fun a b => a ≤ b + 1) →
    ∀ {σ Ω : Type} [MeasurableSpace Ω] {P : Measure Ω} {R : Rng σ ℝ} {w : Ω → World σ},
      IidUniform P r.nlive.length (fun ω => (R.uniform r.nlive.length (w ω).rng).1) →
      ∃ (Z : ℝ) (est : Ω → ℝ), (∀ w, evidence R r none false w = (.ok Z, w)) ∧ 0 < Z ∧
        (∀ᵐ ω ∂P, 0 < est ω ∧ ∃ w', evidence R r none true (w ω) = (.ok (est ω), w') ∧ logz R r none true (w ω) = (.ok (Real.log (est ω)), w')) ∧
        ∀ top, (∀ l ∈ r.logl, l ≤ top) → ∫⁻ ω, ‖est ω - Z‖ₑ ∂P ≤ ENNReal.ofReal (τ * Real.exp top) := by
  obtain ⟨C, hC⟩ := simCut_uniform hτ
  refine ⟨C, fun {r} hW hsort hhead hch {σ Ω} _ {P R w} hu => ?_⟩
  set ns := r.nlive.map Int.toNat with hns
  have hnl : r.nlive = ns.map (fun m : Nat => (m : Int)) := by
    rw [hns, List.map_map]
    conv_lhs => rw [← List.map_id r.nlive]
    refine List.map_congr_left fun m hm => ?_
    have := hW.pos m hm
    simp [Function.comp]
    omega
  have hlen : ns.length = r.nlive.length := by simp [hns]
  have hne : ns ≠ [] := by
    intro h
    have := hW.len
    rw [← hlen, h] at this
    exact hW.nonempty (List.length_eq_zero_iff.mp this.symm)
  obtain ⟨n0, hn0⟩ : ∃ n0, ns.head? = some n0 := ⟨ns.head hne, List.head?_eq_some_head hne⟩
  have hn0' : r.nlive.head? = some (n0 : Int) := by rw [hnl, List.head?_map, hn0]; rfl
  have hbound := hC (N := r.nlive.length) hlen.le hn0 (by have := hhead _ hn0'; exact_mod_cast this) (by
    rw [hnl, List.isChain_map] at hch
    exact hch.imp fun a b h => by exact_mod_cast h) (fun m hm => by
    have := hW.pos (m : Int) (by rw [hnl]; exact List.mem_map_of_mem hm)
    exact_mod_cast this)
  set h : Nat → ℝ := fun i => Real.exp (r.logl.getD i 0) with hh
  have hsum : ∀ c : Nat → ℝ, (List.zipWith (fun v l => v * Real.exp l) ((List.range ns.length).map c) r.logl).sum = ∑ i ∈ Finset.range ns.length, c i * h i := by
    intro c
    rw [Finset.sum_range, ← List.sum_ofFn]
    congr 1
    apply List.ext_getElem
    · simp [hlen, hW.len]
    · intro i h1 h2
      have hi : i < r.logl.length := by
        simp only [List.length_ofFn] at h2
        rw [← hW.len, ← hlen]
        exact h2
      simp [hh, List.getD_eq_getElem?_getD, List.getElem?_eq_getElem hi]
  obtain ⟨w0⟩ : Nonempty (World σ) := ⟨⟨R.seed 0, []⟩⟩
  set Z := ∑ i ∈ Finset.range ns.length, (cut ns i - cut ns (i + 1)) * h i with hZ
  refine ⟨Z, fun ω => simWeighted h ns (fun i : Fin r.nlive.length => (R.uniform r.nlive.length (w ω).rng).1.getD i 0), ?_, ?_, ?_, ?_⟩
  · intro w1
    obtain ⟨z, _, e2, e3, _⟩ := C29_evidence (R := R) hW false w1 (by simp)
    rw [hnl, priorVolumes_false _ [], priorVolumes_eq hne, hsum] at e3
    rw [e2, e3]
    simp [afterWeights, hZ]
  · obtain ⟨z, _, e2, e3, _⟩ := C29_evidence (R := R) hW false w0 (by simp)
    rw [hnl, priorVolumes_false _ [], priorVolumes_eq hne, hsum] at e3
    rw [hZ, ← e3]
    exact Real.exp_pos z
  · filter_upwards [hu.pos fun ω => R.uniform_length _ _] with ω hpos
    obtain ⟨z, e1, e2, e3, _⟩ := C29_evidence (R := R) hW true (w ω) (fun _ => hpos)
    have ht : (List.ofFn (fun i : Fin r.nlive.length => (R.uniform r.nlive.length (w ω).rng).1.getD i 0)).take ns.length =
        (R.uniform r.nlive.length (w ω).rng).1 := by
      rw [hlen]
      exact take_all (R.uniform_length _ _)
    have hs := simulated_eq (N := r.nlive.length) hne (fun i : Fin r.nlive.length => (R.uniform r.nlive.length (w ω).rng).1.getD i 0) hlen.le
    rw [ht, ← hnl] at hs
    rw [hs, hsum] at e3
    have e4 : simWeighted h ns (fun i : Fin r.nlive.length => (R.uniform r.nlive.length (w ω).rng).1.getD i 0) = Real.exp z := e3.symm
    rw [e4]
    exact ⟨Real.exp_pos z, _, e2, by rw [Real.log_exp]; exact e1⟩
  · intro top htop
    rw [hu.lintegral (f := fun s => ‖simWeighted h ns s - Z‖ₑ) (simWeighted_measurable.sub_const _).enorm]
    have hll : ns.length = r.logl.length := by rw [hlen, hW.len]
    refine (simWeighted_close hbound hne (h := h) fun i hi => ?_).trans ?_
    · rw [hh]
      simp only
      rw [hll] at hi
      rw [List.getD_eq_getElem?_getD, List.getD_eq_getElem?_getD, List.getElem?_eq_getElem hi, List.getElem?_eq_getElem (by omega)]
      exact Real.exp_le_exp.mpr (List.pairwise_iff_getElem.mp hsort i (i + 1) _ _ (Nat.lt_succ_self i))
    · rw [← ENNReal.ofReal_mul hτ.le]
      refine ENNReal.ofReal_le_ofReal (mul_le_mul_of_nonneg_left ?_ hτ.le)
      have h1 : h (ns.length - 1) ≤ Real.exp top := by
        have hi : ns.length - 1 < r.logl.length := by
          have := List.length_pos_of_ne_nil hne
          omega
        rw [hh]
        simp only
        rw [List.getD_eq_getElem?_getD, List.getElem?_eq_getElem hi]
        exact Real.exp_le_exp.mpr (htop _ (List.getElem_mem hi))
      have h2 : 0 ≤ h 0 := (Real.exp_pos _).le
      linarith

/-! ### Runs of ideal samplers -/

/-- The weights with simulated volumes of a run with these numbers of live points. -/
theorem run_simulated {r : Run ℝ} {loglike g : ℝ → ℝ} {l : List (Removal N)} (hl : r.logl = l.map (fun s => loglike s.volume))
    (hn : r.nlive = l.map (fun s => (s.alive : Int))) (hne : l ≠ []) (hN : l.length ≤ N) (hv : ∀ s ∈ l, s.volume ∈ Set.Ioo (0 : ℝ) 1)
    (hin : ∀ x ∈ Set.Ioo (0 : ℝ) 1, g x = Real.exp (loglike x)) (s : Fin N → ℝ) :
    sampleWeights r none true ((List.ofFn s).take r.nlive.length) = List.ofFn (fun i : Fin l.length => simWidth l s i * g l[i].volume) := by
  have hn' : r.nlive = (l.map (·.alive)).map (fun m : Nat => (m : Int)) := by rw [hn, List.map_map]; rfl
  have hlen : r.nlive.length = (l.map (·.alive)).length := by rw [hn']; simp
  rw [hlen, sampleWeights, hl, hn', simulated_eq (by simpa using hne) s (by simpa using hN)]
  apply List.ext_getElem
  · simp
  · intro i h1 h2
    have hi : i < l.length := by simpa using h2
    simp [hin _ (hv _ (List.getElem_mem hi)), simWidth]

theorem run_simulated_sum {r : Run ℝ} {loglike g : ℝ → ℝ} {l : List (Removal N)} (hl : r.logl = l.map (fun s => loglike s.volume))
    (hn : r.nlive = l.map (fun s => (s.alive : Int))) (hne : l ≠ []) (hN : l.length ≤ N) (hv : ∀ s ∈ l, s.volume ∈ Set.Ioo (0 : ℝ) 1)
    (hin : ∀ x ∈ Set.Ioo (0 : ℝ) 1, g x = Real.exp (loglike x)) (s : Fin N → ℝ) :
    (sampleWeights r none true ((List.ofFn s).take r.nlive.length)).sum = simSum g s l := by
  rw [run_simulated hl hn hne hN hv hin, simSum, List.sum_ofFn, Finset.sum_range]
  refine Finset.sum_congr rfl fun i _ => ?_
  simp [List.getD_eq_getElem?_getD]

theorem volumes_inside {l : List (Removal N)} (h4 : ∀ s ∈ l, 0 < s.volume ∧ 0 < s.alive) (h5 : ∀ v ∈ shrinkages 1 l, 0 < v ∧ v < 1) :
    ∀ s ∈ l, s.volume ∈ Set.Ioo (0 : ℝ) 1 := by
  intro s hs'
  have hch := (chain_of_shrinkages l one_pos h4 (fun v hv => (h5 v hv).2))
  have hpw := List.isChain_iff_pairwise.mp hch
  exact ⟨(h4 s hs').1, (List.pairwise_cons.mp hpw).1 _ (List.mem_map_of_mem hs')⟩

theorem weighable_removals {r : Run ℝ} {loglike : ℝ → ℝ} {l : List (Removal N)} (e2 : r.logl = l.map (fun s => loglike s.volume))
    (e4 : r.nlive = l.map (fun s => (s.alive : Int))) (hne : l ≠ []) (h4 : ∀ s ∈ l, 0 < s.volume ∧ 0 < s.alive) : Weighable r := by
  refine ⟨by rw [e2]; simpa using hne, ?_, by rw [e2, e4]; simp⟩
  intro m hm
  rw [e4] at hm
  obtain ⟨s, hs', rfl⟩ := List.mem_map.mp hm
  exact_mod_cast (h4 s hs').2

section

variable {Ω : ℕ → Type} [∀ k, MeasurableSpace (Ω k)] {P : ∀ k, Measure (Ω k)} {N : ℕ → Nat} {rule : ∀ k, Rule (N k)}
  {start : ∀ k, Finset (Fin (N k))} {draws sims : ∀ k, Ω k → Fin (N k) → ℝ}

theorem simLimit_points {g : ℝ → ℝ} (hs : ∀ k, StoppingSchedule (rule k) (start k)) (h : SimLimit rule start g) (hg : Measurable g)
    (hu : ∀ k, IidPoints (P k) (volume.restrict (Set.Ico (0 : ℝ) 1)) (draws k) (sims k)) :
    Tendsto (fun k => ∫⁻ ω, ‖simSum g (sims k ω) (removals (rule k) (start k) (draws k ω)) - ∫ x in (0 : ℝ)..1, g x‖ₑ ∂P k) atTop (𝓝 0) := by
  refine h.congr fun k => ?_
  have : IsProbabilityMeasure (volume.restrict (Set.Ico (0 : ℝ) 1)) := inferInstanceAs (IsProbabilityMeasure unif)
  have hm := ((simSum_measurable (hs k) hg).sub_const (∫ x in (0 : ℝ)..1, g x)).enorm
  have h1 := lintegral_map' hm.aemeasurable (hu k).aemeasurable
  rw [← h1]
  exact congrArg (fun m => ∫⁻ q, ‖simSum g q.2 (removals (rule k) (start k) q.1) - ∫ x in (0 : ℝ)..1, g x‖ₑ ∂m) (hu k).symm

/-- C98.  As the number of points with which they start grows, the evidence which nestcheck finds with simulated prior volumes for the runs
of adaptive ideal samplers, which may add points and stop as they like, converges in mean to the evidence. -/
theorem C98_evidence {R : Rng σ ℝ} (hs : ∀ k, StoppingSchedule (rule k) (start k))
    (hu : ∀ k, IidPoints (P k) (volume.restrict (Set.Ico (0 : ℝ) 1)) (draws k) (sims k))
    (hn : Tendsto (fun k => (start k).card) atTop atTop)
    {loglike : ℝ → ℝ} (hanti : StrictAntiOn loglike (Set.Ioo 0 1)) {init : ℝ} (hinit : ∀ x ∈ Set.Ioo (0 : ℝ) 1, init < loglike x)
    {b : ℝ} (hb : ∀ x ∈ Set.Ioo (0 : ℝ) 1, loglike x ≤ b) :
    ∃ est : ∀ k, Ω k → ℝ, (∀ k, AEMeasurable (est k) (P k)) ∧ (∀ k, ∀ᵐ ω ∂P k,
      (∃ live its, AdaptiveExecution loglike (rule k) (start k) (draws k ω) init live its) ∧
      ∀ live its, AdaptiveExecution loglike (rule k) (start k) (draws k ω) init live its →
        ∀ samples, samples.Perm (its.map (·.dead)) → ∀ (A : Argsort ℝ) (da dw : Bool) (w : World σ), Delivers R w (List.ofFn (sims k ω)) →
          0 < est k ω ∧ ∃ r : Run ℝ, processSamples A R samples da dw w = (.ok r, w) ∧ ∃ w',
            evidence R r none true w = (.ok (est k ω), w') ∧ logz R r none true w = (.ok (Real.log (est k ω)), w')) ∧
      Tendsto (fun k => ∫⁻ ω, ‖est k ω - ∫ x in (0 : ℝ)..1, Real.exp (loglike x)‖ₑ ∂P k) atTop (𝓝 0) := by
  have hI : IsProbabilityMeasure (volume.restrict (Set.Ico (0 : ℝ) 1)) := inferInstanceAs (IsProbabilityMeasure unif)
  obtain ⟨g, hganti, hM, hin⟩ := exists_extension hanti hb
  have hlim := simLimit_points hs (simLimit_continuous hs hn hM hganti.measurable (antitone_continuous_ae hganti)) hganti.measurable hu
  rw [integral_extension hin] at hlim
  refine ⟨fun k ω => simSum g (sims k ω) (removals (rule k) (start k) (draws k ω)),
    fun k => (simSum_measurable (hs k) hganti.measurable).comp_aemeasurable (hu k).aemeasurable, fun k => ?_, hlim⟩
  have hvec : ∀ ω, (fun i : Fin (N k) => (List.ofFn (draws k ω)).getD i 0) = draws k ω := fun ω => by
    funext i
    simp [List.getD_eq_getElem?_getD]
  have hpos : ∀ᵐ ω ∂P k, ∀ j, 0 < sims k ω j := by
    have h1 : ∀ᵐ q ∂((P k).map fun ω => (draws k ω, sims k ω)), ∀ j, 0 < q.2 j := by
      have hu' := hu k
      unfold IidPoints at hu'
      rw [hu']
      have : ∀ᵐ q ∂((unifPow (N k)).prod (unifPow (N k))), ∀ j, 0 < q.2 j ∧ q.2 j < 1 :=
        Measure.quasiMeasurePreserving_snd.ae (pi_pos (N k))
      exact this.mono fun q h j => (h j).1
    exact ae_of_ae_map (hu k).aemeasurable h1
  filter_upwards [C92_run (R := R) (hs k) (hu k).uniform hanti hinit, adaptive_ae (hs k) (hu k).uniform, hpos] with ω ⟨h1, h2⟩ ⟨_, h4, h5⟩ h6
  rw [hvec] at h1 h2 h4 h5
  refine ⟨h1, fun live its hex samples hsam A da dw w hw => ?_⟩
  obtain ⟨r, e1, e2, e3⟩ := h2 live its hex samples hsam A da dw
  have hne := removals_ne_nil (hs k) (draws k ω)
  have hN := removals_length_le (hs k) (draws k ω)
  generalize removals (rule k) (start k) (draws k ω) = l at *
  have hvol := volumes_inside h4 h5
  have hus : (R.uniform r.nlive.length w.rng).1 = (List.ofFn (sims k ω)).take r.nlive.length := hw _ (by rw [e3]; simpa using hN)
  obtain ⟨z, g1, g2, g3, _⟩ := C29_evidence (R := R) (weighable_removals e2 e3 hne h4) true w (fun _ u hu' => by
    rw [hus] at hu'
    obtain ⟨j, rfl⟩ := List.mem_ofFn.mp (List.mem_of_mem_take hu')
    exact h6 j)
  have g4 := run_simulated_sum e2 e3 hne hN hvol hin (sims k ω)
  rw [← hus] at g4
  have g5 : simSum g (sims k ω) l = Real.exp z := by
    rw [g3, ← g4]
    rfl
  rw [g5]
  exact ⟨Real.exp_pos z, r, e1 w, _, g2, by rw [Real.log_exp]; exact g1⟩

/-- C98.  As the number of points with which they start grows, `logz` with simulated prior volumes of the runs of adaptive ideal samplers
converges in probability to the logarithm of the evidence. -/
theorem C98_logz {R : Rng σ ℝ} (hs : ∀ k, StoppingSchedule (rule k) (start k))
    (hu : ∀ k, IidPoints (P k) (volume.restrict (Set.Ico (0 : ℝ) 1)) (draws k) (sims k))
    (hn : Tendsto (fun k => (start k).card) atTop atTop)
    {loglike : ℝ → ℝ} (hanti : StrictAntiOn loglike (Set.Ioo 0 1)) {init : ℝ} (hinit : ∀ x ∈ Set.Ioo (0 : ℝ) 1, init < loglike x)
    {b : ℝ} (hb : ∀ x ∈ Set.Ioo (0 : ℝ) 1, loglike x ≤ b) {δ : ℝ} (hδ : 0 < δ) :
    Tendsto (fun k => P k {ω | ∃ live its samples, AdaptiveExecution loglike (rule k) (start k) (draws k ω) init live its ∧
      samples.Perm (its.map (·.dead)) ∧ ∃ (A : Argsort ℝ) (da dw : Bool) (w : World σ), Delivers R w (List.ofFn (sims k ω)) ∧
        ¬ ∃ (r : Run ℝ) (z : ℝ) (w' : World σ), processSamples A R samples da dw w = (.ok r, w) ∧ logz R r none true w = (.ok z, w') ∧
          |z - Real.log (∫ x in (0 : ℝ)..1, Real.exp (loglike x))| < δ}) atTop (𝓝 0) := by
  obtain ⟨est, h0, h1, h2⟩ := C98_evidence (R := R) hs hu hn hanti hinit hb
  refine log_in_probability h0 (evidence_pos hanti hb) h2 hδ fun k => ?_
  filter_upwards [h1 k] with ω h4 hlt
  rintro ⟨live, its, samples, hex, hsam, A, da, dw, w, hw, hbad⟩
  obtain ⟨_, r, e1, w', _, e3⟩ := h4.2 live its hex samples hsam A da dw w hw
  exact hbad ⟨r, _, w', e1, e3, hlt⟩

end

/-! ### An example -/

/-- A generator whose state is the sequence of the numbers to come. -/
def streamRng : Rng (Nat → ℝ) ℝ where
  seed _ := fun _ => 0
  seedOS _ := fun _ => 0
  randint lo _ n s := (List.replicate n lo, s)
  randint_length := by simp
  randint_range := by
    intro lo hi n s h x hx
    rw [List.eq_of_mem_replicate hx]
    exact ⟨le_rfl, h⟩
  shuffle n s := (List.range n, s)
  shuffle_perm _ _ := List.Perm.refl _
  uniform n s := (List.ofFn (fun k : Fin n => if 0 ≤ s k ∧ s k < 1 then s k else 0), fun k => s (k + n))
  uniform_length := by simp
  uniform_range := by
    intro n s x hx
    obtain ⟨k, rfl⟩ := List.mem_ofFn.mp hx
    split_ifs with h1
    · exact h1
    · exact ⟨le_rfl, one_pos⟩

/-- Such a generator delivers every list of numbers in `[0, 1)`. -/
theorem streamRng_delivers {s : Fin N → ℝ} (hs : ∀ j, 0 < s j ∧ s j < 1) (warns : List Warn) :
    Delivers streamRng ⟨fun k => if h : k < N then s ⟨k, h⟩ else 0, warns⟩ (List.ofFn s) := by
  intro n hn
  have hn' : n ≤ N := by simpa using hn
  apply List.ext_getElem
  · simp [streamRng, hn']
  · intro i h1 h2
    have hi : i < n := by simpa [streamRng] using h1
    simp [streamRng, show i < N by omega, (hs ⟨i, by omega⟩).1.le, (hs ⟨i, by omega⟩).2]

end

end Nestcheck
