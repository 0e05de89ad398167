import Verif.Props.SimulatedEvidence

/-! C99: means over the posterior distribution with simulated prior volumes. -/

namespace Nestcheck
open Spec MeasureTheory ProbabilityTheory ENNReal Filter Topology
variable {σ E : Type} {N : Nat}

noncomputable section

attribute [local irreducible] simSum simWidth

/-- The sum over the samples of the simulated prior volumes, times a function of the volumes and spots of the samples. -/
def simSpotted (G : ℝ → E → ℝ) (s : Fin N → ℝ) (e : Fin N → E) (l : List (Removal N)) : ℝ :=
  ∑ i ∈ Finset.range l.length, simWidth l s i * (l[i]?.elim 0 fun t => G t.volume (e t.point))

section

variable [MeasurableSpace E] {ν : Measure E} [IsProbabilityMeasure ν]

theorem bound_nonneg {G : ℝ → E → ℝ} {M : ℝ} (hM : ∀ v e, |G v e| ≤ M) (ν : Measure E) [IsProbabilityMeasure ν] : 0 ≤ M := by
  have hE : Nonempty E := by
    by_contra h
    rw [not_nonempty_iff] at h
    have h1 := measure_univ (μ := ν)
    rw [Set.univ_eq_empty_iff.mpr h, measure_empty] at h1
    exact zero_ne_one h1
  exact (abs_nonneg _).trans (hM 0 hE.some)

/-- Averages over the spots, with any weights. -/
theorem spots_variance {G : ℝ → E → ℝ} {M : ℝ} (hG : ∀ v, Measurable (G v)) (hM : ∀ v e, |G v e| ≤ M) {l : List (Removal N)}
    (hnd : (l.map (·.point)).Nodup) {η : ℝ} (hη : 0 < η) {c : Nat → ℝ} (hc : ∀ i, 0 ≤ c i) :
    ∫⁻ e, ‖∑ i ∈ Finset.range l.length, c i * (l[i]?.elim 0 fun t => G t.volume (e t.point)) -
        ∑ i ∈ Finset.range l.length, c i * ∫ e, G ((l.map (·.volume)).getD i 0) e ∂ν‖ₑ ∂(Measure.pi fun _ : Fin N => ν) ≤
      ENNReal.ofReal η + ENNReal.ofReal (M ^ 2 / η) * ENNReal.ofReal (∑ i ∈ Finset.range l.length, c i ^ 2) := by
  have hM0 : 0 ≤ M := bound_nonneg hM ν
  set X : Nat → (Fin N → E) → ℝ := fun i e => c i * (l[i]?.elim 0 fun s => G s.volume (e s.point)) with hX
  have hXm : ∀ i, Measurable (X i) := by
    intro i
    refine Measurable.const_mul ?_ _
    cases l[i]? with
    | none => exact measurable_const
    | some s => exact (hG s.volume).comp (measurable_pi_apply _)
  have hXb : ∀ i e, |X i e| ≤ c i * M := by
    intro i e
    rw [hX]
    simp only
    rw [abs_mul, abs_of_nonneg (hc i)]
    refine mul_le_mul_of_nonneg_left ?_ (hc i)
    cases l[i]? with
    | none => simpa using hM0
    | some s => exact hM _ _
  have hXL : ∀ i, MemLp (X i) 2 (Measure.pi fun _ : Fin N => ν) := fun i =>
    MemLp.of_bound (hXm i).aestronglyMeasurable _ (ae_of_all _ (hXb i))
  have hmean : ∀ i < l.length, ∫ e, X i e ∂(Measure.pi fun _ : Fin N => ν) =
      c i * ∫ e, G ((l.map (·.volume)).getD i 0) e ∂ν := by
    intro i hi
    rw [hX]
    simp only
    rw [integral_const_mul, List.getElem?_eq_getElem hi]
    simp only [Option.elim]
    rw [integral_comp_eval (μ := fun _ : Fin N => ν) (hG _).aestronglyMeasurable]
    simp [List.getD_eq_getElem?_getD, List.getElem?_eq_getElem hi]
  have hindep : ∀ i ∈ Finset.range l.length, ∀ j ∈ Finset.range l.length, i ≠ j →
      IndepFun (X i) (X j) (Measure.pi fun _ : Fin N => ν) := by
    intro i hi j hj hij
    have hi' := Finset.mem_range.mp hi
    have hj' := Finset.mem_range.mp hj
    have hpt : l[i].point ≠ l[j].point := by
      intro h
      refine hij ((List.Nodup.getElem_inj_iff hnd (hi := by simpa using hi') (hj := by simpa using hj')).mp ?_)
      simpa using h
    have h0 := (iIndepFun_pi (μ := fun _ : Fin N => ν) (X := fun _ => (id : E → E)) fun _ => measurable_id.aemeasurable).indepFun hpt
    have h1 := h0.comp (φ := fun e => c i * G l[i].volume e) (ψ := fun e => c j * G l[j].volume e)
      ((hG _).const_mul _) ((hG _).const_mul _)
    convert h1 using 1
    · funext e
      simp [hX, List.getElem?_eq_getElem hi']
    · funext e
      simp [hX, List.getElem?_eq_getElem hj']
  set S : (Fin N → E) → ℝ := ∑ i ∈ Finset.range l.length, X i with hS
  have hSe : ∀ e, ∑ i ∈ Finset.range l.length, c i * (l[i]?.elim 0 fun t => G t.volume (e t.point)) = S e := fun e => by
    rw [hS, Finset.sum_apply]
  have hSL : MemLp S 2 (Measure.pi fun _ : Fin N => ν) := memLp_finset_sum' _ fun i _ => hXL i
  have hvar : variance S (Measure.pi fun _ : Fin N => ν) ≤ M ^ 2 * ∑ i ∈ Finset.range l.length, c i ^ 2 := by
    rw [hS, IndepFun.variance_sum (fun i _ => hXL i) (fun i hi j hj hij => hindep i hi j hj hij), Finset.mul_sum]
    refine Finset.sum_le_sum fun i _ => ?_
    refine (variance_le_sq_of_bounded (ae_of_all _ fun e => abs_le.mp (hXb i e)) (hXm i).aemeasurable).trans (le_of_eq ?_)
    ring
  have hES : ∫ e, S e ∂(Measure.pi fun _ : Fin N => ν) = ∑ i ∈ Finset.range l.length, c i * ∫ e, G ((l.map (·.volume)).getD i 0) e ∂ν := by
    simp only [hS, Finset.sum_apply]
    rw [integral_finset_sum _ fun i _ => (hXL i).integrable (by norm_num)]
    exact Finset.sum_congr rfl fun i hi => hmean i (Finset.mem_range.mp hi)
  rw [← hES]
  simp only [hSe]
  set m := ∫ e, S e ∂(Measure.pi fun _ : Fin N => ν) with hm
  have hint : Integrable (fun e => (S e - m) ^ 2) (Measure.pi fun _ : Fin N => ν) := (hSL.sub (memLp_const m)).integrable_sq
  calc ∫⁻ e, ‖S e - m‖ₑ ∂(Measure.pi fun _ : Fin N => ν)
      ≤ ∫⁻ e, (ENNReal.ofReal η + ENNReal.ofReal ((S e - m) ^ 2 / η)) ∂(Measure.pi fun _ : Fin N => ν) := by
        refine lintegral_mono fun e => ?_
        rw [Real.enorm_eq_ofReal_abs, ← ENNReal.ofReal_add hη.le (by positivity)]
        refine ENNReal.ofReal_le_ofReal ?_
        by_cases h : |S e - m| ≤ η
        · have : 0 ≤ (S e - m) ^ 2 / η := by positivity
          linarith
        · rw [not_le] at h
          have : |S e - m| ≤ (S e - m) ^ 2 / η := by
            rw [le_div_iff₀ hη, ← sq_abs, pow_two]
            exact mul_le_mul_of_nonneg_left h.le (abs_nonneg _)
          linarith
    _ = ENNReal.ofReal η + ENNReal.ofReal (∫ e, (S e - m) ^ 2 / η ∂(Measure.pi fun _ : Fin N => ν)) := by
        rw [lintegral_add_left measurable_const, lintegral_const, measure_univ, mul_one,
          ofReal_integral_eq_lintegral_ofReal (hint.div_const η) (ae_of_all _ fun e => by positivity)]
    _ = ENNReal.ofReal η + ENNReal.ofReal (variance S (Measure.pi fun _ : Fin N => ν) / η) := by
        rw [integral_div, variance_eq_integral hSL.aestronglyMeasurable.aemeasurable]
    _ ≤ ENNReal.ofReal η + ENNReal.ofReal (M ^ 2 / η * ∑ i ∈ Finset.range l.length, c i ^ 2) := by
        gcongr
        rw [div_mul_eq_mul_div]
        gcongr
    _ = _ := by rw [ENNReal.ofReal_mul (by positivity)]

theorem simSpotted_measurableIn {G : ℝ → E → ℝ} (hG : Measurable (fun p : ℝ × E => G p.1 p.2)) :
    MeasurableIn (fun (q : ((Fin N → ℝ) × (Fin N → ℝ)) × (Fin N → E)) (l : List (Removal N)) => simSpotted G q.1.2 q.2 l) := by
  intro ds
  have hl : MList ds.length (fun q : (((Fin N → ℝ) × (Fin N → ℝ)) × (Fin N → E)) × (Fin ds.length → ℝ) => List.ofFn q.2) := MList.ofFn measurable_snd
  have e1 : ∀ q : (((Fin N → ℝ) × (Fin N → ℝ)) × (Fin N → E)) × (Fin ds.length → ℝ), (withVolumes ds (List.ofFn q.2)).map (·.alive) = ds.map (·.2.1) :=
    fun q => (withVolumes_alive ds _ (hl.len q)).1
  have e3 : ∀ q : (((Fin N → ℝ) × (Fin N → ℝ)) × (Fin N → E)) × (Fin ds.length → ℝ), (withVolumes ds (List.ofFn q.2)).length = ds.length := fun q => by
    rw [← List.length_map (f := fun s : Removal N => s.alive), e1, List.length_map]
  simp only [simSpotted, e3]
  refine Finset.measurable_fun_sum _ fun i hi => ?_
  have hi' := Finset.mem_range.mp hi
  have e4 : ∀ q : (((Fin N → ℝ) × (Fin N → ℝ)) × (Fin N → E)) × (Fin ds.length → ℝ),
      ((withVolumes ds (List.ofFn q.2))[i]?.elim 0 fun s => G s.volume (q.1.2 s.point)) = G (q.2 ⟨i, hi'⟩) (q.1.2 ds[i].1) := fun q => by
    rw [withVolumes_getElem? ds _ i hi' (by simpa using hi')]
    simp
  simp only [e4]
  have hm : Measurable (fun q : (((Fin N → ℝ) × (Fin N → ℝ)) × (Fin N → E)) × (Fin ds.length → ℝ) => (q.2 ⟨i, hi'⟩, q.1.2 ds[i].1)) := by fun_prop
  have hw : Measurable (fun q : (((Fin N → ℝ) × (Fin N → ℝ)) × (Fin N → E)) × (Fin ds.length → ℝ) =>
      simWidth (withVolumes ds (List.ofFn q.2)) q.1.1.2 i) := by
    have hq : Measurable (fun q : (((Fin N → ℝ) × (Fin N → ℝ)) × (Fin N → E)) × (Fin ds.length → ℝ) => (q.1.1.2, q.2)) := by fun_prop
    exact (simWidth_measurableIn i ds).comp hq
  exact hw.mul (hG.comp hm)

/-- The sum of the squares of the simulated prior volumes. -/
def squares (s : Fin N → ℝ) (l : List (Removal N)) : ℝ := ∑ i ∈ Finset.range l.length, simWidth l s i ^ 2

theorem squares_measurableIn : MeasurableIn (fun (s : Fin N → ℝ) (l : List (Removal N)) => squares s l) := by
  intro ds
  have e3 : ∀ q : (Fin N → ℝ) × (Fin ds.length → ℝ), (withVolumes ds (List.ofFn q.2)).length = ds.length := fun q => by
    rw [← List.length_map (f := fun s : Removal N => s.alive), (withVolumes_alive ds _ (by simp)).1, List.length_map]
  simp only [squares, e3]
  exact Finset.measurable_fun_sum _ fun i _ => (simWidth_measurableIn i ds).pow_const 2

attribute [irreducible] simSpotted squares

theorem simSpotted_measurable {rule : Rule N} {start : Finset (Fin N)} (hs : StoppingSchedule rule start) {G : ℝ → E → ℝ}
    (hG : Measurable (fun p : ℝ × E => G p.1 p.2)) :
    Measurable (fun q : ((Fin N → ℝ) × (Fin N → ℝ)) × (Fin N → E) => simSpotted G q.1.2 q.2 (removals rule start q.1.1)) :=
  iterate_measurable hs.measurable N [] start (τ := fun _ => []) (x := fun q : ((Fin N → ℝ) × (Fin N → ℝ)) × (Fin N → E) => q.1.1)
    (Φ := fun (q : ((Fin N → ℝ) × (Fin N → ℝ)) × (Fin N → E)) l => simSpotted G q.1.2 q.2 l) MList.nil
    (measurable_fst.comp measurable_fst) (simSpotted_measurableIn hG)

theorem squares_measurable {rule : Rule N} {start : Finset (Fin N)} (hs : StoppingSchedule rule start) :
    Measurable (fun q : (Fin N → ℝ) × (Fin N → ℝ) => squares q.2 (removals rule start q.1)) :=
  iterate_measurable hs.measurable N [] start (τ := fun _ => []) (x := Prod.fst) (Φ := fun q l => squares q.2 l) MList.nil
    measurable_fst (squares_measurableIn.comp' measurable_snd)

end

section

variable {N : ℕ → Nat} {rule : ∀ k, Rule (N k)} {start : ∀ k, Finset (Fin (N k))} [MeasurableSpace E] {ν : Measure E} [IsProbabilityMeasure ν]

theorem simSpotted_tendsto (hs : ∀ k, StoppingSchedule (rule k) (start k)) (hn : Tendsto (fun k => (start k).card) atTop atTop)
    {G : ℝ → E → ℝ} {M : ℝ} (hM : ∀ v e, |G v e| ≤ M)
    (hG : Measurable (fun p : ℝ × E => G p.1 p.2)) (hcont : ∀ᵐ x ∂volume.restrict (Set.Ioo (0 : ℝ) 1), ContinuousAt (fun x => ∫ e, G x e ∂ν) x) :
    Tendsto (fun k => ∫⁻ q, ‖simSpotted G q.1.2 q.2 (removals (rule k) (start k) q.1.1) - ∫ x in (0 : ℝ)..1, ∫ e, G x e ∂ν‖ₑ
      ∂(((unifPow (N k)).prod (unifPow (N k))).prod (Measure.pi fun _ : Fin (N k) => ν))) atTop (𝓝 0) := by
  set gb : ℝ → ℝ := fun x => ∫ e, G x e ∂ν with hgb
  have hgm : Measurable gb := (hG.stronglyMeasurable.integral_prod_right (ν := ν)).measurable
  have hgM : ∀ v, |gb v| ≤ M := by
    intro v
    refine (norm_integral_le_of_norm_le_const (f := G v) (C := M) (ae_of_all ν fun e => hM v e)).trans (le_of_eq ?_)
    simp
  have hGv : ∀ v, Measurable (G v) := fun v => hG.comp measurable_prodMk_left
  have hlim := simLimit_continuous hs hn hgM hgm hcont
  unfold SimLimit at hlim
  set Z := ∫ x in (0 : ℝ)..1, gb x with hZ
  have hM0 : 0 ≤ M := (abs_nonneg _).trans (hgM 0)
  have hsq : Tendsto (fun k => ∫⁻ q, ENNReal.ofReal (squares q.2 (removals (rule k) (start k) q.1)) ∂((unifPow (N k)).prod (unifPow (N k))))
      atTop (𝓝 0) := by
    simp only [squares]
    exact simWidth_squares hs hn
  rw [ENNReal.tendsto_atTop_zero]
  intro ε hε
  by_cases hεt : ε = ⊤
  · exact ⟨0, fun k _ => by rw [hεt]; exact le_top⟩
  have hε0 : 0 < ε.toReal := ENNReal.toReal_pos hε.ne' hεt
  set η := ε.toReal / 3 with hη
  have hη0 : 0 < η := by positivity
  have hsq' : Tendsto (fun k => ENNReal.ofReal (M ^ 2 / η) * ∫⁻ q, ENNReal.ofReal (squares q.2 (removals (rule k) (start k) q.1)) ∂((unifPow (N k)).prod (unifPow (N k)))) atTop (𝓝 0) := by
    have := ENNReal.Tendsto.const_mul hsq (Or.inr (ENNReal.ofReal_ne_top (r := M ^ 2 / η)))
    simpa using this
  rw [ENNReal.tendsto_atTop_zero] at hlim hsq'
  obtain ⟨K1, hK1⟩ := hlim (ENNReal.ofReal η) (by simpa using hη0)
  obtain ⟨K2, hK2⟩ := hsq' (ENNReal.ofReal η) (by simpa using hη0)
  refine ⟨max K1 K2, fun k hk => ?_⟩
  have h1 := hK1 k ((le_max_left _ _).trans hk)
  have h2 := hK2 k ((le_max_right _ _).trans hk)
  have m0 := ((simSpotted_measurable (hs k) hG).sub_const Z).enorm
  have m1 := ((simSum_measurable (hs k) hgm).sub_const Z).enorm
  have m2 := (squares_measurable (hs k)).ennreal_ofReal
  rw [lintegral_prod _ m0.aemeasurable]
  calc ∫⁻ q, ∫⁻ e, ‖simSpotted G q.2 e (removals (rule k) (start k) q.1) - Z‖ₑ ∂(Measure.pi fun _ => ν) ∂((unifPow (N k)).prod (unifPow (N k)))
      ≤ ∫⁻ q, (ENNReal.ofReal η + (ENNReal.ofReal (M ^ 2 / η) * ENNReal.ofReal (squares q.2 (removals (rule k) (start k) q.1)) + ‖simSum gb q.2 (removals (rule k) (start k) q.1) - Z‖ₑ))
          ∂((unifPow (N k)).prod (unifPow (N k))) := by
        refine lintegral_mono_ae ?_
        filter_upwards [sim_ae hs k] with q ⟨_, hq⟩
        have hle := removals_length_le (hs k) q.1
        have hnd := removals_points (hs k) q.1
        set l := removals (rule k) (start k) q.1 with hl
        set W := simSum gb q.2 l with hW
        have hv := spots_variance (ν := ν) hGv hM hnd hη0 (c := simWidth l q.2) (fun i => simWidth_nonneg hq hle i)
        have hWe : ∑ i ∈ Finset.range l.length, simWidth l q.2 i * ∫ e, G ((l.map (·.volume)).getD i 0) e ∂ν = W := by
          rw [hW, simSum]
        rw [hWe] at hv
        have hsq1 : ∑ i ∈ Finset.range l.length, simWidth l q.2 i ^ 2 = squares q.2 l := by rw [squares]
        rw [hsq1] at hv
        calc ∫⁻ e, ‖simSpotted G q.2 e l - Z‖ₑ ∂(Measure.pi fun _ => ν)
            ≤ ∫⁻ e, (‖simSpotted G q.2 e l - W‖ₑ + ‖W - Z‖ₑ) ∂(Measure.pi fun _ => ν) := by
              refine lintegral_mono fun e => ?_
              rw [show simSpotted G q.2 e l - Z = (simSpotted G q.2 e l - W) + (W - Z) by ring]
              exact enorm_add_le _ _
          _ = (∫⁻ e, ‖simSpotted G q.2 e l - W‖ₑ ∂(Measure.pi fun _ => ν)) + ‖W - Z‖ₑ := by
              rw [lintegral_add_right _ measurable_const, lintegral_const, measure_univ, mul_one]
          _ ≤ _ := by
              rw [← add_assoc]
              gcongr
              simp only [simSpotted]
              exact hv
    _ = ENNReal.ofReal η + (ENNReal.ofReal (M ^ 2 / η) * (∫⁻ q, ENNReal.ofReal (squares q.2 (removals (rule k) (start k) q.1)) ∂((unifPow (N k)).prod (unifPow (N k)))) +
          ∫⁻ q, ‖simSum gb q.2 (removals (rule k) (start k) q.1) - Z‖ₑ ∂((unifPow (N k)).prod (unifPow (N k)))) := by
        rw [lintegral_add_left measurable_const, lintegral_const, measure_univ, mul_one, lintegral_add_right _ m1, lintegral_const_mul _ m2]
    _ ≤ ENNReal.ofReal η + (ENNReal.ofReal η + ENNReal.ofReal η) := by gcongr
    _ = ε := by
        rw [← ENNReal.ofReal_add (by positivity) (by positivity), ← ENNReal.ofReal_add (by positivity) (by positivity), hη,
          ← ENNReal.ofReal_toReal hεt]
        congr 1
        rw [ENNReal.toReal_ofReal hε0.le]
        ring

end

end

end Nestcheck
