import Verif.Props.PosteriorMean

/-! C96: means over the posterior distribution converge. -/

namespace Nestcheck
open Spec MeasureTheory ProbabilityTheory ENNReal Filter Topology
variable {σ E : Type} {N : Nat}

noncomputable section

theorem withVolumes_getElem? : ∀ (ds : List (Fin N × Nat × Finset (Fin N))) (vs : List ℝ) (i : Nat) (h1 : i < ds.length) (h2 : i < vs.length),
    (withVolumes ds vs)[i]? = some ⟨ds[i].1, vs[i], ds[i].2.1, ds[i].2.2⟩
  | [], _, _, h, _ => by simp at h
  | _ :: _, [], _, _, h => by simp at h
  | d :: ds, v :: vs, 0, _, _ => by simp [withVolumes]
  | d :: ds, v :: vs, i + 1, h1, h2 => by
    simpa [withVolumes] using withVolumes_getElem? ds vs i (by simpa using h1) (by simpa using h2)

section

variable [MeasurableSpace E] {ν : Measure E} [IsProbabilityMeasure ν]

theorem spotted_measurable {rule : Rule N} {start : Finset (Fin N)} (hs : StoppingSchedule rule start) {G : ℝ → E → ℝ}
    (hG : Measurable (fun p : ℝ × E => G p.1 p.2)) :
    Measurable (fun q : (Fin N → ℝ) × (Fin N → E) => spotted G q.2 (removals rule start q.1)) := by
  refine iterate_measurable hs.measurable N [] start (τ := fun _ => []) (x := Prod.fst) (Φ := fun q l => spotted G q.2 l) MList.nil
    measurable_fst fun ds => ?_
  have hl : MList ds.length (fun q : ((Fin N → ℝ) × (Fin N → E)) × (Fin ds.length → ℝ) => List.ofFn q.2) := MList.ofFn measurable_snd
  have e1 : ∀ q : ((Fin N → ℝ) × (Fin N → E)) × (Fin ds.length → ℝ), (withVolumes ds (List.ofFn q.2)).map (·.alive) = ds.map (·.2.1) :=
    fun q => (withVolumes_alive ds _ (hl.len q)).1
  have e3 : ∀ q : ((Fin N → ℝ) × (Fin N → E)) × (Fin ds.length → ℝ), (withVolumes ds (List.ofFn q.2)).length = ds.length := fun q => by
    rw [← List.length_map (f := fun s : Removal N => s.alive), e1, List.length_map]
  simp only [spotted, e1, e3]
  refine Finset.measurable_fun_sum _ fun i hi => Measurable.const_mul ?_ _
  have hi' := Finset.mem_range.mp hi
  have e4 : ∀ q : ((Fin N → ℝ) × (Fin N → E)) × (Fin ds.length → ℝ), ((withVolumes ds (List.ofFn q.2))[i]?.elim 0 fun s => G s.volume (q.1.2 s.point)) =
      G (q.2 ⟨i, hi'⟩) (q.1.2 ds[i].1) := fun q => by
    rw [withVolumes_getElem? ds _ i hi' (by simpa using hi')]
    simp
  simp only [e4]
  have hm : Measurable (fun q : ((Fin N → ℝ) × (Fin N → E)) × (Fin ds.length → ℝ) => (q.2 ⟨i, hi'⟩, q.1.2 ds[i].1)) := by fun_prop
  exact hG.comp hm

theorem Spec.IidPoints.lintegral {Ω : Type} [MeasurableSpace Ω] {P : Measure Ω} {draws : Ω → Fin N → ℝ} {spots : Ω → Fin N → E}
    (h : IidPoints P ν draws spots) {f : (Fin N → ℝ) × (Fin N → E) → ℝ≥0∞} (hf : Measurable f) :
    ∫⁻ ω, f (draws ω, spots ω) ∂P = ∫⁻ u, ∫⁻ e, f (u, e) ∂(Measure.pi fun _ => ν) ∂unifPow N := by
  have h1 := lintegral_map' hf.aemeasurable h.aemeasurable
  rw [← h1, h]
  exact lintegral_prod (μ := unifPow N) f hf.aemeasurable

end

section

variable {Ω : ℕ → Type} [∀ k, MeasurableSpace (Ω k)] {P : ∀ k, Measure (Ω k)} {N : ℕ → Nat} {rule : ∀ k, Rule (N k)}
  {start : ∀ k, Finset (Fin (N k))} [MeasurableSpace E] {ν : Measure E} [IsProbabilityMeasure ν]
  {draws : ∀ k, Ω k → Fin (N k) → ℝ} {spots : ∀ k, Ω k → Fin (N k) → E}

theorem spotted_tendsto (hs : ∀ k, StoppingSchedule (rule k) (start k)) (hu : ∀ k, IidPoints (P k) ν (draws k) (spots k))
    (hn : Tendsto (fun k => (start k).card) atTop atTop) {G : ℝ → E → ℝ} {M : ℝ} (hM : ∀ v e, |G v e| ≤ M)
    (hG : Measurable (fun p : ℝ × E => G p.1 p.2)) (hcont : ∀ᵐ x ∂volume.restrict (Set.Ioo (0 : ℝ) 1), ContinuousAt (fun x => ∫ e, G x e ∂ν) x) :
    Tendsto (fun k => ∫⁻ ω, ‖spotted G (spots k ω) (removals (rule k) (start k) (draws k ω)) - ∫ x in (0 : ℝ)..1, ∫ e, G x e ∂ν‖ₑ ∂P k)
      atTop (𝓝 0) := by
  set gb : ℝ → ℝ := fun x => ∫ e, G x e ∂ν with hgb
  have hgm : Measurable gb := (hG.stronglyMeasurable.integral_prod_right (ν := ν)).measurable
  have hgM : ∀ v, |gb v| ≤ M := by
    intro v
    refine (norm_integral_le_of_norm_le_const (f := G v) (C := M) (ae_of_all ν fun e => hM v e)).trans (le_of_eq ?_)
    simp
  have hGv : ∀ v, Measurable (G v) := fun v => hG.comp measurable_prodMk_left
  have hlim := C95_integral hs (fun k => ofFn_iid (N k)) hn hgM hgm hcont
  have hvec : ∀ k (u : Fin (N k) → ℝ), (fun i : Fin (N k) => (List.ofFn u).getD i 0) = u := fun k u => by
    funext i
    simp [List.getD_eq_getElem?_getD]
  simp only [weighted_def, hvec] at hlim
  set Z := ∫ x in (0 : ℝ)..1, gb x with hZ
  have hM0 : 0 ≤ M := (abs_nonneg _).trans (hgM 0)
  rw [ENNReal.tendsto_atTop_zero] at hlim ⊢
  intro ε hε
  by_cases hεt : ε = ⊤
  · exact ⟨0, fun k _ => by rw [hεt]; exact le_top⟩
  have hε0 : 0 < ε.toReal := ENNReal.toReal_pos hε.ne' hεt
  set η := ε.toReal / 4 with hη
  have hη0 : 0 < η := by positivity
  -- the widths of the cells
  obtain ⟨κ, hκ0, hκ⟩ : ∃ κ : ℝ, 0 < κ ∧ M ^ 2 * κ / η ≤ η := by
    refine ⟨η ^ 2 / (M ^ 2 + 1), by positivity, ?_⟩
    rw [div_le_iff₀ hη0, ← pow_two, mul_div_assoc', div_le_iff₀ (by positivity)]
    nlinarith [sq_nonneg η, sq_nonneg M]
  obtain ⟨n, hn1⟩ := exists_nat_gt (max (4 / κ) 2)
  have hn2 : 2 ≤ n := by
    have : (2 : ℝ) < n := lt_of_le_of_lt (le_max_right _ _) hn1
    exact_mod_cast this.le
  have hn3 : 2 / (n : ℝ) ≤ κ / 2 := by
    have h1 : 4 / κ < n := lt_of_le_of_lt (le_max_left _ _) hn1
    have h2 : (0 : ℝ) < n := by exact_mod_cast (by omega : 0 < n)
    rw [div_lt_iff₀ hκ0] at h1
    rw [div_le_iff₀ h2]
    linarith
  obtain ⟨C, hC⟩ := exists_nat_gt (n / (κ / 4))
  obtain ⟨K1, hK1⟩ := hlim (ENNReal.ofReal (2 * η)) (by simpa using hη0)
  obtain ⟨K2, hK2⟩ := (hn.eventually_ge_atTop C).exists_forall_of_atTop
  refine ⟨max K1 K2, fun k hk => ?_⟩
  have h1 := hK1 k ((le_max_left _ _).trans hk)
  have h2 := hK2 k ((le_max_right _ _).trans hk)
  have hstart : n < κ / 4 * ((start k).card + 1) := by
    have h4 : (C : ℝ) ≤ (start k).card := by exact_mod_cast h2
    rw [div_lt_iff₀ (by positivity)] at hC
    nlinarith
  rw [(hu k).lintegral (f := fun q => ‖spotted G q.2 (removals (rule k) (start k) q.1) - Z‖ₑ) ((spotted_measurable (hs k) hG).sub_const Z).enorm]
  have hwm := weighted_removals_measurable (hs k) hgm
  calc ∫⁻ u, ∫⁻ e, ‖spotted G e (removals (rule k) (start k) u) - Z‖ₑ ∂(Measure.pi fun _ => ν) ∂unifPow (N k)
      ≤ ∫⁻ u, (ENNReal.ofReal (2 * η) + ‖weighted gb ((removals (rule k) (start k) u).map (·.alive)) ((removals (rule k) (start k) u).map (·.volume)) - Z‖ₑ)
          ∂unifPow (N k) := by
        refine lintegral_mono fun u => ?_
        set l := removals (rule k) (start k) u with hl
        set W := weighted gb (l.map (·.alive)) (l.map (·.volume)) with hW
        have hv := spotted_variance (ν := ν) hGv hM (removals_points (hs k) u) (removals_ne_nil (hs k) u) hη0 (κ := κ) (fun i hi => by
          have := cell_width (removals_last (hs k) u) hn2 (removals_plenty (hs k) u hstart) (i := i) (by simpa using hi) (by positivity)
          linarith)
        calc ∫⁻ e, ‖spotted G e l - Z‖ₑ ∂(Measure.pi fun _ => ν)
            ≤ ∫⁻ e, (‖spotted G e l - W‖ₑ + ‖W - Z‖ₑ) ∂(Measure.pi fun _ => ν) := by
              refine lintegral_mono fun e => ?_
              rw [show spotted G e l - Z = (spotted G e l - W) + (W - Z) by ring]
              exact enorm_add_le _ _
          _ = (∫⁻ e, ‖spotted G e l - W‖ₑ ∂(Measure.pi fun _ => ν)) + ‖W - Z‖ₑ := by
              rw [lintegral_add_right _ measurable_const, lintegral_const, measure_univ, mul_one]
          _ ≤ ENNReal.ofReal (2 * η) + ‖W - Z‖ₑ := by
              gcongr
              refine hv.trans (ENNReal.ofReal_le_ofReal ?_)
              linarith
    _ = ENNReal.ofReal (2 * η) + ∫⁻ u, ‖weighted gb ((removals (rule k) (start k) u).map (·.alive)) ((removals (rule k) (start k) u).map (·.volume)) - Z‖ₑ
          ∂unifPow (N k) := by
        rw [lintegral_add_left measurable_const, lintegral_const, measure_univ, mul_one]
    _ ≤ ENNReal.ofReal (2 * η) + ENNReal.ofReal (2 * η) := by gcongr
    _ = ε := by
        rw [← ENNReal.ofReal_add (by positivity) (by positivity), ← ENNReal.ofReal_toReal hεt]
        congr 1
        rw [hη]
        ring

end

end

end Nestcheck
