import Verif.Props.SimulatedVolumes
import Verif.Props.PosteriorLimit

/-! C98 and C99: sums with simulated prior volumes converge. -/

namespace Nestcheck
open Spec MeasureTheory ProbabilityTheory ENNReal Filter Topology
variable {σ E : Type} {N : Nat}

noncomputable section

/-- The width of the cell of sample `i`, with simulated volumes. -/
def simWidth (l : List (Removal N)) (s : Fin N → ℝ) (i : Nat) : ℝ := simCut (l.map (·.alive)) s i - simCut (l.map (·.alive)) s (i + 1)

/-- The sum over the samples of the simulated prior volumes, times a function of the volumes which they really enclose. -/
def simSum (g : ℝ → ℝ) (s : Fin N → ℝ) (l : List (Removal N)) : ℝ :=
  ∑ i ∈ Finset.range l.length, simWidth l s i * g ((l.map (·.volume)).getD i 0)

theorem simSum_eq (g : ℝ → ℝ) (s : Fin N → ℝ) (l : List (Removal N)) :
    simSum g s l = simWeighted (fun i => g ((l.map (·.volume)).getD i 0)) (l.map (·.alive)) s := by
  rw [simSum, simWeighted, List.length_map]
  rfl

theorem simSum_add (g h : ℝ → ℝ) (s : Fin N → ℝ) (l : List (Removal N)) : simSum (fun x => g x + h x) s l = simSum g s l + simSum h s l := by
  simp only [simSum, mul_add, Finset.sum_add_distrib]

theorem simSum_const_mul (c : ℝ) (g : ℝ → ℝ) (s : Fin N → ℝ) (l : List (Removal N)) : simSum (fun x => c * g x) s l = c * simSum g s l := by
  simp only [simSum, Finset.mul_sum]
  exact Finset.sum_congr rfl fun i _ => by ring

theorem simWidth_nonneg {s : Fin N → ℝ} (hs : ∀ j, 0 < s j ∧ s j < 1) {l : List (Removal N)} (hl : l.length ≤ N) (i : Nat) : 0 ≤ simWidth l s i :=
  sub_nonneg.mpr (simCut_anti hs (by simpa using hl) i)

theorem simWidth_sum {s : Fin N → ℝ} {l : List (Removal N)} (hne : l ≠ []) : ∑ i ∈ Finset.range l.length, simWidth l s i = 1 := by
  unfold simWidth
  rw [Finset.sum_range_sub', simCut, simCut]
  have : edgesOf (simVolume (l.map (·.alive)) s) (l.map (·.alive)).length l.length = 0 := by
    rw [List.length_map]
    exact edgesOf_end (List.length_pos_of_ne_nil hne).ne'
  rw [this]
  simp [edgesOf]

theorem simSum_mono {s : Fin N → ℝ} (hs : ∀ j, 0 < s j ∧ s j < 1) {l : List (Removal N)} (hl : l.length ≤ N) {g h : ℝ → ℝ}
    (hgh : ∀ r ∈ l, g r.volume ≤ h r.volume) : simSum g s l ≤ simSum h s l := by
  refine Finset.sum_le_sum fun i hi => mul_le_mul_of_nonneg_left ?_ (simWidth_nonneg hs hl i)
  have hi' := Finset.mem_range.mp hi
  simpa [List.getD_eq_getElem?_getD, List.getElem?_eq_getElem hi'] using hgh _ (List.getElem_mem hi')

theorem removals_length_le {rule : Rule N} {start : Finset (Fin N)} (hs : StoppingSchedule rule start) (u : Fin N → ℝ) :
    (removals rule start u).length ≤ N := by
  have := (removals_points hs u).length_le_card
  simpa using this

theorem Descends.volume_mem : ∀ {l : List (Removal N)} {c : ℝ}, Descends c l → ∀ s ∈ l, 0 < s.volume ∧ s.volume < c
  | [], _, _, _, hs => by simp at hs
  | t :: l, c, ⟨h1, h2, _, h4⟩, s, hs => by
    rcases List.mem_cons.mp hs with rfl | hs
    · exact ⟨h1, h2⟩
    · have := Descends.volume_mem h4 s hs
      exact ⟨this.1, this.2.trans h2⟩

theorem Descends.step : ∀ {l : List (Removal N)} {c : ℝ}, Descends c l → ∀ i, i + 1 < l.length →
    (l.map (·.volume)).getD (i + 1) 0 ≤ (l.map (·.volume)).getD i 0
  | [], _, _, _, h => by simp at h
  | [_], _, _, _, h => by simp at h
  | t :: t' :: l, c, ⟨_, _, _, h4⟩, 0, _ => by simpa using h4.2.1.le
  | t :: t' :: l, c, ⟨_, _, _, h4⟩, i + 1, h => by
    have := Descends.step h4 i (by simpa using h)
    simpa using this

theorem simWidth_measurableIn (i : Nat) : MeasurableIn (fun (s : Fin N → ℝ) (l : List (Removal N)) => simWidth l s i) := by
  intro ds
  have e1 : ∀ q : (Fin N → ℝ) × (Fin ds.length → ℝ), (withVolumes ds (List.ofFn q.2)).map (·.alive) = ds.map (·.2.1) := fun q =>
    (withVolumes_alive ds _ (by simp)).1
  simp only [simWidth, e1]
  exact ((simCut_measurable i).sub (simCut_measurable (i + 1))).comp measurable_fst

theorem MeasurableIn.comp' {α β γ : Type} [MeasurableSpace α] [MeasurableSpace β] [MeasurableSpace γ] {Φ : α → List (Removal N) → β}
    (h : MeasurableIn Φ) {f : γ → α} (hf : Measurable f) : MeasurableIn (fun c l => Φ (f c) l) := fun ds =>
  (h ds).comp (hf.prodMap measurable_id)

theorem simSum_measurableIn {g : ℝ → ℝ} (hg : Measurable g) : MeasurableIn (fun (s : Fin N → ℝ) (l : List (Removal N)) => simSum g s l) := by
  intro ds
  have hl : MList ds.length (fun q : (Fin N → ℝ) × (Fin ds.length → ℝ) => List.ofFn q.2) := MList.ofFn measurable_snd
  have e2 : ∀ q : (Fin N → ℝ) × (Fin ds.length → ℝ), (withVolumes ds (List.ofFn q.2)).map (·.volume) = List.ofFn q.2 := fun q =>
    (withVolumes_alive ds _ (hl.len q)).2
  have e3 : ∀ q : (Fin N → ℝ) × (Fin ds.length → ℝ), (withVolumes ds (List.ofFn q.2)).length = ds.length := fun q => by
    rw [← List.length_map (f := fun s : Removal N => s.volume), e2, List.length_ofFn]
  simp only [simSum, e2, e3]
  exact Finset.measurable_fun_sum _ fun i _ => (simWidth_measurableIn i ds).mul (hg.comp (hl.meas i))

theorem simSum_measurable {rule : Rule N} {start : Finset (Fin N)} (hs : StoppingSchedule rule start) {g : ℝ → ℝ} (hg : Measurable g) :
    Measurable (fun q : (Fin N → ℝ) × (Fin N → ℝ) => simSum g q.2 (removals rule start q.1)) :=
  iterate_measurable hs.measurable N [] start (τ := fun _ => []) (x := Prod.fst) (Φ := fun q l => simSum g q.2 l) MList.nil
    measurable_fst ((simSum_measurableIn hg).comp' measurable_snd)

/-! ### Limits -/

section

variable {N : ℕ → Nat} {rule : ∀ k, Rule (N k)} {start : ∀ k, Finset (Fin (N k))}

/-- The sums with simulated prior volumes converge in mean to the integral. -/
def SimLimit (rule : ∀ k, Rule (N k)) (start : ∀ k, Finset (Fin (N k))) (g : ℝ → ℝ) : Prop :=
  Tendsto (fun k => ∫⁻ q, ‖simSum g q.2 (removals (rule k) (start k) q.1) - ∫ x in (0 : ℝ)..1, g x‖ₑ ∂((unifPow (N k)).prod (unifPow (N k))))
    atTop (𝓝 0)

theorem simLimit_antitone (hs : ∀ k, StoppingSchedule (rule k) (start k)) (hn : Tendsto (fun k => (start k).card) atTop atTop)
    {g : ℝ → ℝ} {M : ℝ} (hM : ∀ v, |g v| ≤ M) (hg : Antitone g) : SimLimit rule start g := by
  have hM0 : 0 ≤ M := (abs_nonneg _).trans (hM 0)
  have hlim := C95_integral hs (fun k => ofFn_iid (N k)) hn hM hg.measurable (antitone_continuous_ae hg)
  have hvec : ∀ k (u : Fin (N k) → ℝ), (fun i : Fin (N k) => (List.ofFn u).getD i 0) = u := fun k u => by
    funext i
    simp [List.getD_eq_getElem?_getD]
  simp only [weighted_def, hvec] at hlim
  set Z := ∫ x in (0 : ℝ)..1, g x with hZ
  unfold SimLimit
  rw [ENNReal.tendsto_atTop_zero] at hlim ⊢
  intro ε hε
  by_cases hεt : ε = ⊤
  · exact ⟨0, fun k _ => by rw [hεt]; exact le_top⟩
  have hε0 : 0 < ε.toReal := ENNReal.toReal_pos hε.ne' hεt
  obtain ⟨τ, hτ0, hτ⟩ : ∃ τ : ℝ, 0 < τ ∧ τ * (2 * M) ≤ ε.toReal / 2 := by
    refine ⟨ε.toReal / 2 / (2 * M + 1), by positivity, ?_⟩
    rw [div_mul_eq_mul_div, div_le_iff₀ (by positivity)]
    nlinarith
  obtain ⟨C, hC⟩ := simCut_uniform hτ0
  obtain ⟨K1, hK1⟩ := hlim (ENNReal.ofReal (ε.toReal / 2)) (by simpa using hε0)
  obtain ⟨K2, hK2⟩ := (hn.eventually_ge_atTop C).exists_forall_of_atTop
  refine ⟨max K1 K2, fun k hk => ?_⟩
  have h1 := hK1 k ((le_max_left _ _).trans hk)
  have h2 := hK2 k ((le_max_right _ _).trans hk)
  rw [lintegral_prod _ ((simSum_measurable (hs k) hg.measurable).sub_const Z).enorm.aemeasurable]
  have hwm := weighted_removals_measurable (hs k) hg.measurable
  calc ∫⁻ u, ∫⁻ s, ‖simSum g s (removals (rule k) (start k) u) - Z‖ₑ ∂unifPow (N k) ∂unifPow (N k)
      ≤ ∫⁻ u, (ENNReal.ofReal (ε.toReal / 2) + ‖weighted g ((removals (rule k) (start k) u).map (·.alive))
          ((removals (rule k) (start k) u).map (·.volume)) - Z‖ₑ) ∂unifPow (N k) := by
        refine lintegral_mono_ae ?_
        filter_upwards [removals_descend (hs k)] with u hd
        have hne := removals_ne_nil (hs k) u
        have hle := removals_length_le (hs k) u
        obtain ⟨c1, c2⟩ := iterate_chain (rule := rule k) (N k) (hist := []) (A := start k) (x := u)
        change ((removals (rule k) (start k) u).map (·.alive)).IsChain _ at c1
        change ∀ m, ((removals (rule k) (start k) u).map (·.alive)).head? = some m → _ at c2
        have c3 : ∀ m ∈ (removals (rule k) (start k) u).map (·.alive), 0 < m := by
          intro m hm
          obtain ⟨s, hs', rfl⟩ := List.mem_map.mp hm
          exact iterate_alive (N k) s hs'
        set l := removals (rule k) (start k) u with hl
        have hhead : (l.map (·.alive)).head? = some (start k).card := by
          cases h : (l.map (·.alive)).head? with
          | none => exact absurd (by simpa using h) hne
          | some m => exact congrArg some (c2 m h)
        have hcl := hC (ns := l.map (·.alive)) (N := N k) (by simpa using hle) hhead h2 c1 c3
        have hdev := simWeighted_close hcl (by simpa using hne) (h := fun i => g ((l.map (·.volume)).getD i 0))
          (fun i hi => hg (hd.step i (by simpa using hi)))
        rw [← weighted_eq (by simpa using hne) (by simp)] at hdev
        set W := weighted g (l.map (·.alive)) (l.map (·.volume)) with hW
        calc ∫⁻ s, ‖simSum g s l - Z‖ₑ ∂unifPow (N k)
            ≤ ∫⁻ s, (‖simWeighted (fun i => g ((l.map (·.volume)).getD i 0)) (l.map (·.alive)) s - W‖ₑ + ‖W - Z‖ₑ) ∂unifPow (N k) := by
              refine lintegral_mono fun s => ?_
              rw [simSum_eq]
              refine le_trans (le_of_eq ?_) (enorm_add_le _ _)
              congr 1
              ring
          _ = (∫⁻ s, ‖simWeighted (fun i => g ((l.map (·.volume)).getD i 0)) (l.map (·.alive)) s - W‖ₑ ∂unifPow (N k)) + ‖W - Z‖ₑ := by
              rw [lintegral_add_right _ measurable_const, lintegral_const, measure_univ, mul_one]
          _ ≤ ENNReal.ofReal (ε.toReal / 2) + ‖W - Z‖ₑ := by
              gcongr
              refine hdev.trans ?_
              rw [← ENNReal.ofReal_mul hτ0.le]
              refine ENNReal.ofReal_le_ofReal (le_trans (mul_le_mul_of_nonneg_left ?_ hτ0.le) hτ)
              have a1 := abs_le.mp (hM ((l.map (·.volume)).getD ((l.map (·.alive)).length - 1) 0))
              have a2 := abs_le.mp (hM ((l.map (·.volume)).getD 0 0))
              linarith [a1.2, a2.1]
    _ = ENNReal.ofReal (ε.toReal / 2) + ∫⁻ u, ‖weighted g ((removals (rule k) (start k) u).map (·.alive))
          ((removals (rule k) (start k) u).map (·.volume)) - Z‖ₑ ∂unifPow (N k) := by
        rw [lintegral_add_left measurable_const, lintegral_const, measure_univ, mul_one]
    _ ≤ ENNReal.ofReal (ε.toReal / 2) + ENNReal.ofReal (ε.toReal / 2) := by gcongr
    _ = ε := by
        rw [← ENNReal.ofReal_add (by positivity) (by positivity), add_halves, ENNReal.ofReal_toReal hεt]

theorem SimLimit.add (hs : ∀ k, StoppingSchedule (rule k) (start k)) {g h : ℝ → ℝ} (hg : SimLimit rule start g) (hh : SimLimit rule start h)
    (mg : Measurable g) (ig : IntervalIntegrable g volume 0 1) (ih : IntervalIntegrable h volume 0 1) :
    SimLimit rule start (fun x => g x + h x) := by
  have h1 := Tendsto.add hg hh
  rw [add_zero] at h1
  refine tendsto_of_tendsto_of_tendsto_of_le_of_le tendsto_const_nhds h1 (fun k => zero_le) fun k => ?_
  refine le_trans (lintegral_mono fun q => ?_) (le_of_eq (lintegral_add_left ((simSum_measurable (hs k) mg).sub_const _).enorm _))
  rw [simSum_add, intervalIntegral.integral_add ig ih]
  refine le_trans (le_of_eq ?_) (enorm_add_le _ _)
  congr 1
  ring

theorem SimLimit.const_mul (hs : ∀ k, StoppingSchedule (rule k) (start k)) {g : ℝ → ℝ} (c : ℝ) (hg : SimLimit rule start g) (mg : Measurable g) :
    SimLimit rule start (fun x => c * g x) := by
  have h1 := ENNReal.Tendsto.const_mul (a := ‖c‖ₑ) hg (Or.inr enorm_ne_top)
  rw [mul_zero] at h1
  refine h1.congr fun k => ?_
  rw [← lintegral_const_mul _ ((simSum_measurable (hs k) mg).sub_const _).enorm]
  refine lintegral_congr fun q => ?_
  rw [simSum_const_mul, intervalIntegral.integral_const_mul, ← mul_sub, enorm_mul]

end

end

end Nestcheck
