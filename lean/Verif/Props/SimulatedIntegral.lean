import Verif.Props.SimulatedLimit

/-! C98 and C99: sums with simulated prior volumes converge to integrals. -/

namespace Nestcheck
open Spec MeasureTheory ProbabilityTheory ENNReal Filter Topology
variable {σ E : Type} {N : Nat}

noncomputable section

/-! ### Functions which are constant on `K` intervals -/

/-- The indicator of the numbers up to `a`. -/
def upTo (a x : ℝ) : ℝ := if x ≤ a then 1 else 0

theorem upTo_antitone (a : ℝ) : Antitone (upTo a) := by
  intro x y hxy
  unfold upTo
  split_ifs with h1 h2
  · exact le_rfl
  · exact absurd (hxy.trans h1) h2
  · exact zero_le_one
  · exact le_rfl

theorem upTo_bound (a x : ℝ) : |upTo a x| ≤ 1 := by
  unfold upTo
  split_ifs <;> simp

/-- The indicator of the interval number `k`, out of `K`. -/
def block (K k : Nat) (x : ℝ) : ℝ := upTo (((k + 1 : Nat) : ℝ) / K) x + (-1) * upTo ((k : ℝ) / K) x

theorem block_measurable (K k : Nat) : Measurable (block K k) :=
  (upTo_antitone _).measurable.add ((upTo_antitone _).measurable.const_mul _)

theorem block_eq {K : Nat} (hK : 0 < K) (k : Nat) (x : ℝ) :
    block K k x = if x ∈ Set.Ioc ((k : ℝ) / K) (((k + 1 : Nat) : ℝ) / K) then 1 else 0 := by
  have h : (k : ℝ) / K ≤ ((k + 1 : Nat) : ℝ) / K := by
    have : (0 : ℝ) < K := by exact_mod_cast hK
    gcongr
    omega
  unfold block upTo
  simp only [Set.mem_Ioc]
  by_cases h1 : x ≤ (k : ℝ) / K
  · rw [if_pos h1, if_pos (h1.trans h), if_neg (fun h2 => absurd h1 (not_le.mpr h2.1))]
    ring
  · rw [if_neg h1]
    by_cases h2 : x ≤ ((k + 1 : Nat) : ℝ) / K
    · rw [if_pos h2, if_pos ⟨not_le.mp h1, h2⟩]
      ring
    · rw [if_neg h2, if_neg (fun h3 => h2 h3.2)]
      ring

/-- The function which is `c k` on the interval number `k`. -/
def steps (K : Nat) (c : Nat → ℝ) (x : ℝ) : ℝ := ∑ k ∈ Finset.range K, c k * block K k x

theorem steps_measurable (K : Nat) (c : Nat → ℝ) : Measurable (steps K c) :=
  Finset.measurable_fun_sum _ fun k _ => (block_measurable K k).const_mul _

theorem steps_eq {K : Nat} (c : Nat → ℝ) {k : Nat} (hk : k < K) {x : ℝ} (hx : x ∈ Set.Ioc ((k : ℝ) / K) (((k + 1 : Nat) : ℝ) / K)) :
    steps K c x = c k := by
  have hK : 0 < K := by omega
  have hK' : (0 : ℝ) < K := by exact_mod_cast hK
  rw [steps, Finset.sum_eq_single k]
  · rw [block_eq hK, if_pos hx, mul_one]
  · intro j _ hj
    rw [block_eq hK, if_neg, mul_zero]
    intro hx'
    rcases lt_or_gt_of_ne hj with h | h
    · have : ((j + 1 : Nat) : ℝ) / K ≤ (k : ℝ) / K := by
        gcongr
        omega
      linarith [hx.1, hx'.2]
    · have : ((k + 1 : Nat) : ℝ) / K ≤ (j : ℝ) / K := by
        gcongr
        omega
      linarith [hx'.1, hx.2]
  · intro h
    exact absurd (Finset.mem_range.mpr hk) h

theorem exists_block {K : Nat} (hK : 0 < K) {x : ℝ} (hx : x ∈ Set.Ioc (0 : ℝ) 1) :
    ∃ k < K, x ∈ Set.Ioc ((k : ℝ) / K) (((k + 1 : Nat) : ℝ) / K) := by
  have hK' : (0 : ℝ) < K := by exact_mod_cast hK
  have h1 : 0 < ⌈(K : ℝ) * x⌉₊ := Nat.ceil_pos.mpr (mul_pos hK' hx.1)
  refine ⟨⌈(K : ℝ) * x⌉₊ - 1, ?_, ?_, ?_⟩
  · have : ⌈(K : ℝ) * x⌉₊ ≤ K := Nat.ceil_le.mpr (by nlinarith [hx.2])
    omega
  · rw [div_lt_iff₀ hK', mul_comm x]
    have := Nat.ceil_lt_add_one (mul_pos hK' hx.1).le
    have h2 : ((⌈(K : ℝ) * x⌉₊ - 1 : Nat) : ℝ) = ⌈(K : ℝ) * x⌉₊ - 1 := by rw [Nat.cast_sub h1, Nat.cast_one]
    linarith
  · rw [le_div_iff₀ hK', mul_comm, Nat.sub_add_cancel h1]
    exact Nat.le_ceil _

section

variable {N : ℕ → Nat} {rule : ∀ k, Rule (N k)} {start : ∀ k, Finset (Fin (N k))}

theorem simLimit_block (hs : ∀ k, StoppingSchedule (rule k) (start k)) (hn : Tendsto (fun k => (start k).card) atTop atTop) (K k : Nat) :
    SimLimit rule start (block K k) ∧ IntervalIntegrable (block K k) volume 0 1 := by
  have hi : ∀ a, IntervalIntegrable (upTo a) volume 0 1 := fun a => (upTo_antitone a).intervalIntegrable
  have h1 := simLimit_antitone hs hn (upTo_bound (((k + 1 : Nat) : ℝ) / K)) (upTo_antitone _)
  have h2 := (simLimit_antitone hs hn (upTo_bound ((k : ℝ) / K)) (upTo_antitone _)).const_mul hs (-1) (upTo_antitone _).measurable
  exact ⟨h1.add hs h2 (upTo_antitone _).measurable (hi _) ((hi _).const_mul _), (hi _).add ((hi _).const_mul _)⟩

theorem simLimit_steps (hs : ∀ k, StoppingSchedule (rule k) (start k)) (hn : Tendsto (fun k => (start k).card) atTop atTop) (K : Nat) (c : Nat → ℝ) :
    SimLimit rule start (steps K c) ∧ IntervalIntegrable (steps K c) volume 0 1 := by
  have key : ∀ m : Nat, SimLimit rule start (fun x => ∑ k ∈ Finset.range m, c k * block K k x) ∧
      IntervalIntegrable (fun x => ∑ k ∈ Finset.range m, c k * block K k x) volume 0 1 := by
    intro m
    induction m with
    | zero =>
      simp only [Finset.range_zero, Finset.sum_empty]
      refine ⟨?_, intervalIntegrable_const⟩
      have h1 : SimLimit rule start (fun x => 0 * block K 0 x) := (simLimit_block hs hn K 0).1.const_mul hs 0 (block_measurable K 0)
      simpa using h1
    | succ m ih =>
      simp only [Finset.sum_range_succ]
      have h1 := simLimit_block hs hn K m
      exact ⟨ih.1.add hs (h1.1.const_mul hs (c m) (block_measurable K m)) (Finset.measurable_fun_sum _ fun k _ => (block_measurable K k).const_mul _)
        ih.2 (h1.2.const_mul _), ih.2.add (h1.2.const_mul _)⟩
  exact key K

end

/-! ### Approximation by such functions -/

/-- The value at the end of the interval number `k`. -/
def sampled (H : ℝ → ℝ) (K k : Nat) : ℝ := H (((k + 1 : Nat) : ℝ) / K)

/-- The largest difference from it in the interval. -/
def gap (H : ℝ → ℝ) (K k : Nat) : ℝ := sSup ((fun y => |H y - sampled H K k|) '' Set.Ioc ((k : ℝ) / K) (((k + 1 : Nat) : ℝ) / K))

section

variable {H : ℝ → ℝ} {M : ℝ} (hM : ∀ v, |H v| ≤ M)
include hM

theorem gap_bound (a b : ℝ) : |H a - H b| ≤ 2 * M := by
  calc |H a - H b| ≤ |H a| + |H b| := abs_sub _ _
    _ ≤ 2 * M := by linarith [hM a, hM b]

theorem le_gap {K k : Nat} {y : ℝ} (hy : y ∈ Set.Ioc ((k : ℝ) / K) (((k + 1 : Nat) : ℝ) / K)) : |H y - sampled H K k| ≤ gap H K k := by
  refine le_csSup ⟨2 * M, ?_⟩ ⟨y, hy, rfl⟩
  rintro _ ⟨z, _, rfl⟩
  exact gap_bound hM _ _

theorem gap_nonneg {K k : Nat} : 0 ≤ gap H K k := by
  refine Real.sSup_nonneg ?_
  rintro _ ⟨z, _, rfl⟩
  exact abs_nonneg _

theorem gap_le {K k : Nat} : gap H K k ≤ 2 * M := by
  have hM0 : 0 ≤ M := (abs_nonneg _).trans (hM 0)
  refine Real.sSup_le ?_ (by linarith)
  rintro _ ⟨z, _, rfl⟩
  exact gap_bound hM _ _

theorem steps_close {K : Nat} (hK : 0 < K) {x : ℝ} (hx : x ∈ Set.Ioc (0 : ℝ) 1) : |H x - steps K (sampled H K) x| ≤ steps K (gap H K) x := by
  obtain ⟨k, hk, hxk⟩ := exists_block hK hx
  rw [steps_eq _ hk hxk, steps_eq _ hk hxk]
  exact le_gap hM hxk

theorem gap_tendsto {x : ℝ} (hx : x ∈ Set.Ioc (0 : ℝ) 1) (hc : ContinuousAt H x) : Tendsto (fun K : Nat => steps (K + 1) (gap H (K + 1)) x) atTop (𝓝 0) := by
  rw [Metric.tendsto_atTop]
  intro ε hε
  obtain ⟨δ, hδ, hcl⟩ := Metric.continuousAt_iff.mp hc (ε / 3) (by positivity)
  obtain ⟨K0, hK0⟩ := exists_nat_gt (1 / δ)
  refine ⟨K0, fun K hK => ?_⟩
  obtain ⟨k, hk, hxk⟩ := exists_block (Nat.succ_pos K) hx
  have hKp : (0 : ℝ) < ((K + 1 : Nat) : ℝ) := by positivity
  have hw : 1 / ((K + 1 : Nat) : ℝ) < δ := by
    rw [div_lt_iff₀ hKp]
    rw [div_lt_iff₀ hδ] at hK0
    have : (K0 : ℝ) ≤ ((K + 1 : Nat) : ℝ) := by exact_mod_cast (by omega : K0 ≤ K + 1)
    nlinarith
  have hcell : ((k + 1 : Nat) : ℝ) / ((K + 1 : Nat) : ℝ) = (k : ℝ) / ((K + 1 : Nat) : ℝ) + 1 / ((K + 1 : Nat) : ℝ) := by
    push_cast
    ring
  have hnear : ∀ y ∈ Set.Ioc ((k : ℝ) / ((K + 1 : Nat) : ℝ)) (((k + 1 : Nat) : ℝ) / ((K + 1 : Nat) : ℝ)), |H y - H x| < ε / 3 := by
    intro y hy
    have := hcl (x := y) (by
      rw [Real.dist_eq, abs_lt]
      constructor <;> linarith [hy.1, hy.2, hxk.1, hxk.2])
    rwa [Real.dist_eq] at this
  have hend : |sampled H (K + 1) k - H x| < ε / 3 := hnear _ ⟨by linarith [hcell, show (0 : ℝ) < 1 / ((K + 1 : Nat) : ℝ) by positivity], le_rfl⟩
  rw [steps_eq _ hk hxk, Real.dist_eq, sub_zero, abs_of_nonneg (gap_nonneg hM)]
  refine lt_of_le_of_lt (Real.sSup_le ?_ (by positivity : (0 : ℝ) ≤ 2 * (ε / 3))) (by linarith)
  rintro _ ⟨y, hy, rfl⟩
  have h1 := hnear y hy
  dsimp only
  calc |H y - sampled H (K + 1) k| ≤ |H y - H x| + |H x - sampled H (K + 1) k| := abs_sub_le _ _ _
    _ ≤ 2 * (ε / 3) := by rw [abs_sub_comm (H x)]; linarith

theorem gap_integral_tendsto (hcont : ∀ᵐ x ∂volume.restrict (Set.Ioo (0 : ℝ) 1), ContinuousAt H x) :
    Tendsto (fun K : Nat => ∫ x in (0 : ℝ)..1, steps (K + 1) (gap H (K + 1)) x) atTop (𝓝 0) := by
  have hb : ∀ K : Nat, ∀ x ∈ Set.Ioc (0 : ℝ) 1, |steps (K + 1) (gap H (K + 1)) x| ≤ 2 * M := by
    intro K x hx
    obtain ⟨k, hk, hxk⟩ := exists_block (Nat.succ_pos K) hx
    rw [steps_eq _ hk hxk, abs_of_nonneg (gap_nonneg hM)]
    exact gap_le hM
  have h := intervalIntegral.tendsto_integral_filter_of_dominated_convergence (μ := volume) (a := 0) (b := 1) (l := atTop)
    (F := fun (K : Nat) x => steps (K + 1) (gap H (K + 1)) x) (f := fun _ => 0) (fun _ => 2 * M)
    (Eventually.of_forall fun K => (steps_measurable _ _).aestronglyMeasurable)
    (Eventually.of_forall fun K => ae_of_all _ fun x hx => by
      rw [Set.uIoc_of_le zero_le_one] at hx
      exact hb K x hx) intervalIntegrable_const ?_
  · simpa using h
  · rw [ae_restrict_iff' measurableSet_Ioo] at hcont
    have h1 : ∀ᵐ x : ℝ, x ≠ 1 := by simp [ae_iff, measure_singleton]
    filter_upwards [hcont, h1] with x h2 h3 hx
    rw [Set.uIoc_of_le zero_le_one] at hx
    exact gap_tendsto hM hx (h2 ⟨hx.1, lt_of_le_of_ne hx.2 h3⟩)

end

section

variable {N : ℕ → Nat} {rule : ∀ k, Rule (N k)} {start : ∀ k, Finset (Fin (N k))}

theorem sim_ae (hs : ∀ k, StoppingSchedule (rule k) (start k)) (k : Nat) :
    ∀ᵐ q ∂((unifPow (N k)).prod (unifPow (N k))), Descends 1 (removals (rule k) (start k) q.1) ∧ ∀ j, 0 < q.2 j ∧ q.2 j < 1 := by
  have h1 : ∀ᵐ q ∂((unifPow (N k)).prod (unifPow (N k))), Descends 1 (removals (rule k) (start k) q.1) :=
    Measure.quasiMeasurePreserving_fst.ae (removals_descend (hs k))
  have h2 : ∀ᵐ q ∂((unifPow (N k)).prod (unifPow (N k))), ∀ j, 0 < q.2 j ∧ q.2 j < 1 :=
    Measure.quasiMeasurePreserving_snd.ae (pi_pos (N k))
  filter_upwards [h1, h2] with q a b
  exact ⟨a, b⟩

/-- For every bounded function which is continuous almost everywhere, the sums over the samples with simulated prior volumes converge in
mean to the integral. -/
theorem simLimit_continuous (hs : ∀ k, StoppingSchedule (rule k) (start k)) (hn : Tendsto (fun k => (start k).card) atTop atTop)
    {H : ℝ → ℝ} {M : ℝ} (hM : ∀ v, |H v| ≤ M) (hH : Measurable H) (hcont : ∀ᵐ x ∂volume.restrict (Set.Ioo (0 : ℝ) 1), ContinuousAt H x) :
    SimLimit rule start H := by
  have hiH : IntervalIntegrable H volume 0 1 := (intervalIntegrable_const (c := M)).mono_fun hH.aestronglyMeasurable
    (Eventually.of_forall fun x => by
      simp only [Real.norm_eq_abs]
      exact (hM x).trans (le_abs_self M))
  unfold SimLimit
  rw [ENNReal.tendsto_atTop_zero]
  intro ε hε
  by_cases hεt : ε = ⊤
  · exact ⟨0, fun k _ => by rw [hεt]; exact le_top⟩
  have hε0 : 0 < ε.toReal := ENNReal.toReal_pos hε.ne' hεt
  obtain ⟨K, hK⟩ := ((gap_integral_tendsto hM hcont).eventually_lt_const (show (0 : ℝ) < ε.toReal / 6 by positivity)).exists
  set c := steps (K + 1) (sampled H (K + 1)) with hc
  set o := steps (K + 1) (gap H (K + 1)) with ho
  obtain ⟨lc, ic⟩ := simLimit_steps hs hn (K + 1) (sampled H (K + 1))
  obtain ⟨lo, io⟩ := simLimit_steps hs hn (K + 1) (gap H (K + 1))
  rw [← hc] at lc ic
  rw [← ho] at lo io
  have mc : Measurable c := steps_measurable _ _
  have mo : Measurable o := steps_measurable _ _
  have hcl : ∀ x ∈ Set.Ioc (0 : ℝ) 1, |H x - c x| ≤ o x := fun x hx => steps_close hM (Nat.succ_pos K) hx
  have hint : |(∫ x in (0 : ℝ)..1, c x) - ∫ x in (0 : ℝ)..1, H x| ≤ ∫ x in (0 : ℝ)..1, o x := by
    rw [← intervalIntegral.integral_sub ic hiH]
    refine (intervalIntegral.abs_integral_le_integral_abs zero_le_one).trans ?_
    refine intervalIntegral.integral_mono_on_of_le_Ioo zero_le_one (ic.sub hiH).abs io fun x hx => ?_
    rw [abs_sub_comm]
    exact hcl x ⟨hx.1, hx.2.le⟩
  unfold SimLimit at lc lo
  rw [ENNReal.tendsto_atTop_zero] at lc lo
  obtain ⟨K1, hK1⟩ := lc (ENNReal.ofReal (ε.toReal / 3)) (by simpa using hε0)
  obtain ⟨K2, hK2⟩ := lo (ENNReal.ofReal (ε.toReal / 3)) (by simpa using hε0)
  refine ⟨max K1 K2, fun k hk => ?_⟩
  have h1 := hK1 k ((le_max_left _ _).trans hk)
  have h2 := hK2 k ((le_max_right _ _).trans hk)
  have m1 := ((simSum_measurable (hs k) mc).sub_const (∫ x in (0 : ℝ)..1, c x)).enorm
  have m2 := ((simSum_measurable (hs k) mo).sub_const (∫ x in (0 : ℝ)..1, o x)).enorm
  calc ∫⁻ q, ‖simSum H q.2 (removals (rule k) (start k) q.1) - ∫ x in (0 : ℝ)..1, H x‖ₑ ∂((unifPow (N k)).prod (unifPow (N k)))
      ≤ ∫⁻ q, (ENNReal.ofReal (ε.toReal / 3) + (‖simSum c q.2 (removals (rule k) (start k) q.1) - ∫ x in (0 : ℝ)..1, c x‖ₑ +
          ‖simSum o q.2 (removals (rule k) (start k) q.1) - ∫ x in (0 : ℝ)..1, o x‖ₑ)) ∂((unifPow (N k)).prod (unifPow (N k))) := by
        refine lintegral_mono_ae ?_
        filter_upwards [sim_ae hs k] with q ⟨hd, hq⟩
        have hle := removals_length_le (hs k) q.1
        set l := removals (rule k) (start k) q.1 with hl
        have hvol : ∀ r ∈ l, |H r.volume - c r.volume| ≤ o r.volume := fun r hr =>
          hcl _ ⟨(hd.volume_mem r hr).1, (hd.volume_mem r hr).2.le⟩
        have b1 := simSum_mono hq hle (g := H) (h := fun x => c x + o x) (fun r hr => by linarith [(abs_le.mp (hvol r hr)).2])
        have b2 := simSum_mono hq hle (g := c) (h := fun x => H x + o x) (fun r hr => by linarith [(abs_le.mp (hvol r hr)).1])
        rw [simSum_add] at b1 b2
        rw [Real.enorm_eq_ofReal_abs, Real.enorm_eq_ofReal_abs, Real.enorm_eq_ofReal_abs, ← ENNReal.ofReal_add (abs_nonneg _) (abs_nonneg _),
          ← ENNReal.ofReal_add (by positivity) (by positivity)]
        refine ENNReal.ofReal_le_ofReal ?_
        have b3 := abs_le.mp hint
        have b4 := le_abs_self (simSum c q.2 l - ∫ x in (0 : ℝ)..1, c x)
        have b5 := neg_abs_le (simSum c q.2 l - ∫ x in (0 : ℝ)..1, c x)
        have b6 := le_abs_self (simSum o q.2 l - ∫ x in (0 : ℝ)..1, o x)
        rw [abs_le]
        constructor <;> linarith [b3.1, b3.2]
    _ = ENNReal.ofReal (ε.toReal / 3) + ((∫⁻ q, ‖simSum c q.2 (removals (rule k) (start k) q.1) - ∫ x in (0 : ℝ)..1, c x‖ₑ
          ∂((unifPow (N k)).prod (unifPow (N k)))) + ∫⁻ q, ‖simSum o q.2 (removals (rule k) (start k) q.1) - ∫ x in (0 : ℝ)..1, o x‖ₑ
          ∂((unifPow (N k)).prod (unifPow (N k)))) := by
        rw [lintegral_add_left measurable_const, lintegral_const, measure_univ, mul_one, lintegral_add_left m1]
    _ ≤ ENNReal.ofReal (ε.toReal / 3) + (ENNReal.ofReal (ε.toReal / 3) + ENNReal.ofReal (ε.toReal / 3)) := by gcongr
    _ = ε := by
        rw [← ENNReal.ofReal_add (by positivity) (by positivity), ← ENNReal.ofReal_add (by positivity) (by positivity),
          ← ENNReal.ofReal_toReal hεt]
        congr 1
        rw [ENNReal.toReal_ofReal hε0.le]
        ring

theorem block_integral {K k : Nat} (hk : k < K) : ∫ x in (0 : ℝ)..1, block K k x = 1 / K := by
  have hK : 0 < K := by omega
  have hK' : (0 : ℝ) < K := by exact_mod_cast hK
  have hsub : Set.Ioc ((k : ℝ) / K) (((k + 1 : Nat) : ℝ) / K) ⊆ Set.Ioc 0 1 := by
    refine Set.Ioc_subset_Ioc (by positivity) ?_
    rw [div_le_one hK']
    exact_mod_cast hk
  have he : block K k = (Set.Ioc ((k : ℝ) / K) (((k + 1 : Nat) : ℝ) / K)).indicator (fun _ => (1 : ℝ)) := by
    funext x
    rw [block_eq hK, Set.indicator_apply]
  rw [intervalIntegral.integral_of_le zero_le_one, he, setIntegral_indicator measurableSet_Ioc, Set.inter_eq_right.mpr hsub, setIntegral_const]
  simp only [smul_eq_mul, mul_one]
  rw [Measure.real, Real.volume_Ioc, ENNReal.toReal_ofReal]
  · push_cast
    ring
  · push_cast
    rw [← sub_div, add_sub_cancel_left]
    positivity

/-- No sample keeps a share of the prior volume: the sum of the squares of the simulated prior volumes converges to zero in mean. -/
theorem simWidth_squares (hs : ∀ k, StoppingSchedule (rule k) (start k)) (hn : Tendsto (fun k => (start k).card) atTop atTop) :
    Tendsto (fun k => ∫⁻ q, ENNReal.ofReal (∑ i ∈ Finset.range (removals (rule k) (start k) q.1).length,
      simWidth (removals (rule k) (start k) q.1) q.2 i ^ 2) ∂((unifPow (N k)).prod (unifPow (N k)))) atTop (𝓝 0) := by
  rw [ENNReal.tendsto_atTop_zero]
  intro ε hε
  by_cases hεt : ε = ⊤
  · exact ⟨0, fun k _ => by rw [hεt]; exact le_top⟩
  have hε0 : 0 < ε.toReal := ENNReal.toReal_pos hε.ne' hεt
  obtain ⟨K, hK⟩ := exists_nat_gt (2 / ε.toReal)
  have hK' : (0 : ℝ) < K := lt_trans (by positivity) hK
  have hK0 : 0 < K := by exact_mod_cast hK'
  have hlim : Tendsto (fun k => ∑ j ∈ Finset.range K, ∫⁻ q, ‖simSum (block K j) q.2 (removals (rule k) (start k) q.1) -
      ∫ x in (0 : ℝ)..1, block K j x‖ₑ ∂((unifPow (N k)).prod (unifPow (N k)))) atTop (𝓝 0) := by
    have := tendsto_finset_sum (Finset.range K) fun j _ => (simLimit_block hs hn K j).1
    simpa using this
  rw [ENNReal.tendsto_atTop_zero] at hlim
  obtain ⟨K1, hK1⟩ := hlim (ENNReal.ofReal (ε.toReal / 2)) (by simpa using hε0)
  refine ⟨K1, fun k hk => ?_⟩
  have hm : ∀ j, Measurable (fun q : (Fin (N k) → ℝ) × (Fin (N k) → ℝ) => ‖simSum (block K j) q.2 (removals (rule k) (start k) q.1) -
      ∫ x in (0 : ℝ)..1, block K j x‖ₑ) := fun j => ((simSum_measurable (hs k) (block_measurable K j)).sub_const _).enorm
  calc ∫⁻ q, ENNReal.ofReal (∑ i ∈ Finset.range (removals (rule k) (start k) q.1).length,
        simWidth (removals (rule k) (start k) q.1) q.2 i ^ 2) ∂((unifPow (N k)).prod (unifPow (N k)))
      ≤ ∫⁻ q, (ENNReal.ofReal (1 / K) + ∑ j ∈ Finset.range K, ‖simSum (block K j) q.2 (removals (rule k) (start k) q.1) -
          ∫ x in (0 : ℝ)..1, block K j x‖ₑ) ∂((unifPow (N k)).prod (unifPow (N k))) := by
        refine lintegral_mono_ae ?_
        filter_upwards [sim_ae hs k] with q ⟨hd, hq⟩
        have hle := removals_length_le (hs k) q.1
        have hne := removals_ne_nil (hs k) q.1
        set l := removals (rule k) (start k) q.1 with hl
        simp only [Real.enorm_eq_ofReal_abs]
        rw [← ENNReal.ofReal_sum_of_nonneg fun _ _ => abs_nonneg _, ← ENNReal.ofReal_add (by positivity) (Finset.sum_nonneg fun _ _ => abs_nonneg _)]
        refine ENNReal.ofReal_le_ofReal ?_
        set B := 1 / (K : ℝ) + ∑ j ∈ Finset.range K, |simSum (block K j) q.2 l - ∫ x in (0 : ℝ)..1, block K j x| with hB
        have hw : ∀ i ∈ Finset.range l.length, simWidth l q.2 i ≤ B := by
          intro i hi
          have hi' := Finset.mem_range.mp hi
          have hv := hd.volume_mem l[i] (List.getElem_mem hi')
          obtain ⟨j, hj, hmem⟩ := exists_block hK0 ⟨hv.1, hv.2.le⟩
          have h1 : simWidth l q.2 i ≤ simSum (block K j) q.2 l := by
            have h2 : simWidth l q.2 i = simWidth l q.2 i * block K j ((l.map (·.volume)).getD i 0) := by
              have : (l.map (·.volume)).getD i 0 = l[i].volume := by simp [List.getD_eq_getElem?_getD, List.getElem?_eq_getElem hi']
              rw [this, block_eq hK0, if_pos hmem, mul_one]
            rw [h2]
            refine Finset.single_le_sum (f := fun i => simWidth l q.2 i * block K j ((l.map (·.volume)).getD i 0)) (fun m _ => ?_) hi
            refine mul_nonneg (simWidth_nonneg hq hle m) ?_
            rw [block_eq hK0]
            split_ifs <;> simp
          have h3 := Finset.single_le_sum (f := fun j => |simSum (block K j) q.2 l - ∫ x in (0 : ℝ)..1, block K j x|)
            (fun j _ => abs_nonneg _) (Finset.mem_range.mpr hj)
          have h4 := le_abs_self (simSum (block K j) q.2 l - ∫ x in (0 : ℝ)..1, block K j x)
          rw [block_integral hj] at h4
          simp only [block_integral hj] at h3
          linarith
        calc ∑ i ∈ Finset.range l.length, simWidth l q.2 i ^ 2 ≤ ∑ i ∈ Finset.range l.length, B * simWidth l q.2 i := by
              refine Finset.sum_le_sum fun i hi => ?_
              rw [pow_two]
              exact mul_le_mul_of_nonneg_right (hw i hi) (simWidth_nonneg hq hle i)
          _ = B := by rw [← Finset.mul_sum, simWidth_sum hne, mul_one]
    _ = ENNReal.ofReal (1 / K) + ∑ j ∈ Finset.range K, ∫⁻ q, ‖simSum (block K j) q.2 (removals (rule k) (start k) q.1) -
          ∫ x in (0 : ℝ)..1, block K j x‖ₑ ∂((unifPow (N k)).prod (unifPow (N k))) := by
        rw [lintegral_add_left measurable_const, lintegral_const, measure_univ, mul_one, lintegral_finsetSum _ fun j _ => hm j]
    _ ≤ ENNReal.ofReal (ε.toReal / 2) + ENNReal.ofReal (ε.toReal / 2) := by
        refine add_le_add (ENNReal.ofReal_le_ofReal ?_) (hK1 k hk)
        rw [div_le_iff₀ hK']
        rw [div_lt_iff₀ hε0] at hK
        linarith
    _ = ε := by rw [← ENNReal.ofReal_add (by positivity) (by positivity), add_halves, ENNReal.ofReal_toReal hεt]

end

end

end Nestcheck
