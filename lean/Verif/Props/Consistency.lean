import Mathlib.MeasureTheory.Integral.DominatedConvergence
import Mathlib.MeasureTheory.Integral.IntervalIntegral.Basic
import Mathlib.Topology.Order.LeftRightLim
import Mathlib.Order.Filter.AtTopBot.Defs
import Verif.Spec.Volumes
import Verif.Spec.Weights
import Verif.Props.Volumes
import Verif.Props.Weights
import Verif.Props.SideBySide

/-! C94: the estimates of evidence converge as the number of live points grows. -/

namespace Nestcheck

open Spec MeasureTheory ProbabilityTheory Filter Topology

noncomputable section

variable {σ Ω : Type} {ns : List Nat}

/-! ### The expected volumes and the cells of the samples -/

/-- The volume expected to be left after `i` removals, if removing one of `n` points shrinks it by exp(-1/n). -/
def expectedVolume (ns : List Nat) (i : Nat) : ℝ := Real.exp (-((ns.take i).map (fun n : Nat => 1 / (n : ℝ))).sum)

theorem expectedVolume_zero : expectedVolume ns 0 = 1 := by simp [expectedVolume]

theorem expectedVolume_pos (i : Nat) : 0 < expectedVolume ns i := Real.exp_pos _

theorem expectedVolume_succ {i n : Nat} (h : ns[i]? = some n) :
    expectedVolume ns (i + 1) = expectedVolume ns i * Real.exp (-(1 / (n : ℝ))) := by
  unfold expectedVolume
  rw [← Real.exp_add, List.take_add_one, h]
  simp
  ring

/-- The number of live points is large as long as the expected volume is not small. -/
def Plenty (ε : ℝ) (n : Nat) (ns : List Nat) : Prop := ∀ j m : Nat, ns[j]? = some m → ε ≤ expectedVolume ns j → n ≤ m

theorem start_le {ns : List Nat} {n0 : Nat} (h0 : ns.head? = some n0) (hch : ns.IsChain (fun a b => a ≤ b + 1)) (hpos : ∀ m ∈ ns, 0 < m) :
    ∀ (j p : Nat), ns[j]? = some p → ((n0 : ℝ) + 1) * expectedVolume ns j ≤ p + 1
  | 0, p, h => by
    rw [List.head?_eq_getElem?, h] at h0
    rw [Option.some.inj h0, expectedVolume_zero, mul_one]
  | j + 1, p, h => by
    obtain ⟨hj, e⟩ := List.getElem?_eq_some_iff.mp h
    have ih := start_le h0 hch hpos j ns[j] (List.getElem?_eq_getElem (by omega))
    have hq : 0 < ns[j] := hpos _ (List.getElem_mem _)
    have hstep : ns[j] ≤ p + 1 := by
      rw [← e]
      exact List.isChain_iff_getElem.mp hch j hj
    rw [expectedVolume_succ (List.getElem?_eq_getElem (by omega : j < ns.length)), ← mul_assoc]
    have hq' : (0 : ℝ) < ns[j] := by exact_mod_cast hq
    have h1 := Real.add_one_le_exp (1 / (ns[j] : ℝ))
    have h2 : ((ns[j] : ℝ) + 1) * Real.exp (-(1 / (ns[j] : ℝ))) ≤ ns[j] := by
      rw [Real.exp_neg, ← div_eq_mul_inv, div_le_iff₀ (Real.exp_pos _)]
      have : (ns[j] : ℝ) * (1 / (ns[j] : ℝ) + 1) = ns[j] + 1 := by field_simp; ring
      rw [← this]
      exact mul_le_mul_of_nonneg_left h1 hq'.le
    calc ((n0 : ℝ) + 1) * expectedVolume ns j * Real.exp (-(1 / (ns[j] : ℝ)))
        ≤ ((ns[j] : ℝ) + 1) * Real.exp (-(1 / (ns[j] : ℝ))) := mul_le_mul_of_nonneg_right ih (Real.exp_pos _).le
      _ ≤ ns[j] := h2
      _ ≤ p + 1 := by exact_mod_cast hstep

/-- Whatever a sampler does: as long as the expected volume is not small, the number of live points is not much smaller than it was in
the beginning. -/
theorem plenty_of_start {ns : List Nat} {n0 : Nat} (h0 : ns.head? = some n0) (hch : ns.IsChain (fun a b => a ≤ b + 1))
    (hpos : ∀ m ∈ ns, 0 < m) {ε : ℝ} {n : Nat} (hn : n < ε * (n0 + 1)) : Plenty ε n ns := by
  intro j p hp he
  have h1 := start_le h0 hch hpos j p hp
  have h2 : ε * ((n0 : ℝ) + 1) ≤ p + 1 := by
    refine le_trans ?_ h1
    rw [mul_comm]
    exact mul_le_mul_of_nonneg_left he (by positivity)
  have h3 : (n : ℝ) < p + 1 := lt_of_lt_of_le hn h2
  have : n < p + 1 := by exact_mod_cast h3
  omega

/-- The numbers of live points of a sequence of samplers tend to infinity, as long as the expected volume is not small. -/
def LivePointsGrow (ns : ℕ → List Nat) : Prop :=
  ∀ ε > (0 : ℝ), ∀ N : Nat, ∀ᶠ k in atTop, ∀ j n : Nat, (ns k)[j]? = some n → ε ≤ expectedVolume (ns k) j → N ≤ n

theorem liveCounts_chain : ∀ (adds : List Nat) (n : Nat), (liveCounts n adds).IsChain (fun a b => a ≤ b + 1)
  | [], _ => by simp [liveCounts]
  | k :: ks, n => by
    rw [liveCounts]
    refine List.isChain_cons.mpr ⟨fun m hm => ?_, liveCounts_chain ks _⟩
    cases ks with
    | nil => simp [liveCounts] at hm
    | cons k' ks => simp [liveCounts] at hm; omega

theorem schedules_grow {n : ℕ → Nat} {adds : ℕ → List Nat} (hs : ∀ k, VolumeSchedule (n k) (adds k)) (hn : Tendsto n atTop atTop) :
    LivePointsGrow (fun k => liveCounts (n k) (adds k)) := by
  intro ε hε N
  obtain ⟨C, hC⟩ := exists_nat_gt (N / ε)
  filter_upwards [hn.eventually_ge_atTop C] with k hk
  refine plenty_of_start (n0 := n k) ?_ (liveCounts_chain _ _) (hs k).alive ?_
  · cases h : adds k with
    | nil =>
      have h1 := (hs k).finish
      have h2 := (hs k).start
      simp [h] at h1
      omega
    | cons a as => simp [liveCounts]
  · have h4 : (C : ℝ) ≤ n k := by exact_mod_cast hk
    rw [div_lt_iff₀ hε] at hC
    nlinarith

theorem expectedVolume_anti {i j : Nat} (h : i ≤ j) : expectedVolume ns j ≤ expectedVolume ns i := by
  refine Real.exp_le_exp.mpr (neg_le_neg ?_)
  have : ns.take j = ns.take i ++ (ns.drop i).take (j - i) := by
    rw [← List.take_add]
    congr 1
    omega
  rw [this, List.map_append, List.sum_append]
  have : 0 ≤ (((ns.drop i).take (j - i)).map (fun n : Nat => 1 / (n : ℝ))).sum :=
    List.sum_nonneg (by
      intro x hx
      obtain ⟨n, _, rfl⟩ := List.mem_map.mp hx
      positivity)
  linarith

/-- The edges of the cells. -/
def cut (ns : List Nat) (i : Nat) : ℝ :=
  if i = 0 then 1 else if i < ns.length then (expectedVolume ns i + expectedVolume ns (i + 1)) / 2 else 0

theorem cut_le (i : Nat) : cut ns i ≤ expectedVolume ns i := by
  unfold cut
  split_ifs with h1 h2
  · rw [h1, expectedVolume_zero]
  · linarith [expectedVolume_anti (ns := ns) (Nat.le_succ i)]
  · exact (expectedVolume_pos i).le

theorem le_cut {i : Nat} (hi : i < ns.length) : expectedVolume ns (i + 1) ≤ cut ns i := by
  unfold cut
  split_ifs with h1
  · rw [h1]
    exact (expectedVolume_anti (Nat.zero_le 1)).trans expectedVolume_zero.le
  · linarith [expectedVolume_anti (ns := ns) (Nat.le_succ i)]

theorem cut_succ_le (i : Nat) : cut ns (i + 1) ≤ cut ns i := by
  by_cases h : i < ns.length
  · exact (cut_le _).trans (le_cut h)
  · simp only [cut]
    rw [if_neg (by omega), if_neg (by omega)]
    split_ifs
    · exact zero_le_one
    · exact le_rfl

theorem cut_antitone : Antitone (cut ns) := antitone_nat_of_succ_le cut_succ_le

theorem cut_end (h : ns ≠ []) : cut ns ns.length = 0 := by
  simp [cut, h]

theorem expected_getD (i : Nat) (hi : i < ns.length) :
    ((positions (expectedSteps (ns.map (fun m : Nat => (m : Int))))).map Real.exp).getD i 0 = expectedVolume ns (i + 1) := by
  rw [List.getD_eq_getElem?_getD, List.getElem?_map, positions, List.getElem?_map, List.getElem?_range (by simpa [expectedSteps] using hi)]
  simp only [Option.map_some, Option.getD_some, expectedVolume, expectedSteps]
  congr 1
  rw [List.map_map, ← List.map_take]
  induction ns.take (i + 1) with
  | nil => simp
  | cons a l ih =>
    simp only [List.map_cons, List.sum_cons, ih, Function.comp, Int.cast_natCast]
    ring

theorem priorVolumes_eq (hne : ns ≠ []) (us : List ℝ) :
    priorVolumes false us (ns.map (fun m : Nat => (m : Int))) = (List.range ns.length).map (fun i => cut ns i - cut ns (i + 1)) := by
  set X := (positions (expectedSteps (ns.map (fun m : Nat => (m : Int))))).map Real.exp with hX
  have hl : X.length = ns.length := by simp [hX, positions, expectedSteps]
  have hg : ∀ i < ns.length, X[i]? = some (expectedVolume ns (i + 1)) := fun i hi => by
    have := expected_getD i hi
    rw [← hX, List.getD_eq_getElem?_getD, List.getElem?_eq_getElem (hl ▸ hi)] at this
    rw [List.getElem?_eq_getElem (hl ▸ hi)]
    exact congrArg some this
  have hpos : 0 < ns.length := List.length_pos_of_ne_nil hne
  have he : edges X = (List.range (ns.length + 1)).map (cut ns) := by
    apply List.ext_getElem?
    intro i
    unfold edges
    rcases i with _ | i
    · simp [cut]
    · rw [List.getElem?_cons_succ]
      have hzl : (List.zipWith (fun a b : ℝ => (a + b) / 2) X X.tail).length = ns.length - 1 := by simp [hl]
      rcases lt_trichotomy (i + 1) ns.length with h | h | h
      · rw [List.getElem?_append_left (by omega), List.getElem?_map, List.getElem?_range (by omega), List.getElem?_zipWith,
          List.getElem?_tail, hg i (by omega), hg (i + 1) h]
        simp [cut, h]
      · rw [List.getElem?_append_right (by omega), List.getElem?_map, List.getElem?_range (by omega), hzl]
        simp [cut, ← h]
      · rw [List.getElem?_append_right (by omega), List.getElem?_eq_none (by simp [hl]; omega), List.getElem?_eq_none (by simp; omega)]
  unfold priorVolumes
  simp only [Bool.false_eq_true, if_false]
  rw [← hX, shells, he]
  apply List.ext_getElem?
  intro i
  rw [List.getElem?_zipWith, List.getElem?_tail]
  by_cases h : i < ns.length
  · simp [h, (by omega : i < ns.length + 1)]
  · simp [h]

theorem cell_close {N : Nat} {x : ℝ} {i : Nat} (hend : ns.getLast? = some 1) (h2 : 2 ≤ N) (hx : 0 < x)
    (hN : ∀ j n : Nat, ns[j]? = some n → x / 2 ≤ expectedVolume ns j → N ≤ n) (hi : i < ns.length)
    (hc : x ∈ Set.Ioc (cut ns (i + 1)) (cut ns i)) :
    |Real.log (expectedVolume ns (i + 1)) - Real.log x| ≤ 1 / N ∧
      ((ns.take (i + 1)).map (fun n : Nat => 1 / (n : ℝ) ^ 2)).sum ≤ 1 / N * (1 / N - Real.log x) := by
  have hN0 : (0 : ℝ) < N := by exact_mod_cast (by omega : 0 < N)
  have hxi : x ≤ expectedVolume ns i := hc.2.trans (cut_le i)
  have hni : N ≤ ns[i] := hN i _ (List.getElem?_eq_getElem hi) (by linarith)
  have hsucc := expectedVolume_succ (List.getElem?_eq_getElem hi)
  have hinv : ∀ {n : Nat}, N ≤ n → 1 / (n : ℝ) ≤ 1 / N := fun {n} h => one_div_le_one_div_of_le hN0 (by exact_mod_cast h)
  have hlog : Real.log (expectedVolume ns (i + 1)) = Real.log (expectedVolume ns i) - 1 / (ns[i] : ℝ) := by
    rw [hsucc, Real.log_mul (expectedVolume_pos i).ne' (Real.exp_pos _).ne', Real.log_exp]
    ring
  have hlow : Real.log x - 1 / N ≤ Real.log (expectedVolume ns (i + 1)) := by
    rw [hlog]
    linarith [hinv hni, Real.log_le_log hx hxi]
  have hi1 : i + 1 < ns.length := by
    by_contra hge
    have : i = ns.length - 1 := by omega
    rw [List.getLast?_eq_getElem?, ← this, List.getElem?_eq_getElem hi] at hend
    have := Option.some.inj hend
    omega
  have hhalf : x / 2 ≤ expectedVolume ns (i + 1) := by
    rw [hsucc]
    have h3 : 1 / 2 ≤ Real.exp (-(1 / (ns[i] : ℝ))) := by
      have h4 := Real.add_one_le_exp (-(1 / (ns[i] : ℝ)))
      have h5 : 1 / (ns[i] : ℝ) ≤ 1 / 2 := one_div_le_one_div_of_le two_pos (by exact_mod_cast h2.trans hni)
      linarith
    have := mul_le_mul hxi h3 (by norm_num) (expectedVolume_pos i).le
    linarith
  have hni1 : N ≤ ns[i + 1] := hN (i + 1) _ (List.getElem?_eq_getElem hi1) hhalf
  have hsucc1 := expectedVolume_succ (List.getElem?_eq_getElem hi1)
  have hlt : expectedVolume ns (i + 1 + 1) < x := lt_of_le_of_lt (le_cut hi1) hc.1
  have hhigh : Real.log (expectedVolume ns (i + 1)) ≤ Real.log x + 1 / N := by
    have h6 := Real.log_le_log (expectedVolume_pos _) hlt.le
    rw [hsucc1, Real.log_mul (expectedVolume_pos _).ne' (Real.exp_pos _).ne', Real.log_exp] at h6
    linarith [hinv hni1]
  refine ⟨by rw [abs_le]; constructor <;> linarith, ?_⟩
  have hall : ∀ n ∈ ns.take (i + 1), N ≤ n := by
    intro n hn
    obtain ⟨j, hj, rfl⟩ := List.getElem_of_mem hn
    have hj' : j < i + 1 := by
      rw [List.length_take] at hj
      omega
    rw [List.getElem_take]
    exact hN j _ (List.getElem?_eq_getElem (by omega)) (by linarith [expectedVolume_anti (ns := ns) (by omega : j ≤ i)])
  calc ((ns.take (i + 1)).map (fun n : Nat => 1 / (n : ℝ) ^ 2)).sum
      ≤ ((ns.take (i + 1)).map (fun n : Nat => 1 / N * (1 / (n : ℝ)))).sum := by
        refine List.sum_le_sum fun n hn => ?_
        have h7 := hinv (hall n hn)
        have : 1 / (n : ℝ) ^ 2 = 1 / n * (1 / n) := by rw [sq, one_div_mul_one_div]
        rw [this]
        exact mul_le_mul_of_nonneg_right h7 (by positivity)
    _ = 1 / N * (-Real.log (expectedVolume ns (i + 1))) := by
        rw [List.sum_map_mul_left, expectedVolume, Real.log_exp, neg_neg]
    _ ≤ 1 / N * (1 / N - Real.log x) := by
        refine mul_le_mul_of_nonneg_left ?_ (by positivity)
        linarith

/-! ### Volumes whose logarithms have a small variance -/

theorem close_to_point {g : ℝ → ℝ} {M : ℝ} (hM : ∀ v, |g v| ≤ M) {x : ℝ} (hx : 0 < x) (hg : ContinuousAt g x) {η : ℝ}
    (hη : 0 < η) : ∃ N₀ : Nat, ∀ N : Nat, N₀ ≤ N → ∀ (μ : Measure ℝ) [IsProbabilityMeasure μ], (∀ᵐ v ∂μ, 0 < v) →
      MemLp Real.log 2 μ → |∫ v, Real.log v ∂μ - Real.log x| ≤ 1 / N → variance Real.log μ ≤ 1 / N * (1 / N - Real.log x) →
      ∫⁻ v, ‖g v - g x‖ₑ ∂μ ≤ ENNReal.ofReal η := by
  have hM0 : 0 ≤ M := (abs_nonneg _).trans (hM 0)
  -- continuity as a function of the logarithm
  have hc : ContinuousAt (fun t => g (Real.exp t)) (Real.log x) := by
    refine ContinuousAt.comp (f := Real.exp) ?_ Real.continuous_exp.continuousAt
    rw [Real.exp_log hx]
    exact hg
  obtain ⟨δ, hδ, hcl⟩ := Metric.continuousAt_iff.mp hc (η / 2) (by positivity)
  have hlim : Tendsto (fun N : Nat => 2 * M * ((1 / N * (1 / N - Real.log x)) / (δ / 2) ^ 2)) atTop (𝓝 0) := by
    have h1 : Tendsto (fun N : Nat => 1 / (N : ℝ)) atTop (𝓝 0) := tendsto_one_div_atTop_nhds_zero_nat
    have h2 := (((h1.mul (h1.sub_const (Real.log x))).div_const ((δ / 2) ^ 2)).const_mul (2 * M))
    simpa using h2
  have h1 : ∀ᶠ N : Nat in atTop, 1 / (N : ℝ) < δ / 2 :=
    tendsto_one_div_atTop_nhds_zero_nat.eventually_lt_const (by positivity)
  have h2 := hlim.eventually_lt_const (u := η / 2) (by positivity)
  obtain ⟨N₀, hN₀⟩ := eventually_atTop.mp (h1.and h2)
  refine ⟨N₀, fun N hN μ _ hpos hmem hmean hvar => ?_⟩
  obtain ⟨k1, k2⟩ := hN₀ N hN
  set S : Set ℝ := {v | δ / 2 ≤ |Real.log v - ∫ v, Real.log v ∂μ|} with hS
  have hSm : MeasurableSet S := measurableSet_le measurable_const
    ((continuous_abs.measurable).comp (Real.measurable_log.sub_const _))
  have hle : ∀ᵐ v ∂μ, ‖g v - g x‖ₑ ≤ ENNReal.ofReal (η / 2) + S.indicator (fun _ => ENNReal.ofReal (2 * M)) v := by
    filter_upwards [hpos] with v hv
    by_cases hvS : v ∈ S
    · rw [Set.indicator_of_mem hvS, Real.enorm_eq_ofReal_abs]
      refine le_trans (ENNReal.ofReal_le_ofReal ?_) le_add_self
      calc |g v - g x| ≤ |g v| + |g x| := abs_sub _ _
        _ ≤ 2 * M := by linarith [hM v, hM x]
    · rw [Set.indicator_of_notMem hvS, add_zero, Real.enorm_eq_ofReal_abs]
      refine ENNReal.ofReal_le_ofReal ?_
      have h3 : |Real.log v - ∫ v, Real.log v ∂μ| < δ / 2 := not_le.mp hvS
      have h4 : dist (Real.log v) (Real.log x) < δ := by
        rw [Real.dist_eq]
        calc |Real.log v - Real.log x| ≤ |Real.log v - ∫ v, Real.log v ∂μ| + |∫ v, Real.log v ∂μ - Real.log x| := abs_sub_le _ _ _
          _ < δ := by linarith
      have h5 := hcl h4
      rw [Real.dist_eq, Real.exp_log hv, Real.exp_log hx] at h5
      exact h5.le
  refine (lintegral_mono_ae hle).trans ?_
  rw [lintegral_add_left measurable_const, lintegral_const, measure_univ, mul_one, lintegral_indicator hSm, lintegral_const,
    Measure.restrict_apply MeasurableSet.univ, Set.univ_inter]
  have hch := meas_ge_le_variance_div_sq hmem (show (0 : ℝ) < δ / 2 by positivity)
  calc ENNReal.ofReal (η / 2) + ENNReal.ofReal (2 * M) * μ S
      ≤ ENNReal.ofReal (η / 2) + ENNReal.ofReal (2 * M) * ENNReal.ofReal (variance Real.log μ / (δ / 2) ^ 2) := by
        gcongr
    _ = ENNReal.ofReal (η / 2) + ENNReal.ofReal (2 * M * (variance Real.log μ / (δ / 2) ^ 2)) := by
        rw [ENNReal.ofReal_mul (p := 2 * M) (by positivity)]
    _ ≤ ENNReal.ofReal (η / 2) + ENNReal.ofReal (η / 2) := by
        gcongr
        refine le_trans ?_ k2.le
        gcongr
    _ = ENNReal.ofReal η := by rw [← ENNReal.ofReal_add (by positivity) (by positivity), add_halves]

/-! ### The error of the integral -/

theorem weighted_error {g : ℝ → ℝ} {M : ℝ} (hM : ∀ v, |g v| ≤ M) (hg : Measurable g) (hne : ns ≠ []) (v : Nat → ℝ) :
    ‖∑ i ∈ Finset.range ns.length, (cut ns i - cut ns (i + 1)) * g (v i) - ∫ x in (0 : ℝ)..1, g x‖ₑ ≤
      ∑ i ∈ Finset.range ns.length, ∫⁻ x in Set.Ioc (cut ns (i + 1)) (cut ns i), ‖g (v i) - g x‖ₑ := by
  have hint : ∀ a b : ℝ, IntervalIntegrable g volume a b := fun a b =>
    (intervalIntegrable_const (c := M)).mono_fun hg.aestronglyMeasurable (Eventually.of_forall fun x => by
      simp only [Real.norm_eq_abs]
      exact (hM x).trans (le_abs_self M))
  have hsum := intervalIntegral.sum_integral_adjacent_intervals (f := g) (μ := volume) (a := cut ns) (n := ns.length)
    (fun k _ => hint _ _)
  rw [cut_end hne] at hsum
  have h0 : cut ns 0 = 1 := by simp [cut]
  rw [h0] at hsum
  rw [intervalIntegral.integral_symm, ← hsum, sub_neg_eq_add, ← Finset.sum_add_distrib]
  refine (enorm_sum_le _ _).trans (Finset.sum_le_sum fun i hi => ?_)
  have hle := cut_succ_le (ns := ns) i
  have he : (cut ns i - cut ns (i + 1)) * g (v i) + ∫ x in cut ns i..cut ns (i + 1), g x =
      ∫ x in cut ns (i + 1)..cut ns i, (g (v i) - g x) := by
    rw [intervalIntegral.integral_sub intervalIntegrable_const (hint _ _), intervalIntegral.integral_const,
      intervalIntegral.integral_symm (cut ns (i + 1)), smul_eq_mul]
    ring
  rw [he, intervalIntegral.integral_of_le hle]
  exact enorm_integral_le_lintegral_enorm _

/-- The volumes of the samples of a sequence of runs: those of run `k` have the laws `law k i`. -/
structure VolumeLaws (ns : ℕ → List Nat) (law : ℕ → ℕ → Measure ℝ) : Prop where
  nonempty : ∀ k, ns k ≠ []
  last : ∀ k, (ns k).getLast? = some 1
  prob : ∀ k i, i < (ns k).length → IsProbabilityMeasure (law k i)
  pos : ∀ k i, i < (ns k).length → ∀ᵐ v ∂law k i, 0 < v
  memLp : ∀ k i, i < (ns k).length → MemLp Real.log 2 (law k i)
  mean : ∀ k i, i < (ns k).length → ∫ v, Real.log v ∂law k i = Real.log (expectedVolume (ns k) (i + 1))
  var : ∀ k i, i < (ns k).length → variance Real.log (law k i) = (((ns k).take (i + 1)).map (fun n : Nat => 1 / (n : ℝ) ^ 2)).sum

theorem error_tendsto {ns : ℕ → List Nat} {law : ℕ → ℕ → Measure ℝ} (hl : VolumeLaws ns law) (hgrow : LivePointsGrow ns)
    {g : ℝ → ℝ} {M : ℝ} (hM : ∀ v, |g v| ≤ M) (hg : Measurable g) (hcont : ∀ᵐ x ∂volume.restrict (Set.Ioo (0 : ℝ) 1), ContinuousAt g x) :
    Tendsto (fun k => ∑ i ∈ Finset.range (ns k).length,
      ∫⁻ v, (∫⁻ x in Set.Ioc (cut (ns k) (i + 1)) (cut (ns k) i), ‖g v - g x‖ₑ) ∂law k i) atTop (𝓝 0) := by
  have hM0 : 0 ≤ M := (abs_nonneg _).trans (hM 0)
  have hjoint : Measurable (fun p : ℝ × ℝ => ‖g p.1 - g p.2‖ₑ) :=
    ((hg.comp measurable_fst).sub (hg.comp measurable_snd)).enorm
  set Φ : ℕ → ℝ → ENNReal := fun k x => ∑ i ∈ Finset.range (ns k).length,
    (Set.Ioc (cut (ns k) (i + 1)) (cut (ns k) i)).indicator (fun x => ∫⁻ v, ‖g v - g x‖ₑ ∂law k i) x with hΦ
  have hmeas : ∀ k i, i < (ns k).length → Measurable (fun x => ∫⁻ v, ‖g v - g x‖ₑ ∂law k i) := fun k i hi => by
    have := hl.prob k i hi
    exact hjoint.lintegral_prod_left'
  have hΦm : ∀ k, Measurable (Φ k) := fun k =>
    Finset.measurable_fun_sum _ fun i hi => (hmeas k i (Finset.mem_range.mp hi)).indicator measurableSet_Ioc
  have hcell : ∀ k x, ∀ i < (ns k).length, x ∈ Set.Ioc (cut (ns k) (i + 1)) (cut (ns k) i) → Φ k x = ∫⁻ v, ‖g v - g x‖ₑ ∂law k i := by
    intro k x i hi hx
    rw [hΦ]
    dsimp only
    rw [Finset.sum_eq_single i]
    · exact Set.indicator_of_mem hx _
    · intro j hj hji
      refine Set.indicator_of_notMem (fun hx' => ?_) _
      rcases lt_or_gt_of_ne hji with h | h
      · exact absurd hx'.1 (not_lt.mpr (hx.2.trans (cut_antitone h)))
      · exact absurd hx.1 (not_lt.mpr (hx'.2.trans (cut_antitone h)))
    · intro h
      exact absurd (Finset.mem_range.mpr hi) h
  have hout : ∀ k x, (∀ i < (ns k).length, x ∉ Set.Ioc (cut (ns k) (i + 1)) (cut (ns k) i)) → Φ k x = 0 := by
    intro k x h
    rw [hΦ]
    exact Finset.sum_eq_zero fun i hi => Set.indicator_of_notMem (h i (Finset.mem_range.mp hi)) _
  have hsub : ∀ k i, i < (ns k).length → Set.Ioc (cut (ns k) (i + 1)) (cut (ns k) i) ⊆ Set.Ioc 0 1 := by
    intro k i hi
    refine Set.Ioc_subset_Ioc ?_ ?_
    · rw [← cut_end (hl.nonempty k)]
      exact cut_antitone (by omega)
    · have : cut (ns k) 0 = 1 := by simp [cut]
      rw [← this]
      exact cut_antitone (Nat.zero_le i)
  -- the sum is an integral over the volume
  have hswap : ∀ k, ∑ i ∈ Finset.range (ns k).length,
      ∫⁻ v, (∫⁻ x in Set.Ioc (cut (ns k) (i + 1)) (cut (ns k) i), ‖g v - g x‖ₑ) ∂law k i = ∫⁻ x in Set.Ioo (0 : ℝ) 1, Φ k x := by
    intro k
    rw [restrict_Ioo_eq_restrict_Ioc, hΦ]
    dsimp only
    rw [lintegral_finsetSum _ fun i hi => (hmeas k i (Finset.mem_range.mp hi)).indicator measurableSet_Ioc]
    refine Finset.sum_congr rfl fun i hi => ?_
    have := hl.prob k i (Finset.mem_range.mp hi)
    rw [lintegral_indicator measurableSet_Ioc, Measure.restrict_restrict measurableSet_Ioc,
      Set.inter_eq_left.mpr (hsub k i (Finset.mem_range.mp hi))]
    exact lintegral_lintegral_swap (f := fun v x => ‖g v - g x‖ₑ) hjoint.aemeasurable
  simp only [hswap]
  have hbound : ∀ k x, Φ k x ≤ ENNReal.ofReal (2 * M) := by
    intro k x
    by_cases h : ∃ i < (ns k).length, x ∈ Set.Ioc (cut (ns k) (i + 1)) (cut (ns k) i)
    · obtain ⟨i, hi, hx⟩ := h
      have := hl.prob k i hi
      rw [hcell k x i hi hx]
      calc ∫⁻ v, ‖g v - g x‖ₑ ∂law k i ≤ ∫⁻ _, ENNReal.ofReal (2 * M) ∂law k i := by
            refine lintegral_mono fun v => ?_
            rw [Real.enorm_eq_ofReal_abs]
            refine ENNReal.ofReal_le_ofReal ?_
            calc |g v - g x| ≤ |g v| + |g x| := abs_sub _ _
              _ ≤ 2 * M := by linarith [hM v, hM x]
        _ = ENNReal.ofReal (2 * M) := by rw [lintegral_const, measure_univ, mul_one]
    · push Not at h
      rw [hout k x h]
      exact zero_le
  have hlim := tendsto_lintegral_of_dominated_convergence (μ := volume.restrict (Set.Ioo (0 : ℝ) 1)) (F := Φ) (f := fun _ => 0)
    (fun _ => ENNReal.ofReal (2 * M)) hΦm (fun k => Eventually.of_forall (hbound k))
    (by rw [lintegral_const]; exact ENNReal.mul_ne_top ENNReal.ofReal_ne_top (by simp)) ?_
  · simpa using hlim
  filter_upwards [hcont, ae_restrict_mem measurableSet_Ioo] with x hx hx01
  rw [ENNReal.tendsto_nhds_zero]
  intro ε hε
  by_cases hεt : ε = ⊤
  · exact Eventually.of_forall fun k => by rw [hεt]; exact le_top
  obtain ⟨N₀, hN₀⟩ := close_to_point hM hx01.1 hx (ENNReal.toReal_pos hε.ne' hεt)
  filter_upwards [hgrow (x / 2) (by linarith [hx01.1]) (max N₀ 2)] with k hk
  by_cases h : ∃ i < (ns k).length, x ∈ Set.Ioc (cut (ns k) (i + 1)) (cut (ns k) i)
  · obtain ⟨i, hi, hxi⟩ := h
    have := hl.prob k i hi
    obtain ⟨c1, c2⟩ := cell_close (hl.last k) (le_max_right N₀ 2) hx01.1 hk hi hxi
    rw [hcell k x i hi hxi]
    refine (hN₀ _ (le_max_left N₀ 2) (law k i) (hl.pos k i hi) (hl.memLp k i hi) ?_ ?_).trans (ENNReal.ofReal_toReal hεt).le
    · rw [hl.mean k i hi]
      exact c1
    · rw [hl.var k i hi]
      exact c2
  · push Not at h
    rw [hout k x h]
    exact zero_le

/-! ### Ideal samplers -/

theorem liveCounts_last {n : Nat} {adds : List Nat} (hs : VolumeSchedule n adds) : (liveCounts n adds).getLast? = some 1 := by
  have hlen := liveCounts_length adds n
  have hpos : 0 < adds.length := by have := hs.start; have := hs.finish; omega
  have hi : adds.length - 1 < adds.length := by omega
  have h := liveCounts_getD adds n (adds.length - 1) hs.alive hi
  have hl : adds.length - 1 < (liveCounts n adds).length := by rw [hlen]; exact hi
  have h2 := hs.alive _ (List.getElem_mem hl)
  rw [List.getD_eq_getElem?_getD, List.getElem?_eq_getElem hl, Option.getD_some] at h
  rw [List.getLast?_eq_getElem?, hlen, List.getElem?_eq_getElem hl]
  have h3 : adds.sum = (adds.take (adds.length - 1)).sum + (adds.drop (adds.length - 1)).sum := by
    rw [← List.sum_append, List.take_append_drop]
  have h4 := hs.finish
  congr 1
  omega

theorem vols_mem : ∀ (ks : List Nat) (live draws : List ℝ), (∀ v ∈ live, v ∈ Set.Ioo (0 : ℝ) 1) → (∀ v ∈ draws, v ∈ Set.Ioo (0 : ℝ) 1) →
    ks.sum ≤ draws.length → (∀ m ∈ liveCounts live.length ks, 0 < m) → ∀ v ∈ vols ks live draws, v ∈ Set.Ioo (0 : ℝ) 1
  | [], _, _, _, _, _, _ => by simp [vols, sampleVolumes]
  | k :: ks, live, draws, hl, hd, hsum, hp => by
    have hpos : 0 < live.length := hp _ (by simp [liveCounts])
    have hperm := takeMax_perm (List.ne_nil_of_length_pos hpos)
    have ht : (takeMax live).1 ∈ Set.Ioo (0 : ℝ) 1 := hl _ (hperm.mem_iff.mpr (by simp))
    have hlen := hperm.length_eq
    simp only [List.length_cons] at hlen
    simp only [List.sum_cons] at hsum
    intro v hv
    rw [vols_cons, List.mem_cons] at hv
    rcases hv with rfl | hv
    · exact ht
    · refine vols_mem ks _ _ ?_ (fun v h => hd v (List.mem_of_mem_drop h)) (by rw [List.length_drop]; omega) ?_ v hv
      · intro v h
        rcases List.mem_append.mp h with h | h
        · exact hl _ (hperm.mem_iff.mpr (by simp [h]))
        · obtain ⟨d, hd', rfl⟩ := List.mem_map.mp h
          have := hd d (List.mem_of_mem_take hd')
          exact ⟨mul_pos ht.1 this.1, mul_lt_one_of_nonneg_of_lt_one_left ht.1.le ht.2 this.2.le⟩
      · intro m hm
        refine hp m ?_
        simp only [liveCounts, List.mem_cons]
        right
        have e : ((takeMax live).2 ++ (draws.take k).map ((takeMax live).1 * ·)).length = live.length - 1 + k := by
          simp only [List.length_append, List.length_map, List.length_take]
          omega
        rwa [e] at hm

theorem deadVolumes_mem {n : Nat} {adds : List Nat} (hs : VolumeSchedule n adds) {draws : List ℝ} (hlen : draws.length = n + adds.sum)
    (hd : ∀ v ∈ draws, v ∈ Set.Ioo (0 : ℝ) 1) : ∀ v ∈ deadVolumes n adds draws, v ∈ Set.Ioo (0 : ℝ) 1 := by
  refine vols_mem adds _ _ (fun v h => hd v (List.mem_of_mem_take h)) (fun v h => hd v (List.mem_of_mem_drop h)) ?_ ?_
  · simp [hlen]
  · have : (draws.take n).length = n := by simp [hlen]
    rw [this]
    exact hs.alive

theorem deadVolumes_length : ∀ {n : Nat} {adds : List Nat} {draws : List ℝ}, (deadVolumes n adds draws).length = adds.length := by
  intro n adds draws
  unfold deadVolumes
  rw [List.length_map]
  generalize draws.take n = a
  generalize draws.drop n = b
  induction adds generalizing a b with
  | nil => rfl
  | cons k ks ih => simp [sampleVolumes, ih]

theorem draws_ae [MeasurableSpace Ω] {P : Measure Ω} {N : Nat} {draws : Ω → List ℝ} (hlen : ∀ ω, (draws ω).length = N)
    (hu : IidUniform P N draws) : ∀ᵐ ω ∂P, ∀ u ∈ draws ω, u ∈ Set.Ioo (0 : ℝ) 1 := by
  refine hu.ofFn_ae hlen (p := fun l => ∀ u ∈ l, u ∈ Set.Ioo (0 : ℝ) 1) ?_
  filter_upwards [pi_pos N] with u hu' x hx
  obtain ⟨i, rfl⟩ := List.mem_ofFn.mp hx
  exact hu' i

theorem weighted_sum {n : Nat} {adds : List Nat} (hne : liveCounts n adds ≠ []) (us : List ℝ) (g : ℝ → ℝ) (draws : List ℝ) :
    (List.zipWith (fun w v => w * g v) (priorVolumes false us ((liveCounts n adds).map (fun m : Nat => (m : Int)))) (deadVolumes n adds draws)).sum =
      ∑ i ∈ Finset.range (liveCounts n adds).length,
        (cut (liveCounts n adds) i - cut (liveCounts n adds) (i + 1)) * g ((deadVolumes n adds draws).getD i 0) := by
  rw [priorVolumes_eq hne, Finset.sum_range, ← List.sum_ofFn]
  congr 1
  apply List.ext_getElem
  · simp [deadVolumes_length, liveCounts_length]
  · intro i h1 h2
    have hi : i < (deadVolumes n adds draws).length := by
      simp only [List.length_zipWith] at h1
      omega
    simp [List.getD_eq_getElem?_getD, List.getElem?_eq_getElem hi]

theorem weighted_measurable [MeasurableSpace Ω] {P : Measure Ω} {n : Nat} {adds : List Nat} (hs : VolumeSchedule n adds)
    {draws : Ω → List ℝ} (hlen : ∀ ω, (draws ω).length = n + adds.sum) (hu : IidUniform P (n + adds.sum) draws) {g : ℝ → ℝ}
    (hg : Measurable g) : AEMeasurable (fun ω => (List.zipWith (fun w v => w * g v)
      (priorVolumes false [] ((liveCounts n adds).map (fun m : Nat => (m : Int)))) (deadVolumes n adds (draws ω))).sum) P := by
  have hne : liveCounts n adds ≠ [] := fun h => by
    have := liveCounts_last hs
    rw [h] at this
    simp at this
  simp only [weighted_sum hne]
  refine Finset.aemeasurable_fun_sum _ fun i hi => ?_
  have hi' : i < adds.length := by
    have := Finset.mem_range.mp hi
    rwa [liveCounts_length] at this
  exact (hg.comp_aemeasurable ((measurable_pi_apply (⟨i, hi'⟩ : Fin adds.length)).comp_aemeasurable (deadVolumes_law hs hlen hu).1)).const_mul _

theorem evidence_pos {loglike : ℝ → ℝ} (hanti : StrictAntiOn loglike (Set.Ioo 0 1)) {b : ℝ} (hb : ∀ x ∈ Set.Ioo (0 : ℝ) 1, loglike x ≤ b) :
    0 < ∫ x in (0 : ℝ)..1, Real.exp (loglike x) := by
  have hm : AEStronglyMeasurable (fun x => Real.exp (loglike x)) (volume.restrict (Set.Ioo 0 1)) :=
    (Real.measurable_exp.comp_aemeasurable (aemeasurable_restrict_of_antitoneOn measurableSet_Ioo hanti.antitoneOn)).aestronglyMeasurable
  refine intervalIntegral.intervalIntegral_pos_of_pos_on ?_ (fun x _ => Real.exp_pos _) zero_lt_one
  rw [intervalIntegrable_iff_integrableOn_Ioo_of_le zero_le_one]
  refine Integrable.of_bound hm (Real.exp b) ?_
  filter_upwards [ae_restrict_mem measurableSet_Ioo] with x hx
  rw [Real.norm_eq_abs, abs_of_pos (Real.exp_pos _)]
  exact Real.exp_le_exp.mpr (hb x hx)

section

variable {Ω : ℕ → Type} [∀ k, MeasurableSpace (Ω k)] {P : ∀ k, Measure (Ω k)} {n : ℕ → Nat} {adds : ℕ → List Nat}
  {draws : ∀ k, Ω k → List ℝ}

theorem schedule_laws (hs : ∀ k, VolumeSchedule (n k) (adds k)) (hlen : ∀ k ω, (draws k ω).length = n k + (adds k).sum)
    (hu : ∀ k, IidUniform (P k) (n k + (adds k).sum) (draws k)) :
    VolumeLaws (fun k => liveCounts (n k) (adds k)) (fun k i => (P k).map (fun ω => (deadVolumes (n k) (adds k) (draws k ω)).getD i 0)) := by
  have hae : ∀ k i, i < (liveCounts (n k) (adds k)).length → AEMeasurable (fun ω => (deadVolumes (n k) (adds k) (draws k ω)).getD i 0) (P k) := by
    intro k i hi
    rw [liveCounts_length] at hi
    exact (measurable_pi_apply (⟨i, hi⟩ : Fin (adds k).length)).comp_aemeasurable (deadVolumes_law (hs k) (hlen k) (hu k)).1
  have hprob : ∀ k, IsProbabilityMeasure (P k) := fun k => by
    constructor
    have hP1 : (unifPow (n k + (adds k).sum)) Set.univ = 1 := measure_univ
    rw [← hP1, unifPow, ← hu k, Measure.map_apply_of_aemeasurable (hu k).aemeasurable MeasurableSet.univ, Set.preimage_univ]
  have hp : ∀ k i, i < (liveCounts (n k) (adds k)).length → IsProbabilityMeasure ((P k).map (fun ω => (deadVolumes (n k) (adds k) (draws k ω)).getD i 0)) :=
    fun k i hi => Measure.isProbabilityMeasure_map (hae k i hi)
  have hmom : ∀ k i, i < (liveCounts (n k) (adds k)).length →
      Integrable (fun ω => Real.log ((deadVolumes (n k) (adds k) (draws k ω)).getD i 0)) (P k) ∧
      ∫ ω, Real.log ((deadVolumes (n k) (adds k) (draws k ω)).getD i 0) ∂P k = (positions (expectedSteps (nliveOf (n k) (adds k)))).getD i 0 ∧
      variance (fun ω => Real.log ((deadVolumes (n k) (adds k) (draws k ω)).getD i 0)) (P k) =
        (((liveCounts (n k) (adds k)).take (i + 1)).map (fun m : Nat => 1 / (m : ℝ) ^ 2)).sum := fun k i hi => by
    rw [liveCounts_length] at hi
    obtain ⟨logx, h1, _, h2⟩ := C91_moments (R := cubeRng 0) (hs k) (hlen k) (hu k)
    obtain ⟨h0, hpos, _⟩ := nliveOf_ok (hs k)
    have h3 := getLogx_expected (R := cubeRng 0) h0 hpos ⟨fun _ => 0, []⟩
    rw [nliveOf, h1] at h3
    have h4 : logx = positions (expectedSteps (nliveOf (n k) (adds k))) := Except.ok.inj (congrArg Prod.fst h3)
    rw [h4] at h2
    exact ⟨(h2 i hi).1, (h2 i hi).2.1, (h2 i hi).2.2.1⟩
  have hlast := fun k => liveCounts_last (hs k)
  have hne : ∀ k, liveCounts (n k) (adds k) ≠ [] := fun k h => by
    have := hlast k
    rw [h] at this
    simp at this
  have hmean : ∀ k i, i < (liveCounts (n k) (adds k)).length →
      (positions (expectedSteps (nliveOf (n k) (adds k)))).getD i 0 = Real.log (expectedVolume (liveCounts (n k) (adds k)) (i + 1)) := by
    intro k i hi
    rw [← expected_getD i hi]
    have hl : i < (positions (expectedSteps (nliveOf (n k) (adds k)))).length := by
      simpa [positions, expectedSteps, nliveOf] using hi
    change _ = Real.log (((positions (expectedSteps (nliveOf (n k) (adds k)))).map Real.exp).getD i 0)
    rw [List.getD_eq_getElem?_getD, List.getD_eq_getElem?_getD, List.getElem?_map, List.getElem?_eq_getElem hl]
    simp
  have hvarpos : ∀ k i, i < (liveCounts (n k) (adds k)).length →
      0 < (((liveCounts (n k) (adds k)).take (i + 1)).map (fun m : Nat => 1 / (m : ℝ) ^ 2)).sum := by
    intro k i hi
    refine List.sum_pos _ ?_ ?_
    · intro x hx
      obtain ⟨m, hm, rfl⟩ := List.mem_map.mp hx
      have : 0 < m := (hs k).alive m (List.mem_of_mem_take hm)
      positivity
    · intro h
      have h0 := congrArg List.length h
      rw [List.length_map, List.length_take, List.length_nil] at h0
      omega
  have hmem : ∀ k i, i < (liveCounts (n k) (adds k)).length →
      MemLp (fun ω => Real.log ((deadVolumes (n k) (adds k) (draws k ω)).getD i 0)) 2 (P k) := by
    intro k i hi
    have := hprob k
    obtain ⟨m1, -, m3⟩ := hmom k i hi
    by_contra hc
    have h5 := evariance_eq_top m1.aestronglyMeasurable hc
    rw [variance, h5] at m3
    exact absurd m3 (hvarpos k i hi).ne
  refine ⟨hne, hlast, hp, ?_, ?_, ?_, ?_⟩
  · intro k i hi
    rw [ae_map_iff (p := fun v => 0 < v) (hae k i hi) (measurableSet_lt measurable_const measurable_id)]
    filter_upwards [draws_ae (hlen k) (hu k)] with ω hω
    have h1 := deadVolumes_mem (hs k) (hlen k ω) hω
    rw [liveCounts_length] at hi
    have hl : i < (deadVolumes (n k) (adds k) (draws k ω)).length := by rw [deadVolumes_length]; exact hi
    rw [List.getD_eq_getElem?_getD, List.getElem?_eq_getElem hl]
    exact (h1 _ (List.getElem_mem hl)).1
  · intro k i hi
    exact (memLp_map_measure_iff Real.measurable_log.aestronglyMeasurable (hae k i hi)).mpr (hmem k i hi)
  · intro k i hi
    rw [integral_map (hae k i hi) Real.measurable_log.aestronglyMeasurable, ← hmean k i hi]
    exact (hmom k i hi).2.1
  · intro k i hi
    rw [variance_map Real.measurable_log.aemeasurable (hae k i hi)]
    exact (hmom k i hi).2.2

/-- C94.  For the volumes which the points of ideal samplers enclose, weighted with the prior volumes which nestcheck expects, sums
over the samples converge in mean to integrals over the prior volume, as the number of points with which they start grows. -/
theorem C94_integral (hs : ∀ k, VolumeSchedule (n k) (adds k)) (hlen : ∀ k ω, (draws k ω).length = n k + (adds k).sum)
    (hu : ∀ k, IidUniform (P k) (n k + (adds k).sum) (draws k)) (hn : Tendsto n atTop atTop)
    {g : ℝ → ℝ} {M : ℝ} (hM : ∀ v, |g v| ≤ M) (hg : Measurable g)
    (hcont : ∀ᵐ x ∂volume.restrict (Set.Ioo (0 : ℝ) 1), ContinuousAt g x) :
    Tendsto (fun k => ∫⁻ ω, ‖(List.zipWith (fun w v => w * g v)
        (priorVolumes false [] ((liveCounts (n k) (adds k)).map (fun m : Nat => (m : Int)))) (deadVolumes (n k) (adds k) (draws k ω))).sum -
          ∫ x in (0 : ℝ)..1, g x‖ₑ ∂P k) atTop (𝓝 0) := by
  have hl := schedule_laws hs hlen hu
  refine tendsto_of_tendsto_of_tendsto_of_le_of_le tendsto_const_nhds (error_tendsto hl (schedules_grow hs hn) hM hg hcont) (fun k => zero_le) ?_
  intro k
  have hae : ∀ i, i < (liveCounts (n k) (adds k)).length → AEMeasurable (fun ω => (deadVolumes (n k) (adds k) (draws k ω)).getD i 0) (P k) := by
    intro i hi
    rw [liveCounts_length] at hi
    exact (measurable_pi_apply (⟨i, hi⟩ : Fin (adds k).length)).comp_aemeasurable (deadVolumes_law (hs k) (hlen k) (hu k)).1
  have hjoint : Measurable (fun p : ℝ × ℝ => ‖g p.1 - g p.2‖ₑ) :=
    ((hg.comp measurable_fst).sub (hg.comp measurable_snd)).enorm
  have hmeas : ∀ i, Measurable (fun v => ∫⁻ x in Set.Ioc (cut (liveCounts (n k) (adds k)) (i + 1)) (cut (liveCounts (n k) (adds k)) i), ‖g v - g x‖ₑ) :=
    fun i => hjoint.lintegral_prod_right'
  calc ∫⁻ ω, ‖(List.zipWith (fun w v => w * g v)
        (priorVolumes false [] ((liveCounts (n k) (adds k)).map (fun m : Nat => (m : Int)))) (deadVolumes (n k) (adds k) (draws k ω))).sum -
          ∫ x in (0 : ℝ)..1, g x‖ₑ ∂P k
      ≤ ∫⁻ ω, ∑ i ∈ Finset.range (liveCounts (n k) (adds k)).length,
          (∫⁻ x in Set.Ioc (cut (liveCounts (n k) (adds k)) (i + 1)) (cut (liveCounts (n k) (adds k)) i),
            ‖g ((deadVolumes (n k) (adds k) (draws k ω)).getD i 0) - g x‖ₑ) ∂P k := by
        refine lintegral_mono fun ω => ?_
        rw [weighted_sum (hl.nonempty k)]
        exact weighted_error hM hg (hl.nonempty k) _
    _ = _ := by
        refine (lintegral_finsetSum' _ fun i hi => (hmeas i).comp_aemeasurable (hae i (Finset.mem_range.mp hi))).trans ?_
        refine Finset.sum_congr rfl fun i hi => ?_
        rw [lintegral_map' (hmeas i).aemeasurable (hae i (Finset.mem_range.mp hi))]
        rfl

/-- C94.  As the number of points with which they start grows, the evidence which nestcheck finds for the runs of ideal samplers converges in mean to
the evidence. -/
theorem C94_evidence {R : Rng σ ℝ} (hs : ∀ k, VolumeSchedule (n k) (adds k)) (hlen : ∀ k ω, (draws k ω).length = n k + (adds k).sum)
    (hu : ∀ k, IidUniform (P k) (n k + (adds k).sum) (draws k)) (hn : Tendsto n atTop atTop)
    {loglike : ℝ → ℝ} (hanti : StrictAntiOn loglike (Set.Ioo 0 1)) {init : ℝ} (hinit : ∀ x ∈ Set.Ioo (0 : ℝ) 1, init < loglike x)
    {b : ℝ} (hb : ∀ x ∈ Set.Ioo (0 : ℝ) 1, loglike x ≤ b) :
    ∃ est : ∀ k, Ω k → ℝ, (∀ k, AEMeasurable (est k) (P k)) ∧ (∀ k, ∀ᵐ ω ∂P k,
      (∃ live its, IdealExecution loglike (n k) (adds k) (draws k ω) init live its) ∧
      ∀ live its, IdealExecution loglike (n k) (adds k) (draws k ω) init live its →
        ∀ samples, samples.Perm (its.map (·.dead)) → ∀ (A : Argsort ℝ) (da dw : Bool) (w : World σ),
          0 < est k ω ∧ ∃ r : Run ℝ, processSamples A R samples da dw w = (.ok r, w) ∧
            evidence R r none false w = (.ok (est k ω), w) ∧ logz R r none false w = (.ok (Real.log (est k ω)), w)) ∧
      Tendsto (fun k => ∫⁻ ω, ‖est k ω - ∫ x in (0 : ℝ)..1, Real.exp (loglike x)‖ₑ ∂P k) atTop (𝓝 0) := by
  -- the likelihood, continued to a decreasing function on the line
  set g : ℝ → ℝ := fun x => if x ≤ 0 then Real.exp b else if x < 1 then Real.exp (loglike x) else 0 with hg
  have hganti : Antitone g := by
    intro x y hxy
    simp only [hg]
    by_cases h1 : x ≤ 0
    · rw [if_pos h1]
      split_ifs with h2 h3
      · exact le_rfl
      · exact Real.exp_le_exp.mpr (hb y ⟨not_le.mp h2, h3⟩)
      · exact (Real.exp_pos _).le
    · rw [if_neg h1, if_neg (not_le.mpr (lt_of_lt_of_le (not_le.mp h1) hxy))]
      by_cases h2 : y < 1
      · rw [if_pos h2, if_pos (lt_of_le_of_lt hxy h2)]
        exact Real.exp_le_exp.mpr (hanti.antitoneOn ⟨not_le.mp h1, lt_of_le_of_lt hxy h2⟩ ⟨lt_of_lt_of_le (not_le.mp h1) hxy, h2⟩ hxy)
      · rw [if_neg h2]
        split_ifs
        · exact (Real.exp_pos _).le
        · exact le_rfl
  have hM : ∀ v, |g v| ≤ Real.exp b := by
    intro v
    simp only [hg]
    split_ifs with h1 h2
    · rw [abs_of_pos (Real.exp_pos _)]
    · rw [abs_of_pos (Real.exp_pos _)]
      exact Real.exp_le_exp.mpr (hb v ⟨not_le.mp h1, h2⟩)
    · simpa using (Real.exp_pos b).le
  have hcont : ∀ᵐ x ∂volume.restrict (Set.Ioo (0 : ℝ) 1), ContinuousAt g x :=
    ae_restrict_of_ae ((hganti.countable_not_continuousAt.ae_notMem volume).mono fun x hx => by simpa using hx)
  have hin : ∀ x ∈ Set.Ioo (0 : ℝ) 1, g x = Real.exp (loglike x) := fun x hx => by
    simp only [hg]
    rw [if_neg (not_le.mpr hx.1), if_pos hx.2]
  have hint : ∫ x in (0 : ℝ)..1, g x = ∫ x in (0 : ℝ)..1, Real.exp (loglike x) := by
    rw [intervalIntegral.integral_of_le zero_le_one, intervalIntegral.integral_of_le zero_le_one, ← restrict_Ioo_eq_restrict_Ioc]
    exact setIntegral_congr_fun measurableSet_Ioo hin
  have hlim := C94_integral hs hlen hu hn hM hganti.measurable hcont
  rw [hint] at hlim
  refine ⟨_, fun k => weighted_measurable (hs k) (hlen k) (hu k) hganti.measurable, fun k => ?_, hlim⟩
  filter_upwards [C91_run (R := R) (hs k) (hlen k) (hu k) hanti hinit, draws_ae (hlen k) (hu k)] with ω ⟨h1, h2⟩ h3
  refine ⟨h1, fun live its hex samples hsam A da dw w => ?_⟩
  obtain ⟨r, e1, e2, e3⟩ := h2 live its hex samples hsam A da dw
  have hV := deadVolumes_mem (hs k) (hlen k ω) h3
  have hadds : adds k ≠ [] := by
    intro h
    have h4 := (hs k).finish
    have h5 := (hs k).start
    rw [h] at h4
    simp at h4
    omega
  have hW : Weighable r := by
    refine ⟨?_, ?_, ?_⟩
    · rw [e2]
      intro h
      have := congrArg List.length h
      rw [List.length_map, deadVolumes_length] at this
      exact hadds (List.eq_nil_of_length_eq_zero (by simpa using this))
    · intro m hm
      rw [e3] at hm
      exact (nliveOf_ok (hs k)).2.1 m hm
    · rw [e2, e3, List.length_map, List.length_map, deadVolumes_length, liveCounts_length]
  obtain ⟨z, z1, z2, z3, -⟩ := C29_evidence (R := R) hW false w (by simp)
  have hw : afterWeights R r none false w = w := by simp [afterWeights]
  rw [hw] at z1 z2
  have hz : Real.exp z = (List.zipWith (fun w v => w * g v)
      (priorVolumes false [] ((liveCounts (n k) (adds k)).map (fun m : Nat => (m : Int)))) (deadVolumes (n k) (adds k) (draws k ω))).sum := by
    rw [z3, e2, e3, List.zipWith_map_right]
    congr 1
    apply List.ext_getElem
    · simp [priorVolumes]
    · intro i h4 h5
      rw [List.getElem_zipWith, List.getElem_zipWith]
      simp only [List.length_zipWith] at h5
      rw [hin _ (hV _ (List.getElem_mem (by omega)))]
      rfl
  rw [← hz]
  exact ⟨Real.exp_pos z, r, e1 w, z2, by rw [Real.log_exp]; exact z1⟩

/-- C94.  As the number of points with which they start grows, `logz` converges in probability to the logarithm of the evidence. -/
theorem C94_logz {R : Rng σ ℝ} (hs : ∀ k, VolumeSchedule (n k) (adds k)) (hlen : ∀ k ω, (draws k ω).length = n k + (adds k).sum)
    (hu : ∀ k, IidUniform (P k) (n k + (adds k).sum) (draws k)) (hn : Tendsto n atTop atTop)
    {loglike : ℝ → ℝ} (hanti : StrictAntiOn loglike (Set.Ioo 0 1)) {init : ℝ} (hinit : ∀ x ∈ Set.Ioo (0 : ℝ) 1, init < loglike x)
    {b : ℝ} (hb : ∀ x ∈ Set.Ioo (0 : ℝ) 1, loglike x ≤ b) {δ : ℝ} (hδ : 0 < δ) :
    Tendsto (fun k => P k {ω | ∃ live its samples, IdealExecution loglike (n k) (adds k) (draws k ω) init live its ∧
      samples.Perm (its.map (·.dead)) ∧ ∃ (A : Argsort ℝ) (da dw : Bool) (w : World σ),
        ¬ ∃ (r : Run ℝ) (z : ℝ), processSamples A R samples da dw w = (.ok r, w) ∧ logz R r none false w = (.ok z, w) ∧
          |z - Real.log (∫ x in (0 : ℝ)..1, Real.exp (loglike x))| < δ}) atTop (𝓝 0) := by
  obtain ⟨est, h0, h1, h2⟩ := C94_evidence (R := R) hs hlen hu hn hanti hinit hb
  have hZ := evidence_pos hanti hb
  set Z := ∫ x in (0 : ℝ)..1, Real.exp (loglike x) with hZd
  obtain ⟨ε, hε, hcl⟩ := Metric.continuousAt_iff.mp (Real.continuousAt_log hZ.ne') δ hδ
  have hε' : ENNReal.ofReal ε ≠ 0 := by simpa using hε
  have h3 : Tendsto (fun k => (∫⁻ ω, ‖est k ω - Z‖ₑ ∂P k) / ENNReal.ofReal ε) atTop (𝓝 0) := by
    have := ENNReal.Tendsto.div_const h2 (Or.inr hε')
    simpa using this
  refine tendsto_of_tendsto_of_tendsto_of_le_of_le tendsto_const_nhds h3 (fun k => zero_le) fun k => ?_
  refine le_trans (measure_mono_ae ?_) (meas_ge_le_lintegral_div ((h0 k).sub_const Z).enorm hε' ENNReal.ofReal_ne_top)
  filter_upwards [h1 k] with ω h4
  rintro ⟨live, its, samples, hex, hsam, A, da, dw, w, hbad⟩
  obtain ⟨_, r, e1, _, e3⟩ := h4.2 live its hex samples hsam A da dw w
  by_contra hlt
  refine hbad ⟨r, _, e1, e3, ?_⟩
  have h5 : ‖est k ω - Z‖ₑ < ENNReal.ofReal ε := not_le.mp hlt
  rw [Real.enorm_eq_ofReal_abs, ENNReal.ofReal_lt_ofReal_iff hε] at h5
  have h6 := hcl (x := est k ω) (by rwa [Real.dist_eq])
  rwa [Real.dist_eq] at h6

end

/-! ### Static samplers -/

/-- The numbers of points added by a sampler which keeps its number of live points for `m` iterations and then uses them up. -/
def staticAdds (n m : Nat) : List Nat := List.replicate m 1 ++ List.replicate n 0

theorem liveCounts_zeros : ∀ n : Nat, liveCounts n (List.replicate n 0) = (List.range n).map (n - ·)
  | 0 => rfl
  | n + 1 => by
    rw [List.replicate_succ, liveCounts, List.range_succ_eq_map, List.map_cons, List.map_map]
    simp only [Nat.add_sub_cancel, Nat.sub_zero, Nat.add_zero]
    rw [liveCounts_zeros n]
    congr 1
    exact List.map_congr_left fun i _ => by simp

theorem liveCounts_static {n : Nat} (hn : 0 < n) : ∀ m : Nat, liveCounts n (staticAdds n m) = List.replicate m n ++ (List.range n).map (n - ·)
  | 0 => by simpa [staticAdds] using liveCounts_zeros n
  | m + 1 => by
    have ih := liveCounts_static hn m
    rw [staticAdds] at ih ⊢
    rw [List.replicate_succ, List.cons_append, liveCounts, show n - 1 + 1 = n by omega, ih, List.replicate_succ, List.cons_append]

theorem static_schedule {n : Nat} (hn : 0 < n) (m : Nat) : VolumeSchedule n (staticAdds n m) := by
  refine ⟨hn, ?_, ?_⟩
  · rw [liveCounts_static hn]
    intro k hk
    rcases List.mem_append.mp hk with h | h
    · rw [List.eq_of_mem_replicate h]
      exact hn
    · obtain ⟨i, hi, rfl⟩ := List.mem_map.mp h
      have := List.mem_range.mp hi
      omega
  · simp [staticAdds]
    omega

/-- C94.  `logz` of static runs with `n k` live points, stopped after any numbers `m k` of replacements, converges in probability to
the logarithm of the evidence if `n k` tends to infinity. -/
theorem C94_static {R : Rng σ ℝ} {Ω : ℕ → Type} [∀ k, MeasurableSpace (Ω k)] {P : ∀ k, Measure (Ω k)} {n m : ℕ → Nat}
    (hpos : ∀ k, 0 < n k) (hn : Tendsto n atTop atTop) {draws : ∀ k, Ω k → List ℝ} (hlen : ∀ k ω, (draws k ω).length = n k + m k)
    (hu : ∀ k, IidUniform (P k) (n k + m k) (draws k))
    {loglike : ℝ → ℝ} (hanti : StrictAntiOn loglike (Set.Ioo 0 1)) {init : ℝ} (hinit : ∀ x ∈ Set.Ioo (0 : ℝ) 1, init < loglike x)
    {b : ℝ} (hb : ∀ x ∈ Set.Ioo (0 : ℝ) 1, loglike x ≤ b) {δ : ℝ} (hδ : 0 < δ) :
    Tendsto (fun k => P k {ω | ∃ live its samples, IdealExecution loglike (n k) (staticAdds (n k) (m k)) (draws k ω) init live its ∧
      samples.Perm (its.map (·.dead)) ∧ ∃ (A : Argsort ℝ) (da dw : Bool) (w : World σ),
        ¬ ∃ (r : Run ℝ) (z : ℝ), processSamples A R samples da dw w = (.ok r, w) ∧ logz R r none false w = (.ok z, w) ∧
          |z - Real.log (∫ x in (0 : ℝ)..1, Real.exp (loglike x))| < δ}) atTop (𝓝 0) := by
  have hsum : ∀ k, (staticAdds (n k) (m k)).sum = m k := fun k => by simp [staticAdds]
  exact C94_logz (R := R) (fun k => static_schedule (hpos k) (m k)) (fun k ω => by rw [hsum]; exact hlen k ω)
    (fun k => by rw [hsum]; exact hu k) hn hanti hinit hb hδ

/-- The loglikelihood -x with k + 1 live points and (k + 1)² replacements: the evidence is 1 - 1/e. -/
example {R : Rng σ ℝ} {δ : ℝ} (hδ : 0 < δ) :
    Tendsto (fun k : ℕ => unifPow (k + 1 + (k + 1) ^ 2) {u | ∃ live its samples,
      IdealExecution (fun x => -x) (k + 1) (staticAdds (k + 1) ((k + 1) ^ 2)) (List.ofFn u) (-1) live its ∧
      samples.Perm (its.map (·.dead)) ∧ ∃ (A : Argsort ℝ) (da dw : Bool) (w : World σ),
        ¬ ∃ (r : Run ℝ) (z : ℝ), processSamples A R samples da dw w = (.ok r, w) ∧ logz R r none false w = (.ok z, w) ∧
          |z - Real.log (1 - Real.exp (-1))| < δ}) atTop (𝓝 0) := by
  have h := C94_static (R := R) (P := fun k => unifPow (k + 1 + (k + 1) ^ 2)) (n := fun k => k + 1) (m := fun k => (k + 1) ^ 2)
    (fun k => Nat.succ_pos k) (tendsto_add_atTop_nat 1) (draws := fun k u => List.ofFn u) (by simp) (fun k => ofFn_iid _)
    (loglike := fun x => -x) (init := -1) (fun x _ y _ h => by simpa using h) (fun x hx => by simpa using hx.2) (b := 0)
    (fun x hx => by simpa using hx.1.le) hδ
  have hI : ∫ x in (0 : ℝ)..1, Real.exp (-x) = 1 - Real.exp (-1) := by
    simp [intervalIntegral.integral_comp_neg (fun x => Real.exp x)]
  rw [hI] at h
  exact h

end

end Nestcheck
