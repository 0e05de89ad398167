import Verif.Props.AdaptiveMean
import Verif.Props.Blind
import Verif.Props.Consistency

/-! C95: the estimates of evidence converge for adaptive samplers too. -/

namespace Nestcheck
open Spec MeasureTheory ENNReal Filter Topology
variable {σ : Type} {N : Nat}

noncomputable section

/-! ### The squared deviation of the log volume in the cell of a point -/

/-- The volume expected after removals with these numbers of live points. -/
def reach (ns : List Nat) : ℝ := Real.exp (-(ns.map (fun n : Nat => 1 / (n : ℝ))).sum)

/-- The variance of the log volume after removals with these numbers of live points. -/
def spread (ns : List Nat) : ℝ := (ns.map (fun n : Nat => 1 / (n : ℝ) ^ 2)).sum

/-- The squared deviation of the log volume at the sample to whose cell `x` belongs, unless its variance is more than `K`.  `ns` are the
numbers of live points so far, `m` the deviation so far and `c` the volume. -/
def dev (x K : ℝ) : List Nat → ℝ → ℝ → List (Removal N) → ℝ≥0∞
  | _, m, _, [] => ENNReal.ofReal (m ^ 2)
  | ns, m, c, s :: l =>
    if ns ≠ [] ∧ (reach ns + reach (ns ++ [s.alive])) / 2 < x then ENNReal.ofReal (m ^ 2)
    else if K < spread (ns ++ [s.alive]) then 0
    else dev x K (ns ++ [s.alive]) (m + Real.log (s.volume / c) + 1 / s.alive) s.volume l

theorem lintegral_square {n : Nat} (hn : n ≠ 0) (m : ℝ) {C : ℝ} (hC : 0 ≤ C) :
    ∫⁻ v, ENNReal.ofReal ((m + Real.log v / n + 1 / n) ^ 2 + C) ∂unif = ENNReal.ofReal (m ^ 2 + 1 / (n : ℝ) ^ 2 + C) := by
  have hn' : (n : ℝ) ≠ 0 := by exact_mod_cast hn
  have he : (fun v : ℝ => (m + Real.log v / n + 1 / n) ^ 2 + C) =
      fun v => (Real.log v ^ 2 * (1 / (n : ℝ) ^ 2) + Real.log v * (2 * (m + 1 / n) / n)) + ((m + 1 / n) ^ 2 + C) := by
    funext v
    field_simp
    ring
  have i1 := integrable_logSq_unif.mul_const (1 / (n : ℝ) ^ 2)
  have i2 := integrable_log_unif.mul_const (2 * (m + 1 / (n : ℝ)) / n)
  have i3 : Integrable (fun v => Real.log v ^ 2 * (1 / (n : ℝ) ^ 2) + Real.log v * (2 * (m + 1 / n) / n)) unif := i1.add i2
  rw [← ofReal_integral_eq_lintegral_ofReal]
  · congr 1
    rw [he, integral_add i3 (integrable_const _), integral_add i1 i2, integral_mul_const, integral_mul_const,
      integral_logSq_unif, integral_log_unif, integral_const]
    simp
    field_simp
    ring
  · rw [he]
    exact (i1.add i2).add (integrable_const _)
  · exact Eventually.of_forall fun v => by positivity

theorem spread_append (ns : List Nat) (n : Nat) : spread (ns ++ [n]) = spread ns + 1 / (n : ℝ) ^ 2 := by
  simp [spread]

theorem expect_dev {rule : Rule N} (x : ℝ) {K : ℝ} : ∀ (k : Nat) {hist : List (Fin N × ℝ)} {A : Finset (Fin N)} {c : ℝ} {ns : List Nat} {m : ℝ},
    0 < c → spread ns ≤ K → expect rule k hist A c (dev x K ns m c) ≤ ENNReal.ofReal (m ^ 2 + (K - spread ns))
  | 0, hist, A, c, ns, m, _, hK => by
    rw [expect, dev]
    exact ENNReal.ofReal_le_ofReal (by linarith)
  | k + 1, hist, A, c, ns, m, hc, hK => by
    rw [expect]
    split
    · rw [dev]
      exact ENNReal.ofReal_le_ofReal (by linarith)
    rename_i hA
    have hA := Finset.nonempty_iff_ne_empty.mpr hA
    have hn : A.card ≠ 0 := Finset.card_ne_zero.mpr hA
    simp only [dev]
    by_cases h1 : ns ≠ [] ∧ (reach ns + reach (ns ++ [A.card])) / 2 < x
    · simp only [h1, if_true, expect_const, lintegral_const, measure_univ, mul_one, and_self, ne_eq, not_false_eq_true]
      rw [card_average hA (fun _ _ => rfl)]
      exact ENNReal.ofReal_le_ofReal (by linarith)
    simp only [h1, if_false]
    by_cases h2 : K < spread (ns ++ [A.card])
    · simp only [h2, if_true, expect_const, lintegral_const, zero_mul, mul_zero, Finset.sum_const_zero]
      exact zero_le
    simp only [h2, if_false]
    have hroot : ∀ v : ℝ, Real.log (c * root A.card v / c) = Real.log v / A.card := by
      intro v
      rw [mul_div_cancel_left₀ _ hc.ne', root, Real.log_exp]
    have hC : 0 ≤ K - spread (ns ++ [A.card]) := by linarith [not_lt.mp h2]
    refine le_of_le_of_eq (Finset.sum_le_sum fun a ha => mul_le_mul_right (lintegral_mono (g := fun v =>
      ENNReal.ofReal ((m + Real.log v / A.card + 1 / A.card) ^ 2 + (K - spread (ns ++ [A.card])))) fun v => ?_) _) ?_
    · have := expect_dev (rule := rule) (hist := (a, c * root A.card v) :: hist) (A := A.erase a ∪ rule ((a, c * root A.card v) :: hist)) x k
        (ns := ns ++ [A.card]) (m := m + Real.log (c * root A.card v / c) + 1 / A.card) (mul_pos hc (root_pos A.card v)) (not_lt.mp h2)
      rw [hroot] at this
      simpa only [hroot] using this
    · rw [card_average hA (fun _ _ => lintegral_square hn m hC), spread_append]
      congr 1
      ring

theorem dev_withVolumes (x K : ℝ) : ∀ (ds : List (Fin N × Nat × Finset (Fin N))) {α : Type} [MeasurableSpace α] {m c : α → ℝ}
    {τ : α → List ℝ} (ns : List Nat), Measurable m → Measurable c → MList ds.length τ →
    Measurable (fun a => dev x K ns (m a) (c a) (withVolumes ds (τ a)))
  | [], α, _, m, c, τ, ns, hm, hc, hτ => by
    simp only [withVolumes, dev]
    exact ENNReal.measurable_ofReal.comp (hm.pow_const 2)
  | d :: ds, α, _, m, c, τ, ns, hm, hc, hτ => by
    have h1 : ∀ a, τ a = (τ a).getD 0 0 :: (τ a).drop 1 := by
      intro a
      have := hτ.len a
      cases h : τ a with
      | nil => rw [h] at this; simp at this
      | cons x l => simp
    have he : (fun a => dev x K ns (m a) (c a) (withVolumes (d :: ds) (τ a))) = fun a =>
        if ns ≠ [] ∧ (reach ns + reach (ns ++ [d.2.1])) / 2 < x then ENNReal.ofReal ((m a) ^ 2)
        else if K < spread (ns ++ [d.2.1]) then 0
        else dev x K (ns ++ [d.2.1]) (m a + Real.log ((τ a).getD 0 0 / c a) + 1 / d.2.1) ((τ a).getD 0 0) (withVolumes ds ((τ a).drop 1)) := by
      funext a
      conv_lhs => rw [h1 a]
      rfl
    rw [he]
    split_ifs
    · exact ENNReal.measurable_ofReal.comp (hm.pow_const 2)
    · exact measurable_const
    · refine dev_withVolumes x K ds _ ((hm.add (Real.measurable_log.comp ((hτ.meas 0).div hc))).add measurable_const) (hτ.meas 0) ?_
      have := hτ.drop 1
      simpa using this

theorem reach_eq {ns : List Nat} {i : Nat} : reach (ns.take i) = expectedVolume ns i := rfl

theorem dev_eq {x K : ℝ} : ∀ (l : List (Removal N)) {ns0 ns : List Nat} {m c : ℝ} {j : Nat}, 0 < c → Descends c l → j ≤ l.length →
    0 < ns0.length + j → ns = ns0 ++ l.map (·.alive) → m = Real.log c - Real.log (reach ns0) → cut ns (ns0.length + j) < x →
    x ≤ cut ns (ns0.length + j - 1) → spread (ns.take (ns0.length + j)) ≤ K →
    dev x K ns0 m c l = ENNReal.ofReal ((Real.log (lastVolume c j l) - Real.log (expectedVolume ns (ns0.length + j))) ^ 2)
  | [], ns0, ns, m, c, j, _, _, hj, _, hns, hm, _, _, _ => by
    have : j = 0 := by simpa using hj
    subst this
    subst hns
    rw [dev, hm, ← reach_eq]
    simp [lastVolume]
  | s :: l, ns0, ns, m, c, j, hc, ⟨d1, d2, d3, d4⟩, hj, hpos, hns, hm, hx1, hx2, hK => by
    have hlen : ns0.length < ns.length := by rw [hns]; simp
    have e0 : reach ns0 = expectedVolume ns ns0.length := by rw [← reach_eq, hns]; simp
    have e1 : reach (ns0 ++ [s.alive]) = expectedVolume ns (ns0.length + 1) := by
      rw [← reach_eq, hns]
      congr 1
      simp [List.take_append]
    have hcut : ns0 ≠ [] → cut ns ns0.length = (reach ns0 + reach (ns0 ++ [s.alive])) / 2 := fun h => by
      rw [cut, if_neg (by simpa using h), if_pos hlen, e0, e1]
    rw [dev]
    by_cases h1 : ns0 ≠ [] ∧ (reach ns0 + reach (ns0 ++ [s.alive])) / 2 < x
    · rw [if_pos h1]
      have hj0 : j = 0 := by
        by_contra hne
        have h2 := hx2.trans (cut_antitone (ns := ns) (show ns0.length ≤ ns0.length + j - 1 by omega))
        rw [hcut h1.1] at h2
        linarith [h1.2]
      subst hj0
      rw [hm, e0]
      simp [lastVolume]
    · rw [if_neg h1]
      have hj0 : j ≠ 0 := by
        rintro rfl
        have hne : ns0 ≠ [] := by
          rintro rfl
          simp at hpos
        refine h1 ⟨hne, ?_⟩
        rw [← hcut hne]
        exact hx1
      obtain ⟨j, rfl⟩ := Nat.exists_eq_succ_of_ne_zero hj0
      have hidx : (ns0 ++ [s.alive]).length + j = ns0.length + (j + 1) := by simp; omega
      have hK' : ¬ K < spread (ns0 ++ [s.alive]) := by
        refine not_lt.mpr (le_trans ?_ hK)
        have : ns.take (ns0.length + (j + 1)) = (ns0 ++ [s.alive]) ++ (l.map (·.alive)).take j := by
          rw [hns, List.take_append]
          simp [List.take_of_length_le]
        rw [Nat.succ_eq_add_one, this]
        simp only [spread, List.map_append, List.sum_append]
        have : 0 ≤ (((l.map (·.alive)).take j).map (fun n : Nat => 1 / (n : ℝ) ^ 2)).sum := List.sum_nonneg (by
          intro y hy
          obtain ⟨n, _, rfl⟩ := List.mem_map.mp hy
          positivity)
        linarith
      rw [if_neg hK']
      have := dev_eq (x := x) (K := K) l (ns0 := ns0 ++ [s.alive]) (ns := ns) (c := s.volume) (j := j)
        (m := m + Real.log (s.volume / c) + 1 / s.alive) d1 d4 (by simpa using hj) (by simp) (by rw [hns]; simp) ?_
        (by rw [hidx]; exact hx1) (by rw [hidx]; exact hx2) (by rw [hidx]; exact hK)
      · rw [this, hidx]
        simp only [lastVolume, Nat.succ_eq_add_one, List.take_succ_cons, List.map_cons, List.getLastD_cons]
      · rw [hm, Real.log_div d1.ne' hc.ne', reach, reach, Real.log_exp, Real.log_exp]
        simp
        ring

/-! ### The error of the integral -/

/-- The error of the integrand at `x`: its value at the sample to whose cell `x` belongs, instead of at `x`. -/
def cellError (g : ℝ → ℝ) (x : ℝ) (l : List (Removal N)) : ℝ≥0∞ :=
  ∑ i ∈ Finset.range l.length, (Set.Ioc (cut (l.map (·.alive)) (i + 1)) (cut (l.map (·.alive)) i)).indicator
    (fun x => ‖g ((l.map (·.volume)).getD i 0) - g x‖ₑ) x

theorem cellError_cell {g : ℝ → ℝ} {x : ℝ} {l : List (Removal N)} {i : Nat} (hi : i < l.length)
    (hx : x ∈ Set.Ioc (cut (l.map (·.alive)) (i + 1)) (cut (l.map (·.alive)) i)) :
    cellError g x l = ‖g ((l.map (·.volume)).getD i 0) - g x‖ₑ := by
  rw [cellError, Finset.sum_eq_single i]
  · exact Set.indicator_of_mem hx _
  · intro j hj hji
    refine Set.indicator_of_notMem (fun hx' => ?_) _
    rcases lt_or_gt_of_ne hji with h | h
    · exact absurd hx'.1 (not_lt.mpr (hx.2.trans (cut_antitone h)))
    · exact absurd hx.1 (not_lt.mpr (hx'.2.trans (cut_antitone h)))
  · intro h
    exact absurd (Finset.mem_range.mpr hi) h

theorem cellError_out {g : ℝ → ℝ} {x : ℝ} {l : List (Removal N)}
    (h : ∀ i < l.length, x ∉ Set.Ioc (cut (l.map (·.alive)) (i + 1)) (cut (l.map (·.alive)) i)) : cellError g x l = 0 :=
  Finset.sum_eq_zero fun i hi => Set.indicator_of_notMem (h i (Finset.mem_range.mp hi)) _

theorem cellError_le {g : ℝ → ℝ} {M : ℝ} (hM : ∀ v, |g v| ≤ M) (x : ℝ) (l : List (Removal N)) : cellError g x l ≤ ENNReal.ofReal (2 * M) := by
  by_cases h : ∃ i < l.length, x ∈ Set.Ioc (cut (l.map (·.alive)) (i + 1)) (cut (l.map (·.alive)) i)
  · obtain ⟨i, hi, hx⟩ := h
    rw [cellError_cell hi hx, Real.enorm_eq_ofReal_abs]
    refine ENNReal.ofReal_le_ofReal ?_
    calc |g _ - g x| ≤ |g _| + |g x| := abs_sub _ _
      _ ≤ 2 * M := by linarith [hM ((l.map (·.volume)).getD i 0), hM x]
  · push Not at h
    rw [cellError_out h]
    exact zero_le

theorem cellError_measurableIn {g : ℝ → ℝ} (hg : Measurable g) {α : Type} [MeasurableSpace α] {x : α → ℝ} (hx : Measurable x) :
    MeasurableIn (fun (a : α) (l : List (Removal N)) => cellError g (x a) l) := by
  intro ds
  have hl : MList ds.length (fun q : α × (Fin ds.length → ℝ) => List.ofFn q.2) := MList.ofFn measurable_snd
  have e1 : ∀ q : α × (Fin ds.length → ℝ), (withVolumes ds (List.ofFn q.2)).map (·.alive) = ds.map (·.2.1) := fun q =>
    (withVolumes_alive ds _ (hl.len q)).1
  have e2 : ∀ q : α × (Fin ds.length → ℝ), (withVolumes ds (List.ofFn q.2)).map (·.volume) = List.ofFn q.2 := fun q =>
    (withVolumes_alive ds _ (hl.len q)).2
  have e3 : ∀ q : α × (Fin ds.length → ℝ), (withVolumes ds (List.ofFn q.2)).length = ds.length := fun q => by
    rw [← List.length_map (f := fun s : Removal N => s.alive), e1, List.length_map]
  simp only [cellError, e1, e2, e3]
  refine Finset.measurable_fun_sum _ fun i _ => ?_
  have hx' : Measurable (fun q : α × (Fin ds.length → ℝ) => x q.1) := hx.comp measurable_fst
  have : Measurable (fun q : α × (Fin ds.length → ℝ) => ‖g ((List.ofFn q.2).getD i 0) - g (x q.1)‖ₑ) :=
    ((hg.comp (hl.meas i)).sub (hg.comp hx')).enorm
  exact this.indicator (hx' measurableSet_Ioc)

theorem lintegral_cellError {g : ℝ → ℝ} (hg : Measurable g) {l : List (Removal N)} (hne : l ≠ []) :
    ∫⁻ x in Set.Ioo (0 : ℝ) 1, cellError g x l = ∑ i ∈ Finset.range l.length,
      ∫⁻ x in Set.Ioc (cut (l.map (·.alive)) (i + 1)) (cut (l.map (·.alive)) i), ‖g ((l.map (·.volume)).getD i 0) - g x‖ₑ := by
  have hsub : ∀ i, i < l.length → Set.Ioc (cut (l.map (·.alive)) (i + 1)) (cut (l.map (·.alive)) i) ⊆ Set.Ioc 0 1 := by
    intro i hi
    refine Set.Ioc_subset_Ioc ?_ ?_
    · rw [← cut_end (ns := l.map (·.alive)) (by simpa using hne)]
      exact cut_antitone (by rw [List.length_map]; omega)
    · have : cut (l.map (·.alive)) 0 = 1 := by simp [cut]
      rw [← this]
      exact cut_antitone (Nat.zero_le i)
  have hm : ∀ i, Measurable (fun x => ‖g ((l.map (·.volume)).getD i 0) - g x‖ₑ) := fun i => (measurable_const.sub hg).enorm
  rw [restrict_Ioo_eq_restrict_Ioc]
  simp only [cellError]
  rw [lintegral_finsetSum _ fun i _ => (hm i).indicator measurableSet_Ioc]
  refine Finset.sum_congr rfl fun i hi => ?_
  rw [lintegral_indicator measurableSet_Ioc, Measure.restrict_restrict measurableSet_Ioc,
    Set.inter_eq_left.mpr (hsub i (Finset.mem_range.mp hi))]

theorem cellError_dev {g : ℝ → ℝ} {M : ℝ} (hM : ∀ v, |g v| ≤ M) {x : ℝ} (hx : 0 < x) {η δ : ℝ} (hη : 0 ≤ η) (hδ : 0 < δ)
    (hcl : ∀ t, |t - Real.log x| < δ → |g (Real.exp t) - g x| ≤ η) {n : Nat} (hn2 : 2 ≤ n) (hn : 1 / (n : ℝ) < δ / 2)
    {l : List (Removal N)} (hd : Descends 1 l) (hlast : (l.map (·.alive)).getLast? = some 1)
    (hp : Plenty (x / 2) n (l.map (·.alive))) :
    cellError g x l ≤ ENNReal.ofReal η + ENNReal.ofReal (2 * M / (δ / 2) ^ 2) * dev x (1 / n * (1 / n - Real.log x)) [] 0 1 l := by
  have hM0 : 0 ≤ M := (abs_nonneg _).trans (hM 0)
  by_cases h : ∃ i < l.length, x ∈ Set.Ioc (cut (l.map (·.alive)) (i + 1)) (cut (l.map (·.alive)) i)
  swap
  · push Not at h
    rw [cellError_out h]
    exact zero_le
  obtain ⟨i, hi, hxi⟩ := h
  have hi' : i < (l.map (·.alive)).length := by rwa [List.length_map]
  obtain ⟨c1, c2⟩ := cell_close hlast hn2 hx hp hi' hxi
  have hl0 : l ≠ [] := List.ne_nil_of_length_pos (by omega)
  have hV : lastVolume 1 (i + 1) l = (l.map (·.volume)).getD i 0 := by
    rw [lastVolume_eq hl0, Nat.min_eq_left (by omega)]
  have hVpos := (hd.last one_pos (i + 1)).1
  rw [cellError_cell hi hxi, dev_eq l (ns0 := []) (ns := l.map (·.alive)) (j := i + 1) one_pos hd hi (by simp) (by simp) (by simp [reach])
    (by simpa using hxi.1) (by simpa using hxi.2) (by simpa [spread] using c2), ← hV, Real.enorm_eq_ofReal_abs]
  simp only [List.length_nil, Nat.zero_add]
  set d := Real.log (lastVolume 1 (i + 1) l) - Real.log (expectedVolume (l.map (·.alive)) (i + 1)) with hdd
  by_cases hds : |d| < δ / 2
  · refine le_trans (ENNReal.ofReal_le_ofReal ?_) le_self_add
    have h1 := hcl (Real.log (lastVolume 1 (i + 1) l)) (by
      calc |Real.log (lastVolume 1 (i + 1) l) - Real.log x|
          ≤ |d| + |Real.log (expectedVolume (l.map (·.alive)) (i + 1)) - Real.log x| := abs_sub_le _ _ _
        _ < δ := by linarith)
    rwa [Real.exp_log hVpos] at h1
  · refine le_trans ?_ le_add_self
    rw [← ENNReal.ofReal_mul (by positivity)]
    refine ENNReal.ofReal_le_ofReal ?_
    have h1 : |g (lastVolume 1 (i + 1) l) - g x| ≤ 2 * M := by
      calc |g _ - g x| ≤ |g _| + |g x| := abs_sub _ _
        _ ≤ 2 * M := by linarith [hM (lastVolume 1 (i + 1) l), hM x]
    refine h1.trans ?_
    have h2 : (δ / 2) ^ 2 ≤ d ^ 2 := by
      rw [← sq_abs d]
      exact pow_le_pow_left₀ (by positivity) (not_lt.mp hds) 2
    rw [div_mul_eq_mul_div, le_div_iff₀ (by positivity)]
    exact mul_le_mul_of_nonneg_left h2 (by positivity)

theorem iterate_last {rule : Rule N} : ∀ (k : Nat) {hist : List (Fin N × ℝ)} {A D : Finset (Fin N)} {x : Fin N → ℝ}, A ⊆ D →
    Fresh rule k hist A D → A.card + Dᶜ.card ≤ k → iterate rule k hist A x ≠ [] →
    ((iterate rule k hist A x).map (·.alive)).getLast? = some 1
  | 0, _, _, _, _, _, _, _, h => absurd rfl h
  | k + 1, hist, A, D, x, hAD, hf, hk, h => by
    by_cases hne : (tops A x).Nonempty
    swap
    · rw [iterate_empty hne] at h
      exact absurd rfl h
    rw [iterate_succ rfl hne]
    set a := (tops A x).min' hne with ha
    have haA : a ∈ A := min'_mem_of_tops hne
    obtain ⟨hdis, hf'⟩ := hf a haA (x a)
    set B := rule ((a, x a) :: hist) with hB
    have hsub : A.erase a ∪ B ⊆ D ∪ B := Finset.union_subset_union ((Finset.erase_subset _ _).trans hAD) (Finset.Subset.refl _)
    have hd1 : Disjoint (A.erase a) B := (Finset.disjoint_of_subset_left ((Finset.erase_subset _ _).trans hAD) hdis.symm)
    have hc1 : (A.erase a ∪ B).card = A.card - 1 + B.card := by
      rw [Finset.card_union_of_disjoint hd1, Finset.card_erase_of_mem haA]
    have hc2 : (D ∪ B)ᶜ.card + B.card = Dᶜ.card := by
      have h1 := Finset.card_union_of_disjoint hdis.symm
      have h2 := Finset.card_compl (D ∪ B)
      have h3 := Finset.card_compl D
      have h4 := Finset.card_le_univ (D ∪ B)
      simp only [Fintype.card_fin] at h2 h3 h4
      omega
    have hpos := Finset.card_pos.mpr ⟨a, haA⟩
    by_cases hnil : iterate rule k ((a, x a) :: hist) (A.erase a ∪ B) (fun b => if b ∈ B then x a * x b else x b) = []
    · rw [hnil]
      have hcard : (A.erase a ∪ B).card = 0 := by
        rcases k with _ | k
        · omega
        · by_contra hne0
          have h1 := tops_nonempty (Finset.card_pos.mp (Nat.pos_of_ne_zero hne0)) (fun b => if b ∈ B then x a * x b else x b)
          rw [iterate_succ rfl h1] at hnil
          simp at hnil
      simp only [List.map_cons, List.map_nil, List.getLast?_singleton]
      congr 1
      omega
    · have := iterate_last k hsub hf' (by omega) hnil
      rw [List.map_cons, List.getLast?_cons]
      simp only [hB] at this ⊢
      rw [this]
      rfl

theorem removals_last {rule : Rule N} {start : Finset (Fin N)} (hs : StoppingSchedule rule start) (u : Fin N → ℝ) :
    ((removals rule start u).map (·.alive)).getLast? = some 1 := by
  refine iterate_last N (Finset.Subset.refl start) hs.fresh ?_ (removals_ne_nil hs u)
  rw [Finset.card_compl, Fintype.card_fin]
  have := Finset.card_le_univ start
  simp only [Fintype.card_fin] at this
  omega

/-! ### The numbers of live points -/

theorem iterate_chain {rule : Rule N} : ∀ (k : Nat) {hist : List (Fin N × ℝ)} {A : Finset (Fin N)} {x : Fin N → ℝ},
    (((iterate rule k hist A x).map (·.alive)).IsChain (fun a b => a ≤ b + 1)) ∧
      ∀ m, ((iterate rule k hist A x).map (·.alive)).head? = some m → m = A.card
  | 0, _, _, _ => by simp [iterate]
  | k + 1, hist, A, x => by
    by_cases hne : (tops A x).Nonempty
    swap
    · rw [iterate_empty hne]
      simp
    rw [iterate_succ rfl hne, List.map_cons]
    obtain ⟨ih1, ih2⟩ := iterate_chain (rule := rule) k (hist := ((tops A x).min' hne, x ((tops A x).min' hne)) :: hist)
      (A := A.erase ((tops A x).min' hne) ∪ rule (((tops A x).min' hne, x ((tops A x).min' hne)) :: hist))
      (x := fun b => if b ∈ rule (((tops A x).min' hne, x ((tops A x).min' hne)) :: hist) then x ((tops A x).min' hne) * x b else x b)
    refine ⟨List.isChain_cons.mpr ⟨fun m hm => ?_, ih1⟩, fun m hm => by simpa using hm.symm⟩
    rw [ih2 m hm]
    have h1 := Finset.card_erase_of_mem (min'_mem_of_tops hne)
    have h2 := Finset.card_le_card (Finset.subset_union_left (s₁ := A.erase ((tops A x).min' hne))
      (s₂ := rule (((tops A x).min' hne, x ((tops A x).min' hne)) :: hist)))
    dsimp only
    omega

theorem removals_plenty {rule : Rule N} {start : Finset (Fin N)} (hs : StoppingSchedule rule start) (u : Fin N → ℝ) {ε : ℝ} {n : Nat}
    (hn : n < ε * (start.card + 1)) : Plenty ε n ((removals rule start u).map (·.alive)) := by
  obtain ⟨h1, h2⟩ := iterate_chain (rule := rule) N (hist := []) (A := start) (x := u)
  refine plenty_of_start (n0 := start.card) ?_ h1 ?_ hn
  · cases h : ((removals rule start u).map (·.alive)).head? with
    | none => exact absurd (by simpa using h) (removals_ne_nil hs u)
    | some m => exact h.trans (congrArg some (h2 m h))
  · intro m hm
    obtain ⟨s, hs', rfl⟩ := List.mem_map.mp hm
    exact iterate_alive N s hs'

/-- The mean error at a point is small. -/
theorem mean_cellError {rule : Rule N} {start : Finset (Fin N)} (hs : StoppingSchedule rule start) {g : ℝ → ℝ} {M : ℝ}
    (hM : ∀ v, |g v| ≤ M) {x : ℝ} (hx : x ∈ Set.Ioo (0 : ℝ) 1) {η δ : ℝ} (hη : 0 ≤ η) (hδ : 0 < δ)
    (hcl : ∀ t, |t - Real.log x| < δ → |g (Real.exp t) - g x| ≤ η) {n : Nat} (hn2 : 2 ≤ n) (hn : 1 / (n : ℝ) < δ / 2)
    (hstart : n < x / 2 * (start.card + 1)) :
    ∫⁻ u, cellError g x (removals rule start u) ∂unifPow N ≤ ENNReal.ofReal η +
      ENNReal.ofReal (2 * M / (δ / 2) ^ 2) * ENNReal.ofReal (1 / n * (1 / n - Real.log x)) := by
  set K := 1 / (n : ℝ) * (1 / n - Real.log x) with hK
  have hK0 : 0 ≤ K := by
    have := Real.log_nonpos hx.1.le hx.2.le
    have h2 : (0 : ℝ) ≤ 1 / n := by positivity
    exact mul_nonneg h2 (by linarith)
  have hdm : MeasurableIn (fun (_ : Unit) (l : List (Removal N)) => dev x K [] 0 1 l) := fun ds =>
    dev_withVolumes x K ds [] measurable_const measurable_const (MList.ofFn measurable_snd)
  have hdm' : Measurable (fun u : Fin N → ℝ => dev x K [] 0 1 (removals rule start u)) :=
    removals_measurable hs.measurable (hdm.comp (measurable_const (a := ())))
  have hint : ∫⁻ u, dev x K [] 0 1 (removals rule start u) ∂unifPow N ≤ ENNReal.ofReal K := by
    have h1 := lintegral_iterate (Φ := dev x K [] 0 1) hs.measurable N one_pos (Finset.Subset.refl start) hs.fresh hdm
    simp only [scale_one] at h1
    refine (le_of_eq h1).trans ((expect_dev x N one_pos (by simpa [spread] using hK0)).trans (le_of_eq ?_))
    simp [spread]
  calc ∫⁻ u, cellError g x (removals rule start u) ∂unifPow N
      ≤ ∫⁻ u, (ENNReal.ofReal η + ENNReal.ofReal (2 * M / (δ / 2) ^ 2) * dev x K [] 0 1 (removals rule start u)) ∂unifPow N := by
        refine lintegral_mono_ae ?_
        filter_upwards [removals_descend hs] with u hu
        exact cellError_dev hM hx.1 hη hδ hcl hn2 hn hu (removals_last hs u) (removals_plenty hs u hstart)
    _ = ENNReal.ofReal η + ENNReal.ofReal (2 * M / (δ / 2) ^ 2) * ∫⁻ u, dev x K [] 0 1 (removals rule start u) ∂unifPow N := by
        rw [lintegral_add_left measurable_const, lintegral_const, measure_univ, mul_one, lintegral_const_mul _ hdm']
    _ ≤ _ := by gcongr

/-- The volumes which the points of adaptive samplers enclose are close to those expected, on average over the cells. -/
theorem removals_error_tendsto {N : ℕ → Nat} {rule : ∀ k, Rule (N k)} {start : ∀ k, Finset (Fin (N k))}
    (hs : ∀ k, StoppingSchedule (rule k) (start k))
    (hn : Tendsto (fun k => (start k).card) atTop atTop)
    {g : ℝ → ℝ} {M : ℝ} (hM : ∀ v, |g v| ≤ M) (hg : Measurable g) (hcont : ∀ᵐ x ∂volume.restrict (Set.Ioo (0 : ℝ) 1), ContinuousAt g x) :
    Tendsto (fun k => ∫⁻ u, (∫⁻ x in Set.Ioo (0 : ℝ) 1, cellError g x (removals (rule k) (start k) u)) ∂unifPow (N k)) atTop (𝓝 0) := by
  have hM0 : 0 ≤ M := (abs_nonneg _).trans (hM 0)
  have hjoint : ∀ k, Measurable (fun p : (Fin (N k) → ℝ) × ℝ => cellError g p.2 (removals (rule k) (start k) p.1)) := fun k =>
    iterate_measurable (hs k).measurable (N k) [] (start k) (τ := fun _ => []) (x := fun p : (Fin (N k) → ℝ) × ℝ => p.1)
      (Φ := fun p l => cellError g p.2 l) MList.nil measurable_fst (cellError_measurableIn hg measurable_snd)
  have hswap : ∀ k, ∫⁻ u, (∫⁻ x in Set.Ioo (0 : ℝ) 1, cellError g x (removals (rule k) (start k) u)) ∂unifPow (N k) =
      ∫⁻ x in Set.Ioo (0 : ℝ) 1, (∫⁻ u, cellError g x (removals (rule k) (start k) u) ∂unifPow (N k)) := fun k =>
    lintegral_lintegral_swap (f := fun u x => cellError g x (removals (rule k) (start k) u)) (hjoint k).aemeasurable
  simp only [hswap]
  have hlim := tendsto_lintegral_of_dominated_convergence (μ := volume.restrict (Set.Ioo (0 : ℝ) 1))
    (F := fun k x => ∫⁻ u, cellError g x (removals (rule k) (start k) u) ∂unifPow (N k)) (f := fun _ => 0)
    (fun _ => ENNReal.ofReal (2 * M)) (fun k => (hjoint k).lintegral_prod_left') (fun k => Eventually.of_forall fun x => ?_)
    (by rw [lintegral_const]; exact ENNReal.mul_ne_top ENNReal.ofReal_ne_top (by simp)) ?_
  · simpa using hlim
  · calc ∫⁻ u, cellError g x (removals (rule k) (start k) u) ∂unifPow (N k) ≤ ∫⁻ _, ENNReal.ofReal (2 * M) ∂unifPow (N k) :=
          lintegral_mono fun u => cellError_le hM x _
      _ = _ := by rw [lintegral_const, measure_univ, mul_one]
  filter_upwards [hcont, ae_restrict_mem measurableSet_Ioo] with x hx hx01
  rw [ENNReal.tendsto_nhds_zero]
  intro ε hε
  by_cases hεt : ε = ⊤
  · exact Eventually.of_forall fun k => by rw [hεt]; exact le_top
  set η := ε.toReal / 2 with hη
  have hη0 : 0 < η := div_pos (ENNReal.toReal_pos hε.ne' hεt) two_pos
  have hc : ContinuousAt (fun t => g (Real.exp t)) (Real.log x) := by
    refine ContinuousAt.comp (f := Real.exp) ?_ Real.continuous_exp.continuousAt
    rw [Real.exp_log hx01.1]
    exact hx
  obtain ⟨δ, hδ, hcl⟩ := Metric.continuousAt_iff.mp hc η hη0
  have hcl' : ∀ t, |t - Real.log x| < δ → |g (Real.exp t) - g x| ≤ η := fun t ht => by
    have := hcl (x := t) (by rwa [Real.dist_eq])
    rw [Real.dist_eq, Real.exp_log hx01.1] at this
    exact this.le
  have hlimN : Tendsto (fun n : Nat => 2 * M / (δ / 2) ^ 2 * (1 / n * (1 / n - Real.log x))) atTop (𝓝 0) := by
    have h1 : Tendsto (fun n : Nat => 1 / (n : ℝ)) atTop (𝓝 0) := tendsto_one_div_atTop_nhds_zero_nat
    have h2 := (h1.mul (h1.sub_const (Real.log x))).const_mul (2 * M / (δ / 2) ^ 2)
    simpa using h2
  have h1 : ∀ᶠ n : Nat in atTop, 1 / (n : ℝ) < δ / 2 :=
    tendsto_one_div_atTop_nhds_zero_nat.eventually_lt_const (by positivity)
  obtain ⟨n, n1, n2, n3⟩ := (h1.and ((hlimN.eventually_lt_const hη0).and (eventually_ge_atTop 2))).exists
  obtain ⟨C, hC⟩ := exists_nat_gt (n / (x / 2))
  filter_upwards [hn.eventually_ge_atTop C] with k hk
  have hstart : n < x / 2 * ((start k).card + 1) := by
    have h4 : (C : ℝ) ≤ (start k).card := by exact_mod_cast hk
    rw [div_lt_iff₀ (by linarith [hx01.1])] at hC
    have h5 : x / 2 * C ≤ x / 2 * ((start k).card + 1) := mul_le_mul_of_nonneg_left (by linarith) (by linarith [hx01.1])
    linarith
  have h3 : ENNReal.ofReal (2 * M / (δ / 2) ^ 2) * ENNReal.ofReal (1 / n * (1 / n - Real.log x)) ≤ ENNReal.ofReal η := by
    rw [← ENNReal.ofReal_mul (by positivity)]
    exact ENNReal.ofReal_le_ofReal n2.le
  refine (mean_cellError (hs k) hM hx01 hη0.le hδ hcl' n3 n1 hstart).trans ((add_le_add le_rfl h3).trans (le_of_eq ?_))
  rw [← ENNReal.ofReal_add hη0.le hη0.le, ← ENNReal.ofReal_toReal hεt]
  congr 1
  rw [hη]
  ring

end

end Nestcheck
