import Mathlib.MeasureTheory.Integral.IntervalIntegral.Basic
import Verif.Props.Consistency

/-! C101: the evidence of a run as an integral over likelihoods, and the prior volumes of runs with a constant number of live points. -/

namespace Nestcheck
open Spec MeasureTheory

noncomputable section

/-! ### Volumes -/

/-- `N` live points, of which the last ones are not replaced. -/
def flatCounts (N n : Nat) : List Nat := (List.range n).map (fun i => min N (n - i))

theorem flatCounts_length : (flatCounts N n).length = n := by simp [flatCounts]

theorem flatCounts_getElem? {i : Nat} (h : i < n) : (flatCounts N n)[i]? = some (min N (n - i)) := by
  simp [flatCounts, h]

theorem flat_volume (h : N ≤ n) : ∀ m ≤ n - N, expectedVolume (flatCounts N n) m = Real.exp (-((m : ℝ) / N))
  | 0, _ => by simp [expectedVolume_zero]
  | m + 1, hm => by
    rcases Nat.eq_zero_or_pos N with rfl | hN
    · rw [expectedVolume_succ (flatCounts_getElem? (by omega)), flat_volume h m (by omega)]
      simp
    rw [expectedVolume_succ (flatCounts_getElem? (by omega)), flat_volume h m (by omega), ← Real.exp_add, min_eq_left (by omega)]
    congr 1
    push_cast
    ring

theorem flat_volume_end (hN : 0 < N) (h : N ≤ n) : ∀ r ≤ N,
    Real.exp (-(((n - N : Nat) : ℝ) / N)) * (((N : ℝ) - r) / N) ≤ expectedVolume (flatCounts N n) (n - N + r) ∧
      expectedVolume (flatCounts N n) (n - N + r) ≤ Real.exp (-(((n - N : Nat) : ℝ) / N)) * (((N : ℝ) - r + 1) / (N + 1))
  | 0, _ => by
    have hN' : (0 : ℝ) < N := by exact_mod_cast hN
    rw [Nat.add_zero, flat_volume h _ le_rfl]
    simp only [Nat.cast_zero, sub_zero]
    rw [div_self hN'.ne', div_self (by positivity), mul_one]
    exact ⟨le_rfl, le_rfl⟩
  | r + 1, hr => by
    obtain ⟨ih1, ih2⟩ := flat_volume_end hN h r (by omega)
    have hN' : (0 : ℝ) < N := by exact_mod_cast hN
    set E := Real.exp (-(((n - N : Nat) : ℝ) / N)) with hE
    have hE0 : 0 < E := Real.exp_pos _
    have hs : (min N (n - (n - N + r)) : Nat) = N - r := by omega
    rw [← Nat.add_assoc, expectedVolume_succ (flatCounts_getElem? (by omega)), hs, Nat.cast_sub (by omega)]
    have hrs : (0 : ℝ) < (N : ℝ) - r := by
      have : (r : ℝ) + 1 ≤ N := by exact_mod_cast hr
      linarith
    set s : ℝ := (N : ℝ) - r with hsdef
    have hcast : (N : ℝ) - ((r + 1 : Nat) : ℝ) = s - 1 := by push_cast; ring
    rw [hcast]
    have e1 : 1 - 1 / s ≤ Real.exp (-(1 / s)) := by
      have := Real.add_one_le_exp (-(1 / s))
      linarith
    have e2 : Real.exp (-(1 / s)) ≤ s / (s + 1) := by
      rw [Real.exp_neg, inv_eq_one_div, div_le_div_iff₀ (Real.exp_pos _) (by linarith)]
      have := Real.add_one_le_exp (1 / s)
      have h3 : s * (1 / s + 1) = s + 1 := by field_simp; ring
      nlinarith
    constructor
    · calc E * ((s - 1) / N) = E * (s / N) * (1 - 1 / s) := by field_simp
        _ ≤ E * (s / N) * Real.exp (-(1 / s)) := mul_le_mul_of_nonneg_left e1 (by positivity)
        _ ≤ _ := mul_le_mul_of_nonneg_right ih1 (Real.exp_pos _).le
    · calc _ ≤ E * ((s + 1) / (N + 1)) * Real.exp (-(1 / s)) := mul_le_mul_of_nonneg_right ih2 (Real.exp_pos _).le
        _ ≤ E * ((s + 1) / (N + 1)) * (s / (s + 1)) := mul_le_mul_of_nonneg_left e2 (by positivity)
        _ = E * ((s - 1 + 1) / (N + 1)) := by
          have : s + 1 ≠ 0 := by positivity
          field_simp
          ring

/-- The prior volume left after `d` samples that were replaced and `r` that were not. -/
def flatVolume (N : Nat) (d r : ℝ) : ℝ := Real.exp (-(d / N)) * (1 - r / N)

theorem flat_cut (hN : 0 < N) (h : N ≤ n) {d r : Nat} (hd : d ≤ n - N) (hr : r ≤ N) (hdr : r ≠ 0 → d = n - N) :
    |cut (flatCounts N n) (d + r) - flatVolume N d r| ≤ 1 / N := by
  have hN' : (0 : ℝ) < N := by exact_mod_cast hN
  have hone : (0 : ℝ) < 1 / N := by positivity
  unfold flatVolume
  have hEle : Real.exp (-((d : ℝ) / N)) ≤ 1 := Real.exp_le_one_iff.mpr (by
    have : (0 : ℝ) ≤ (d : ℝ) / N := by positivity
    linarith)
  have hEpos := Real.exp_pos (-((d : ℝ) / N))
  have hr' : (r : ℝ) ≤ N := by exact_mod_cast hr
  -- the volume itself
  have hup : expectedVolume (flatCounts N n) (d + r) ≤ Real.exp (-((d : ℝ) / N)) * (1 - r / N) + 1 / N := by
    rcases Nat.eq_zero_or_pos r with rfl | hrp
    · rw [Nat.add_zero, flat_volume h _ hd]
      simp
    · obtain rfl := hdr hrp.ne'
      refine (flat_volume_end hN h r hr).2.trans ?_
      have : ((N : ℝ) - r + 1) / (N + 1) ≤ (1 - r / N) + 1 / N := by
        rw [div_le_iff₀ (by positivity)]
        have e : (1 - (r : ℝ) / N + 1 / N) * (N + 1) = (N - r + 1) + (N - r + 1) / N := by field_simp
        rw [e]
        have : 0 ≤ ((N : ℝ) - r + 1) / N := div_nonneg (by linarith) hN'.le
        linarith
      calc _ ≤ Real.exp (-(((n - N : Nat) : ℝ) / N)) * ((1 - r / N) + 1 / N) := mul_le_mul_of_nonneg_left this hEpos.le
        _ = Real.exp (-(((n - N : Nat) : ℝ) / N)) * (1 - r / N) + Real.exp (-(((n - N : Nat) : ℝ) / N)) * (1 / N) := by ring
        _ ≤ _ := by nlinarith
  by_cases hz : d + r = 0
  · obtain ⟨rfl, rfl⟩ : d = 0 ∧ r = 0 := by omega
    simp [cut]
  by_cases hlt : d + r < n
  · have hc1 := cut_le (ns := flatCounts N n) (d + r)
    have hc2 := le_cut (ns := flatCounts N n) (i := d + r) (by rwa [flatCounts_length])
    have hlow : Real.exp (-((d : ℝ) / N)) * (1 - r / N) - 1 / N ≤ expectedVolume (flatCounts N n) (d + r + 1) := by
      by_cases hd2 : d < n - N
      · obtain rfl : r = 0 := by
          by_contra hne
          have := hdr hne
          omega
        rw [Nat.add_zero, flat_volume h _ hd2]
        have e : Real.exp (-(((d + 1 : Nat) : ℝ) / N)) = Real.exp (-((d : ℝ) / N)) * Real.exp (-(1 / (N : ℝ))) := by
          rw [← Real.exp_add]
          congr 1
          push_cast
          ring
        rw [e]
        have := Real.add_one_le_exp (-(1 / (N : ℝ)))
        have h3 : Real.exp (-((d : ℝ) / N)) * (1 - 1 / N) ≤ Real.exp (-((d : ℝ) / N)) * Real.exp (-(1 / (N : ℝ))) :=
          mul_le_mul_of_nonneg_left (by linarith) hEpos.le
        simp only [Nat.cast_zero, zero_div, sub_zero, mul_one]
        nlinarith
      · obtain rfl : d = n - N := by omega
        refine le_trans ?_ (flat_volume_end hN h (r + 1) (by omega)).1
        have e : ((N : ℝ) - ((r + 1 : Nat) : ℝ)) / N = (1 - r / N) - 1 / N := by
          push_cast
          field_simp
          ring
        rw [e, mul_sub]
        nlinarith
    rw [abs_le]
    constructor <;> linarith
  · obtain ⟨rfl, rfl⟩ : d = n - N ∧ r = N := by
      by_cases h0 : r = 0
      · omega
      · have := hdr h0
        omega
    have : n - r + r = n := by omega
    rw [this]
    have hne : flatCounts r n ≠ [] := by
      intro h0
      have := congrArg List.length h0
      rw [flatCounts_length] at this
      simp at this
      omega
    have h0 := cut_end hne
    rw [flatCounts_length] at h0
    rw [h0, div_self hN'.ne']
    simp

theorem flatVolume_lipschitz {N : Nat} (hN : 0 < N) {d r d' r' : ℝ} (h1 : 0 ≤ d) (h2 : 0 ≤ d') (h3 : 0 ≤ r) (h4 : r ≤ N) :
    |flatVolume N d r - flatVolume N d' r'| ≤ |d - d'| / N + |r - r'| / N := by
  have hN' : (0 : ℝ) < N := by exact_mod_cast hN
  have hexp : ∀ a b : ℝ, 0 ≤ a → 0 ≤ b → |Real.exp (-a) - Real.exp (-b)| ≤ |a - b| := by
    have key : ∀ a b : ℝ, 0 ≤ a → a ≤ b → |Real.exp (-a) - Real.exp (-b)| ≤ |a - b| := by
      intro a b ha hab
      have e1 : Real.exp (-b) ≤ Real.exp (-a) := Real.exp_le_exp.mpr (by linarith)
      rw [abs_of_nonneg (by linarith), abs_of_nonpos (by linarith)]
      have e2 := Real.add_one_le_exp (a - b)
      have e3 : Real.exp (-b) = Real.exp (-a) * Real.exp (a - b) := by rw [← Real.exp_add]; congr 1; ring
      have e4 : Real.exp (-a) ≤ 1 := Real.exp_le_one_iff.mpr (by linarith)
      have e5 := Real.exp_pos (-a)
      rw [e3]
      nlinarith
    intro a b ha hb
    rcases le_total a b with h | h
    · exact key a b ha h
    · rw [abs_sub_comm, abs_sub_comm a]
      exact key b a hb h
  unfold flatVolume
  have e : Real.exp (-(d / N)) * (1 - r / N) - Real.exp (-(d' / N)) * (1 - r' / N) =
      (Real.exp (-(d / N)) - Real.exp (-(d' / N))) * (1 - r / N) - Real.exp (-(d' / N)) * ((r - r') / N) := by ring
  rw [e]
  refine (abs_sub _ _).trans ?_
  rw [abs_mul, abs_mul]
  have hb : |1 - r / N| ≤ 1 := by
    have : 0 ≤ r / N := by positivity
    have : r / N ≤ 1 := (div_le_one hN').mpr h4
    rw [abs_le]
    constructor <;> linarith
  have hc : |Real.exp (-(d' / N))| ≤ 1 := by
    rw [abs_of_pos (Real.exp_pos _)]
    refine Real.exp_le_one_iff.mpr ?_
    have : 0 ≤ d' / N := by positivity
    linarith
  have hd := hexp (d / N) (d' / N) (by positivity) (by positivity)
  have e3 : |d / N - d' / N| = |d - d'| / N := by rw [← sub_div, abs_div, abs_of_pos hN']
  rw [e3] at hd
  have e4 : |(r - r') / N| = |r - r'| / N := by rw [abs_div, abs_of_pos hN']
  rw [e4]
  have := abs_nonneg (Real.exp (-(d / N)) - Real.exp (-(d' / N)))
  have : 0 ≤ |r - r'| / N := by positivity
  nlinarith [abs_nonneg (1 - r / N), abs_nonneg (Real.exp (-(d' / N)))]

/-! ### The evidence as an integral over likelihoods -/

theorem cut_levels {ns : List Nat} {L : List ℝ} (hlen : ns.length = L.length) (hne : ns ≠ []) (hsort : L.Pairwise (· ≤ ·)) (t : ℝ) :
    ∑ i ∈ Finset.range ns.length, (cut ns i - cut ns (i + 1)) * (if t < L.getD i 0 then 1 else 0) =
      cut ns (L.countP (fun x => decide (x ≤ t))) := by
  set m := L.countP (fun x => decide (x ≤ t)) with hm
  have hml : m ≤ ns.length := hlen ▸ List.countP_le_length
  have hiff : ∀ i < L.length, (t < L.getD i 0 ↔ m ≤ i) := by
    rw [hm]
    clear hm hml
    clear hlen
    induction L with
    | nil => simp
    | cons x L ih =>
      rw [List.pairwise_cons] at hsort
      have ih := ih hsort.2
      intro i hi
      rcases i with _ | i
      · rw [List.getD_cons_zero, List.countP_cons, Nat.le_zero, Nat.add_eq_zero_iff]
        constructor
        · intro h
          refine ⟨?_, by simp [h]⟩
          rw [List.countP_eq_zero]
          intro y hy
          have := hsort.1 y hy
          simp only [decide_eq_true_eq, not_le]
          linarith
        · rintro ⟨-, h⟩
          by_contra hc
          simp [not_lt.mp hc] at h
      · rw [List.getD_cons_succ, ih i (by simpa using hi), List.countP_cons]
        by_cases hx : x ≤ t
        · simp [hx]
        · have h0 : L.countP (fun x => decide (x ≤ t)) = 0 := by
            rw [List.countP_eq_zero]
            intro y hy
            have := hsort.1 y hy
            simp only [decide_eq_true_eq, not_le]
            linarith [not_le.mp hx]
          simp [h0, hx]
  have h1 : ∑ i ∈ Finset.range ns.length, (cut ns i - cut ns (i + 1)) * (if t < L.getD i 0 then 1 else 0) =
      ∑ i ∈ Finset.Ico m ns.length, (cut ns i - cut ns (i + 1)) := by
    rw [← Finset.sum_filter_add_sum_filter_not (Finset.range ns.length) (fun i => m ≤ i)]
    have e1 : (Finset.range ns.length).filter (fun i => m ≤ i) = Finset.Ico m ns.length := by
      ext i
      simp [and_comm]
    have e2 : ∑ i ∈ (Finset.range ns.length).filter (fun i => ¬ m ≤ i), (cut ns i - cut ns (i + 1)) * (if t < L.getD i 0 then 1 else 0) = 0 := by
      apply Finset.sum_eq_zero
      intro i hi
      rw [Finset.mem_filter, Finset.mem_range] at hi
      rw [if_neg (by rw [hiff i (by omega)]; exact hi.2), mul_zero]
    rw [e1, e2, add_zero]
    apply Finset.sum_congr rfl
    intro i hi
    rw [Finset.mem_Ico] at hi
    rw [if_pos ((hiff i (by omega)).mpr hi.1), mul_one]
  rw [h1, Finset.sum_Ico_eq_sub _ hml, Finset.sum_range_sub', Finset.sum_range_sub', cut_end hne]
  ring

theorem level_integral {x M : ℝ} (h0 : 0 ≤ x) (hM : x ≤ M) : ∫ t in Set.Ioo 0 M, (if t < x then (1 : ℝ) else 0) = x := by
  have : (fun t : ℝ => if t < x then (1 : ℝ) else 0) = (Set.Iio x).indicator (fun _ => 1) := by
    funext t
    simp [Set.indicator]
  rw [this, setIntegral_indicator measurableSet_Iio, Set.Ioo_inter_Iio, setIntegral_const, min_eq_right hM]
  simp [h0]

theorem sum_levels {ns : List Nat} {L : List ℝ} (hlen : ns.length = L.length) (hne : ns ≠ []) (hsort : L.Pairwise (· ≤ ·)) {M : ℝ}
    (h0 : ∀ x ∈ L, 0 ≤ x ∧ x ≤ M) :
    ∑ i ∈ Finset.range ns.length, (cut ns i - cut ns (i + 1)) * L.getD i 0 =
      ∫ t in Set.Ioo 0 M, cut ns (L.countP (fun x => decide (x ≤ t))) := by
  have hint : ∀ x : ℝ, Integrable (fun t : ℝ => if t < x then (1 : ℝ) else 0) (volume.restrict (Set.Ioo 0 M)) := by
    intro x
    refine Integrable.of_bound (C := 1) ?_ (by
      refine Filter.Eventually.of_forall fun t => ?_
      split_ifs <;> simp)
    exact (Measurable.ite measurableSet_Iio measurable_const measurable_const).aestronglyMeasurable
  simp_rw [← cut_levels hlen hne hsort]
  rw [integral_finsetSum _ fun i _ => (hint _).const_mul _]
  apply Finset.sum_congr rfl
  intro i hi
  rw [Finset.mem_range] at hi
  rw [integral_const_mul]
  have hm := h0 (L.getD i 0) (by
    rw [List.getD_eq_getElem?_getD, List.getElem?_eq_getElem (hlen ▸ hi)]
    exact List.getElem_mem _)
  rw [level_integral hm.1 hm.2]

end
end Nestcheck
