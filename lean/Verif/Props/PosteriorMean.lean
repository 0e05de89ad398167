import Mathlib.Probability.Moments.Variance
import Mathlib.MeasureTheory.Integral.Pi
import Verif.Props.PosteriorRun

/-! C96: sums over the samples of functions of the volumes and of the spots. -/

namespace Nestcheck
open Spec MeasureTheory ProbabilityTheory ENNReal Filter Topology
variable {σ E : Type} {N : Nat}

noncomputable section

/-! ### The cells are small -/

theorem cut_nonneg {ns : List Nat} (i : Nat) : 0 ≤ cut ns i := by
  unfold cut
  split_ifs
  · exact zero_le_one
  · have h1 := expectedVolume_pos (ns := ns) i
    have h2 := expectedVolume_pos (ns := ns) (i + 1)
    linarith
  · exact le_rfl

theorem cell_width {ns : List Nat} (hlast : ns.getLast? = some 1) {ε : ℝ} {n : Nat} (hn : 2 ≤ n) (hp : Plenty ε n ns) {i : Nat}
    (hi : i < ns.length) (hε : 0 < ε) : cut ns i - cut ns (i + 1) ≤ 2 * ε + 2 / n := by
  have hn0 : (0 : ℝ) < n := by exact_mod_cast (by omega : 0 < n)
  have h2n : (0 : ℝ) < 2 / n := by positivity
  have hc := cut_le (ns := ns) i
  have hc' := cut_nonneg (ns := ns) (i + 1)
  have hstep : ∀ j m : Nat, ns[j]? = some m → n ≤ m → expectedVolume ns j * (1 - 1 / n) ≤ expectedVolume ns (j + 1) := by
    intro j m hj hm
    rw [expectedVolume_succ hj]
    refine mul_le_mul_of_nonneg_left ?_ (expectedVolume_pos j).le
    have h1 := Real.add_one_le_exp (-(1 / (m : ℝ)))
    have h2 : 1 / (m : ℝ) ≤ 1 / n := one_div_le_one_div_of_le hn0 (by exact_mod_cast hm)
    linarith
  by_cases h1 : expectedVolume ns i < ε
  · linarith
  · rw [not_lt] at h1
    have hm := hp i ns[i] (List.getElem?_eq_getElem hi) h1
    have hi1 : i + 1 < ns.length := by
      by_contra hge
      have : i = ns.length - 1 := by omega
      rw [List.getLast?_eq_getElem?, ← this, List.getElem?_eq_getElem hi] at hlast
      have := Option.some.inj hlast
      omega
    have h2 := hstep i ns[i] (List.getElem?_eq_getElem hi) hm
    have hle1 : expectedVolume ns i ≤ 1 := (expectedVolume_anti (Nat.zero_le i)).trans expectedVolume_zero.le
    have hhalf : 1 / (n : ℝ) ≤ 1 / 2 := one_div_le_one_div_of_le two_pos (by exact_mod_cast hn)
    have hinv : 0 < 1 / (n : ℝ) := by positivity
    by_cases h3 : expectedVolume ns (i + 1) < ε
    · have := expectedVolume_pos (ns := ns) i
      nlinarith
    · rw [not_lt] at h3
      have hm' := hp (i + 1) ns[i + 1] (List.getElem?_eq_getElem hi1) h3
      have h4 := hstep (i + 1) ns[i + 1] (List.getElem?_eq_getElem hi1) hm'
      have h5 := le_cut hi1
      have h6 : expectedVolume ns (i + 1) ≤ 1 := (expectedVolume_anti (Nat.zero_le _)).trans expectedVolume_zero.le
      have h7 : (2 : ℝ) / n = 1 / n + 1 / n := by ring
      rw [h7]
      nlinarith

theorem sum_cells {ns : List Nat} (hne : ns ≠ []) : ∑ i ∈ Finset.range ns.length, (cut ns i - cut ns (i + 1)) = 1 := by
  rw [Finset.sum_range_sub', cut_end hne]
  simp [cut]

theorem sum_squares {ns : List Nat} (hne : ns ≠ []) {κ : ℝ} (h : ∀ i < ns.length, cut ns i - cut ns (i + 1) ≤ κ) :
    ∑ i ∈ Finset.range ns.length, (cut ns i - cut ns (i + 1)) ^ 2 ≤ κ := by
  calc ∑ i ∈ Finset.range ns.length, (cut ns i - cut ns (i + 1)) ^ 2
      ≤ ∑ i ∈ Finset.range ns.length, κ * (cut ns i - cut ns (i + 1)) := by
        refine Finset.sum_le_sum fun i hi => ?_
        rw [pow_two]
        exact mul_le_mul_of_nonneg_right (h i (Finset.mem_range.mp hi)) (sub_nonneg.mpr (cut_succ_le i))
    _ = κ := by rw [← Finset.mul_sum, sum_cells hne, mul_one]

/-! ### No point is removed twice -/

theorem iterate_points {rule : Rule N} : ∀ (k : Nat) {hist : List (Fin N × ℝ)} {A D : Finset (Fin N)} {x : Fin N → ℝ},
    A ⊆ D → Fresh rule k hist A D →
    ((iterate rule k hist A x).map (·.point)).Nodup ∧ ∀ s ∈ iterate rule k hist A x, s.point ∈ A ∨ s.point ∉ D
  | 0, _, _, _, _, _, _ => by simp [iterate]
  | k + 1, hist, A, D, x, hAD, hf => by
    by_cases hne : (tops A x).Nonempty
    swap
    · rw [iterate_empty hne]
      simp
    rw [iterate_succ rfl hne]
    set a := (tops A x).min' hne with ha
    have haA : a ∈ A := min'_mem_of_tops hne
    obtain ⟨hd, hf⟩ := hf a haA (x a)
    set S := rule ((a, x a) :: hist) with hS
    obtain ⟨ih1, ih2⟩ := iterate_points k (x := fun b => if b ∈ S then x a * x b else x b)
      (Finset.union_subset_union ((Finset.erase_subset a _).trans hAD) (Finset.Subset.refl S)) hf
    refine ⟨?_, ?_⟩
    · rw [List.map_cons, List.nodup_cons]
      refine ⟨fun hmem => ?_, ih1⟩
      obtain ⟨s, hs, e⟩ := List.mem_map.mp hmem
      rcases ih2 s hs with h | h
      · rw [e] at h
        simp only [Finset.mem_union, Finset.mem_erase, ne_eq, not_true_eq_false, false_and, false_or] at h
        exact Finset.disjoint_left.mp hd h (hAD haA)
      · rw [e] at h
        exact h (Finset.mem_union_left _ (hAD haA))
    · intro s hs
      rcases List.mem_cons.mp hs with rfl | hs
      · exact Or.inl haA
      · rcases ih2 s hs with h | h
        · rcases Finset.mem_union.mp h with h | h
          · exact Or.inl (Finset.mem_of_mem_erase h)
          · exact Or.inr (Finset.disjoint_left.mp hd h)
        · exact Or.inr fun h' => h (Finset.mem_union_left _ h')

theorem removals_points {rule : Rule N} {start : Finset (Fin N)} (hs : StoppingSchedule rule start) (u : Fin N → ℝ) :
    ((removals rule start u).map (·.point)).Nodup :=
  (iterate_points N (Finset.Subset.refl _) hs.fresh).1

/-! ### Averages over the spots -/

section

variable [MeasurableSpace E] {ν : Measure E} [IsProbabilityMeasure ν]

/-- The sum over the samples of the prior volumes which nestcheck expects, times a function of the volumes and spots of the samples. -/
def spotted (G : ℝ → E → ℝ) (e : Fin N → E) (l : List (Removal N)) : ℝ :=
  ∑ i ∈ Finset.range l.length, (cut (l.map (·.alive)) i - cut (l.map (·.alive)) (i + 1)) * (l[i]?.elim 0 fun s => G s.volume (e s.point))

theorem bounded_memLp {G : E → ℝ} {M : ℝ} (hG : Measurable G) (hM : ∀ e, |G e| ≤ M) : MemLp G 2 ν :=
  MemLp.of_bound hG.aestronglyMeasurable M (ae_of_all _ hM)

theorem spotted_variance {G : ℝ → E → ℝ} {M : ℝ} (hG : ∀ v, Measurable (G v)) (hM : ∀ v e, |G v e| ≤ M) {l : List (Removal N)}
    (hnd : (l.map (·.point)).Nodup) (hne : l ≠ []) {η : ℝ} (hη : 0 < η) {κ : ℝ}
    (hκ : ∀ i < l.length, cut (l.map (·.alive)) i - cut (l.map (·.alive)) (i + 1) ≤ κ) :
    ∫⁻ e, ‖spotted G e l - weighted (fun v => ∫ e, G v e ∂ν) (l.map (·.alive)) (l.map (·.volume))‖ₑ ∂(Measure.pi fun _ : Fin N => ν) ≤
      ENNReal.ofReal (η + M ^ 2 * κ / η) := by
  set ns := l.map (·.alive) with hns
  set X : Nat → (Fin N → E) → ℝ := fun i e => (cut ns i - cut ns (i + 1)) * (l[i]?.elim 0 fun s => G s.volume (e s.point)) with hX
  have hXm : ∀ i, Measurable (X i) := by
    intro i
    refine Measurable.const_mul ?_ _
    cases l[i]? with
    | none => exact measurable_const
    | some s => exact (hG s.volume).comp (measurable_pi_apply _)
  have hM0 : 0 ≤ M := by
    have hE : Nonempty E := by
      by_contra h
      rw [not_nonempty_iff] at h
      have h1 := measure_univ (μ := ν)
      rw [Set.univ_eq_empty_iff.mpr h, measure_empty] at h1
      exact zero_ne_one h1
    exact (abs_nonneg _).trans (hM 0 hE.some)
  have hcell : ∀ i, 0 ≤ cut ns i - cut ns (i + 1) := fun i => sub_nonneg.mpr (cut_succ_le i)
  have hXb : ∀ i e, |X i e| ≤ (cut ns i - cut ns (i + 1)) * M := by
    intro i e
    rw [hX]
    simp only
    rw [abs_mul, abs_of_nonneg (hcell i)]
    refine mul_le_mul_of_nonneg_left ?_ (hcell i)
    cases l[i]? with
    | none => simpa using hM0
    | some s => exact hM _ _
  have hXL : ∀ i, MemLp (X i) 2 (Measure.pi fun _ : Fin N => ν) := fun i =>
    MemLp.of_bound (hXm i).aestronglyMeasurable _ (ae_of_all _ (hXb i))
  have hmean : ∀ i < l.length, ∫ e, X i e ∂(Measure.pi fun _ : Fin N => ν) =
      (cut ns i - cut ns (i + 1)) * ∫ e, G ((l.map (·.volume)).getD i 0) e ∂ν := by
    intro i hi
    rw [hX]
    simp only
    rw [integral_const_mul, List.getElem?_eq_getElem hi]
    simp only [Option.elim]
    rw [integral_comp_eval (μ := fun _ : Fin N => ν) (hG _).aestronglyMeasurable]
    simp [List.getD_eq_getElem?_getD, List.getElem?_eq_getElem hi]
  have hindep : ∀ i ∈ Finset.range l.length, ∀ j ∈ Finset.range l.length, i ≠ j →
      IndepFun (X i) (X j) (Measure.pi fun _ : Fin N => ν) := by
    intro i hi j hj hij
    have hi' := Finset.mem_range.mp hi
    have hj' := Finset.mem_range.mp hj
    have hpt : l[i].point ≠ l[j].point := by
      intro h
      refine hij ((List.Nodup.getElem_inj_iff hnd (hi := by simpa using hi') (hj := by simpa using hj')).mp ?_)
      simpa using h
    have h0 := (iIndepFun_pi (μ := fun _ : Fin N => ν) (X := fun _ => (id : E → E)) fun _ => measurable_id.aemeasurable).indepFun hpt
    have h1 := h0.comp (φ := fun e => (cut ns i - cut ns (i + 1)) * G l[i].volume e) (ψ := fun e => (cut ns j - cut ns (j + 1)) * G l[j].volume e)
      ((hG _).const_mul _) ((hG _).const_mul _)
    convert h1 using 1
    · funext e
      simp [hX, List.getElem?_eq_getElem hi']
    · funext e
      simp [hX, List.getElem?_eq_getElem hj']
  set S : (Fin N → E) → ℝ := ∑ i ∈ Finset.range l.length, X i with hS
  have hSe : ∀ e, spotted G e l = S e := fun e => by
    rw [hS, Finset.sum_apply]
    rfl
  have hSL : MemLp S 2 (Measure.pi fun _ : Fin N => ν) := memLp_finset_sum' _ fun i _ => hXL i
  have hvar : variance S (Measure.pi fun _ : Fin N => ν) ≤ M ^ 2 * κ := by
    rw [hS, IndepFun.variance_sum (fun i _ => hXL i) (fun i hi j hj hij => hindep i hi j hj hij)]
    calc ∑ i ∈ Finset.range l.length, variance (X i) (Measure.pi fun _ : Fin N => ν)
        ≤ ∑ i ∈ Finset.range l.length, M ^ 2 * (cut ns i - cut ns (i + 1)) ^ 2 := by
          refine Finset.sum_le_sum fun i _ => ?_
          refine (variance_le_sq_of_bounded (ae_of_all _ fun e => abs_le.mp (hXb i e)) (hXm i).aemeasurable).trans (le_of_eq ?_)
          ring
      _ = M ^ 2 * ∑ i ∈ Finset.range ns.length, (cut ns i - cut ns (i + 1)) ^ 2 := by rw [Finset.mul_sum, hns, List.length_map]
      _ ≤ M ^ 2 * κ := mul_le_mul_of_nonneg_left (sum_squares (by simpa [hns] using hne) (by simpa [hns] using hκ)) (sq_nonneg _)
  have hES : ∫ e, S e ∂(Measure.pi fun _ : Fin N => ν) = weighted (fun v => ∫ e, G v e ∂ν) ns (l.map (·.volume)) := by
    rw [weighted_eq (by simpa [hns] using hne) (by simp [hns])]
    simp only [hS, Finset.sum_apply]
    rw [integral_finset_sum _ fun i _ => (hXL i).integrable (by norm_num)]
    refine Finset.sum_congr (by simp [hns]) fun i hi => ?_
    exact hmean i (by simpa [hns] using hi)
  rw [← hES]
  simp only [hSe]
  set m := ∫ e, S e ∂(Measure.pi fun _ : Fin N => ν) with hm
  have hint : Integrable (fun e => (S e - m) ^ 2) (Measure.pi fun _ : Fin N => ν) := (hSL.sub (memLp_const m)).integrable_sq
  calc ∫⁻ e, ‖S e - m‖ₑ ∂(Measure.pi fun _ : Fin N => ν)
      ≤ ∫⁻ e, (ENNReal.ofReal η + ENNReal.ofReal ((S e - m) ^ 2 / η)) ∂(Measure.pi fun _ : Fin N => ν) := by
        refine lintegral_mono fun e => ?_
        rw [Real.enorm_eq_ofReal_abs, ← ENNReal.ofReal_add hη.le (by positivity)]
        refine ENNReal.ofReal_le_ofReal ?_
        by_cases h : |S e - m| ≤ η
        · have : 0 ≤ (S e - m) ^ 2 / η := by positivity
          linarith
        · rw [not_le] at h
          have : |S e - m| ≤ (S e - m) ^ 2 / η := by
            rw [le_div_iff₀ hη, ← sq_abs, pow_two]
            exact mul_le_mul_of_nonneg_left h.le (abs_nonneg _)
          linarith
    _ = ENNReal.ofReal η + ENNReal.ofReal (∫ e, (S e - m) ^ 2 / η ∂(Measure.pi fun _ : Fin N => ν)) := by
        rw [lintegral_add_left measurable_const, lintegral_const, measure_univ, mul_one,
          ofReal_integral_eq_lintegral_ofReal (hint.div_const η) (ae_of_all _ fun e => by positivity)]
    _ = ENNReal.ofReal η + ENNReal.ofReal (variance S (Measure.pi fun _ : Fin N => ν) / η) := by
        rw [integral_div, variance_eq_integral hSL.aestronglyMeasurable.aemeasurable]
    _ ≤ ENNReal.ofReal η + ENNReal.ofReal (M ^ 2 * κ / η) := by
        gcongr
    _ = _ := by
        have hκ0 : 0 ≤ κ := (hcell 0).trans (hκ 0 (List.length_pos_of_ne_nil hne))
        rw [← ENNReal.ofReal_add hη.le (by positivity)]

attribute [irreducible] spotted

end

end

end Nestcheck
