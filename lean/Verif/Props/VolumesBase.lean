import Mathlib.MeasureTheory.Measure.Lebesgue.Basic
import Mathlib.MeasureTheory.Constructions.Pi
import Verif.Spec.Volumes
import Verif.Props.Shrinkage

/-! Lemmas for C91: the largest of several uniform draws, and the others given the largest. -/

namespace Nestcheck
open Spec MeasureTheory ENNReal

noncomputable section

abbrev unifPow (n : Nat) : Measure (Fin n → ℝ) := Measure.pi (fun _ => unif)

theorem takeMax_split : ∀ (a b : List ℝ) (x : ℝ), (∀ y ∈ a, y < x) → (∀ y ∈ b, y < x) → takeMax (a ++ x :: b) = (x, a ++ b) := by
  have h0 : ∀ (b : List ℝ) (x : ℝ), (∀ y ∈ b, y < x) → b ≠ [] → (takeMax b).1 < x := by
    intro b
    induction b with
    | nil => intro x _ h; exact absurd rfl h
    | cons y l ih =>
      intro x hx _
      cases l with
      | nil => exact hx y (by simp)
      | cons z l =>
        have := ih x (fun y hy => hx y (by simp [hy])) (by simp)
        rw [takeMax]
        split_ifs
        · exact hx y (by simp)
        · exact this
  intro a
  induction a with
  | nil =>
    intro b x _ hb
    cases b with
    | nil => rfl
    | cons y l =>
      rw [List.nil_append, takeMax, if_pos (h0 _ x hb (by simp)).le]
      rfl
  | cons y l ih =>
    intro b x ha hb
    have h := ih b x (fun z hz => ha z (by simp [hz])) hb
    have hy := ha y (by simp)
    rw [List.cons_append]
    generalize hq : l ++ x :: b = q at *
    cases q with
    | nil => simp at hq
    | cons z q =>
      rw [takeMax, h, if_neg (not_le.mpr hy)]
      rfl

/-- The maximum is one of the numbers, the rest is the others in their order. -/
theorem takeMax_spec : ∀ (l : List ℝ), l ≠ [] → ∃ a b, l = a ++ (takeMax l).1 :: b ∧ (takeMax l).2 = a ++ b ∧
    ∀ y ∈ l, y ≤ (takeMax l).1 := by
  intro l
  induction l with
  | nil => intro h; exact absurd rfl h
  | cons x l ih =>
    intro _
    cases l with
    | nil => exact ⟨[], [], rfl, rfl, by simp [takeMax]⟩
    | cons y l =>
      obtain ⟨a, b, h1, h2, h3⟩ := ih (by simp)
      rw [takeMax]
      split_ifs with h
      · exact ⟨[], y :: l, rfl, rfl, fun z hz => by
          rcases List.mem_cons.mp hz with rfl | hz
          · exact le_rfl
          · exact (h3 z hz).trans h⟩
      · refine ⟨x :: a, b, ?_, ?_, ?_⟩
        · rw [List.cons_append, ← h1]
        · dsimp only
          rw [h2]; rfl
        · intro z hz
          rcases List.mem_cons.mp hz with rfl | hz
          · exact (not_le.mp h).le
          · exact h3 z hz

theorem takeMax_length {l : List ℝ} : (takeMax l).2.length = l.length - 1 := by
  rcases eq_or_ne l [] with rfl | h
  · rfl
  · obtain ⟨a, b, h1, h2, _⟩ := takeMax_spec l h
    rw [h2]
    conv_rhs => rw [h1]
    simp

theorem takeMax_mul {c : ℝ} (hc : 0 < c) : ∀ l : List ℝ, takeMax (l.map (c * ·)) = (c * (takeMax l).1, (takeMax l).2.map (c * ·)) := by
  intro l
  induction l with
  | nil => simp [takeMax]
  | cons x l ih =>
    cases l with
    | nil => simp [takeMax]
    | cons y l =>
      rw [List.map_cons, List.map_cons, takeMax, ← List.map_cons, ih, takeMax]
      by_cases h : (takeMax (y :: l)).1 ≤ x
      · rw [if_pos h, if_pos (mul_le_mul_of_nonneg_left h hc.le)]
      · rw [if_neg h, if_neg (by intro h'; exact h (le_of_mul_le_mul_left h' hc))]
        rfl

/-- Removing one entry of a vector, on lists. -/
theorem ofFn_split {n : Nat} (j : Fin (n + 1)) (u : Fin (n + 1) → ℝ) : ∃ a b, List.ofFn u = a ++ u j :: b ∧
    List.ofFn (fun i => u (j.succAbove i)) = a ++ b := by
  induction n with
  | zero =>
    have : j = 0 := by omega
    subst this
    exact ⟨[], [], by simp, by simp⟩
  | succ n ih =>
    rcases Fin.eq_zero_or_eq_succ j with rfl | ⟨k, rfl⟩
    · exact ⟨[], List.ofFn (fun i => u (Fin.succ i)), by rw [List.ofFn_succ]; rfl, by simp⟩
    · obtain ⟨a, b, h1, h2⟩ := ih k (fun i => u i.succ)
      refine ⟨u 0 :: a, b, ?_, ?_⟩
      · rw [List.ofFn_succ, h1]; rfl
      · rw [List.ofFn_succ, List.cons_append, ← h2]
        simp

theorem takeMax_ofFn {n : Nat} {j : Fin (n + 1)} {u : Fin (n + 1) → ℝ} (h : ∀ i, u (j.succAbove i) < u j) :
    takeMax (List.ofFn u) = (u j, List.ofFn (fun i => u (j.succAbove i))) := by
  obtain ⟨a, b, h1, h2⟩ := ofFn_split j u
  rw [h1, h2]
  have : ∀ y ∈ a ++ b, y < u j := by
    intro y hy
    rw [← h2, List.mem_ofFn] at hy
    obtain ⟨i, rfl⟩ := hy
    exact h i
  exact takeMax_split a b _ (fun y hy => this y (by simp [hy])) (fun y hy => this y (by simp [hy]))

/-! ### Measures -/

theorem unif_singleton (x : ℝ) : unif {x} = 0 := by
  rw [unif]
  exact Measure.restrict_apply_eq_zero (measurableSet_singleton x) |>.mpr (measure_mono_null Set.inter_subset_left (by simp))

/-- The draws are distinct with probability one. -/
theorem unifPow_injective (n : Nat) : ∀ᵐ u ∂unifPow n, Function.Injective u := by
  have h : ∀ i j : Fin n, i ≠ j → ∀ᵐ u ∂unifPow n, u i ≠ u j := by
    cases n with
    | zero => intro i; exact i.elim0
    | succ n =>
      intro i j hij
      obtain ⟨k, rfl⟩ := Fin.exists_succAbove_eq hij.symm
      have hp := measurePreserving_piFinSuccAbove (fun _ : Fin (n + 1) => unif) i
      have h2 : ∀ᵐ p ∂(unif.prod (unifPow n)), p.1 ≠ p.2 k := by
        have hsw : ∀ᵐ q ∂((unifPow n).prod unif), q.2 ≠ q.1 k := by
          rw [Measure.ae_prod_iff_ae_ae]
          · refine Filter.Eventually.of_forall fun v => ?_
            rw [ae_iff]
            simpa using unif_singleton (v k)
          · have hm := measurableSet_eq_fun (f := fun q : (Fin n → ℝ) × ℝ => q.2) (g := fun q => q.1 k) measurable_snd (by fun_prop)
            exact hm.compl
        have := Measure.measurePreserving_swap (μ := unif) (ν := unifPow n)
        exact this.quasiMeasurePreserving.ae hsw
      have h3 := hp.quasiMeasurePreserving.ae h2
      exact h3
  have : ∀ᵐ u ∂unifPow n, ∀ i j, i ≠ j → u i ≠ u j := by
    rw [ae_all_iff]; intro i
    rw [ae_all_iff]; intro j
    by_cases hij : i = j
    · exact Filter.Eventually.of_forall fun u h => absurd hij h
    · filter_upwards [h i j hij] with u hu _
      exact hu
  filter_upwards [this] with u hu i j hij
  by_contra hne
  exact hu i j hne hij

/-- Splitting by the position of the maximum. -/
theorem lintegral_takeMax {n : Nat} {H : ℝ → List ℝ → ℝ≥0∞}
    (hH : Measurable (fun p : ℝ × (Fin n → ℝ) => H p.1 (List.ofFn p.2))) :
    ∫⁻ u, H (takeMax (List.ofFn u)).1 (takeMax (List.ofFn u)).2 ∂unifPow (n + 1) =
      (n + 1) * ∫⁻ t, ∫⁻ v in {v | ∀ i, v i < t}, H t (List.ofFn v) ∂unifPow n ∂unif := by
  have hs : ∀ u : Fin (n + 1) → ℝ, Function.Injective u →
      H (takeMax (List.ofFn u)).1 (takeMax (List.ofFn u)).2 =
        ∑ j : Fin (n + 1), {u : Fin (n + 1) → ℝ | ∀ i, u (j.succAbove i) < u j}.indicator
          (fun u => H (u j) (List.ofFn (fun i => u (j.succAbove i)))) u := by
    intro u hu
    obtain ⟨j, hj⟩ := Finite.exists_max u
    have hj' : ∀ k, k ≠ j → u k < u j := fun k hk => lt_of_le_of_ne (hj k) (fun h => hk (hu h))
    have hjm : ∀ i, u (j.succAbove i) < u j := fun i => hj' _ (Fin.succAbove_ne j i)
    rw [Finset.sum_eq_single j]
    · rw [Set.indicator_of_mem (by exact hjm), takeMax_ofFn hjm]
    · intro k _ hk
      apply Set.indicator_of_notMem
      intro h
      obtain ⟨i, hi⟩ := Fin.exists_succAbove_eq hk.symm
      have := h i
      rw [hi] at this
      exact absurd (hj k) (not_le.mpr this)
    · simp
  have hset : MeasurableSet {p : ℝ × (Fin n → ℝ) | ∀ i, p.2 i < p.1} := by
    rw [show {p : ℝ × (Fin n → ℝ) | ∀ i, p.2 i < p.1} = ⋂ i, {p | p.2 i < p.1} by ext; simp]
    exact MeasurableSet.iInter fun i => measurableSet_lt ((measurable_pi_apply i).comp measurable_snd) measurable_fst
  set G : ℝ × (Fin n → ℝ) → ℝ≥0∞ := {p : ℝ × (Fin n → ℝ) | ∀ i, p.2 i < p.1}.indicator (fun p => H p.1 (List.ofFn p.2)) with hG
  have hGm : Measurable G := hH.indicator hset
  have hterm : ∀ (j : Fin (n + 1)) (u : Fin (n + 1) → ℝ), {u : Fin (n + 1) → ℝ | ∀ i, u (j.succAbove i) < u j}.indicator
      (fun u => H (u j) (List.ofFn (fun i => u (j.succAbove i)))) u = G (MeasurableEquiv.piFinSuccAbove (fun _ => ℝ) j u) := by
    intro j u
    rfl
  have hint : ∀ j : Fin (n + 1), ∫⁻ u, G (MeasurableEquiv.piFinSuccAbove (fun _ => ℝ) j u) ∂unifPow (n + 1) =
      ∫⁻ t, ∫⁻ v in {v | ∀ i, v i < t}, H t (List.ofFn v) ∂unifPow n ∂unif := by
    intro j
    rw [(measurePreserving_piFinSuccAbove (fun _ : Fin (n + 1) => unif) j).lintegral_comp hGm, lintegral_prod _ hGm.aemeasurable]
    refine lintegral_congr fun t => ?_
    rw [← lintegral_indicator]
    · rfl
    · exact hset.preimage measurable_prodMk_left
  have hcm : ∀ j ∈ (Finset.univ : Finset (Fin (n + 1))), Measurable (fun u => G (MeasurableEquiv.piFinSuccAbove (fun _ => ℝ) j u)) :=
    fun j _ => hGm.comp (MeasurableEquiv.measurable _)
  rw [lintegral_congr_ae (g := fun u => ∑ j : Fin (n + 1), G (MeasurableEquiv.piFinSuccAbove (fun _ => ℝ) j u))
    (by filter_upwards [unifPow_injective (n + 1)] with u hu
        rw [hs u hu]
        exact Finset.sum_congr rfl fun j _ => hterm j u),
    lintegral_finsetSum _ hcm, Finset.sum_congr rfl (fun j _ => hint j)]
  simp

theorem unif_restrict {t : ℝ} (h0 : 0 < t) (h1 : t ≤ 1) :
    unif.restrict (Set.Iio t) = ENNReal.ofReal t • unif.map (t * ·) := by
  have hpre : (fun x : ℝ => t * x) ⁻¹' Set.Ico 0 t = Set.Ico 0 1 := by
    ext x
    simp only [Set.mem_preimage, Set.mem_Ico]
    constructor
    · rintro ⟨a, b⟩
      exact ⟨nonneg_of_mul_nonneg_right a h0, by nlinarith⟩
    · rintro ⟨a, b⟩
      exact ⟨by positivity, by nlinarith⟩
  have hm : Measurable (fun x : ℝ => t * x) := measurable_const_mul t
  have h2 : unif.map (t * ·) = ENNReal.ofReal t⁻¹ • volume.restrict (Set.Ico 0 t) := by
    rw [unif, ← hpre, ← Measure.restrict_map hm measurableSet_Ico, Real.map_volume_mul_left h0.ne', abs_of_pos (by positivity),
      Measure.restrict_smul]
  rw [h2, smul_smul, ← ENNReal.ofReal_mul h0.le, mul_inv_cancel₀ h0.ne', ENNReal.ofReal_one, one_smul, unif,
    Measure.restrict_restrict measurableSet_Iio]
  congr 1
  ext x
  simp only [Set.mem_inter_iff, Set.mem_Iio, Set.mem_Ico]
  constructor
  · rintro ⟨a, b, c⟩; exact ⟨b, a⟩
  · rintro ⟨a, b⟩; exact ⟨b, a, b.trans_le h1⟩

theorem unifPow_restrict (n : Nat) {t : ℝ} (h0 : 0 < t) (h1 : t ≤ 1) :
    (unifPow n).restrict {v | ∀ i, v i < t} = ENNReal.ofReal t ^ n • (unifPow n).map (fun w i => t * w i) := by
  have hs : {v : Fin n → ℝ | ∀ i, v i < t} = Set.univ.pi (fun _ => Set.Iio t) := by ext; simp
  have hm : Measurable (fun (w : Fin n → ℝ) i => t * w i) := by fun_prop
  rw [hs, Measure.restrict_pi_pi]
  refine Measure.pi_eq fun s hsm => ?_
  rw [Measure.smul_apply, Measure.map_apply hm (MeasurableSet.univ_pi hsm)]
  have : (fun (w : Fin n → ℝ) i => t * w i) ⁻¹' (Set.univ.pi s) = Set.univ.pi (fun i => (t * ·) ⁻¹' (s i)) := by ext; simp
  rw [this, Measure.pi_pi, unif_restrict h0 h1]
  have : ∀ i, (ENNReal.ofReal t • unif.map (t * ·)) (s i) = ENNReal.ofReal t * unif ((t * ·) ⁻¹' (s i)) := by
    intro i
    rw [Measure.smul_apply, Measure.map_apply (measurable_const_mul t) (hsm i), smul_eq_mul]
  simp only [this, Finset.prod_mul_distrib, Finset.prod_const, Finset.card_univ, Fintype.card_fin, smul_eq_mul]

/-- A draw from the distribution of the largest of `n` uniform numbers. -/
def root (n : Nat) (x : ℝ) : ℝ := Real.exp (Real.log x / n)

theorem measurable_root (n : Nat) : Measurable (root n) :=
  Real.measurable_exp.comp (Real.measurable_log.div_const _)

theorem takeMax_sup {n : Nat} (u : Fin (n + 1) → ℝ) :
    (takeMax (List.ofFn u)).1 = Finset.univ.sup' Finset.univ_nonempty u := by
  obtain ⟨a, b, h1, _, h3⟩ := takeMax_spec (List.ofFn u) (by simp)
  apply le_antisymm
  · have : (takeMax (List.ofFn u)).1 ∈ List.ofFn u := by
      have hm : (takeMax (List.ofFn u)).1 ∈ a ++ (takeMax (List.ofFn u)).1 :: b := by simp
      rwa [← h1] at hm
    obtain ⟨i, hi⟩ := List.mem_ofFn.mp this
    rw [← hi]
    exact Finset.le_sup' u (Finset.mem_univ i)
  · exact Finset.sup'_le _ _ fun i _ => h3 _ (List.mem_ofFn.mpr ⟨i, rfl⟩)

theorem measurable_takeMax (n : Nat) : Measurable (fun u : Fin (n + 1) → ℝ => (takeMax (List.ofFn u)).1) := by
  simp only [takeMax_sup]
  have := Finset.measurable_sup' (s := (Finset.univ : Finset (Fin (n + 1)))) Finset.univ_nonempty
    (f := fun i (u : Fin (n + 1) → ℝ) => u i) (fun i _ => measurable_pi_apply i)
  convert this using 1
  ext u
  simp

theorem root_law (n : Nat) : unif.map (root (n + 1)) = (unifPow (n + 1)).map (fun u => (takeMax (List.ofFn u)).1) := by
  have hmm := measurable_takeMax n
  have hp1 : IsProbabilityMeasure (unif.map (root (n + 1))) := Measure.isProbabilityMeasure_map (measurable_root _).aemeasurable
  have hp2 : IsProbabilityMeasure ((unifPow (n + 1)).map (fun u => (takeMax (List.ofFn u)).1)) :=
    Measure.isProbabilityMeasure_map hmm.aemeasurable
  refine Measure.ext_of_Iic _ _ fun t => ?_
  rw [Measure.map_apply (measurable_root _) measurableSet_Iic, Measure.map_apply hmm measurableSet_Iic]
  have hset : (fun u : Fin (n + 1) → ℝ => (takeMax (List.ofFn u)).1) ⁻¹' Set.Iic t = {v | ∀ k, v k ≤ t} := by
    ext u
    rw [Set.mem_preimage, takeMax_sup, Set.mem_Iic, Finset.sup'_le_iff]
    simp
  rw [hset]
  rcases lt_or_ge t 0 with ht | ht
  · have e1 : root (n + 1) ⁻¹' Set.Iic t = ∅ := by
      ext x
      simp only [Set.mem_preimage, Set.mem_Iic, Set.mem_empty_iff_false, iff_false, not_le]
      exact ht.trans (Real.exp_pos _)
    have e2 : {v : Fin (n + 1) → ℝ | ∀ k, v k ≤ t} ⊆ {v | ∀ k, v k ≤ 0} := fun v hv k => (hv k).trans ht.le
    have e3 := largest_law (n + 1) (le_refl (0 : ℝ)) zero_le_one
    rw [e1, measure_empty]
    refine (measure_mono_null e2 ?_).symm
    rw [e3]; simp
  · rcases le_or_gt t 1 with h1 | h1
    · rw [largest_law _ ht h1]
      have : unif (root (n + 1) ⁻¹' Set.Iic t) = unif (Set.Iic (t ^ (n + 1))) := by
        apply measure_congr
        filter_upwards [unif_pos] with x hx
        apply propext
        show Real.exp (Real.log x / ((n + 1 : Nat) : ℝ)) ≤ t ↔ x ≤ t ^ (n + 1)
        have hn : (0 : ℝ) < ((n + 1 : Nat) : ℝ) := by positivity
        have hx' : x = Real.exp (Real.log x / ((n + 1 : Nat) : ℝ)) ^ (n + 1) := by
          rw [← Real.exp_nat_mul, mul_div_cancel₀ _ hn.ne', Real.exp_log hx.1]
        conv_rhs => rw [hx']
        exact (pow_le_pow_iff_left₀ (Real.exp_pos _).le ht (by omega)).symm
      rw [this]
      have := largest_law 1 (pow_nonneg ht (n + 1)) (pow_le_one₀ ht h1)
      rw [pow_one] at this
      rw [← this]
      rw [show {v : Fin 1 → ℝ | ∀ k, v k ≤ t ^ (n + 1)} = (fun v => v 0) ⁻¹' Set.Iic (t ^ (n + 1)) by
        ext v; simp [Fin.forall_fin_one],
        (eval_unif (n := 1) 0).measure_preimage measurableSet_Iic.nullMeasurableSet]
    · have e1 : unif (root (n + 1) ⁻¹' Set.Iic t) = 1 := by
        rw [← mem_ae_iff_prob_eq_one ((measurable_root _) measurableSet_Iic)]
        filter_upwards [unif_pos] with x hx
        refine le_trans ?_ h1.le
        rw [root, Real.exp_le_one_iff]
        exact div_nonpos_of_nonpos_of_nonneg (Real.log_nonpos hx.1.le hx.2.le) (by positivity)
      have e2 : unifPow (n + 1) {v | ∀ k, v k ≤ t} = 1 := by
        rw [← hset, ← mem_ae_iff_prob_eq_one (hmm measurableSet_Iic), hset]
        filter_upwards [pi_pos (n + 1)] with v hv k
        exact ((hv k).2.trans h1).le
      rw [e1, e2]

/-- Given the largest of `n + 1` uniform draws, the others are uniform below it; and the largest has the law of a root. -/
theorem lintegral_takeMax' {n : Nat} {H : ℝ → List ℝ → ℝ≥0∞}
    (hH : Measurable (fun p : ℝ × (Fin n → ℝ) => H p.1 (List.ofFn p.2))) :
    ∫⁻ u, H (takeMax (List.ofFn u)).1 (takeMax (List.ofFn u)).2 ∂unifPow (n + 1) =
      ∫⁻ x, ∫⁻ w, H (root (n + 1) x) (List.ofFn (fun i => root (n + 1) x * w i)) ∂unifPow n ∂unif := by
  have hsc : ∀ {K : ℝ → List ℝ → ℝ≥0∞}, Measurable (fun p : ℝ × (Fin n → ℝ) => K p.1 (List.ofFn p.2)) →
      ∫⁻ u, K (takeMax (List.ofFn u)).1 (takeMax (List.ofFn u)).2 ∂unifPow (n + 1) =
      (n + 1) * ∫⁻ t, ENNReal.ofReal t ^ n * ∫⁻ w, K t (List.ofFn (fun i => t * w i)) ∂unifPow n ∂unif := by
    intro K hK
    rw [lintegral_takeMax hK]
    congr 1
    apply lintegral_congr_ae
    filter_upwards [unif_pos] with t ht
    have hKt : Measurable (fun v : Fin n → ℝ => K t (List.ofFn v)) := hK.comp measurable_prodMk_left
    have hmt : Measurable (fun (w : Fin n → ℝ) i => t * w i) := by fun_prop
    rw [unifPow_restrict n ht.1 ht.2.le, lintegral_smul_measure, smul_eq_mul, lintegral_map hKt hmt]
  set g : ℝ → ℝ≥0∞ := fun t => ∫⁻ w, H t (List.ofFn (fun i => t * w i)) ∂unifPow n with hg
  have hgm : Measurable g := by
    have : Measurable (fun p : ℝ × (Fin n → ℝ) => H p.1 (List.ofFn (fun i => p.1 * p.2 i))) :=
      hH.comp (f := fun p : ℝ × (Fin n → ℝ) => (p.1, fun i => p.1 * p.2 i)) (by fun_prop)
    exact this.lintegral_prod_right'
  have h1 := hsc (K := fun t _ => g t) (hgm.comp measurable_fst)
  have h2 : ∫⁻ u, g (takeMax (List.ofFn u)).1 ∂unifPow (n + 1) = ∫⁻ x, g (root (n + 1) x) ∂unif := by
    rw [← lintegral_map hgm (measurable_root _), root_law, lintegral_map hgm (measurable_takeMax n)]
  rw [hsc hH, ← h2, h1]
  simp [hg]

end

end Nestcheck
