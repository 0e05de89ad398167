import Mathlib.Probability.Distributions.Gaussian.Real
import Mathlib.Analysis.SpecialFunctions.Log.NegMulLog
import Verif.Proofs.Weights
import Verif.Model.Plots
import Verif.Props.Pandas

/-! The weighted kernel density estimate (C50).

In the specification a weighted sample is a list of pairs of a weight and a value. -/

namespace Nestcheck
open Spec MeasureTheory ProbabilityTheory

noncomputable section

/-- The total weight. -/
def Spec.total (ps : List (ℝ × ℝ)) : ℝ := (ps.map Prod.fst).sum

/-- The weighted mean. -/
def Spec.wMean (ps : List (ℝ × ℝ)) : ℝ := (ps.map (fun p => p.1 * p.2)).sum / total ps

/-- The weighted mean of the squared distance from the mean. -/
def Spec.wVar (ps : List (ℝ × ℝ)) : ℝ := (ps.map (fun p => p.1 * (p.2 - wMean ps) ^ 2)).sum / total ps

/-- The effective number of samples: the exponential of the Shannon entropy of the weights. -/
def Spec.effNumber (ps : List (ℝ × ℝ)) : ℝ := Real.exp (ps.map (fun p => Real.negMulLog (p.1 / total ps))).sum

/-- The bandwidth: the bias corrected standard deviation times Scott's factor in one dimension. -/
def Spec.bandwidth (ps : List (ℝ × ℝ)) : ℝ :=
  Real.sqrt (wVar ps * (effNumber ps / (effNumber ps - 1))) * effNumber ps ^ (-1 / 5 : ℝ)

/-- The mixture of normal densities centred at the samples. -/
def Spec.kde (ps : List (ℝ × ℝ)) (x : ℝ) : ℝ :=
  (ps.map (fun p => p.1 / total ps * gaussianPDFReal p.2 (Real.toNNReal (bandwidth ps ^ 2)) x)).sum

/-- No weight is negative, and two different values have positive weight. -/
structure Spec.Spread (ps : List (ℝ × ℝ)) : Prop where
  nonneg : ∀ p ∈ ps, 0 ≤ p.1
  two : ∃ p ∈ ps, ∃ q ∈ ps, 0 < p.1 ∧ 0 < q.1 ∧ p.2 ≠ q.2

theorem sum_pos_of_mem {α : Type} {l : List α} {f : α → ℝ} (h : ∀ a ∈ l, 0 ≤ f a) {a : α} (ha : a ∈ l) (hp : 0 < f a) :
    0 < (l.map f).sum := by
  have h1 : f a ≤ (l.map f).sum := List.single_le_sum (by simpa using h) _ (List.mem_map_of_mem ha)
  linarith

theorem Spec.Spread.total_pos {ps : List (ℝ × ℝ)} (h : Spread ps) : 0 < total ps := by
  obtain ⟨p, hp, -, -, hp0, -⟩ := h.two
  exact sum_pos_of_mem (f := Prod.fst) h.nonneg hp hp0

theorem single_add_le_sum {α : Type} {l : List α} {f : α → ℝ} (h : ∀ a ∈ l, 0 ≤ f a) {a b : α}
    (ha : a ∈ l) (hb : b ∈ l) (hab : a ≠ b) : f a + f b ≤ (l.map f).sum := by
  induction l with
  | nil => simp at ha
  | cons c l ih =>
    have hc : 0 ≤ f c := h c (by simp)
    have hl : ∀ x ∈ l, 0 ≤ f x := fun x hx => h x (by simp [hx])
    have hmem : ∀ x ∈ l, f x ≤ (l.map f).sum := fun x hx =>
      List.single_le_sum (by simpa using hl) _ (List.mem_map_of_mem hx)
    rw [List.map_cons, List.sum_cons]
    rcases List.mem_cons.mp ha with ha' | ha'
    · rcases List.mem_cons.mp hb with hb' | hb'
      · exact absurd (ha'.trans hb'.symm) hab
      · have := hmem b hb'; rw [ha']; linarith
    · rcases List.mem_cons.mp hb with hb' | hb'
      · have := hmem a ha'; rw [hb']; linarith
      · have := ih hl ha' hb'; linarith

theorem Spec.Spread.effNumber_gt {ps : List (ℝ × ℝ)} (h : Spread ps) : 1 < effNumber ps := by
  have ht := h.total_pos
  obtain ⟨p, hp, q, hq, hp0, hq0, hpq⟩ := h.two
  have hle : ∀ p ∈ ps, p.1 ≤ total ps := fun p hp =>
    List.single_le_sum (by simpa using h.nonneg) _ (List.mem_map_of_mem hp)
  have hlt : p.1 < total ps := by
    have := single_add_le_sum (f := Prod.fst) h.nonneg hp hq (fun e => hpq (by rw [e]))
    unfold total
    linarith
  unfold effNumber
  rw [Real.one_lt_exp_iff]
  refine sum_pos_of_mem (f := fun p : ℝ × ℝ => Real.negMulLog (p.1 / total ps)) ?_ hp ?_
  · intro q hq
    exact Real.negMulLog_nonneg (div_nonneg (h.nonneg q hq) ht.le) ((div_le_one ht).mpr (hle q hq))
  · have h1 : p.1 / total ps < 1 := (div_lt_one ht).mpr hlt
    have h0 : 0 < p.1 / total ps := div_pos hp0 ht
    rw [Real.negMulLog, neg_mul, neg_pos]
    exact mul_neg_of_pos_of_neg h0 (Real.log_neg h0 h1)

theorem Spec.Spread.wVar_pos {ps : List (ℝ × ℝ)} (h : Spread ps) : 0 < wVar ps := by
  have ht := h.total_pos
  obtain ⟨p, hp, q, hq, hp0, hq0, hpq⟩ := h.two
  apply div_pos _ ht
  have hnn : ∀ r ∈ ps, 0 ≤ r.1 * (r.2 - wMean ps) ^ 2 := fun r hr => mul_nonneg (h.nonneg r hr) (sq_nonneg _)
  by_cases hm : p.2 = wMean ps
  · refine sum_pos_of_mem (f := fun r : ℝ × ℝ => r.1 * (r.2 - wMean ps) ^ 2) hnn hq (mul_pos hq0 ?_)
    have : q.2 - wMean ps ≠ 0 := fun e => hpq (by rw [hm]; linarith)
    positivity
  · refine sum_pos_of_mem (f := fun r : ℝ × ℝ => r.1 * (r.2 - wMean ps) ^ 2) hnn hp (mul_pos hp0 ?_)
    have : p.2 - wMean ps ≠ 0 := fun e => hm (by linarith)
    positivity

theorem Spec.Spread.bandwidth_pos {ps : List (ℝ × ℝ)} (h : Spread ps) : 0 < bandwidth ps := by
  have h1 := h.effNumber_gt
  have h2 := h.wVar_pos
  have h3 : 0 < effNumber ps / (effNumber ps - 1) := div_pos (by linarith) (by linarith)
  exact mul_pos (Real.sqrt_pos.mpr (mul_pos h2 h3)) (Real.rpow_pos_of_pos (by linarith) _)

/-! ### The code computes the mixture -/

theorem zip_total {w s : List ℝ} (h : s.length = w.length) : total (w.zip s) = w.sum := by
  unfold total
  rw [List.map_fst_zip (by omega)]

theorem zipWith_zip {α β γ : Type} (f : α → β → γ) (w : List α) (s : List β) :
    List.zipWith f w s = (w.zip s).map (fun p => f p.1 p.2) := by
  rw [List.zip, List.map_zipWith]

theorem pyMap_npDiv {xs : List ℝ} {c : ℝ} (h : c ≠ 0) : pyMap (fun x => npDiv x c) xs = .ok (xs.map (· / c)) :=
  pyMap_ok fun _ _ => npDiv_ok h

theorem entropy_filter {w : List ℝ} :
    (List.zipWith (· * ·) (w.filter (fun x => decide (x ≠ 0))) ((w.filter (fun x => decide (x ≠ 0))).map Real.log)).sum =
      -(w.map Real.negMulLog).sum := by
  induction w with
  | nil => simp
  | cons a w ih =>
    by_cases ha : a = 0
    · rw [List.filter_cons_of_neg (by simpa using ha), ih]
      simp [ha, Real.negMulLog]
    · rw [List.filter_cons_of_pos (by simpa using ha), List.map_cons, List.zipWith_cons_cons, List.sum_cons, ih,
        List.map_cons, List.sum_cons, Real.negMulLog]
      ring

theorem sum_map_div' {α : Type} (l : List α) (f : α → ℝ) (c : ℝ) :
    (l.map (fun a => f a / c)).sum = (l.map f).sum / c := by
  induction l with
  | nil => simp
  | cons a l ih => simp only [List.map_cons, List.sum_cons, ih]; ring

theorem zip_map_fst {α β γ : Type} (f : α → γ) (w : List α) (s : List β) :
    (w.map f).zip s = (w.zip s).map (fun p => (f p.1, p.2)) := by
  rw [List.zip_map_left]
  rfl

theorem zip_nonneg {w s : List ℝ} (hl : s.length = w.length) (h : ∀ p ∈ w.zip s, 0 ≤ p.1) : ∀ a ∈ w, 0 ≤ a := by
  intro a ha
  rw [← List.map_fst_zip (l₁ := w) (l₂ := s) (by omega)] at ha
  obtain ⟨p, hp, rfl⟩ := List.mem_map.mp ha
  exact h p hp

theorem kdeBandwidth_eq {samples weights : List ℝ} (hl : samples.length = weights.length)
    (hnn : ∀ a ∈ weights, 0 ≤ a) :
    kdeBandwidth samples (weights.map (· / weights.sum)) =
      (npDiv (effNumber (weights.zip samples)) (effNumber (weights.zip samples) - 1) >>= fun c =>
        npSqrt (wVar (weights.zip samples) * c) >>= fun sd =>
        pure (sd * effNumber (weights.zip samples) ^ (-1 / 5 : ℝ))) := by
  have ht : 0 ≤ weights.sum := List.sum_nonneg hnn
  have hlt : total (weights.zip samples) = weights.sum := zip_total hl
  have hlog : pyMap npLog ((weights.map (· / weights.sum)).filter (fun x => decide (x ≠ 0))) =
      .ok (((weights.map (· / weights.sum)).filter (fun x => decide (x ≠ 0))).map Real.log) := by
    apply pyMap_ok
    intro x hx
    rw [List.mem_filter] at hx
    obtain ⟨⟨a, ha, rfl⟩, hx0⟩ := And.imp_left List.mem_map.mp hx
    have hx0 : a / weights.sum ≠ 0 := by simpa using hx0
    exact npLog_ok (lt_of_le_of_ne (div_nonneg (hnn a ha) ht) (Ne.symm hx0))
  have heff : Real.exp (-1 * (List.zipWith (· * ·) ((weights.map (· / weights.sum)).filter (fun x => decide (x ≠ 0)))
      (((weights.map (· / weights.sum)).filter (fun x => decide (x ≠ 0))).map Real.log)).sum) =
      effNumber (weights.zip samples) := by
    rw [entropy_filter, effNumber, hlt]
    congr 1
    rw [List.map_map, ← List.map_fst_zip (l₁ := weights) (l₂ := samples) (by omega), List.map_map]
    rw [List.map_fst_zip (l₁ := weights) (l₂ := samples) (by omega)]
    simp [Function.comp_def]
  have hmu : (List.zipWith (· * ·) (weights.map (· / weights.sum)) samples).sum = wMean (weights.zip samples) := by
    rw [zipWith_zip, zip_map_fst, List.map_map, wMean, hlt, ← sum_map_div']
    congr 1
    apply List.map_congr_left
    intro p _
    simp only [Function.comp_apply]
    ring
  have hvar : ∀ m, (List.zipWith (fun w s => w * (s - m) ^ 2) (weights.map (· / weights.sum)) samples).sum =
      ((weights.zip samples).map (fun p => p.1 * (p.2 - m) ^ 2)).sum / total (weights.zip samples) := by
    intro m
    rw [zipWith_zip, zip_map_fst, List.map_map, hlt, ← sum_map_div']
    congr 1
    apply List.map_congr_left
    intro p _
    simp only [Function.comp_apply]
    ring
  unfold kdeBandwidth
  simp only [hlog, Py.ok_bind]
  rw [heff, hmu, hvar]
  rfl

theorem kdeBandwidth_ok {samples weights : List ℝ} (hl : samples.length = weights.length)
    (h : Spread (weights.zip samples)) :
    kdeBandwidth samples (weights.map (· / weights.sum)) = .ok (bandwidth (weights.zip samples)) := by
  have hn := h.effNumber_gt
  have hv := h.wVar_pos
  rw [kdeBandwidth_eq hl (zip_nonneg hl h.nonneg), npDiv_ok (by linarith), Py.ok_bind]
  have h3 : 0 < effNumber (weights.zip samples) / (effNumber (weights.zip samples) - 1) :=
    div_pos (by linarith) (by linarith)
  rw [npSqrt, if_neg (not_lt.mpr (mul_pos hv h3).le), Py.ok_bind]
  rfl

theorem kdeEnergy_ok {sig : ℝ} (h : 0 < sig) (x s : ℝ) :
    kdeEnergy sig x s = .ok (gaussianPDFReal s (Real.toNNReal (sig ^ 2)) x) := by
  unfold kdeEnergy
  rw [npDiv_ok h.ne', Py.ok_bind, npDiv_ok (Real.sqrt_pos.mpr (by positivity)).ne', gaussianPDFReal,
    Real.coe_toNNReal _ (sq_nonneg sig)]
  congr 1
  rw [div_eq_inv_mul]
  congr 2
  field_simp
  ring

theorem kdeAt_ok {samples weights : List ℝ} {sig t : ℝ} (h : 0 < sig) (x : ℝ) :
    kdeAt sig samples (weights.map (· / t)) x =
      .ok ((weights.zip samples).map (fun p => p.1 / t * gaussianPDFReal p.2 (Real.toNNReal (sig ^ 2)) x)).sum := by
  unfold kdeAt
  rw [pyMap_ok (fun s _ => kdeEnergy_ok h x s), Py.ok_bind]
  show Except.ok _ = Except.ok _
  congr 1
  rw [List.zipWith_map, List.zipWith_comm, zipWith_zip]
  congr 1
  apply List.map_congr_left
  intro p _
  ring

/-- C50: for non-negative weights, two different samples having positive weight, the result is the mixture of
normal densities around the samples with the normalised weights; afterwards the
array of weights is normalised. -/
theorem C50_formula {samples weights : List ℝ} (hl : samples.length = weights.length)
    (h : Spread (weights.zip samples)) (xs : List ℝ) :
    weightedKde xs samples weights = .ok (xs.map (kde (weights.zip samples)), weights.map (· / weights.sum)) := by
  have ht := h.total_pos
  rw [zip_total hl] at ht
  unfold weightedKde
  rw [if_neg (by simpa using hl), pyMap_npDiv ht.ne', Py.ok_bind, kdeBandwidth_ok hl h, Py.ok_bind,
    pyMap_ok (fun x _ => kdeAt_ok h.bandwidth_pos x), Py.ok_bind]
  show Except.ok _ = Except.ok _
  unfold kde
  rw [zip_total hl]

/-! ### Properties of the mixture -/

theorem continuous_gaussianPDFReal (m : ℝ) (v : NNReal) : Continuous (gaussianPDFReal m v) := by
  rw [gaussianPDFReal_def]
  fun_prop

theorem integrable_list_sum {α : Type} (l : List α) (f : α → ℝ → ℝ) (h : ∀ a ∈ l, Integrable (f a)) :
    Integrable (fun x => (l.map (fun a => f a x)).sum) ∧
    ∫ x, (l.map (fun a => f a x)).sum = (l.map (fun a => ∫ x, f a x)).sum := by
  induction l with
  | nil => simp
  | cons a l ih =>
    obtain ⟨h1, h2⟩ := ih (fun b hb => h b (by simp [hb]))
    simp only [List.map_cons, List.sum_cons]
    refine ⟨(h a (by simp)).add h1, ?_⟩
    rw [integral_add (h a (by simp)) h1, h2]

theorem continuous_list_sum {α : Type} (l : List α) (f : α → ℝ → ℝ) (h : ∀ a ∈ l, Continuous (f a)) :
    Continuous (fun x => (l.map (fun a => f a x)).sum) := by
  induction l with
  | nil => simpa using continuous_const
  | cons a l ih =>
    simp only [List.map_cons, List.sum_cons]
    exact (h a (by simp)).add (ih (fun b hb => h b (by simp [hb])))

theorem Spec.Spread.var_ne {ps : List (ℝ × ℝ)} (h : Spread ps) : Real.toNNReal (bandwidth ps ^ 2) ≠ 0 := by
  have := h.bandwidth_pos
  rw [Ne, Real.toNNReal_eq_zero, not_le]
  positivity

/-- C50: under the same conditions the estimate at every point is the value of one
continuous positive function of integral one, which does not depend on the points asked for. -/
theorem C50_density {samples weights : List ℝ} (hl : samples.length = weights.length)
    (h : Spread (weights.zip samples)) : ∃ f : ℝ → ℝ, ∃ w : List ℝ,
      (∀ xs, weightedKde xs samples weights = .ok (xs.map f, w)) ∧
      (∀ x, 0 < f x) ∧ Continuous f ∧ Integrable f ∧ ∫ x, f x = 1 ∧ w.sum = 1 := by
  have ht := h.total_pos
  have hi := integrable_list_sum (weights.zip samples)
    (fun p x => p.1 / total (weights.zip samples) *
      gaussianPDFReal p.2 (Real.toNNReal (bandwidth (weights.zip samples) ^ 2)) x)
    (fun p _ => (integrable_gaussianPDFReal _ _).const_mul _)
  refine ⟨kde (weights.zip samples), _, C50_formula hl h, ?_, ?_, hi.1, ?_, ?_⟩
  · intro x
    obtain ⟨p, hp, -, -, hp0, -⟩ := h.two
    refine sum_pos_of_mem (f := fun p : ℝ × ℝ => p.1 / total (weights.zip samples) *
      gaussianPDFReal p.2 (Real.toNNReal (bandwidth (weights.zip samples) ^ 2)) x) ?_ hp ?_
    · intro q hq
      exact mul_nonneg (div_nonneg (h.nonneg q hq) ht.le) (gaussianPDFReal_nonneg _ _ _)
    · exact mul_pos (div_pos hp0 ht) (gaussianPDFReal_pos _ _ _ h.var_ne)
  · exact continuous_list_sum _ (fun (p : ℝ × ℝ) x => p.1 / total (weights.zip samples) *
      gaussianPDFReal p.2 (Real.toNNReal (bandwidth (weights.zip samples) ^ 2)) x)
      (fun p _ => continuous_const.mul (continuous_gaussianPDFReal _ _))
  · refine hi.2.trans ?_
    rw [show (fun p : ℝ × ℝ => ∫ x, p.1 / total (weights.zip samples) *
      gaussianPDFReal p.2 (Real.toNNReal (bandwidth (weights.zip samples) ^ 2)) x) =
      fun p => p.1 / total (weights.zip samples) from ?_, sum_map_div']
    · exact div_self ht.ne'
    · funext p
      rw [integral_const_mul, integral_gaussianPDFReal_eq_one _ h.var_ne, mul_one]
  · rw [zip_total hl] at ht
    rw [sum_map_div' weights (fun a => a)]
    simp [ht.ne']

/-- C50: the mean of the density is the weighted mean of the samples. -/
theorem C50_mean {ps : List (ℝ × ℝ)} (h : Spread ps) : ∫ x, x * kde ps x = wMean ps := by
  have ht := h.total_pos
  have hg : ∀ m : ℝ, Integrable (fun x => gaussianPDFReal m (Real.toNNReal (bandwidth ps ^ 2)) x * x) ∧
      ∫ x, gaussianPDFReal m (Real.toNNReal (bandwidth ps ^ 2)) x * x = m := by
    intro m
    have h1 := integral_id_gaussianReal (μ := m) (v := Real.toNNReal (bandwidth ps ^ 2))
    have h2 := (memLp_id_gaussianReal (μ := m) (v := Real.toNNReal (bandwidth ps ^ 2)) 1).integrable le_rfl
    constructor
    · rw [gaussianReal_of_var_ne_zero _ h.var_ne, integrable_withDensity_iff (measurable_gaussianPDF _ _)
        (Filter.Eventually.of_forall fun _ => gaussianPDF_lt_top)] at h2
      simpa [toReal_gaussianPDF, mul_comm] using h2
    · rw [integral_gaussianReal_eq_integral_smul h.var_ne] at h1
      simpa using h1
  have hi := integrable_list_sum ps
    (fun p x => p.1 / total ps * (gaussianPDFReal p.2 (Real.toNNReal (bandwidth ps ^ 2)) x * x))
    (fun p _ => (hg p.2).1.const_mul _)
  rw [show (fun x => x * kde ps x) = fun x => (ps.map (fun p => p.1 / total ps *
    (gaussianPDFReal p.2 (Real.toNNReal (bandwidth ps ^ 2)) x * x))).sum from ?_, hi.2]
  · rw [wMean, ← sum_map_div']
    congr 1
    apply List.map_congr_left
    intro p _
    rw [integral_const_mul, (hg p.2).2]
    ring
  · funext x
    unfold kde
    rw [← List.sum_map_mul_left]
    congr 1
    apply List.map_congr_left
    intro p _
    ring

/-! ### Rescaled weights, and the cases without a result -/

theorem npDiv_scale {c : ℝ} (hc : c ≠ 0) (a s : ℝ) : npDiv (c * a) (c * s) = npDiv a s := by
  unfold npDiv
  by_cases hs : s = 0
  · rw [if_pos hs, if_pos (by rw [hs, mul_zero])]
  · rw [if_neg hs, if_neg (mul_ne_zero hc hs), mul_div_mul_left _ _ hc]

theorem pyMap_map {α β γ : Type} (f : β → Py γ) (g : α → β) (l : List α) :
    pyMap f (l.map g) = pyMap (fun a => f (g a)) l := by
  induction l with
  | nil => rfl
  | cons a l ih => rw [List.map_cons, pyMap, pyMap, ih]

/-- C50: multiplying all weights by the same number changes nothing, neither in the result nor in the
normalised weights, whatever the weights are. -/
theorem C50_rescale (xs samples weights : List ℝ) {c : ℝ} (hc : c ≠ 0) :
    weightedKde xs samples (weights.map (c * ·)) = weightedKde xs samples weights := by
  unfold weightedKde
  rw [List.length_map, pyMap_map, List.sum_map_mul_left, List.map_id']
  simp only [npDiv_scale hc]

theorem pyMap_first_error {α β : Type} {f : α → Py β} {l : List α} {e : PyErr} (hne : l ≠ [])
    (h : ∀ a ∈ l, f a = .error e) : pyMap f l = .error e := by
  cases l with
  | nil => exact absurd rfl hne
  | cons a l => rw [pyMap, h a (by simp)]; rfl

theorem wVar_degenerate {ps : List (ℝ × ℝ)} (h : ∀ p ∈ ps, 0 ≤ p.1) (ht : 0 < total ps)
    (h2 : ¬ ∃ p ∈ ps, ∃ q ∈ ps, 0 < p.1 ∧ 0 < q.1 ∧ p.2 ≠ q.2) : wVar ps = 0 := by
  obtain ⟨p, hp, hp0⟩ : ∃ p ∈ ps, 0 < p.1 := by
    by_contra hc
    push Not at hc
    have : total ps = 0 := by
      apply List.sum_eq_zero
      intro a ha
      obtain ⟨p, hp, rfl⟩ := List.mem_map.mp ha
      exact le_antisymm (hc p hp) (h p hp)
    linarith
  have hq : ∀ q ∈ ps, 0 < q.1 → q.2 = p.2 := by
    intro q hq hq0
    by_contra hne
    exact h2 ⟨q, hq, p, hp, hq0, hp0, hne⟩
  have hmean : wMean ps = p.2 := by
    unfold wMean
    rw [div_eq_iff ht.ne', total, mul_comm, ← List.sum_map_mul_right]
    congr 1
    apply List.map_congr_left
    intro q hq'
    rcases (h q hq').lt_or_eq with h0 | h0
    · rw [hq q hq' h0]
    · rw [← h0]; ring
  unfold wVar
  rw [div_eq_zero_iff]
  left
  apply List.sum_eq_zero
  intro y hy
  obtain ⟨q, hq', rfl⟩ := List.mem_map.mp hy
  rcases (h q hq').lt_or_eq with h0 | h0
  · rw [hmean, hq q hq' h0]; ring
  · rw [← h0]; ring

/-- C50: for non-negative weights there is a result exactly if two different samples have positive weight;
otherwise the values are not defined. -/
theorem C50_degenerate {samples weights : List ℝ} (hl : samples.length = weights.length)
    (h : ∀ a ∈ weights, 0 ≤ a) {xs : List ℝ} (hx : xs ≠ [])
    (h2 : ¬ ∃ p ∈ weights.zip samples, ∃ q ∈ weights.zip samples, 0 < p.1 ∧ 0 < q.1 ∧ p.2 ≠ q.2) :
    weightedKde xs samples weights = .error .undefined := by
  have hps : ∀ p ∈ weights.zip samples, 0 ≤ p.1 := fun p hp => h _ (List.of_mem_zip hp).1
  unfold weightedKde
  rw [if_neg (by simpa using hl)]
  rcases eq_or_ne weights [] with rfl | hw
  · have hs : samples = [] := by simpa using hl
    subst hs
    have hb := kdeBandwidth_eq (samples := []) (weights := []) rfl (by simp)
    simp only [List.map_nil] at hb
    simp only [pyMap, Py.ok_bind, hb]
    simp [effNumber, npDiv, Py.error_bind]
  · by_cases ht : weights.sum = 0
    · rw [pyMap_first_error (e := .undefined) hw (fun a _ => by rw [npDiv, if_pos ht])]
      rfl
    · have ht' : 0 < weights.sum := lt_of_le_of_ne (List.sum_nonneg h) (Ne.symm ht)
      rw [pyMap_npDiv ht, Py.ok_bind, kdeBandwidth_eq hl h,
        wVar_degenerate hps (by rw [zip_total hl]; exact ht') h2]
      by_cases hn : effNumber (weights.zip samples) - 1 = 0
      · rw [hn, npDiv, if_pos rfl]
        rfl
      · rw [npDiv_ok hn, Py.ok_bind, zero_mul, npSqrt, if_neg (lt_irrefl _), Real.sqrt_zero, Py.ok_bind, zero_mul]
        show (pyMap (kdeAt 0 samples _) xs >>= _) = _
        rw [pyMap_first_error (e := .undefined) hx]
        · rfl
        · intro x _
          unfold kdeAt
          rw [pyMap_first_error (e := .undefined)]
          · rfl
          · rintro rfl
            exact hw (List.length_eq_zero_iff.mp hl.symm)
          · intro s _
            unfold kdeEnergy
            rw [npDiv, if_pos rfl]
            rfl

/-- C50: arrays of different lengths are rejected. -/
theorem C50_lengths {xs samples weights : List ℝ} (h : samples.length ≠ weights.length) :
    weightedKde xs samples weights = .error .assertion := if_pos h

/-! ### Equal weights -/

theorem zip_replicate {s : List ℝ} (c : ℝ) : (List.replicate s.length c).zip s = s.map (fun x => (c, x)) := by
  induction s with
  | nil => rfl
  | cons a s ih => simp [List.replicate_succ, ih]

/-- C50: with equal weights the effective number of samples is their number, and the result is the usual
(unweighted) kernel density estimate: the mean of the normal densities around the samples with Scott's
bandwidth, `n ^ (-1/5)` times the sample standard deviation. -/
theorem C50_equal {samples : List ℝ} {c : ℝ} (hc : 0 < c) (h : ∃ a ∈ samples, ∃ b ∈ samples, a ≠ b) (xs : List ℝ) :
    effNumber ((List.replicate samples.length c).zip samples) = samples.length ∧
    weightedKde xs samples (List.replicate samples.length c) =
      .ok (xs.map (fun x => Spec.average (samples.map (fun s => gaussianPDFReal s
          (Real.toNNReal ((stdev samples * (samples.length : ℝ) ^ (-1 / 5 : ℝ)) ^ 2)) x))),
        List.replicate samples.length (1 / (samples.length : ℝ))) := by
  obtain ⟨a, ha, b, hb, hab⟩ := h
  have hn : 1 < samples.length := by
    rcases samples with _ | ⟨x, _ | ⟨y, l⟩⟩
    · simp at ha
    · simp only [List.mem_singleton] at ha hb
      exact absurd (ha.trans hb.symm) hab
    · simp
  have hn0 : (1 : ℝ) < samples.length := by exact_mod_cast hn
  have hz := zip_replicate (s := samples) c
  have htot : total (samples.map (fun x => (c, x))) = samples.length * c := by
    simp [total, List.map_map, Function.comp_def, List.map_const', List.sum_replicate]
  have hmean : wMean (samples.map (fun x => (c, x))) = Spec.average samples := by
    unfold wMean Spec.average
    rw [htot, List.map_map]
    simp only [Function.comp_def]
    rw [List.sum_map_mul_left, List.map_id', mul_comm (samples.length : ℝ) c, mul_div_mul_left _ _ hc.ne']
  have heff : effNumber (samples.map (fun x => (c, x))) = samples.length := by
    unfold effNumber
    rw [htot, List.map_map]
    simp only [Function.comp_def]
    rw [List.map_const', List.sum_replicate, nsmul_eq_mul, Real.negMulLog,
      show c / (samples.length * c) = (samples.length : ℝ)⁻¹ by field_simp, Real.log_inv]
    rw [show (samples.length : ℝ) * (-(samples.length : ℝ)⁻¹ * -Real.log samples.length) = Real.log samples.length by
      field_simp]
    exact Real.exp_log (by linarith)
  have hbw : bandwidth (samples.map (fun x => (c, x))) = stdev samples * (samples.length : ℝ) ^ (-1 / 5 : ℝ) := by
    unfold bandwidth stdev
    rw [heff, wVar, htot, hmean, List.map_map]
    simp only [Function.comp_def]
    rw [List.sum_map_mul_left]
    congr 2
    have : (samples.length : ℝ) - 1 ≠ 0 := by linarith
    field_simp
  have hspread : Spread ((List.replicate samples.length c).zip samples) := by
    rw [hz]
    constructor
    · simp [hc.le]
    · exact ⟨(c, a), by simpa using ha, (c, b), by simpa using hb, hc, hc, hab⟩
  refine ⟨by rw [hz, heff], ?_⟩
  rw [C50_formula (by simp) hspread, hz]
  congr 2
  · apply List.map_congr_left
    intro x _
    unfold kde Spec.average
    rw [htot, hbw, List.map_map, List.length_map, ← sum_map_div']
    simp only [Function.comp_def]
    congr 1
    apply List.map_congr_left
    intro s _
    have : (samples.length : ℝ) ≠ 0 := by linarith
    field_simp
  · rw [List.map_replicate, List.sum_replicate, nsmul_eq_mul]
    congr 1
    field_simp

/-! ### Order and origin of the samples -/

theorem total_perm {ps qs : List (ℝ × ℝ)} (h : ps.Perm qs) : total ps = total qs := (h.map _).sum_eq

theorem wMean_perm {ps qs : List (ℝ × ℝ)} (h : ps.Perm qs) : wMean ps = wMean qs := by
  unfold wMean
  rw [total_perm h, (h.map _).sum_eq]

theorem bandwidth_perm {ps qs : List (ℝ × ℝ)} (h : ps.Perm qs) : bandwidth ps = bandwidth qs := by
  have h1 : wVar ps = wVar qs := by
    unfold wVar
    rw [total_perm h, wMean_perm h, (h.map _).sum_eq]
  have h2 : effNumber ps = effNumber qs := by
    unfold effNumber
    rw [total_perm h, (h.map _).sum_eq]
  unfold bandwidth
  rw [h1, h2]

/-- C50: the order of the samples does not matter. -/
theorem C50_order {samples samples' weights weights' : List ℝ} (hl : samples.length = weights.length)
    (hl' : samples'.length = weights'.length) (hp : (weights.zip samples).Perm (weights'.zip samples'))
    (h : Spread (weights.zip samples)) (xs : List ℝ) :
    (weightedKde xs samples weights).map Prod.fst = (weightedKde xs samples' weights').map Prod.fst := by
  have h' : Spread (weights'.zip samples') := by
    obtain ⟨p, hp1, q, hq1, h2⟩ := h.two
    exact ⟨fun r hr => h.nonneg r (hp.mem_iff.mpr hr), p, hp.mem_iff.mp hp1, q, hp.mem_iff.mp hq1, h2⟩
  rw [C50_formula hl h, C50_formula hl' h']
  show Except.ok _ = Except.ok _
  congr 1
  apply List.map_congr_left
  intro x _
  unfold kde
  rw [total_perm hp, bandwidth_perm hp, (hp.map _).sum_eq]

/-- C50: adding a constant to the samples moves the density by that constant. -/
theorem C50_shift {samples weights : List ℝ} (hl : samples.length = weights.length)
    (h : Spread (weights.zip samples)) (xs : List ℝ) (d : ℝ) :
    weightedKde (xs.map (· + d)) (samples.map (· + d)) weights = weightedKde xs samples weights := by
  have ht := h.total_pos
  have hz : weights.zip (samples.map (· + d)) = (weights.zip samples).map (fun p => (p.1, p.2 + d)) := by
    rw [List.zip_map_right]
    rfl
  have hs : Spread (weights.zip (samples.map (· + d))) := by
    rw [hz]
    constructor
    · intro p hp
      obtain ⟨q, hq, rfl⟩ := List.mem_map.mp hp
      exact h.nonneg q hq
    · obtain ⟨p, hp, q, hq, h1, h2, h3⟩ := h.two
      exact ⟨_, List.mem_map_of_mem hp, _, List.mem_map_of_mem hq, h1, h2, by simpa using h3⟩
  have htot : total ((weights.zip samples).map (fun p => (p.1, p.2 + d))) = total (weights.zip samples) := by
    simp [total, List.map_map, Function.comp_def]
  have hmean : wMean ((weights.zip samples).map (fun p => (p.1, p.2 + d))) = wMean (weights.zip samples) + d := by
    unfold wMean
    rw [htot, List.map_map, div_add' _ _ _ ht.ne']
    congr 1
    rw [total, ← List.sum_map_mul_left, ← List.sum_map_add]
    congr 1
    apply List.map_congr_left
    intro p _
    simp only [Function.comp_apply]
    ring
  have hbw : bandwidth ((weights.zip samples).map (fun p => (p.1, p.2 + d))) = bandwidth (weights.zip samples) := by
    have h1 : wVar ((weights.zip samples).map (fun p => (p.1, p.2 + d))) = wVar (weights.zip samples) := by
      unfold wVar
      rw [htot, hmean, List.map_map]
      simp [Function.comp_def]
    have h2 : effNumber ((weights.zip samples).map (fun p => (p.1, p.2 + d))) = effNumber (weights.zip samples) := by
      unfold effNumber
      rw [htot, List.map_map]
      simp [Function.comp_def]
    unfold bandwidth
    rw [h1, h2]
  rw [C50_formula (by simpa using hl) hs, C50_formula hl h, hz, List.map_map]
  congr 2
  apply List.map_congr_left
  intro x _
  simp only [Function.comp_apply]
  unfold kde
  rw [htot, hbw, List.map_map]
  congr 1
  apply List.map_congr_left
  intro p _
  simp only [Function.comp_apply]
  congr 1
  simp [gaussianPDFReal]

/-- Two samples, the second with twice the weight of the first. -/
theorem exSpread : Spread (([1, 2] : List ℝ).zip [0, 5]) := by
  constructor
  · simp
  · exact ⟨(1, 0), by simp, (2, 5), by simp, by norm_num, by norm_num, by norm_num⟩

example : ∃ f : ℝ → ℝ, ∃ w : List ℝ, (∀ xs, weightedKde xs [0, 5] [1, 2] = .ok (xs.map f, w)) ∧
    (∀ x, 0 < f x) ∧ Continuous f ∧ Integrable f ∧ ∫ x, f x = 1 ∧ w.sum = 1 :=
  C50_density rfl exSpread

example : ∫ x, x * kde (([1, 2] : List ℝ).zip [0, 5]) x = 10 / 3 := by
  rw [C50_mean exSpread]
  norm_num [wMean, total]

example : weightedKde [0] [3, 3] [1, 2] = .error .undefined :=
  C50_degenerate (by rfl) (by norm_num) (List.cons_ne_nil _ _) (by norm_num)

example (xs : List ℝ) := (C50_equal (samples := [1, 4]) (c := 2) (by norm_num) ⟨1, by simp, 4, by simp, by norm_num⟩ xs).2

end
end Nestcheck
