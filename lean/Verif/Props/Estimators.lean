import Verif.Proofs.Quantile
import Verif.Props.Weights

/-
C30-C33: estimators of parameter means, quantiles and radii, and `run_estimators`.
-/

namespace Nestcheck
open Spec
variable {σ : Type} (A : Argsort ℝ) (R : Rng σ ℝ)

section
variable {A R} {r : Run ℝ} {logw : Option (List ℝ)} {sim : Bool} {w : World σ}

/-- What an estimator computes once it has its weights: the weights up to a positive
factor. -/
theorem with_weights (h : Usable r logw sim (R.uniform r.nlive.length w.rng).1) :
    ∃ lw c, 0 < c ∧ logwOr R r logw sim w = (.ok lw, afterWeights R r logw sim w) ∧
      relWeights lw = .ok ((sampleWeights r logw sim (R.uniform r.nlive.length w.rng).1).map (· * c)) := by
  obtain ⟨lw, h1, h2, h3, -⟩ := logwOr_ok h
  obtain ⟨c, hc, h4⟩ := relWeights_scale h3
  rw [h2] at h4
  exact ⟨lw, c, hc, h1, h4⟩

theorem scaled_spec {ws : List ℝ} {c : ℝ} (hc : 0 < c) (h0 : ws ≠ []) (hw : ∀ w ∈ ws, 0 < w) :
    ws.map (· * c) ≠ [] ∧ ∀ w ∈ ws.map (· * c), 0 < w := by
  refine ⟨by simpa using h0, ?_⟩
  intro v hv
  obtain ⟨x, hx, rfl⟩ := List.mem_map.mp hv
  exact mul_pos (hw x hx) hc

theorem column_length {ind : Nat} {xs : List ℝ} (h : r.theta.map (·[ind]?) = xs.map some) :
    r.theta.length = xs.length := by
  simpa using congrArg List.length h

end

/-- C30.  `param_mean` is the weighted mean of the parameter and lies between any
bounds on it. -/
theorem C30_param_mean {r : Run ℝ} {logw : Option (List ℝ)} {sim : Bool} {w : World σ}
    (h : Usable r logw sim (R.uniform r.nlive.length w.rng).1) {ind : Nat} {xs : List ℝ}
    (hx : r.theta.map (·[ind]?) = xs.map some) (handle : Bool) :
    ∃ m, paramMean R r logw sim ind handle w = (.ok (some m), afterWeights R r logw sim w) ∧
      m = mean (sampleWeights r logw sim (R.uniform r.nlive.length w.rng).1) xs ∧
      (∃ x ∈ xs, x ≤ m) ∧ ∃ x ∈ xs, m ≤ x := by
  obtain ⟨lw, c, hc, h1, h2⟩ := with_weights h
  obtain ⟨s1, s2, s3⟩ := sampleWeights_spec h
  obtain ⟨t1, t2⟩ := scaled_spec hc s1 s3
  have hlen := column_length hx
  have hl : (sampleWeights r logw sim (R.uniform r.nlive.length w.rng).1).length = xs.length := by
    rw [s2, ← h.1, hlen]
  have hne : xs ≠ [] := by
    intro h0; rw [h0] at hl; exact s1 (List.length_eq_zero_iff.mp hl)
  refine ⟨_, ?_, rfl, ?_, ?_⟩
  · unfold paramMean
    rw [M.bind_ok h1, M.lift_apply]
    unfold paramMeanOf
    rw [h2, Py.ok_bind, column_ok hx, Py.ok_bind, weightedMean_ok t1 t2 (by simpa using hl),
      mean_scale hc.ne']
  · obtain ⟨m, hm⟩ : ∃ m, amin xs = some m := by
      cases xs with
      | nil => exact absurd rfl hne
      | cons a as => exact ⟨_, rfl⟩
    obtain ⟨m', hm'⟩ := exists_amax hne
    obtain ⟨a1, a2⟩ := amin_eq_some.mp hm
    obtain ⟨b1, b2⟩ := amax_eq_some.mp hm'
    exact ⟨m, a1, (mean_bounds s1 s3 hl (fun x hx => ⟨a2 x hx, b2 x hx⟩)).1⟩
  · obtain ⟨m, hm⟩ : ∃ m, amin xs = some m := by
      cases xs with
      | nil => exact absurd rfl hne
      | cons a as => exact ⟨_, rfl⟩
    obtain ⟨m', hm'⟩ := exists_amax hne
    obtain ⟨a1, a2⟩ := amin_eq_some.mp hm
    obtain ⟨b1, b2⟩ := amax_eq_some.mp hm'
    exact ⟨m', b1, (mean_bounds s1 s3 hl (fun x hx => ⟨a2 x hx, b2 x hx⟩)).2⟩

theorem usable_theta {r : Run ℝ} {logw : Option (List ℝ)} {sim : Bool} {us : List ℝ}
    (h : Usable r logw sim us) {thetas : List (List ℝ)} (hl : thetas.length = r.logl.length) :
    Usable { r with theta := thetas } logw sim us := by
  refine ⟨hl, h.2.1, ?_⟩
  cases logw with
  | some lw => exact h.2.2
  | none => exact ⟨⟨h.2.2.1.nonempty, h.2.2.1.pos, h.2.2.1.len⟩, h.2.2.2⟩

/-- C30, affine equivariance: replacing the parameter by `a * x + b` in every sample
(whatever happens to the other parameters) does the same to its mean. -/
theorem C30_affine {r : Run ℝ} {logw : Option (List ℝ)} {sim : Bool} {w : World σ}
    (h : Usable r logw sim (R.uniform r.nlive.length w.rng).1) {ind : Nat} {xs : List ℝ}
    (hx : r.theta.map (·[ind]?) = xs.map some) (handle : Bool) (a b : ℝ) {thetas : List (List ℝ)}
    (hx' : thetas.map (·[ind]?) = xs.map (fun x => some (a * x + b))) :
    ∃ m w', paramMean R r logw sim ind handle w = (.ok (some m), w') ∧
      paramMean R { r with theta := thetas } logw sim ind handle w = (.ok (some (a * m + b)), w') := by
  have hlen := column_length hx
  have hx'' : thetas.map (·[ind]?) = (xs.map (fun x => a * x + b)).map some := by
    rw [hx', List.map_map]; rfl
  have hl' : thetas.length = r.logl.length := by
    have := congrArg List.length hx'
    simp only [List.length_map] at this
    rw [this, ← hlen, h.1]
  obtain ⟨m, h1, h2, -⟩ := C30_param_mean R h hx handle
  obtain ⟨m', h1', h2', -⟩ := C30_param_mean (r := { r with theta := thetas }) R (usable_theta h hl') hx'' handle
  refine ⟨m, _, h1, h1'.trans ?_⟩
  obtain ⟨s1, s2, s3⟩ := sampleWeights_spec h
  have : m' = a * m + b := by
    rw [h2', h2]
    exact mean_affine a b s1 s3 (s2.trans (by rw [← h.1, hlen]))
  rw [this]
  rfl

/-- C30, rescaling the likelihood: adding a constant to every loglikelihood (or to the
given log weights) does not change the mean. -/
theorem C30_rescale {r : Run ℝ} {logw : Option (List ℝ)} {sim : Bool} {w : World σ}
    (h : Usable r logw sim (R.uniform r.nlive.length w.rng).1) (ind : Nat) (handle : Bool) (c : ℝ) :
    paramMean R { r with logl := r.logl.map (· + c) } (logw.map (·.map (· + c))) sim ind handle w =
      paramMean R r logw sim ind handle w := by
  cases logw with
  | some lw =>
    unfold paramMean logwOr
    simp only [Option.map_some]
    rw [M.bind_ok (M.pure_apply _ _), M.bind_ok (M.pure_apply _ _), M.lift_apply, M.lift_apply]
    unfold paramMeanOf
    rw [relWeights_shift]
  | none =>
    obtain ⟨-, -, h3, h4⟩ := h
    unfold paramMean logwOr
    simp only [Option.map_none]
    rw [M.bind_ok (getLogw_ok (h3.shift c) sim w h4), M.bind_ok (getLogw_ok h3 sim w h4),
      M.lift_apply, M.lift_apply]
    unfold paramMeanOf
    rw [zipWith_map_add, relWeights_shift]

/-- C30, second moments: `param_squared_mean` is the weighted mean of the squares, and
at least the square of `param_mean`. -/
theorem C30_squared {r : Run ℝ} {logw : Option (List ℝ)} {sim : Bool} {w : World σ}
    (h : Usable r logw sim (R.uniform r.nlive.length w.rng).1) {ind : Nat} {xs : List ℝ}
    (hx : r.theta.map (·[ind]?) = xs.map some) (handle : Bool) :
    ∃ s m w', paramSquaredMean R r logw sim ind w = (.ok s, w') ∧
      w' = afterWeights R r logw sim w ∧
      s = mean (sampleWeights r logw sim (R.uniform r.nlive.length w.rng).1) (xs.map (fun x => x * x)) ∧
      paramMean R r logw sim ind handle w = (.ok (some m), w') ∧ m ^ 2 ≤ s := by
  obtain ⟨m, hm, hm', -⟩ := C30_param_mean R h hx handle
  obtain ⟨lw, c, hc, h1, h2⟩ := with_weights h
  obtain ⟨s1, s2, s3⟩ := sampleWeights_spec h
  obtain ⟨t1, t2⟩ := scaled_spec hc s1 s3
  have hlen := column_length hx
  have hl : (sampleWeights r logw sim (R.uniform r.nlive.length w.rng).1).length = xs.length := by
    rw [s2, ← h.1, hlen]
  have hsq : xs.map (fun x => x * x) = xs.map (· ^ 2) := by
    congr 1; funext x; ring
  refine ⟨_, m, _, ?_, rfl, rfl, hm, ?_⟩
  · unfold paramSquaredMean
    rw [M.bind_ok h1, M.lift_apply, h2, Py.ok_bind]
    generalize hws : List.map (· * c) (sampleWeights r logw sim (R.uniform r.nlive.length w.rng).1) = ws at t1 t2
    have hp := sum_pos_of t1 t2
    have e : pyMap (fun x => npDiv x ws.sum) ws = .ok (ws.map (· * (ws.sum)⁻¹)) :=
      pyMap_ok (fun x _ => by rw [npDiv_ok hp.ne', div_eq_mul_inv])
    rw [e, Py.ok_bind, column_ok hx, Py.ok_bind]
    unfold dot
    rw [if_neg (by simp [← hws, hl]), dot_scale, hsq, ← mean_scale hc.ne', hws]
    unfold mean
    rw [div_eq_mul_inv]
  · rw [hm', hsq]
    exact sq_mean_le s1 s3 hl

/-- C30, missing parameters: nan if `handle_indexerror` is set, else `IndexError`. -/
theorem C30_missing {r : Run ℝ} {logw : Option (List ℝ)} {sim : Bool} {w : World σ}
    (h : Usable r logw sim (R.uniform r.nlive.length w.rng).1) {ind : Nat}
    (hx : ∃ t ∈ r.theta, t.length ≤ ind) (handle : Bool) :
    paramMean R r logw sim ind handle w =
      (if handle then .ok none else .error .index, afterWeights R r logw sim w) := by
  obtain ⟨lw, c, hc, h1, h2⟩ := with_weights h
  unfold paramMean
  rw [M.bind_ok h1, M.lift_apply]
  unfold paramMeanOf
  rw [h2, Py.ok_bind, column_error hx, Py.error_bind]

/-! ### Quantiles -/

/-- C31, inputs which are rejected: probabilities outside (0, 1) and arrays of
different lengths. -/
theorem C31_assert {prob : ℝ} {values weights : List ℝ}
    (h : prob ≤ 0 ∨ 1 ≤ prob ∨ values.length ≠ weights.length) :
    weightedQuantile A prob values weights = .error .assertion := by
  unfold weightedQuantile
  by_cases h1 : prob < 1 ∧ 0 < prob
  · rw [if_neg (by simp [h1])]
    have h2 : values.length ≠ weights.length := by
      rcases h with h | h | h
      · linarith [h1.2]
      · linarith [h1.1]
      · exact h
    rw [if_pos h2]
  · rw [if_pos h1]

/-- C31.  For non-negative weights which are not all zero the quantile exists for every
probability in (0, 1), lies between the smallest and the largest value, and is
nondecreasing in the probability. -/
theorem C31_quantile {values weights : List ℝ} (hl : values.length = weights.length)
    (hw : ∀ v ∈ weights, 0 ≤ v) (ht : 0 < weights.sum) :
    ∃ f : ℝ → ℝ, Monotone f ∧ ∀ prob, 0 < prob → prob < 1 →
      weightedQuantile A prob values weights = .ok (f prob) ∧
      (∃ v ∈ values, v ≤ f prob) ∧ ∃ v ∈ values, f prob ≤ v := by
  have h0 : values ≠ [] := by
    intro h; rw [h] at hl
    rw [List.length_eq_zero_iff.mp hl.symm] at ht
    exact lt_irrefl _ ht
  have hperm := sortBy_perm A Prod.fst (values.zip weights)
  have h2 : (values.zip weights).map (·.2) = weights := List.map_snd_zip (by omega)
  have h1 : (values.zip weights).map (·.1) = values := List.map_fst_zip (by omega)
  have hp1 := hperm.map (·.1)
  have hp2 := hperm.map (·.2)
  rw [h1] at hp1
  rw [h2] at hp2
  obtain ⟨f, f1, f2, f3⟩ := interp_ok
    (xp := mids weights.sum 0 ((sortBy A Prod.fst (values.zip weights)).map (·.2)))
    (fp := (sortBy A Prod.fst (values.zip weights)).map (·.1)) (by simp [length_mids])
    (by intro h; rw [h] at hp1; exact h0 hp1.nil_eq.symm)
    (mids_pairwise ht 0 (fun v hv => hw v (hp2.mem_iff.mp hv)))
    (List.pairwise_map.mpr (sortBy_sorted A Prod.fst _))
  refine ⟨f, f2, ?_⟩
  intro prob hp hp'
  refine ⟨?_, ?_, ?_⟩
  · rw [weightedQuantile_eq A ⟨hp, hp'⟩ hl ht.ne', f1]
  · obtain ⟨v, hv, hv'⟩ := (f3 prob).1
    exact ⟨v, hp1.mem_iff.mp hv, hv'⟩
  · obtain ⟨v, hv, hv'⟩ := (f3 prob).2
    exact ⟨v, hp1.mem_iff.mp hv, hv'⟩

/-- C31, scale: multiplying the weights by a constant changes nothing. -/
theorem C31_scale {values weights : List ℝ} (ht : 0 < weights.sum) {c : ℝ} (hc : 0 < c) (prob : ℝ) :
    weightedQuantile A prob values (weights.map (· * c)) = weightedQuantile A prob values weights := by
  by_cases h : prob ≤ 0 ∨ 1 ≤ prob ∨ values.length ≠ weights.length
  · rw [C31_assert A h, C31_assert A (by simpa using h)]
  · push Not at h
    obtain ⟨h1, h2, h3⟩ := h
    have hs := sum_scale c weights
    rw [weightedQuantile_eq A ⟨h1, h2⟩ h3 ht.ne',
      weightedQuantile_eq A ⟨h1, h2⟩ (by simpa using h3) (by rw [hs]; exact (mul_pos ht hc).ne')]
    have e : values.zip (weights.map (· * c)) = (values.zip weights).map (Prod.map id (· * c)) := by
      rw [List.zip_map_right]
    have e' : sortBy A Prod.fst (values.zip (weights.map (· * c))) =
        (sortBy A Prod.fst (values.zip weights)).map (Prod.map id (· * c)) := by
      unfold sortBy
      rw [e, gather_map, List.map_map]
      rfl
    rw [e', List.map_map, List.map_map, hs]
    have e2 : ((fun p : ℝ × ℝ => p.2) ∘ Prod.map id (· * c)) = (· * c) ∘ (fun p : ℝ × ℝ => p.2) := rfl
    have e1 : ((fun p : ℝ × ℝ => p.1) ∘ Prod.map id (· * c)) = (fun p : ℝ × ℝ => p.1) := rfl
    rw [e1, e2, ← List.map_map]
    have := mids_scale hc.ne' weights.sum 0 ((sortBy A Prod.fst (values.zip weights)).map (·.2))
    rw [zero_mul] at this
    rw [this]

/-- C31, order: for distinct values the quantile depends neither on the order in which
the samples are given nor on the sorting algorithm. -/
theorem C31_order (A' : Argsort ℝ) {values weights values' weights' : List ℝ}
    (hl : values.length = weights.length) (hl' : values'.length = weights'.length)
    (hd : values.Nodup) (hp : (values.zip weights).Perm (values'.zip weights'))
    (ht : weights.sum ≠ 0) (prob : ℝ) :
    weightedQuantile A prob values weights = weightedQuantile A' prob values' weights' := by
  by_cases h : prob ≤ 0 ∨ 1 ≤ prob
  · rw [C31_assert A (by tauto), C31_assert A' (by tauto)]
  · push Not at h
    have h2 : (values.zip weights).map (·.2) = weights := List.map_snd_zip (by omega)
    have h1 : (values.zip weights).map (·.1) = values := List.map_fst_zip (by omega)
    have h2' : (values'.zip weights').map (·.2) = weights' := List.map_snd_zip (by omega)
    have hs : weights'.sum = weights.sum := by
      rw [← h2, ← h2']; exact ((hp.map (·.2)).sum_eq).symm
    rw [weightedQuantile_eq A h hl ht, weightedQuantile_eq A' h hl' (by rw [hs]; exact ht), hs,
      sortBy_congr A' hp (by rw [show List.map Prod.fst _ = values from h1]; exact hd)]

/-- C31, exact values.  For distinct values with positive weights: below the position
of the smallest value (the middle of its weight) the quantile is the smallest value,
above the position of the largest it is the largest, and between the positions of
neighbouring values it is interpolated linearly. -/
theorem C31_exact {values weights : List ℝ} (hl : values.length = weights.length)
    (hd : values.Nodup) (hw : ∀ v ∈ weights, 0 < v) {prob : ℝ} (h0 : 0 < prob) (h1 : prob < 1) :
    (∀ p ∈ values.zip weights, (∀ q ∈ values.zip weights, p.1 ≤ q.1) →
      prob ≤ position (values.zip weights) p → weightedQuantile A prob values weights = .ok p.1) ∧
    (∀ p ∈ values.zip weights, (∀ q ∈ values.zip weights, q.1 ≤ p.1) →
      position (values.zip weights) p ≤ prob → weightedQuantile A prob values weights = .ok p.1) ∧
    ∀ p ∈ values.zip weights, ∀ q ∈ values.zip weights, p.1 < q.1 →
      (∀ s ∈ values.zip weights, ¬ (p.1 < s.1 ∧ s.1 < q.1)) →
      position (values.zip weights) p ≤ prob → prob ≤ position (values.zip weights) q →
      weightedQuantile A prob values weights = .ok (p.1 + (q.1 - p.1) *
        ((prob - position (values.zip weights) p) /
          (position (values.zip weights) q - position (values.zip weights) p))) := by
  have e2 : (values.zip weights).map (·.2) = weights := List.map_snd_zip (by omega)
  have e1 : (values.zip weights).map (·.1) = values := List.map_fst_zip (by omega)
  have hperm := sortBy_perm A Prod.fst (values.zip weights)
  have hstrict := sortBy_strict (A := A) (key := Prod.fst) (rows := values.zip weights)
    (by rw [show List.map Prod.fst _ = values from e1]; exact hd)
  have hp2 := hperm.map (·.2)
  rw [e2] at hp2
  have key : ∀ p ∈ values.zip weights, 0 < weights.sum := by
    intro p hp
    apply sum_pos_of _ hw
    intro h
    rw [h] at hp
    simp at hp
  have hmem : ∀ p, p ∈ values.zip weights ↔ p ∈ sortBy A Prod.fst (values.zip weights) :=
    fun p => hperm.mem_iff.symm
  generalize hps : sortBy A Prod.fst (values.zip weights) = ps at *
  have hw' : ∀ v ∈ ps.map (·.2), 0 < v := fun v hv => hw v (hp2.mem_iff.mp hv)
  -- the quantile in terms of the sorted samples
  have hq : ∀ p ∈ values.zip weights, weightedQuantile A prob values weights =
      interp prob (mids weights.sum 0 (ps.map (·.2))) (ps.map (·.1)) := by
    intro p hp
    rw [weightedQuantile_eq A ⟨h0, h1⟩ hl (key p hp).ne', hps]
  have hint : ∀ {p : ℝ × ℝ} {l : List (ℝ × ℝ)},
      (mids weights.sum 0 (ps.map (·.2))).zip (ps.map (·.1)) = p :: l →
      interp prob (mids weights.sum 0 (ps.map (·.2))) (ps.map (·.1)) =
        .ok (if prob < p.1 then p.2 else interpFrom prob p l) := by
    intro p l h
    unfold interp
    rw [if_neg (by simp [length_mids]), h]
  refine ⟨?_, ?_, ?_⟩
  · intro p hp hmin hprob
    have ht := key p hp
    obtain ⟨l, l', hll⟩ := List.append_of_mem ((hmem p).mp hp)
    have hl0 : l = [] := by
      cases l with
      | nil => rfl
      | cons a l =>
        have h3 : a.1 < p.1 := by
          rw [hll] at hstrict
          exact List.rel_of_pairwise_cons hstrict (by simp)
        have := hmin a ((hmem a).mpr (by rw [hll]; simp))
        linarith
    subst hl0
    rw [position_sorted (by rw [hll] at hperm; exact hperm) (by rw [hll] at hstrict; exact hstrict), e2] at hprob
    have hz := zip_mids_append weights.sum [] l' p
    rw [← hll] at hz
    have hz' := zip_mids_pairwise ht (vs := ps.map (·.1)) hw'
    rw [hz] at hz'
    simp only [List.map_nil, List.sum_nil, mids, List.zip_nil_left, List.nil_append] at hz hz' hprob
    rw [hq p hp, hint hz]
    by_cases h3 : prob < (0 + p.2 / 2) / weights.sum
    · rw [if_pos h3]
    · have h4 : prob = (0 + p.2 / 2) / weights.sum := le_antisymm hprob (not_lt.mp h3)
      rw [if_neg h3]
      congr 1
      cases hrest : (mids weights.sum (0 + p.2) (l'.map (·.2))).zip (l'.map (·.1)) with
      | nil => rw [interpFrom]
      | cons b bs =>
        rw [hrest] at hz'
        have := List.rel_of_pairwise_cons hz' (List.mem_cons_self)
        rw [interpFrom, if_pos (by rw [h4]; exact this), if_pos h4]
  · intro p hp hmax hprob
    have ht := key p hp
    obtain ⟨l, l', hll⟩ := List.append_of_mem ((hmem p).mp hp)
    have hl0 : l' = [] := by
      cases l' with
      | nil => rfl
      | cons a l' =>
        have h3 : p.1 < a.1 := by
          rw [hll, List.pairwise_append] at hstrict
          exact List.rel_of_pairwise_cons hstrict.2.1 (by simp)
        have := hmax a ((hmem a).mpr (by rw [hll]; simp))
        linarith
    subst hl0
    rw [position_sorted (by rw [hll] at hperm; exact hperm) (by rw [hll] at hstrict; exact hstrict), e2] at hprob
    have hz := zip_mids_append weights.sum l [] p
    rw [← hll] at hz
    have hz' := zip_mids_pairwise ht (vs := ps.map (·.1)) hw'
    rw [hz] at hz'
    simp only [List.map_nil, mids, List.zip_nil_left] at hz hz'
    rw [hq p hp]
    cases hrest : (mids weights.sum 0 (l.map (·.2))).zip (l.map (·.1)) with
    | nil =>
      rw [hrest, List.nil_append] at hz
      rw [hint hz, if_neg (not_lt.mpr hprob), interpFrom]
    | cons b bs =>
      rw [hrest, List.cons_append] at hz hz'
      have hb : b.1 < ((l.map (·.2)).sum + p.2 / 2) / weights.sum :=
        List.rel_of_pairwise_cons hz' (a' := (((l.map (·.2)).sum + p.2 / 2) / weights.sum, p.1)) (by simp)
      rw [hint hz, if_neg (by linarith), interpFrom_last hz' hprob]
  · intro p hp q hq' hpq hnone hprob hprob'
    have ht := key p hp
    obtain ⟨l, l', hll⟩ := adjacent_sorted hstrict ((hmem p).mp hp) ((hmem q).mp hq') hpq
      (fun c hc => hnone c ((hmem c).mpr hc))
    have hposp := position_sorted (ps := values.zip weights) (l := l) (l' := q :: l') (a := p)
      (by rw [hll] at hperm; exact hperm) (by rw [hll] at hstrict; exact hstrict)
    have hposq := position_sorted (ps := values.zip weights) (l := l ++ [p]) (l' := l') (a := q)
      (by rw [hll] at hperm; simpa using hperm) (by rw [hll] at hstrict; simpa using hstrict)
    rw [e2] at hposp hposq
    have hz := zip_mids_append weights.sum l (q :: l') p
    rw [← hll] at hz
    have hz' := zip_mids_pairwise ht (vs := ps.map (·.1)) hw'
    rw [hz] at hz'
    simp only [List.map_cons, mids, List.zip_cons_cons] at hz hz'
    rw [← hposp] at hz hz'
    have : ((l.map (·.2)).sum + p.2 + q.2 / 2) / weights.sum = position (values.zip weights) q := by
      rw [hposq]; simp
    rw [this] at hz hz'
    rw [hq p hp]
    cases hrest : (mids weights.sum 0 (l.map (·.2))).zip (l.map (·.1)) with
    | nil =>
      rw [hrest, List.nil_append] at hz hz'
      rw [hint hz, if_neg (not_lt.mpr hprob)]
      rw [interpFrom_between (l := []) rfl hz' hprob hprob']
    | cons b bs =>
      rw [hrest, List.cons_append] at hz hz'
      have hb : b.1 < position (values.zip weights) p :=
        List.rel_of_pairwise_cons hz' (a' := (position (values.zip weights) p, p.1)) (by simp)
      rw [hint hz, if_neg (by linarith)]
      rw [interpFrom_between (l := b :: bs) (List.cons_append).symm hz' hprob hprob']

/-- C31 for `param_cred`: the quantile of the parameter with the weights of the samples. -/
theorem C31_param_cred {r : Run ℝ} {logw : Option (List ℝ)} {sim : Bool} {w : World σ}
    (h : Usable r logw sim (R.uniform r.nlive.length w.rng).1) {ind : Nat} {xs : List ℝ}
    (hx : r.theta.map (·[ind]?) = xs.map some) (prob : ℝ) :
    paramCred A R r logw sim prob ind w =
      (weightedQuantile A prob xs (sampleWeights r logw sim (R.uniform r.nlive.length w.rng).1),
        afterWeights R r logw sim w) := by
  obtain ⟨lw, c, hc, h1, h2⟩ := with_weights h
  obtain ⟨s1, s2, s3⟩ := sampleWeights_spec h
  unfold paramCred
  rw [M.bind_ok h1, M.lift_apply, h2, Py.ok_bind, column_ok hx, Py.ok_bind,
    C31_scale A (sum_pos_of s1 s3) hc]

/-! ### Radii -/

theorem radii_eq (thetas : List (List ℝ)) : radii thetas = thetas.map radius := by
  unfold radii radius
  congr 1
  funext t
  congr 3
  funext x
  ring

theorem abs_le_radius {t : List ℝ} {x : ℝ} (h : x ∈ t) : |x| ≤ radius t := by
  unfold radius
  apply Real.abs_le_sqrt
  have : x * x ∈ t.map (fun x => x * x) := List.mem_map.mpr ⟨x, h, rfl⟩
  rw [sq]
  refine List.single_le_sum ?_ _ this
  intro y hy
  obtain ⟨z, -, rfl⟩ := List.mem_map.mp hy
  exact mul_self_nonneg z

theorem radius_sq (t : List ℝ) : radius t ^ 2 = (t.map (fun x => x * x)).sum := by
  unfold radius
  apply Real.sq_sqrt
  apply List.sum_nonneg
  intro y hy
  obtain ⟨z, -, rfl⟩ := List.mem_map.mp hy
  exact mul_self_nonneg z

theorem mean_neg {ws xs : List ℝ} : mean ws (xs.map (fun x => -x)) = - mean ws xs := by
  unfold mean
  rw [List.zipWith_map_right, neg_div']
  congr 1
  induction ws generalizing xs with
  | nil => simp
  | cons w ws ih =>
    cases xs with
    | nil => simp
    | cons x xs =>
      simp only [List.zipWith_cons_cons, List.sum_cons, ih]
      ring

theorem mean_abs {ws xs ys : List ℝ} (h0 : ws ≠ []) (hw : ∀ w ∈ ws, 0 < w)
    (h : List.Forall₂ (fun x y => |x| ≤ y) xs ys) : |mean ws xs| ≤ mean ws ys := by
  rw [abs_le, ← mean_neg]
  constructor
  · apply mean_mono h0 hw
    rw [List.forall₂_map_left_iff]
    exact h.flip.imp (fun a b hab => (abs_le.mp hab).1)
  · exact mean_mono h0 hw (h.imp (fun a b hab => (abs_le.mp hab).2))

theorem mean_add {α : Type} (ws : List ℝ) (f g : α → ℝ) (ts : List α) :
    mean ws (ts.map (fun t => f t + g t)) = mean ws (ts.map f) + mean ws (ts.map g) := by
  unfold mean
  rw [← add_div]
  congr 1
  induction ws generalizing ts with
  | nil => simp
  | cons w ws ih =>
    cases ts with
    | nil => simp
    | cons t ts =>
      simp only [List.map_cons, List.zipWith_cons_cons, List.sum_cons, ih]
      ring

theorem mean_zero (ws : List ℝ) {α : Type} (ts : List α) : mean ws (ts.map (fun _ => 0)) = 0 := by
  unfold mean
  rw [div_eq_zero_iff]
  left
  induction ws generalizing ts with
  | nil => simp
  | cons w ws ih =>
    cases ts with
    | nil => simp
    | cons t ts => simp only [List.map_cons, List.zipWith_cons_cons, List.sum_cons, ih]; ring

theorem mean_sum {α : Type} (ws : List ℝ) (f : Nat → α → ℝ) (ks : List Nat) (ts : List α) :
    mean ws (ts.map (fun t => (ks.map (fun k => f k t)).sum)) =
      (ks.map (fun k => mean ws (ts.map (f k)))).sum := by
  induction ks with
  | nil => simpa using mean_zero ws ts
  | cons k ks ih =>
    simp only [List.map_cons, List.sum_cons]
    rw [mean_add ws (f k) (fun t => (ks.map (fun k => f k t)).sum), ih]

theorem exists_column {thetas : List (List ℝ)} {ind : Nat} (h : ∀ t ∈ thetas, ind < t.length) :
    thetas.map (·[ind]?) = (thetas.map (fun t => t[ind]?.getD 0)).map some := by
  rw [List.map_map]
  apply List.map_congr_left
  intro t ht
  simp [h t ht]

theorem sum_range_getD (t : List ℝ) :
    (t.map (fun x => x * x)).sum =
      ((List.range t.length).map (fun k => t[k]?.getD 0 * t[k]?.getD 0)).sum := by
  congr 1
  apply List.ext_getElem
  · simp
  · intro i h1 h2
    simp at h1
    simp [h1]

/-- C32.  `r_mean` is the weighted mean of the distances from the origin.  It is
non-negative, at least the absolute value of every parameter mean, and its square is at
most the sum of the second moments of all parameters. -/
theorem C32_r_mean {r : Run ℝ} {logw : Option (List ℝ)} {sim : Bool} {w : World σ}
    (h : Usable r logw sim (R.uniform r.nlive.length w.rng).1) :
    ∃ m, rMean R r logw sim w = (.ok m, afterWeights R r logw sim w) ∧
      m = mean (sampleWeights r logw sim (R.uniform r.nlive.length w.rng).1) (r.theta.map radius) ∧
      0 ≤ m ∧
      (∀ (ind : Nat) (handle : Bool) (pm : ℝ),
        (paramMean R r logw sim ind handle w).1 = .ok (some pm) → |pm| ≤ m) ∧
      ∀ (d : Nat) (psm : List ℝ), (∀ t ∈ r.theta, t.length = d) → psm.length = d →
        (∀ (k : Nat) (s : ℝ), psm[k]? = some s → (paramSquaredMean R r logw sim k w).1 = .ok s) →
        m ^ 2 ≤ psm.sum := by
  obtain ⟨lw, c, hc, h1, h2⟩ := with_weights h
  obtain ⟨s1, s2, s3⟩ := sampleWeights_spec h
  obtain ⟨t1, t2⟩ := scaled_spec hc s1 s3
  have hl : (sampleWeights r logw sim (R.uniform r.nlive.length w.rng).1).length =
      (r.theta.map radius).length := by
    rw [s2, List.length_map, h.1]
  refine ⟨_, ?_, rfl, ?_, ?_, ?_⟩
  · unfold rMean
    rw [M.bind_ok h1, M.lift_apply, h2, Py.ok_bind, radii_eq,
      weightedMean_ok t1 t2 (by simpa using hl), mean_scale hc.ne']
  · have : mean (sampleWeights r logw sim (R.uniform r.nlive.length w.rng).1)
        ((r.theta.map radius).map (fun _ => 0)) ≤ _ :=
      mean_mono (ys := r.theta.map radius) s1 s3 (by
        rw [List.forall₂_map_left_iff]
        apply List.forall₂_same.mpr
        intro x hx
        obtain ⟨t, -, rfl⟩ := List.mem_map.mp hx
        exact Real.sqrt_nonneg _)
    rwa [mean_zero] at this
  · intro ind handle pm hpm
    by_cases hcol : ∀ t ∈ r.theta, ind < t.length
    · obtain ⟨m, hm, hm', -⟩ := C30_param_mean R h (exists_column hcol) handle
      rw [hm] at hpm
      simp only [Except.ok.injEq, Option.some.injEq] at hpm
      rw [← hpm, hm']
      apply mean_abs s1 s3
      rw [List.forall₂_map_left_iff, List.forall₂_map_right_iff]
      apply List.forall₂_same.mpr
      intro t ht
      apply abs_le_radius
      simp [hcol t ht]
    · push Not at hcol
      rw [C30_missing R h hcol handle] at hpm
      cases handle <;> simp at hpm
  · intro d psm hd hpl hps
    refine (sq_mean_le s1 s3 hl).trans (le_of_eq ?_)
    have e : (r.theta.map radius).map (· ^ 2) =
        r.theta.map (fun t => ((List.range d).map (fun k => t[k]?.getD 0 * t[k]?.getD 0)).sum) := by
      rw [List.map_map]
      apply List.map_congr_left
      intro t ht
      rw [Function.comp, radius_sq, sum_range_getD, hd t ht]
    rw [e, mean_sum _ (fun k (t : List ℝ) => t[k]?.getD 0 * t[k]?.getD 0)]
    congr 1
    apply List.ext_getElem
    · simp [hpl]
    · intro k hk hk'
      have hk2 : k < d := by omega
      have hcol : ∀ t ∈ r.theta, k < t.length := fun t ht => by rw [hd t ht]; exact hk2
      obtain ⟨s, m, w', a1, -, a2, -⟩ := C30_squared R h (exists_column hcol) false
      have := hps k psm[k] (List.getElem?_eq_getElem hk')
      rw [a1] at this
      simp only [Except.ok.injEq] at this
      rw [← this, a2]
      simp [List.map_map, Function.comp_def]

/-- C32 for `r_cred`: the weighted quantile of the distances from the origin, which is
not negative. -/
theorem C32_r_cred {r : Run ℝ} {logw : Option (List ℝ)} {sim : Bool} {w : World σ}
    (h : Usable r logw sim (R.uniform r.nlive.length w.rng).1) (prob : ℝ) :
    rCred A R r logw sim prob w =
      (weightedQuantile A prob (r.theta.map radius)
        (sampleWeights r logw sim (R.uniform r.nlive.length w.rng).1), afterWeights R r logw sim w) ∧
    ∀ q, (rCred A R r logw sim prob w).1 = .ok q → 0 ≤ q := by
  obtain ⟨lw, c, hc, h1, h2⟩ := with_weights h
  obtain ⟨s1, s2, s3⟩ := sampleWeights_spec h
  have e : rCred A R r logw sim prob w = (weightedQuantile A prob (r.theta.map radius)
      (sampleWeights r logw sim (R.uniform r.nlive.length w.rng).1), afterWeights R r logw sim w) := by
    unfold rCred
    rw [M.bind_ok h1, M.lift_apply, h2, Py.ok_bind, radii_eq, C31_scale A (sum_pos_of s1 s3) hc]
  refine ⟨e, ?_⟩
  intro q hq
  rw [e] at hq
  have hl : (r.theta.map radius).length =
      (sampleWeights r logw sim (R.uniform r.nlive.length w.rng).1).length := by
    rw [s2, List.length_map, h.1]
  obtain ⟨f, -, hf⟩ := C31_quantile A hl (fun v hv => (s3 v hv).le) (sum_pos_of s1 s3)
  by_cases hp : prob ≤ 0 ∨ 1 ≤ prob
  · rw [C31_assert A (by tauto)] at hq
    simp at hq
  · push Not at hp
    obtain ⟨h3, ⟨v, hv, hv'⟩, -⟩ := hf prob hp.1 hp.2
    rw [h3] at hq
    simp only [Except.ok.injEq] at hq
    obtain ⟨t, -, rfl⟩ := List.mem_map.mp hv
    rw [← hq]
    exact (Real.sqrt_nonneg _).trans hv'

/-! ### Sharing weights between estimators -/

/-- What `run_estimators` relies on in the functions it is given: calling one without
weights is the same as calling it with the weights it would have computed, and given
weights it has no effect on the global state. -/
structure Spec.WellBehaved (R : Rng σ ℝ) (r : Run ℝ) (f : EstFunc σ) : Prop where
  shared : ∀ (sim : Bool) (w w' : World σ) (lw : List ℝ), getLogw R r sim w = (.ok lw, w') →
    (f r none sim w).1 = (f r (some lw) false w').1
  silent : ∀ (lw : List ℝ) (w : World σ), (f r (some lw) false w).2 = w

theorem lift_snd {α β : Type} (x : Py α) (f : α → Py β) (w : World σ) :
    ((M.lift x >>= fun a => M.lift (f a)) w).2 = w := by
  rw [M.bind_apply, M.lift_apply]
  cases x <;> rfl

/-- Every estimator of the package is well behaved. -/
theorem C33_builtin (e : Estimator) (r : Run ℝ) : WellBehaved R r (e.call A R) := by
  constructor
  · intro sim w w' lw hlw
    cases e with
    | count => rfl
    | logz =>
      simp only [Estimator.call, logz, logwOr, bind_assoc, pure_bind]
      rw [M.bind_ok hlw]
    | evidence =>
      simp only [Estimator.call, evidence, logwOr, bind_assoc, pure_bind]
      rw [M.bind_ok hlw]
    | paramMean ind handle =>
      simp only [Estimator.call, paramMean, logwOr, pure_bind]
      rw [M.bind_ok hlw]
    | paramCred prob ind =>
      simp only [Estimator.call, paramCred, logwOr, bind_assoc, pure_bind]
      rw [M.bind_ok hlw]
    | paramSquaredMean ind =>
      simp only [Estimator.call, paramSquaredMean, logwOr, bind_assoc, pure_bind]
      rw [M.bind_ok hlw]
    | rMean =>
      simp only [Estimator.call, rMean, logwOr, bind_assoc, pure_bind]
      rw [M.bind_ok hlw]
    | rCred prob =>
      simp only [Estimator.call, rCred, logwOr, bind_assoc, pure_bind]
      rw [M.bind_ok hlw]
  · intro lw w
    have key : ∀ {α : Type} (x : Py α) (f : α → Option ℝ),
        ((M.lift x >>= fun a => pure (f a) : M σ (Option ℝ)) w).2 = w := by
      intro α x f
      rw [M.bind_apply, M.lift_apply]
      cases x <;> rfl
    cases e with
    | count => rfl
    | logz => simp only [Estimator.call, logz, logwOr, pure_bind]; exact key _ _
    | evidence =>
      simp only [Estimator.call, evidence, logwOr, pure_bind, bind_assoc]; exact key _ _
    | paramMean ind handle => simp only [Estimator.call, paramMean, logwOr, pure_bind]; rfl
    | paramCred prob ind => simp only [Estimator.call, paramCred, logwOr, pure_bind]; exact key _ _
    | paramSquaredMean ind =>
      simp only [Estimator.call, paramSquaredMean, logwOr, pure_bind]; exact key _ _
    | rMean => simp only [Estimator.call, rMean, logwOr, pure_bind]; exact key _ _
    | rCred prob => simp only [Estimator.call, rCred, logwOr, pure_bind]; exact key _ _

theorem callEach_spec {r : Run ℝ} {fs : List (EstFunc σ)} (hf : ∀ f ∈ fs, WellBehaved R r f)
    (lw : List ℝ) (w : World σ) :
    (callEach r lw fs w).2 = w ∧
    (∀ vs, (callEach r lw fs w).1 = .ok vs ↔
      List.Forall₂ (fun f v => (f r (some lw) false w).1 = .ok v) fs vs) ∧
    ∀ e, (callEach r lw fs w).1 = .error e ↔ ∃ fs₁ f fs₂, fs = fs₁ ++ f :: fs₂ ∧
      (∀ g ∈ fs₁, ∃ v, (g r (some lw) false w).1 = .ok v) ∧ (f r (some lw) false w).1 = .error e := by
  induction fs with
  | nil =>
    refine ⟨rfl, ?_, ?_⟩
    · intro vs
      cases vs with
      | nil => simp [callEach]
      | cons => simp [callEach]
    · intro e; simp [callEach]
  | cons f fs ih =>
    obtain ⟨i1, i2, i3⟩ := ih (fun g hg => hf g (by simp [hg]))
    have hs := (hf f (by simp)).silent lw w
    rw [callEach]
    rcases hfv : f r (some lw) false w with ⟨x, w1⟩
    rw [hfv] at hs
    simp only at hs
    subst hs
    cases x with
    | error e' =>
      rw [M.bind_error hfv]
      refine ⟨rfl, ?_, ?_⟩
      · intro vs
        constructor
        · intro h; cases h
        · intro h
          cases h with
          | cons h1 _ => rw [hfv] at h1; cases h1
      · intro e
        constructor
        · intro h
          exact ⟨[], f, fs, rfl, by simp, by rw [hfv]; cases h; rfl⟩
        · rintro ⟨fs₁, g, fs₂, h1, h2, h3⟩
          cases fs₁ with
          | nil =>
            simp only [List.nil_append, List.cons.injEq] at h1
            rw [← h1.1, hfv] at h3
            cases h3; rfl
          | cons g' fs₁ =>
            simp only [List.cons_append, List.cons.injEq] at h1
            obtain ⟨v, hv⟩ := h2 g' (by simp)
            rw [← h1.1, hfv] at hv
            cases hv
    | ok v0 =>
      rw [M.bind_ok hfv, M.bind_apply]
      rcases hrest : callEach r lw fs w1 with ⟨y, w2⟩
      rw [hrest] at i1 i2 i3
      simp only at i1 i2 i3
      subst i1
      cases y with
      | error e' =>
        refine ⟨rfl, ?_, ?_⟩
        · intro vs
          constructor
          · intro h; cases h
          · intro h
            cases h with
            | cons _ h2 => exact absurd ((i2 _).mpr h2) (by simp)
        · intro e
          rw [i3]
          constructor
          · rintro ⟨fs₁, g, fs₂, h1, h2, h3⟩
            refine ⟨f :: fs₁, g, fs₂, by rw [h1]; rfl, ?_, h3⟩
            intro g' hg'
            rcases List.mem_cons.mp hg' with rfl | hg'
            · exact ⟨v0, by rw [hfv]⟩
            · exact h2 g' hg'
          · rintro ⟨fs₁, g, fs₂, h1, h2, h3⟩
            cases fs₁ with
            | nil =>
              simp only [List.nil_append, List.cons.injEq] at h1
              rw [← h1.1, hfv] at h3
              cases h3
            | cons g' fs₁ =>
              simp only [List.cons_append, List.cons.injEq] at h1
              exact ⟨fs₁, g, fs₂, h1.2, fun g'' hg'' => h2 g'' (by simp [hg'']), h3⟩
      | ok vs0 =>
        simp only [M.pure_apply]
        refine ⟨trivial, ?_, ?_⟩
        · intro vs
          constructor
          · intro h
            cases h
            exact List.Forall₂.cons (by rw [hfv]) ((i2 _).mp rfl)
          · intro h
            cases h with
            | cons h1 h2 =>
              rw [hfv] at h1
              have := (i2 _).mpr h2
              cases h1; cases this
              rfl
        · intro e
          constructor
          · intro h; cases h
          · rintro ⟨fs₁, g, fs₂, h1, h2, h3⟩
            exfalso
            cases fs₁ with
            | nil =>
              simp only [List.nil_append, List.cons.injEq] at h1
              rw [← h1.1, hfv] at h3
              cases h3
            | cons g' fs₁ =>
              simp only [List.cons_append, List.cons.injEq] at h1
              have := (i3 e).mpr ⟨fs₁, g, fs₂, h1.2, fun g'' hg'' => h2 g'' (by simp [hg'']), h3⟩
              cases this

/-- C33.  `run_estimators` on a run with positive live counts returns exactly the values
the functions return when called one at a time, each on its own and starting from the
same random state, with expected or with simulated weights; its result has one value
for each function; it fails exactly if one of the functions fails, with the exception
of the first one that does; and its only effect is the draw of the weights. -/
theorem C33_run_estimators {r : Run ℝ} (h : Weighable r) {fs : List (EstFunc σ)}
    (hf : ∀ f ∈ fs, WellBehaved R r f) (sim : Bool) (w : World σ)
    (hu : sim = true → ∀ u ∈ (R.uniform r.nlive.length w.rng).1, 0 < u) :
    (runEstimators R r fs sim w).2 = afterWeights R r none sim w ∧
    (∀ vs, (runEstimators R r fs sim w).1 = .ok vs ↔
      List.Forall₂ (fun f v => (f r none sim w).1 = .ok v) fs vs) ∧
    ∀ e, (runEstimators R r fs sim w).1 = .error e ↔ ∃ fs₁ f fs₂, fs = fs₁ ++ f :: fs₂ ∧
      (∀ g ∈ fs₁, ∃ v, (g r none sim w).1 = .ok v) ∧ (f r none sim w).1 = .error e := by
  obtain ⟨lw, h1, -⟩ := C25_volumes R h sim w hu
  have hc := callEach_spec R hf lw (afterWeights R r none sim w)
  have e : ∀ f ∈ fs, (f r none sim w).1 = (f r (some lw) false (afterWeights R r none sim w)).1 :=
    fun f hf' => (hf f hf').shared sim w _ lw h1
  unfold runEstimators
  rw [M.bind_ok h1]
  refine ⟨hc.1, ?_, ?_⟩
  · intro vs
    rw [hc.2.1]
    rw [List.forall₂_iff_zip, List.forall₂_iff_zip]
    refine and_congr_right (fun _ => ?_)
    constructor
    · intro h f v hfv
      rw [e f (List.of_mem_zip hfv).1]; exact h hfv
    · intro h f v hfv
      rw [← e f (List.of_mem_zip hfv).1]; exact h hfv
  · intro err
    rw [hc.2.2]
    constructor
    · rintro ⟨fs₁, f, fs₂, rfl, h2, h3⟩
      refine ⟨fs₁, f, fs₂, rfl, ?_, ?_⟩
      · intro g hg
        rw [e g (by simp [hg])]
        exact h2 g hg
      · rw [e f (by simp)]; exact h3
    · rintro ⟨fs₁, f, fs₂, rfl, h2, h3⟩
      refine ⟨fs₁, f, fs₂, rfl, ?_, ?_⟩
      · intro g hg
        rw [← e g (by simp [hg])]
        exact h2 g hg
      · rw [← e f (by simp)]; exact h3

/-! ### Examples -/

section examples

/-- The example run of the weights section can be used with expected weights. -/
theorem exReal_usable (us : List ℝ) : Usable exReal none false us :=
  ⟨by simp [exReal], by simp [exReal], exReal_weighable, by simp⟩

example : exReal.theta.map (·[1]?) = [(0 : ℝ), 1, -1].map some := by simp [exReal]

/-- It has no third parameter. -/
example : ∃ t ∈ exReal.theta, t.length ≤ 2 := ⟨[1, 0], by simp [exReal], by simp⟩

/-- With given weights 1, 1, 2 the mean of the first parameter 1, 2, 4 is 11/4. -/
example (w : World σ) : paramMean R exReal (some [0, 0, Real.log 2]) false 0 false w =
    (.ok (some (11 / 4)), w) := by
  obtain ⟨m, h1, h2, -⟩ := C30_param_mean (r := exReal) (logw := some [0, 0, Real.log 2]) (sim := false)
    (w := w) R ⟨by simp [exReal], by simp [exReal], by simp [exReal]⟩ (ind := 0) (xs := [1, 2, 4])
    (by simp [exReal]) false
  rw [h1, h2]
  have h3 : Real.exp (Real.log 2) = 2 := Real.exp_log (by norm_num)
  simp [mean, sampleWeights, h3, afterWeights]
  norm_num

/-- The median of 5, 1, 3 with weights 1, 1, 2 is 3: the middle of its weight is at 1/2. -/
example : weightedQuantile A (1/2) [5, 1, 3] [1, 1, 2] = .ok 3 := by
  have h := (C31_exact A (values := [5, 1, 3]) (weights := [1, 1, 2]) rfl (by norm_num)
    (by simp) (prob := 1/2) (by norm_num) (by norm_num)).2.2 (3, 2) (by simp) (5, 1) (by simp)
    (by norm_num) (by norm_num) (by norm_num [position, List.filter]) (by norm_num [position, List.filter])
  rw [h]
  norm_num [position, List.filter]

end examples

end Nestcheck
