import Verif.Proofs.Weights
import Verif.Model.Estimators

/-
Lemmas about weighted sums, interpolation and the estimators.
-/

namespace Nestcheck
open Spec
variable {σ : Type}

theorem Spec.Weighable.nlive_ne {r : Run ℝ} (h : Weighable r) : r.nlive ≠ [] := by
  intro h0
  have := h.len
  rw [h0] at this
  exact h.nonempty (List.length_eq_zero_iff.mp this.symm)

theorem priorVolumes_spec {nlive : List Int} (h0 : nlive ≠ []) (hp : ∀ n ∈ nlive, 0 < n) (sim : Bool)
    (us : List ℝ) (hu : sim = true → (∀ u ∈ us, 0 < u ∧ u < 1) ∧ us.length = nlive.length) :
    (priorVolumes sim us nlive).length = nlive.length ∧ (priorVolumes sim us nlive).sum = 1 ∧
    ∀ v ∈ priorVolumes sim us nlive, 0 < v := by
  have hlen : (positions (if sim then simulatedSteps us nlive else expectedSteps nlive)).length = nlive.length := by
    rw [length_positions]
    cases sim with
    | false => simp [expectedSteps]
    | true => simp [simulatedSteps, (hu rfl).2]
  have hneg : ∀ s ∈ (if sim then simulatedSteps us nlive else expectedSteps nlive), s < 0 := by
    cases sim with
    | false => exact expectedSteps_neg hp
    | true => exact simulatedSteps_neg hp (hu rfl).1
  obtain ⟨h1, h2⟩ := positions_pairwise hneg
  refine ⟨?_, sum_shells _, shells_pos ?_ ?_⟩
  · unfold priorVolumes
    rw [length_shells, List.length_map, hlen]
    intro h
    rw [List.map_eq_nil_iff] at h
    rw [h] at hlen
    exact h0 (List.length_eq_zero_iff.mp hlen.symm)
  · rw [List.pairwise_map]
    exact h1.imp (fun h => Real.exp_lt_exp.mpr h)
  · intro x hx
    obtain ⟨y, hy, rfl⟩ := List.mem_map.mp hx
    refine ⟨Real.exp_pos _, ?_⟩
    rw [← Real.exp_zero]
    exact Real.exp_lt_exp.mpr (h2 y hy)

/-- `get_logw` on a run with positive live counts. -/
theorem getLogw_ok {R : Rng σ ℝ} {r : Run ℝ} (h : Weighable r) (sim : Bool) (w : World σ)
    (hu : sim = true → ∀ u ∈ (R.uniform r.nlive.length w.rng).1, 0 < u) :
    getLogw R r sim w = (.ok (List.zipWith (fun v l => Real.log v + l)
      (priorVolumes sim (R.uniform r.nlive.length w.rng).1 r.nlive) r.logl),
      { w with rng := if sim then (R.uniform r.nlive.length w.rng).2 else w.rng }) := by
  have hne := h.nlive_ne
  have hx : getLogx R r.nlive sim w = (.ok (positions (if sim then
      simulatedSteps (R.uniform r.nlive.length w.rng).1 r.nlive else expectedSteps r.nlive)),
      { w with rng := if sim then (R.uniform r.nlive.length w.rng).2 else w.rng }) := by
    cases sim with
    | false => exact getLogx_expected hne h.pos w
    | true => exact getLogx_simulated hne h.pos w (hu rfl)
  have hlen : (positions (if sim then simulatedSteps (R.uniform r.nlive.length w.rng).1 r.nlive
      else expectedSteps r.nlive)).length = r.nlive.length := by
    rw [length_positions]
    cases sim with
    | false => simp [expectedSteps]
    | true => simp [simulatedSteps, R.uniform_length]
  have hneg : ∀ s ∈ (if sim then simulatedSteps (R.uniform r.nlive.length w.rng).1 r.nlive
      else expectedSteps r.nlive), s < 0 := by
    cases sim with
    | false => exact expectedSteps_neg h.pos
    | true =>
      exact simulatedSteps_neg h.pos (fun u hu' => ⟨hu rfl u hu', (R.uniform_range _ _ u hu').2⟩)
  obtain ⟨h1, h2⟩ := positions_pairwise hneg
  rw [getLogw_of hx (by rw [hlen, h.len]) _ h1 h2]
  · rfl
  · intro h
    rw [h] at hlen
    exact hne (List.length_eq_zero_iff.mp hlen.symm)

/-- The weights an estimator works with. -/
theorem logwOr_ok {R : Rng σ ℝ} {r : Run ℝ} {logw : Option (List ℝ)} {sim : Bool} {w : World σ}
    (h : Usable r logw sim (R.uniform r.nlive.length w.rng).1) :
    ∃ lw, logwOr R r logw sim w = (.ok lw,
        { w with rng := if logw = none ∧ sim = true then (R.uniform r.nlive.length w.rng).2 else w.rng }) ∧
      lw.map Real.exp = sampleWeights r logw sim (R.uniform r.nlive.length w.rng).1 ∧ lw ≠ [] ∧
      lw.length = r.logl.length := by
  obtain ⟨h1, h2, h3⟩ := h
  cases logw with
  | some lw =>
    refine ⟨lw, ?_, rfl, ?_, h3⟩
    · simp [logwOr]
    · intro h; rw [h] at h3
      exact h2 (List.length_eq_zero_iff.mp h3.symm)
  | none =>
    obtain ⟨h3, h4⟩ := h3
    have hv := priorVolumes_spec h3.nlive_ne h3.pos sim (R.uniform r.nlive.length w.rng).1 (fun hs =>
      ⟨fun u hu => ⟨h4 hs u hu, (R.uniform_range _ _ u hu).2⟩, R.uniform_length _ _⟩)
    have hlen : (List.zipWith (fun v l => Real.log v + l)
        (priorVolumes sim (R.uniform r.nlive.length w.rng).1 r.nlive) r.logl).length = r.logl.length := by
      rw [List.length_zipWith, hv.1, h3.len]; simp
    refine ⟨_, (getLogw_ok h3 sim w h4).trans ?_, ?_, ?_, hlen⟩
    · simp
    · rw [List.map_zipWith]
      unfold sampleWeights
      simp only []
      apply List.ext_getElem
      · simp
      · intro i h5 h6
        rw [List.getElem_zipWith, List.getElem_zipWith, Real.exp_add, Real.exp_log (hv.2.2 _ (List.getElem_mem _))]
    · intro h
      rw [h] at hlen
      exact h2 (List.length_eq_zero_iff.mp hlen.symm)

/-! ### Weighted sums -/

theorem dot_scale (c : ℝ) (ws xs : List ℝ) :
    (List.zipWith (· * ·) (ws.map (· * c)) xs).sum = (List.zipWith (· * ·) ws xs).sum * c := by
  induction ws generalizing xs with
  | nil => simp
  | cons w ws ih =>
    cases xs with
    | nil => simp
    | cons x xs =>
      simp only [List.map_cons, List.zipWith_cons_cons, List.sum_cons, ih]
      ring

theorem sum_scale (c : ℝ) (ws : List ℝ) : (ws.map (· * c)).sum = ws.sum * c := by
  rw [List.sum_map_mul_right]; simp

theorem mean_scale {c : ℝ} (hc : c ≠ 0) (ws xs : List ℝ) : mean (ws.map (· * c)) xs = mean ws xs := by
  unfold mean
  rw [dot_scale, sum_scale, mul_div_mul_right _ _ hc]

theorem sum_pos_of {ws : List ℝ} (h0 : ws ≠ []) (hw : ∀ w ∈ ws, 0 < w) : 0 < ws.sum := by
  cases ws with
  | nil => exact absurd rfl h0
  | cons x xs =>
    rw [List.sum_cons]
    have : 0 ≤ xs.sum := List.sum_nonneg (fun y hy => (hw y (by simp [hy])).le)
    have := hw x (by simp)
    linarith

theorem dot_mono {ws xs ys : List ℝ} (hw : ∀ w ∈ ws, 0 ≤ w) (h : List.Forall₂ (· ≤ ·) xs ys) :
    (List.zipWith (· * ·) ws xs).sum ≤ (List.zipWith (· * ·) ws ys).sum := by
  induction h generalizing ws with
  | nil => simp
  | cons h _ ih =>
    cases ws with
    | nil => simp
    | cons w ws =>
      simp only [List.zipWith_cons_cons, List.sum_cons]
      have h1 := mul_le_mul_of_nonneg_left h (hw w (by simp))
      have h2 := ih (ws := ws) (fun v hv => hw v (by simp [hv]))
      linarith

theorem mean_mono {ws xs ys : List ℝ} (h0 : ws ≠ []) (hw : ∀ w ∈ ws, 0 < w)
    (h : List.Forall₂ (· ≤ ·) xs ys) : mean ws xs ≤ mean ws ys := by
  unfold mean
  have := sum_pos_of h0 hw
  exact div_le_div_of_nonneg_right (dot_mono (fun w hw' => (hw w hw').le) h) this.le

theorem dot_linear (a b : ℝ) {ws xs : List ℝ} (h : ws.length = xs.length) :
    (List.zipWith (· * ·) ws (xs.map (fun x => a * x + b))).sum =
      a * (List.zipWith (· * ·) ws xs).sum + b * ws.sum := by
  induction ws generalizing xs with
  | nil => simp
  | cons w ws ih =>
    cases xs with
    | nil => simp at h
    | cons x xs =>
      simp only [List.map_cons, List.zipWith_cons_cons, List.sum_cons]
      rw [ih (by simpa using h)]
      ring

theorem mean_affine (a b : ℝ) {ws xs : List ℝ} (h0 : ws ≠ []) (hw : ∀ w ∈ ws, 0 < w)
    (h : ws.length = xs.length) : mean ws (xs.map (fun x => a * x + b)) = a * mean ws xs + b := by
  unfold mean
  have := sum_pos_of h0 hw
  rw [dot_linear a b h]
  field_simp

theorem mean_const (c : ℝ) {ws xs : List ℝ} (h0 : ws ≠ []) (hw : ∀ w ∈ ws, 0 < w)
    (h : ws.length = xs.length) : mean ws (xs.map (fun _ => c)) = c := by
  have := mean_affine 0 c h0 hw h
  simpa using this

theorem mean_bounds {ws xs : List ℝ} (h0 : ws ≠ []) (hw : ∀ w ∈ ws, 0 < w)
    (h : ws.length = xs.length) {lo hi : ℝ} (hx : ∀ x ∈ xs, lo ≤ x ∧ x ≤ hi) :
    lo ≤ mean ws xs ∧ mean ws xs ≤ hi := by
  constructor
  · rw [← mean_const lo h0 hw h]
    apply mean_mono h0 hw
    rw [List.forall₂_map_left_iff]
    exact List.forall₂_same.mpr (fun x hx' => (hx x hx').1)
  · rw [← mean_const hi h0 hw h]
    apply mean_mono h0 hw
    rw [List.forall₂_map_right_iff]
    exact List.forall₂_same.mpr (fun x hx' => (hx x hx').2)

theorem dot_sub_sq (m : ℝ) {ws xs : List ℝ} (h : ws.length = xs.length) :
    (List.zipWith (· * ·) ws (xs.map (fun x => (x - m) ^ 2))).sum =
      (List.zipWith (· * ·) ws (xs.map (· ^ 2))).sum - 2 * m * (List.zipWith (· * ·) ws xs).sum
        + m ^ 2 * ws.sum := by
  induction ws generalizing xs with
  | nil => simp
  | cons w ws ih =>
    cases xs with
    | nil => simp at h
    | cons x xs =>
      simp only [List.map_cons, List.zipWith_cons_cons, List.sum_cons]
      rw [ih (by simpa using h)]
      ring

theorem sq_mean_le {ws xs : List ℝ} (h0 : ws ≠ []) (hw : ∀ w ∈ ws, 0 < w)
    (h : ws.length = xs.length) : mean ws xs ^ 2 ≤ mean ws (xs.map (· ^ 2)) := by
  have hp := sum_pos_of h0 hw
  have h1 : 0 ≤ (List.zipWith (· * ·) ws (xs.map (fun x => (x - mean ws xs) ^ 2))).sum := by
    apply List.sum_nonneg
    intro y hy
    rw [← List.map_uncurry_zip_eq_zipWith] at hy
    obtain ⟨⟨a, b⟩, hab, rfl⟩ := List.mem_map.mp hy
    have := List.of_mem_zip hab
    obtain ⟨x, -, rfl⟩ := List.mem_map.mp this.2
    have := hw a this.1
    exact mul_nonneg this.le (sq_nonneg _)
  rw [dot_sub_sq _ h] at h1
  have h2 : (List.zipWith (· * ·) ws xs).sum = mean ws xs * ws.sum := by
    unfold mean; field_simp
  rw [h2] at h1
  have h3 : (List.zipWith (· * ·) ws (xs.map (· ^ 2))).sum = mean ws (xs.map (· ^ 2)) * ws.sum := by
    unfold mean; field_simp
  rw [h3] at h1
  by_contra hcon
  push Not at hcon
  nlinarith

theorem sampleWeights_spec {R : Rng σ ℝ} {r : Run ℝ} {logw : Option (List ℝ)} {sim : Bool} {w : World σ}
    (h : Usable r logw sim (R.uniform r.nlive.length w.rng).1) :
    (sampleWeights r logw sim (R.uniform r.nlive.length w.rng).1) ≠ [] ∧
    (sampleWeights r logw sim (R.uniform r.nlive.length w.rng).1).length = r.logl.length ∧
    ∀ v ∈ sampleWeights r logw sim (R.uniform r.nlive.length w.rng).1, 0 < v := by
  obtain ⟨lw, -, h1, h2, h3⟩ := logwOr_ok h
  rw [← h1]
  refine ⟨by simpa using h2, by simpa using h3, ?_⟩
  intro v hv
  obtain ⟨x, -, rfl⟩ := List.mem_map.mp hv
  exact Real.exp_pos x

/-- Relative weights are the weights times a positive constant. -/
theorem relWeights_scale {lw : List ℝ} (h : lw ≠ []) : ∃ c : ℝ, 0 < c ∧
    relWeights lw = .ok ((lw.map Real.exp).map (· * c)) := by
  obtain ⟨m, -, -, h3⟩ := relWeights_ok h
  refine ⟨Real.exp (-m), Real.exp_pos _, ?_⟩
  rw [h3, List.map_map]
  congr 2
  funext x
  simp [← Real.exp_add, sub_eq_add_neg]

theorem weightedMean_ok {ws xs : List ℝ} (h0 : ws ≠ []) (hw : ∀ w ∈ ws, 0 < w)
    (h : ws.length = xs.length) : weightedMean ws xs = .ok (mean ws xs) := by
  unfold weightedMean dot
  rw [if_neg (by simp [h]), Py.ok_bind, npDiv_ok (ne_of_gt (sum_pos_of h0 hw))]
  rfl

/-- A column of the parameter array. -/
theorem column_ok {thetas : List (List ℝ)} {ind : Nat} {xs : List ℝ}
    (h : thetas.map (·[ind]?) = xs.map some) : column thetas ind = .ok xs := by
  unfold column
  induction thetas generalizing xs with
  | nil =>
    cases xs with
    | nil => rfl
    | cons => simp at h
  | cons t ts ih =>
    cases xs with
    | nil => simp at h
    | cons x xs =>
      simp only [List.map_cons, List.cons.injEq] at h
      rw [pyMap, h.1, ih h.2]
      rfl

theorem column_error {thetas : List (List ℝ)} {ind : Nat} (h : ∃ t ∈ thetas, t.length ≤ ind) :
    column thetas ind = .error .index := by
  unfold column
  induction thetas with
  | nil => simp at h
  | cons t ts ih =>
    rw [pyMap]
    by_cases ht : t.length ≤ ind
    · rw [List.getElem?_eq_none ht]; rfl
    · obtain ⟨t', ht', hl⟩ := h
      have : t' ∈ ts := by
        rcases List.mem_cons.mp ht' with rfl | h
        · exact absurd hl ht
        · exact h
      rw [List.getElem?_eq_getElem (by omega), Py.ok_bind, ih ⟨t', this, hl⟩]
      rfl

/-! ### Interpolation -/

/-- Points with ascending abscissae and values. -/
def Ascending (ps : List (ℝ × ℝ)) : Prop := ps.Pairwise (fun p q => p.1 ≤ q.1 ∧ p.2 ≤ q.2)

theorem interpFrom_bounds {x : ℝ} {p : ℝ × ℝ} {ps : List (ℝ × ℝ)} (h : Ascending (p :: ps))
    (hx : p.1 ≤ x) : p.2 ≤ interpFrom x p ps ∧ ∃ q ∈ p :: ps, interpFrom x p ps ≤ q.2 := by
  induction ps generalizing p with
  | nil => exact ⟨le_rfl, p, by simp, le_rfl⟩
  | cons q qs ih =>
    have hpq := List.rel_of_pairwise_cons h (List.mem_cons_self)
    rw [interpFrom]
    by_cases h1 : x < q.1
    · rw [if_pos h1]
      by_cases h2 : x = p.1
      · rw [if_pos h2]; exact ⟨le_rfl, p, by simp, le_rfl⟩
      · rw [if_neg h2]
        have h3 : 0 < q.1 - p.1 := by
          have : p.1 < x := lt_of_le_of_ne hx (Ne.symm h2)
          linarith
        have h4 : 0 ≤ (q.2 - p.2) / (q.1 - p.1) := div_nonneg (by linarith [hpq.2]) h3.le
        constructor
        · have := mul_nonneg h4 (sub_nonneg.mpr hx); linarith
        · refine ⟨q, by simp, ?_⟩
          have h5 : (q.2 - p.2) / (q.1 - p.1) * (x - p.1) ≤ (q.2 - p.2) / (q.1 - p.1) * (q.1 - p.1) :=
            mul_le_mul_of_nonneg_left (by linarith) h4
          rw [div_mul_cancel₀ _ (ne_of_gt h3)] at h5
          linarith
    · rw [if_neg h1]
      push Not at h1
      obtain ⟨h2, q', h3, h4⟩ := ih (List.Pairwise.of_cons h) h1
      exact ⟨hpq.2.trans h2, q', List.mem_cons_of_mem _ h3, h4⟩

theorem interpFrom_mono {x y : ℝ} {p : ℝ × ℝ} {ps : List (ℝ × ℝ)} (h : Ascending (p :: ps))
    (hx : p.1 ≤ x) (hxy : x ≤ y) : interpFrom x p ps ≤ interpFrom y p ps := by
  induction ps generalizing p with
  | nil => exact le_rfl
  | cons q qs ih =>
    have hpq := List.rel_of_pairwise_cons h (List.mem_cons_self)
    by_cases h1 : y < q.1
    · have h1' : x < q.1 := lt_of_le_of_lt hxy h1
      rw [interpFrom, interpFrom, if_pos h1, if_pos h1']
      by_cases h2 : y = p.1
      · have : x = p.1 := le_antisymm (h2 ▸ hxy) hx
        rw [if_pos h2, if_pos this]
      · rw [if_neg h2]
        have h3 : 0 < q.1 - p.1 := by linarith
        have h4 : 0 ≤ (q.2 - p.2) / (q.1 - p.1) := div_nonneg (by linarith [hpq.2]) h3.le
        by_cases h5 : x = p.1
        · rw [if_pos h5]
          have := mul_nonneg h4 (by linarith : 0 ≤ y - p.1); linarith
        · rw [if_neg h5]
          have := mul_le_mul_of_nonneg_left (by linarith : x - p.1 ≤ y - p.1) h4
          linarith
    · push Not at h1
      by_cases h2 : x < q.1
      · have hb := (interpFrom_bounds (List.Pairwise.of_cons h) h1).1
        have ha : interpFrom x p (q :: qs) ≤ q.2 := by
          rw [interpFrom, if_pos h2]
          by_cases h3 : x = p.1
          · rw [if_pos h3]; exact hpq.2
          · rw [if_neg h3]
            have h3 : 0 < q.1 - p.1 := by linarith
            have h4 : 0 ≤ (q.2 - p.2) / (q.1 - p.1) := div_nonneg (by linarith [hpq.2]) h3.le
            have h5 : (q.2 - p.2) / (q.1 - p.1) * (x - p.1) ≤ (q.2 - p.2) / (q.1 - p.1) * (q.1 - p.1) :=
              mul_le_mul_of_nonneg_left (by linarith) h4
            rw [div_mul_cancel₀ _ (ne_of_gt h3)] at h5
            linarith
        rw [interpFrom.eq_def y]
        simp only []
        rw [if_neg (not_lt.mpr h1)]
        exact ha.trans hb
      · push Not at h2
        rw [interpFrom, interpFrom, if_neg (not_lt.mpr h1), if_neg (not_lt.mpr h2)]
        exact ih (List.Pairwise.of_cons h) h2

/-- Interpolation in ascending points: between the extreme values, nondecreasing. -/
theorem interp_ok {xp fp : List ℝ} (hl : xp.length = fp.length) (h0 : fp ≠ [])
    (hx : xp.Pairwise (· ≤ ·)) (hf : fp.Pairwise (· ≤ ·)) :
    ∃ f : ℝ → ℝ, (∀ x, interp x xp fp = .ok (f x)) ∧ Monotone f ∧
      ∀ x, (∃ v ∈ fp, v ≤ f x) ∧ ∃ v ∈ fp, f x ≤ v := by
  cases hz : xp.zip fp with
  | nil =>
    have := congrArg List.length hz
    have h1 := List.length_pos_iff.mpr h0
    simp [hl] at this
    exact absurd this h0
  | cons p ps =>
    have hasc : Ascending (p :: ps) := by
      rw [← hz]
      unfold Ascending
      rw [List.pairwise_iff_getElem] at hx hf ⊢
      intro i j hi hj hij
      rw [List.getElem_zip, List.getElem_zip]
      exact ⟨hx _ _ _ _ hij, hf _ _ _ _ hij⟩
    have hmem : ∀ q ∈ p :: ps, q.2 ∈ fp := by
      intro q hq
      rw [← hz] at hq
      exact (List.of_mem_zip (a := q.1) (b := q.2) hq).2
    refine ⟨fun x => if x < p.1 then p.2 else interpFrom x p ps, ?_, ?_, ?_⟩
    · intro x
      unfold interp
      rw [if_neg (by simp [hl]), hz]
    · intro x y hxy
      show (if x < p.1 then p.2 else interpFrom x p ps) ≤ (if y < p.1 then p.2 else interpFrom y p ps)
      by_cases h1 : y < p.1
      · rw [if_pos h1, if_pos (lt_of_le_of_lt hxy h1)]
      · rw [if_neg h1]
        push Not at h1
        by_cases h2 : x < p.1
        · rw [if_pos h2]; exact (interpFrom_bounds hasc h1).1
        · rw [if_neg h2]
          push Not at h2
          exact interpFrom_mono hasc h2 hxy
    · intro x
      show (∃ v ∈ fp, v ≤ (if x < p.1 then p.2 else interpFrom x p ps)) ∧
        ∃ v ∈ fp, (if x < p.1 then p.2 else interpFrom x p ps) ≤ v
      by_cases h1 : x < p.1
      · rw [if_pos h1]
        exact ⟨⟨p.2, hmem p (by simp), le_rfl⟩, ⟨p.2, hmem p (by simp), le_rfl⟩⟩
      · rw [if_neg h1]
        push Not at h1
        obtain ⟨a, q, hq, b⟩ := interpFrom_bounds hasc h1
        exact ⟨⟨p.2, hmem p (by simp), a⟩, ⟨q.2, hmem q hq, b⟩⟩

end Nestcheck
