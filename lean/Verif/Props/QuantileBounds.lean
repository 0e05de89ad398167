import Verif.Props.Estimators

/-! Bounds on weighted quantiles from the weights of the values up to a bound. -/

namespace Nestcheck
open Spec

noncomputable section

theorem interpFrom_at {x : ℝ} {p : ℝ × ℝ} {ps : List (ℝ × ℝ)} (h : Ascending (p :: ps)) (hx : p.1 ≤ x) :
    ∀ z ∈ p :: ps, (z.1 ≤ x → z.2 ≤ interpFrom x p ps) ∧ (x < z.1 → interpFrom x p ps ≤ z.2) := by
  induction ps generalizing p with
  | nil =>
    intro z hz
    rw [List.mem_singleton] at hz
    subst hz
    exact ⟨fun _ => le_rfl, fun _ => le_rfl⟩
  | cons q qs ih =>
    have hpq := List.rel_of_pairwise_cons h (List.mem_cons_self)
    intro z hz
    rcases List.mem_cons.mp hz with rfl | hz
    · exact ⟨fun _ => (interpFrom_bounds h hx).1, fun h' => absurd hx (not_le.mpr h')⟩
    · have hqz : q.1 ≤ z.1 ∧ q.2 ≤ z.2 := by
        rcases List.mem_cons.mp hz with rfl | hz
        · exact ⟨le_rfl, le_rfl⟩
        · exact List.rel_of_pairwise_cons (List.Pairwise.of_cons h) hz
      by_cases h1 : x < q.1
      · refine ⟨fun h2 => absurd h1 (by linarith [hqz.1]), fun _ => ?_⟩
        refine le_trans ?_ hqz.2
        rw [interpFrom, if_pos h1]
        by_cases h2 : x = p.1
        · rw [if_pos h2]
          exact hpq.2
        · rw [if_neg h2]
          have h3 : 0 < q.1 - p.1 := by
            have : p.1 < x := lt_of_le_of_ne hx (Ne.symm h2)
            linarith
          have h4 : 0 ≤ (q.2 - p.2) / (q.1 - p.1) := div_nonneg (by linarith [hpq.2]) h3.le
          have h5 : (q.2 - p.2) / (q.1 - p.1) * (x - p.1) ≤ (q.2 - p.2) / (q.1 - p.1) * (q.1 - p.1) :=
            mul_le_mul_of_nonneg_left (by linarith) h4
          rw [div_mul_cancel₀ _ (ne_of_gt h3)] at h5
          linarith
      · rw [interpFrom, if_neg h1]
        exact ih (List.Pairwise.of_cons h) (not_lt.mp h1) z hz

theorem interp_at {xp fp : List ℝ} (hl : xp.length = fp.length) (h0 : fp ≠ []) (hx : xp.Pairwise (· ≤ ·)) (hf : fp.Pairwise (· ≤ ·)) (x : ℝ) :
    ∃ y, interp x xp fp = .ok y ∧ ∀ z ∈ xp.zip fp, (z.1 ≤ x → z.2 ≤ y) ∧ (x < z.1 → y ≤ z.2) := by
  unfold interp
  rw [if_neg (not_not.mpr hl)]
  cases hz : xp.zip fp with
  | nil =>
    have := congrArg List.length hz
    simp [hl] at this
    exact absurd this h0
  | cons p ps =>
    have hasc : Ascending (p :: ps) := by
      rw [← hz]
      unfold Ascending
      rw [List.pairwise_iff_getElem] at hx hf ⊢
      intro i j hi hj hij
      rw [List.getElem_zip, List.getElem_zip]
      exact ⟨hx _ _ _ _ hij, hf _ _ _ _ hij⟩
    refine ⟨_, rfl, fun z hz' => ?_⟩
    by_cases h1 : x < p.1
    · rw [if_pos h1]
      rcases List.mem_cons.mp hz' with rfl | hz'
      · exact ⟨fun _ => le_rfl, fun _ => le_rfl⟩
      · have := List.rel_of_pairwise_cons hasc hz'
        exact ⟨fun h2 => absurd h1 (by linarith [this.1]), fun _ => this.2⟩
    · rw [if_neg h1]
      exact interpFrom_at hasc (not_lt.mp h1) z hz'

/-- The weight of the values up to `a`. -/
def weightBelow (a : ℝ) (ps : List (ℝ × ℝ)) : ℝ := (ps.map (fun p => if p.1 ≤ a then p.2 else 0)).sum

theorem weightBelow_nonneg {a : ℝ} {ps : List (ℝ × ℝ)} (h : ∀ p ∈ ps, 0 ≤ p.2) : 0 ≤ weightBelow a ps := by
  apply List.sum_nonneg
  intro x hx
  obtain ⟨p, hp, rfl⟩ := List.mem_map.mp hx
  split_ifs
  · exact h p hp
  · exact le_rfl

theorem exists_above {a x total W : ℝ} (ht : 0 < total) : ∀ {ps : List (ℝ × ℝ)} {acc : ℝ}, (∀ p ∈ ps, 0 ≤ p.2 ∧ p.2 ≤ W) →
    acc + weightBelow a ps + W ≤ x * total → acc + weightBelow a ps < acc + (ps.map (·.2)).sum →
    ∃ z ∈ (mids total acc (ps.map (·.2))).zip (ps.map (·.1)), z.1 ≤ x ∧ a < z.2
  | [], acc, _, _, h => by simp [weightBelow] at h
  | p :: ps, acc, hw, h1, h2 => by
    have hp := hw p (by simp)
    have hb := weightBelow_nonneg (a := a) (ps := ps) (fun q hq => (hw q (by simp [hq])).1)
    have e : weightBelow a (p :: ps) = (if p.1 ≤ a then p.2 else 0) + weightBelow a ps := by simp [weightBelow]
    rw [e] at h1 h2
    simp only [List.map_cons, mids, List.zip_cons_cons, List.sum_cons] at h2 ⊢
    by_cases h3 : p.1 ≤ a
    · rw [if_pos h3] at h1 h2
      obtain ⟨z, hz, hz'⟩ := exists_above (a := a) (x := x) ht (ps := ps) (acc := acc + p.2) (fun q hq => hw q (by simp [hq])) (by linarith) (by linarith)
      exact ⟨z, List.mem_cons_of_mem _ hz, hz'⟩
    · rw [if_neg h3] at h1
      refine ⟨_, List.mem_cons_self, ?_, not_le.mp h3⟩
      dsimp only
      rw [div_le_iff₀ ht]
      linarith

theorem exists_below {a x total W : ℝ} (ht : 0 < total) (hW : 0 ≤ W) : ∀ {ps : List (ℝ × ℝ)} {acc : ℝ}, (∀ p ∈ ps, p.2 ≤ W) →
    ps.Pairwise (fun p q => p.1 ≤ q.1) → x * total + W < acc + weightBelow a ps → acc ≤ x * total + W →
    ∃ z ∈ (mids total acc (ps.map (·.2))).zip (ps.map (·.1)), x < z.1 ∧ z.2 ≤ a
  | [], acc, _, _, h1, h2 => by
    simp [weightBelow] at h1
    linarith
  | p :: ps, acc, hw, hs, h1, h2 => by
    have hp := hw p (by simp)
    have e : weightBelow a (p :: ps) = (if p.1 ≤ a then p.2 else 0) + weightBelow a ps := by simp [weightBelow]
    rw [e] at h1
    simp only [List.map_cons, mids, List.zip_cons_cons]
    by_cases h3 : p.1 ≤ a
    · rw [if_pos h3] at h1
      by_cases h4 : x * total < acc + p.2 / 2
      · refine ⟨_, List.mem_cons_self, ?_, h3⟩
        dsimp only
        rwa [lt_div_iff₀ ht]
      · obtain ⟨z, hz, hz'⟩ := exists_below (x := x) ht hW (ps := ps) (acc := acc + p.2) (fun q hq => hw q (by simp [hq])) (List.Pairwise.of_cons hs)
          (by linarith) (by linarith)
        exact ⟨z, List.mem_cons_of_mem _ hz, hz'⟩
    · rw [if_neg h3] at h1
      have : weightBelow a ps = 0 := by
        apply List.sum_eq_zero
        intro y hy
        obtain ⟨q, hq, rfl⟩ := List.mem_map.mp hy
        rw [if_neg]
        have := List.rel_of_pairwise_cons hs hq
        linarith [not_le.mp h3]
      linarith

/-- The weighted quantile exceeds `a` if the weight of the values up to `a` is small enough, and is at most `b` if the weight of the values
up to `b` is large enough, for weights which are each at most `W`. -/
theorem quantile_bounds (A : Argsort ℝ) {values weights : List ℝ} (hl : values.length = weights.length) {W : ℝ}
    (hw : ∀ v ∈ weights, 0 ≤ v ∧ v ≤ W) (ht : 0 < weights.sum) {prob : ℝ} (h0 : 0 < prob) (h1 : prob < 1) {a b : ℝ}
    (ha : weightBelow a (values.zip weights) + W ≤ prob * weights.sum) (hb : prob * weights.sum + W < weightBelow b (values.zip weights)) :
    ∃ q, weightedQuantile A prob values weights = .ok q ∧ a < q ∧ q ≤ b := by
  have hne : values ≠ [] := by
    intro h; rw [h] at hl
    rw [List.length_eq_zero_iff.mp hl.symm] at ht
    exact lt_irrefl _ ht
  have hperm := sortBy_perm A Prod.fst (values.zip weights)
  have e2 : (values.zip weights).map (·.2) = weights := List.map_snd_zip (by omega)
  have e1 : (values.zip weights).map (·.1) = values := List.map_fst_zip (by omega)
  have hp1 := hperm.map (·.1)
  have hp2 := hperm.map (·.2)
  rw [e1] at hp1
  rw [e2] at hp2
  have hbelow : ∀ c, weightBelow c (values.zip weights) = weightBelow c (sortBy A Prod.fst (values.zip weights)) := fun c =>
    ((hperm.map _).sum_eq).symm
  have hsorted := sortBy_sorted A Prod.fst (values.zip weights)
  rw [weightedQuantile_eq A ⟨h0, h1⟩ hl ht.ne']
  rw [hbelow] at ha hb
  have hW : 0 ≤ W := by
    obtain ⟨v, hv⟩ := List.exists_mem_of_ne_nil weights (by intro h; rw [h] at ht; exact lt_irrefl _ ht)
    exact (hw v hv).1.trans (hw v hv).2
  have hsum := hp2.sum_eq
  generalize sortBy A Prod.fst (values.zip weights) = ps at *
  have hw' : ∀ p ∈ ps, 0 ≤ p.2 ∧ p.2 ≤ W := fun p hp => hw _ (hp2.mem_iff.mp (List.mem_map_of_mem hp))
  obtain ⟨q, hq, hz⟩ := interp_at (xp := mids weights.sum 0 (ps.map (·.2))) (fp := ps.map (·.1)) (by simp [length_mids])
    (by intro h; rw [h] at hp1; exact hne hp1.nil_eq.symm)
    (mids_pairwise ht 0 (fun v hv => (hw v (hp2.mem_iff.mp hv)).1)) (List.pairwise_map.mpr hsorted) prob
  have hpt : prob * weights.sum < weights.sum := by nlinarith
  obtain ⟨z1, m1, x1, y1⟩ := exists_above (a := a) (x := prob) (W := W) ht (acc := 0) hw' (by linarith) (by rw [hsum]; linarith)
  obtain ⟨z2, m2, x2, y2⟩ := exists_below ht hW (acc := 0) (a := b) (x := prob) (fun p hp => (hw' p hp).2) hsorted (by linarith) (by positivity)
  exact ⟨q, hq, lt_of_lt_of_le y1 ((hz z1 m1).1 x1), ((hz z2 m2).2 x2).trans y2⟩

end

end Nestcheck
