import Mathlib.Tactic.NormNum
import Verif.Proofs.Estimators

/-
Weighted quantiles: the sample points of the interpolation, and its exact values.
-/

namespace Nestcheck
open Spec

/-- The middle of each weight, as a fraction of the total. -/
noncomputable def mids (total acc : ℝ) : List ℝ → List ℝ
  | [] => []
  | w :: ws => (acc + w / 2) / total :: mids total (acc + w) ws

theorem length_mids (total acc : ℝ) (ws : List ℝ) : (mids total acc ws).length = ws.length := by
  induction ws generalizing acc with
  | nil => rfl
  | cons w ws ih => simp [mids, ih]

theorem quantilePoints_from {total : ℝ} (h : total ≠ 0) (acc : ℝ) (ws : List ℝ) :
    pyMap (fun p : ℝ × ℝ => npDiv (p.1 - 0.5 * p.2) total) ((cumsumFrom acc ws).zip ws) =
      .ok (mids total acc ws) := by
  induction ws generalizing acc with
  | nil => rfl
  | cons w ws ih =>
    rw [cumsumFrom, List.zip_cons_cons, pyMap, npDiv_ok h, Py.ok_bind, ih, Py.ok_bind, mids]
    have : acc + w - 0.5 * w = acc + w / 2 := by norm_num; ring
    simp only [this]
    rfl

theorem quantilePoints_ok {total : ℝ} (h : total ≠ 0) (ws : List ℝ) :
    quantilePoints ws total = .ok (mids total 0 ws) := quantilePoints_from h 0 ws

theorem le_mids {total : ℝ} (h : 0 < total) (acc : ℝ) {ws : List ℝ} (hw : ∀ w ∈ ws, 0 ≤ w) :
    ∀ m ∈ mids total acc ws, acc / total ≤ m := by
  induction ws generalizing acc with
  | nil => simp [mids]
  | cons w ws ih =>
    have h0 := hw w (by simp)
    intro m hm
    rw [mids, List.mem_cons] at hm
    rcases hm with rfl | hm
    · exact div_le_div_of_nonneg_right (by linarith) h.le
    · refine le_trans ?_ (ih (acc + w) (fun v hv => hw v (by simp [hv])) m hm)
      exact div_le_div_of_nonneg_right (by linarith) h.le

theorem mids_pairwise {total : ℝ} (h : 0 < total) (acc : ℝ) {ws : List ℝ} (hw : ∀ w ∈ ws, 0 ≤ w) :
    (mids total acc ws).Pairwise (· ≤ ·) := by
  induction ws generalizing acc with
  | nil => simp [mids]
  | cons w ws ih =>
    have h0 := hw w (by simp)
    rw [mids, List.pairwise_cons]
    refine ⟨?_, ih _ (fun v hv => hw v (by simp [hv]))⟩
    intro m hm
    refine le_trans ?_ (le_mids h (acc + w) (fun v hv => hw v (by simp [hv])) m hm)
    exact div_le_div_of_nonneg_right (by linarith) h.le

theorem mids_pairwise_lt {total : ℝ} (h : 0 < total) (acc : ℝ) {ws : List ℝ} (hw : ∀ w ∈ ws, 0 < w) :
    (mids total acc ws).Pairwise (· < ·) := by
  induction ws generalizing acc with
  | nil => simp [mids]
  | cons w ws ih =>
    have h0 := hw w (by simp)
    rw [mids, List.pairwise_cons]
    refine ⟨?_, ih _ (fun v hv => hw v (by simp [hv]))⟩
    intro m hm
    refine lt_of_lt_of_le ?_ (le_mids h (acc + w) (fun v hv => (hw v (by simp [hv])).le) m hm)
    exact div_lt_div_of_pos_right (by linarith) h

theorem mids_append (total acc : ℝ) (xs ys : List ℝ) :
    mids total acc (xs ++ ys) = mids total acc xs ++ mids total (acc + xs.sum) ys := by
  induction xs generalizing acc with
  | nil => simp [mids]
  | cons x xs ih => simp [mids, ih, add_assoc]

theorem mids_scale {c : ℝ} (hc : c ≠ 0) (total acc : ℝ) (ws : List ℝ) :
    mids (total * c) (acc * c) (ws.map (· * c)) = mids total acc ws := by
  induction ws generalizing acc with
  | nil => rfl
  | cons w ws ih =>
    rw [List.map_cons, mids, mids, ← add_mul, ih]
    congr 1
    rw [show acc * c + w * c / 2 = (acc + w / 2) * c by ring, mul_div_mul_right _ _ hc]

/-- `weighted_quantile` interpolates in the samples sorted by value. -/
theorem weightedQuantile_eq (A : Argsort ℝ) {prob : ℝ} {values weights : List ℝ}
    (hp : 0 < prob ∧ prob < 1) (hl : values.length = weights.length) (ht : weights.sum ≠ 0) :
    weightedQuantile A prob values weights =
      interp prob (mids weights.sum 0 ((sortBy A Prod.fst (values.zip weights)).map (·.2)))
        ((sortBy A Prod.fst (values.zip weights)).map (·.1)) := by
  have h1 : (values.zip weights).map (·.1) = values := List.map_fst_zip (by omega)
  have h2 : (values.zip weights).map (·.2) = weights := List.map_snd_zip (by omega)
  unfold weightedQuantile
  rw [if_neg (by simp [hp]), if_neg (by simp [hl])]
  simp only []
  have e : ∀ f : ℝ × ℝ → ℝ, gather ((values.zip weights).map f) (A.idx values) =
      (sortBy A Prod.fst (values.zip weights)).map f := by
    intro f
    unfold sortBy
    rw [gather_map, h1]
  have e1 := e (·.1)
  have e2 := e (·.2)
  rw [h1] at e1
  rw [h2] at e2
  rw [e1, e2, quantilePoints_ok ht, Py.ok_bind]

/-! ### Exact values of the interpolation -/

/-- The value at and beyond the last point. -/
theorem interpFrom_last {x : ℝ} {p : ℝ × ℝ} {l : List (ℝ × ℝ)} {a : ℝ × ℝ}
    (hs : (p :: l ++ [a]).Pairwise (fun p q => p.1 < q.1)) (hx : a.1 ≤ x) :
    interpFrom x p (l ++ [a]) = a.2 := by
  induction l generalizing p with
  | nil =>
    rw [List.nil_append, interpFrom, if_neg (not_lt.mpr hx), interpFrom]
  | cons b l ih =>
    have h1 : b.1 < a.1 := List.rel_of_pairwise_cons (List.Pairwise.of_cons hs) (by simp)
    rw [List.cons_append, interpFrom, if_neg (by linarith)]
    exact ih (List.Pairwise.of_cons hs)

/-- The value between neighbouring points. -/
theorem interpFrom_between {x : ℝ} {p : ℝ × ℝ} {l l' : List (ℝ × ℝ)} {a b : ℝ × ℝ}
    {ps : List (ℝ × ℝ)} (he : p :: ps = l ++ a :: b :: l')
    (hs : (p :: ps).Pairwise (fun p q => p.1 < q.1)) (hx : a.1 ≤ x) (hx' : x ≤ b.1) :
    interpFrom x p ps = a.2 + (b.2 - a.2) * ((x - a.1) / (b.1 - a.1)) := by
  induction l generalizing p ps with
  | nil =>
    simp only [List.nil_append, List.cons.injEq] at he
    obtain ⟨rfl, rfl⟩ := he
    have hab : p.1 < b.1 := List.rel_of_pairwise_cons hs (by simp)
    have hne : b.1 - p.1 ≠ 0 := by intro h; linarith
    rw [interpFrom]
    by_cases h1 : x < b.1
    · rw [if_pos h1]
      by_cases h2 : x = p.1
      · rw [if_pos h2, h2]; simp
      · rw [if_neg h2]; ring
    · have hxb : x = b.1 := le_antisymm hx' (not_lt.mp h1)
      rw [if_neg h1, hxb, div_self hne]
      cases l' with
      | nil => rw [interpFrom]; ring
      | cons c l' =>
        have hbc : b.1 < c.1 := List.rel_of_pairwise_cons (List.Pairwise.of_cons hs) (by simp)
        rw [interpFrom, if_pos hbc, if_pos rfl]; ring
  | cons c l ih =>
    simp only [List.cons_append, List.cons.injEq] at he
    obtain ⟨rfl, rfl⟩ := he
    have hs' := List.Pairwise.of_cons hs
    cases l with
    | nil =>
      rw [List.nil_append, interpFrom, if_neg (not_lt.mpr hx)]
      exact ih rfl hs'
    | cons d l =>
      have : d.1 < a.1 := List.rel_of_pairwise_cons hs' (by simp)
      rw [List.cons_append, interpFrom, if_neg (by linarith)]
      exact ih rfl hs'

theorem zip_mids_pairwise {total : ℝ} (h : 0 < total) {ws vs : List ℝ} (hw : ∀ w ∈ ws, 0 < w) :
    ((mids total 0 ws).zip vs).Pairwise (fun p q => p.1 < q.1) := by
  have := mids_pairwise_lt h 0 hw
  rw [List.pairwise_iff_getElem] at this ⊢
  intro i j hi hj hij
  rw [List.getElem_zip, List.getElem_zip]
  exact this _ _ _ _ hij

/-- The place of a sample in the sorted samples is its position. -/
theorem position_sorted {ps l l' : List (ℝ × ℝ)} {a : ℝ × ℝ} (hp : (l ++ a :: l').Perm ps)
    (hs : (l ++ a :: l').Pairwise (fun p q => p.1 < q.1)) :
    position ps a = ((l.map (·.2)).sum + a.2 / 2) / (ps.map (·.2)).sum := by
  unfold position
  rw [((hp.filter _).map _).sum_eq.symm]
  have h1 : (l ++ a :: l').filter (fun q => decide (q.1 < a.1)) = l := by
    rw [List.filter_append, List.filter_cons]
    rw [List.pairwise_append] at hs
    have e1 : l.filter (fun q => decide (q.1 < a.1)) = l := by
      rw [List.filter_eq_self]
      intro q hq
      simpa using hs.2.2 q hq a (by simp)
    have e2 : l'.filter (fun q => decide (q.1 < a.1)) = [] := by
      rw [List.filter_eq_nil_iff]
      intro q hq
      have := List.rel_of_pairwise_cons hs.2.1 hq
      simpa using this.le
    rw [e1, e2]; simp
  rw [h1]

/-- Neighbouring values are adjacent in the sorted samples. -/
theorem adjacent_sorted {ps : List (ℝ × ℝ)} (hs : ps.Pairwise (fun p q => p.1 < q.1)) {a b : ℝ × ℝ}
    (ha : a ∈ ps) (hb : b ∈ ps) (hab : a.1 < b.1) (hn : ∀ c ∈ ps, ¬ (a.1 < c.1 ∧ c.1 < b.1)) :
    ∃ l l', ps = l ++ a :: b :: l' := by
  obtain ⟨l, l', rfl⟩ := List.append_of_mem ha
  rw [List.pairwise_append] at hs
  cases l' with
  | nil =>
    exfalso
    rcases List.mem_append.mp hb with h | h
    · have := hs.2.2 b h a (by simp); linarith
    · simp at h; rw [h] at hab; exact lt_irrefl _ hab
  | cons c l' =>
    refine ⟨l, l', ?_⟩
    have hac : a.1 < c.1 := List.rel_of_pairwise_cons hs.2.1 (by simp)
    rcases List.mem_append.mp hb with h | h
    · have := hs.2.2 b h a (by simp); linarith
    · rcases List.mem_cons.mp h with h | h
      · rw [h] at hab; exact absurd hab (lt_irrefl _)
      · rcases List.mem_cons.mp h with h | h
        · rw [h]
        · have := List.rel_of_pairwise_cons (List.Pairwise.of_cons hs.2.1) h
          exact absurd ⟨hac, this⟩ (hn c (by simp))

/-- The sample points paired with their values, split at a sample. -/
theorem zip_mids_append (total : ℝ) (l l' : List (ℝ × ℝ)) (a : ℝ × ℝ) :
    (mids total 0 ((l ++ a :: l').map (·.2))).zip ((l ++ a :: l').map (·.1)) =
      (mids total 0 (l.map (·.2))).zip (l.map (·.1)) ++
        (((l.map (·.2)).sum + a.2 / 2) / total, a.1) ::
          (mids total ((l.map (·.2)).sum + a.2) (l'.map (·.2))).zip (l'.map (·.1)) := by
  rw [List.map_append, List.map_append, mids_append, List.zip_append (by simp [length_mids])]
  simp [mids]

end Nestcheck
