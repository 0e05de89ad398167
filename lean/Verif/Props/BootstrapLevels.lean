import Verif.Props.BootstrapFlat

/-! C101: how far the evidence of a replication is from the evidence of the run, for given draws. -/

namespace Nestcheck
open Spec MeasureTheory

noncomputable section

/-- The number of samples that were replaced, with likelihood at most `t`. -/
def loCount (e0 t : ℝ) (ls : List ℝ) : Nat := ls.countP (fun x => decide (x < e0 ∧ Real.exp x ≤ t))

/-- The number of samples that were not replaced, with likelihood at most `t`. -/
def hiCount (e0 t : ℝ) (ls : List ℝ) : Nat := ls.countP (fun x => decide (e0 ≤ x ∧ Real.exp x ≤ t))

/-- The prior volume estimated to have likelihood larger than `t`. -/
def level (N : Nat) (ls : List ℝ) (t : ℝ) : ℝ := cut (flatCounts N ls.length) (ls.countP (fun x => decide (Real.exp x ≤ t)))

theorem level_perm {N : Nat} {ls ls' : List ℝ} (h : ls.Perm ls') : level N ls = level N ls' := by
  funext t
  rw [level, level, h.length_eq, h.countP_eq]

theorem lo_add_hi (e0 t : ℝ) (ls : List ℝ) : loCount e0 t ls + hiCount e0 t ls = ls.countP (fun x => decide (Real.exp x ≤ t)) := by
  unfold loCount hiCount
  induction ls with
  | nil => rfl
  | cons x ls ih =>
    simp only [List.countP_cons]
    rw [← ih]
    rcases lt_or_ge x e0 with h | h
    · by_cases ht : Real.exp x ≤ t <;> simp [h, ht, not_le.mpr h] <;> omega
    · by_cases ht : Real.exp x ≤ t <;> simp [h, ht, not_lt.mpr h] <;> omega

theorem countP_split (e0 : ℝ) (ls : List ℝ) :
    ls.countP (fun x => decide (x < e0)) + ls.countP (fun x => decide (e0 ≤ x)) = ls.length := by
  induction ls with
  | nil => rfl
  | cons x ls ih =>
    simp only [List.countP_cons, List.length_cons]
    rw [← ih]
    rcases lt_or_ge x e0 with h | h
    · simp [h, not_le.mpr h]; omega
    · simp [h, not_lt.mpr h]; omega

theorem level_close {ls : List ℝ} {e0 : ℝ} {N : Nat} (hN : 0 < N) (hc : ls.countP (fun x => decide (e0 ≤ x)) = N) (t : ℝ) :
    |level N ls t - flatVolume N (loCount e0 t ls) (hiCount e0 t ls)| ≤ 1 / N := by
  have hs := countP_split e0 ls
  unfold level
  rw [← lo_add_hi e0]
  apply flat_cut hN (by omega)
  · have : loCount e0 t ls ≤ ls.countP (fun x => decide (x < e0)) := by
      apply List.countP_mono_left
      intro x _ hx
      simp only [decide_eq_true_eq] at hx ⊢
      exact hx.1
    omega
  · rw [← hc]
    apply List.countP_mono_left
    intro x _ hx
    simp only [decide_eq_true_eq] at hx ⊢
    exact hx.1
  · intro h0
    obtain ⟨y, -, hy⟩ := List.countP_pos_iff.mp (Nat.pos_of_ne_zero h0)
    simp only [decide_eq_true_eq] at hy
    have : loCount e0 t ls = ls.countP (fun x => decide (x < e0)) := by
      apply List.countP_congr
      intro x _
      simp only [decide_eq_true_eq]
      refine ⟨fun h => h.1, fun h => ⟨h, ?_⟩⟩
      refine le_trans (Real.exp_le_exp.mpr ?_) hy.2
      linarith [hy.1]
    omega

theorem level_nonneg {N : Nat} {ls : List ℝ} (t : ℝ) : 0 ≤ level N ls t := by
  unfold level cut
  split_ifs
  · exact zero_le_one
  · have := expectedVolume_pos (ns := flatCounts N ls.length) (ls.countP (fun x => decide (Real.exp x ≤ t)))
    have := expectedVolume_pos (ns := flatCounts N ls.length) (ls.countP (fun x => decide (Real.exp x ≤ t)) + 1)
    positivity
  · exact le_rfl

theorem level_le {N : Nat} {ls : List ℝ} (t : ℝ) : level N ls t ≤ 1 := by
  unfold level
  exact (cut_antitone (Nat.zero_le _)).trans (by simp [cut])

theorem measurable_countP (p : ℝ → Prop) [DecidablePred p] (ls : List ℝ) :
    Measurable (fun t : ℝ => ls.countP (fun x => decide (p x ∧ Real.exp x ≤ t))) := by
  induction ls with
  | nil => exact measurable_const
  | cons x ls ih =>
    simp only [List.countP_cons]
    apply ih.add
    by_cases hp : p x
    · simp only [hp, true_and, decide_eq_true_eq]
      exact Measurable.ite measurableSet_Ici measurable_const measurable_const
    · simp [hp]

theorem measurable_level (N : Nat) (ls : List ℝ) : Measurable (level N ls) := by
  have h := measurable_countP (fun _ => True) ls
  simp only [true_and] at h
  exact (Measurable.of_discrete (f := cut (flatCounts N ls.length))).comp h

theorem integrable_level (N : Nat) (ls : List ℝ) (M : ℝ) : IntegrableOn (level N ls) (Set.Ioo 0 M) := by
  refine Integrable.of_bound (C := 1) (measurable_level N ls).aestronglyMeasurable ?_
  refine Filter.Eventually.of_forall fun t => ?_
  rw [Real.norm_eq_abs, abs_of_nonneg (level_nonneg t)]
  exact level_le t

variable {σ : Type} {R : Rng σ ℝ}

theorem flat_evidence {r : Run ℝ} {N : Nat} (hN : 0 < N) (hl : N ≤ r.logl.length)
    (hn : r.nlive = (flatCounts N r.logl.length).map (fun m : Nat => (m : Int))) (hsort : r.logl.Pairwise (· ≤ ·)) {b : ℝ}
    (hb : ∀ l ∈ r.logl, l ≤ b) (w : World σ) :
    evidence R r none false w = (.ok (∫ t in Set.Ioo 0 (Real.exp b), level N r.logl t), w) := by
  have hW : Weighable r := by
    refine ⟨fun h0 => by rw [h0] at hl; simp at hl; omega, ?_, by rw [hn]; simp [flatCounts]⟩
    intro m hm
    rw [hn] at hm
    obtain ⟨m, hm', rfl⟩ := List.mem_map.mp hm
    obtain ⟨i, hi, rfl⟩ := List.mem_map.mp hm'
    rw [List.mem_range] at hi
    have : 0 < min N (r.logl.length - i) := by omega
    exact_mod_cast this
  obtain ⟨z, -, z2, z3, -⟩ := C29_evidence (R := R) hW false w (by simp)
  have hw : afterWeights R r none false w = w := by simp [afterWeights]
  rw [hw] at z2
  rw [z2]
  congr 2
  have hne : flatCounts N r.logl.length ≠ [] := by
    intro h0
    have := congrArg List.length h0
    rw [flatCounts_length] at this
    simp at this
    exact hW.nonempty this
  have hsort' : (r.logl.map Real.exp).Pairwise (· ≤ ·) := by
    rw [List.pairwise_map]
    exact hsort.imp (fun h => Real.exp_le_exp.mpr h)
  have h1 := sum_levels (ns := flatCounts N r.logl.length) (L := r.logl.map Real.exp) (by simp [flatCounts]) hne hsort' (M := Real.exp b) (by
    intro x hx
    obtain ⟨l, hl', rfl⟩ := List.mem_map.mp hx
    exact ⟨(Real.exp_pos _).le, Real.exp_le_exp.mpr (hb l hl')⟩)
  rw [z3, hn, priorVolumes_eq hne]
  have h2 : (fun t => cut (flatCounts N r.logl.length) ((r.logl.map Real.exp).countP (fun x => decide (x ≤ t)))) = level N r.logl := by
    funext t
    rw [level, List.countP_map]
    rfl
  rw [h2] at h1
  rw [← h1, Finset.sum_range, ← List.sum_ofFn]
  congr 1
  apply List.ext_getElem
  · simp [flatCounts]
  · intro i h3 h4
    have hi : i < r.logl.length := by
      simp only [List.length_zipWith] at h3
      omega
    simp [List.getD_eq_getElem?_getD, List.getElem?_eq_getElem hi]

/-! ### Replications -/

theorem pick_append {labels : List Int} {xs : List ℝ} (k0 : Nat) (k : Int) :
    pick labels k xs = pick (labels.take k0) k (xs.take k0) ++ pick (labels.drop k0) k (xs.drop k0) := by
  unfold pick
  rw [← List.map_append, ← List.filter_append]
  congr 2
  simp only [List.zip, ← List.take_zipWith, ← List.drop_zipWith, List.take_append_drop]

theorem mem_pick_of {labels : List Int} {k : Int} {xs : List ℝ} {x : ℝ} (h : x ∈ pick labels k xs) : x ∈ xs := by
  obtain ⟨i, -, hi⟩ := mem_pick.mp h
  exact List.mem_of_getElem? hi

/-- Replications of a run with `N` live points, for given draws. -/
theorem drawn_close {labels : List Int} {logl : List ℝ} {N : Nat} (hN : 0 < N) (hll : labels.length = logl.length)
    (hr : ∀ k ∈ labels, 0 ≤ k ∧ k < (N : Int)) (hsort : logl.Pairwise (· ≤ ·)) {e0 : ℝ}
    (hone : ∀ k < N, (pick labels (k : Nat) logl).countP (fun x => decide (e0 ≤ x)) = 1)
    {inds : List Nat} (hi : ∀ k ∈ inds, k < N) (hlen : inds.length = N) (k0 : Nat) (t : ℝ) :
    |level N (drawnLogl labels logl inds) t - level N logl t| ≤
      (|((inds.map (fun k : Nat => (loCount e0 t (pick (labels.take k0) k (logl.take k0)) : ℝ))).sum) -
          ∑ k ∈ Finset.range N, (loCount e0 t (pick (labels.take k0) (k : Nat) (logl.take k0)) : ℝ)| +
        |(inds.map (fun k : Nat => (hiCount e0 t (pick labels k logl) : ℝ))).sum -
          ∑ k ∈ Finset.range N, (hiCount e0 t (pick labels (k : Nat) logl) : ℝ)| + 2) / N + Real.exp (-((k0 : ℝ) / N)) := by
  have hN' : (0 : ℝ) < N := by exact_mod_cast hN
  have hperm : (drawnLogl labels logl (List.range N)).Perm logl := pick_perm hr hll
  have hcd : ∀ js : List Nat, (∀ k ∈ js, k < N) → js.length = N →
      (drawnLogl labels logl js).countP (fun x => decide (e0 ≤ x)) = N := by
    intro js hj hjl
    rw [countP_drawn, List.map_congr_left (g := fun _ => 1) (fun k hk => hone k (hj k hk)), List.map_const', List.sum_replicate, hjl]
    simp
  have hrange : ∀ k ∈ List.range N, k < N := fun k hk => List.mem_range.mp hk
  have hcl : logl.countP (fun x => decide (e0 ≤ x)) = N := by
    rw [← hperm.countP_eq]
    exact hcd _ hrange (by simp)
  have c1 := level_close hN (hcd inds hi hlen) t
  have c2 := level_close hN hcl t
  -- counts as sums over the threads
  have slo : ∀ js : List Nat, (loCount e0 t (drawnLogl labels logl js) : ℝ) =
      (js.map (fun k : Nat => (loCount e0 t (pick labels k logl) : ℝ))).sum := by
    intro js
    unfold loCount
    rw [countP_drawn, Nat.cast_list_sum, List.map_map]
    rfl
  have shi : ∀ js : List Nat, (hiCount e0 t (drawnLogl labels logl js) : ℝ) =
      (js.map (fun k : Nat => (hiCount e0 t (pick labels k logl) : ℝ))).sum := by
    intro js
    unfold hiCount
    rw [countP_drawn, Nat.cast_list_sum, List.map_map]
    rfl
  have srange : ∀ f : Nat → ℝ, ((List.range N).map f).sum = ∑ k ∈ Finset.range N, f k := by
    intro f
    rw [← List.sum_toFinset _ List.nodup_range, List.toFinset_range]
  have hhiN : (hiCount e0 t (drawnLogl labels logl inds) : ℝ) ≤ N := by
    rw [← hcd inds hi hlen]
    norm_cast
    apply List.countP_mono_left
    intro x _ hx
    simp only [decide_eq_true_eq] at hx ⊢
    exact hx.1
  set A := (inds.map (fun k : Nat => (loCount e0 t (pick (labels.take k0) k (logl.take k0)) : ℝ))).sum with hA
  set A' := ∑ k ∈ Finset.range N, (loCount e0 t (pick (labels.take k0) (k : Nat) (logl.take k0)) : ℝ) with hA'
  have hB : (hiCount e0 t (drawnLogl labels logl inds) : ℝ) = (inds.map (fun k : Nat => (hiCount e0 t (pick labels k logl) : ℝ))).sum := shi inds
  have hB' : (hiCount e0 t logl : ℝ) = ∑ k ∈ Finset.range N, (hiCount e0 t (pick labels (k : Nat) logl) : ℝ) := by
    rw [← srange, ← shi]
    unfold hiCount
    rw [hperm.countP_eq]
  rw [← hB, ← hB']
  have hE := Real.exp_pos (-((k0 : ℝ) / N))
  have hd0 : (0 : ℝ) ≤ |(hiCount e0 t (drawnLogl labels logl inds) : ℝ) - hiCount e0 t logl| := abs_nonneg _
  by_cases hcase : ∃ y ∈ logl.drop k0, y < e0 ∧ Real.exp y ≤ t
  · -- a later sample has likelihood at most `t`
    obtain ⟨y, hy, hy1, hy2⟩ := hcase
    obtain ⟨j, hj⟩ := List.mem_iff_getElem?.mp hy
    rw [List.getElem?_drop] at hj
    have hjl := (List.getElem?_eq_some_iff.mp hj).1
    have hA0 : A' = k0 := by
      rw [hA', ← srange]
      have h1 : (logl.take k0).Perm (drawnLogl (labels.take k0) (logl.take k0) (List.range N)) :=
        (pick_perm (fun k hk => hr k (List.mem_of_mem_take hk)) (by simp [hll])).symm
      have h2 : ((loCount e0 t (logl.take k0) : Nat) : ℝ) =
          ((List.range N).map (fun k : Nat => (loCount e0 t (pick (labels.take k0) k (logl.take k0)) : ℝ))).sum := by
        unfold loCount
        rw [h1.countP_eq, countP_drawn, Nat.cast_list_sum, List.map_map]
        rfl
      rw [← h2]
      congr 1
      have h3 : (logl.take k0).length = k0 := by rw [List.length_take]; omega
      unfold loCount
      refine (List.countP_eq_length.mpr ?_).trans h3
      intro x hx
      obtain ⟨i, hi'⟩ := List.mem_iff_getElem?.mp hx
      have hik : i < k0 := by
        have := (List.getElem?_eq_some_iff.mp hi').1
        omega
      rw [List.getElem?_take_of_lt hik] at hi'
      have hxy := sorted_le hsort (by omega) hi' hj
      simp only [decide_eq_true_eq]
      exact ⟨by linarith, (Real.exp_le_exp.mpr hxy).trans hy2⟩
    have hAle : A ≤ loCount e0 t (drawnLogl labels logl inds) := by
      rw [slo, hA]
      apply List.sum_le_sum
      intro k _
      norm_cast
      unfold loCount
      rw [pick_append (labels := labels) (xs := logl) k0, List.countP_append]
      omega
    have hAle' : (k0 : ℝ) ≤ loCount e0 t logl := by
      have : A' ≤ loCount e0 t logl := by
        have e : (loCount e0 t logl : ℝ) = ∑ k ∈ Finset.range N, (loCount e0 t (pick labels (k : Nat) logl) : ℝ) := by
          rw [← srange, ← slo]
          unfold loCount
          rw [hperm.countP_eq]
        rw [e, hA']
        apply Finset.sum_le_sum
        intro k _
        norm_cast
        unfold loCount
        rw [pick_append (labels := labels) (xs := logl) k0, List.countP_append]
        omega
      rwa [hA0] at this
    have hfv : ∀ {d r a : ℝ}, 0 ≤ r → a ≤ d → flatVolume N d r ≤ Real.exp (-(a / N)) := by
      intro d r a hr0 had
      unfold flatVolume
      have h1 : Real.exp (-(d / N)) ≤ Real.exp (-(a / N)) := Real.exp_le_exp.mpr (by
        have := div_le_div_of_nonneg_right had hN'.le
        linarith)
      have h2 : 0 ≤ r / N := by positivity
      have := Real.exp_pos (-(d / N))
      nlinarith
    have hA1 : 0 ≤ A := List.sum_nonneg (by
      intro x hx
      obtain ⟨k, -, rfl⟩ := List.mem_map.mp hx
      positivity)
    have u1 : level N (drawnLogl labels logl inds) t ≤ Real.exp (-(A / N)) + 1 / N := by
      have := hfv (r := (hiCount e0 t (drawnLogl labels logl inds) : ℝ)) (by positivity) hAle
      linarith [(abs_le.mp c1).2]
    have u2 : level N logl t ≤ Real.exp (-((k0 : ℝ) / N)) + 1 / N := by
      have := hfv (r := (hiCount e0 t logl : ℝ)) (by positivity) hAle'
      linarith [(abs_le.mp c2).2]
    have u3 : Real.exp (-(A / N)) ≤ Real.exp (-((k0 : ℝ) / N)) + |A - A'| / N := by
      have := flatVolume_lipschitz hN (d := A) (d' := k0) (r := 0) (r' := 0) hA1 (by positivity) le_rfl hN'.le
      unfold flatVolume at this
      simp only [zero_div, sub_zero, mul_one, sub_self, abs_zero, add_zero] at this
      rw [hA0]
      linarith [(abs_le.mp this).2]
    have v1 := level_nonneg (N := N) (ls := drawnLogl labels logl inds) t
    have v2 := level_nonneg (N := N) (ls := logl) t
    have hAA : 0 ≤ |A - A'| / N := by positivity
    have hBB : 0 ≤ |(hiCount e0 t (drawnLogl labels logl inds) : ℝ) - hiCount e0 t logl| / N := by positivity
    have hone' : 0 < 1 / (N : ℝ) := by positivity
    rw [add_div, add_div, abs_le]
    have h2N : (2 : ℝ) / N = 1 / N + 1 / N := by ring
    rw [h2N]
    constructor <;> linarith
  · -- all samples considered are among the first `k0`
    have hsame : ∀ k : Nat, loCount e0 t (pick labels k logl) = loCount e0 t (pick (labels.take k0) k (logl.take k0)) := by
      intro k
      unfold loCount
      rw [pick_append k0, List.countP_append, Nat.add_eq_left, List.countP_eq_zero]
      intro x hx
      have := mem_pick_of hx
      simp only [decide_eq_true_eq]
      exact fun h => hcase ⟨x, this, h⟩
    have e1 : (loCount e0 t (drawnLogl labels logl inds) : ℝ) = A := by
      rw [slo, hA]
      simp only [hsame]
    have e2 : (loCount e0 t logl : ℝ) = A' := by
      have e : (loCount e0 t logl : ℝ) = ∑ k ∈ Finset.range N, (loCount e0 t (pick labels (k : Nat) logl) : ℝ) := by
        rw [← srange, ← slo]
        unfold loCount
        rw [hperm.countP_eq]
      rw [e, hA']
      simp only [hsame]
    have hl := flatVolume_lipschitz hN (d := loCount e0 t (drawnLogl labels logl inds)) (d' := loCount e0 t logl)
      (r := hiCount e0 t (drawnLogl labels logl inds)) (r' := hiCount e0 t logl) (by positivity) (by positivity) (by positivity) hhiN
    rw [e1, e2] at hl
    rw [e1] at c1
    rw [e2] at c2
    rw [add_div, add_div]
    have h2N : (2 : ℝ) / N = 1 / N + 1 / N := by ring
    rw [h2N]
    have := abs_le.mp c1
    have := abs_le.mp c2
    have := abs_le.mp hl
    rw [abs_le]
    constructor <;> linarith

end
end Nestcheck
