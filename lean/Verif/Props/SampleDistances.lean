import Mathlib.Algebra.BigOperators.Group.List.Lemmas
import Mathlib.Algebra.BigOperators.Fin
import Mathlib.Algebra.Order.BigOperators.Group.Finset
import Mathlib.Data.Fin.Tuple.Sort
import Mathlib.Data.List.Sort
import Mathlib.Tactic.Linarith
import Mathlib.Tactic.Ring
import Verif.Model.Distances
import Verif.Proofs.Weights
import Verif.Props.Distances

/-! The distances between samples (C81). -/

namespace Nestcheck
noncomputable section

namespace Spec

/-- The average of a function over samples. -/
def averageOf (f : ℝ → ℝ) (xs : List ℝ) : ℝ := (xs.map f).sum / (xs.length : ℝ)

/-- The fraction of samples up to `t`. -/
def fraction (xs : List ℝ) (t : ℝ) : ℝ := averageOf (fun x => if x ≤ t then 1 else 0) xs

/-- Each value makes up the same fraction of both. -/
def SameDistribution (x y : List ℝ) : Prop := ∀ a, x.count a * y.length = y.count a * x.length

/-- A way of moving the samples `x`, of total mass 1, to the samples `y`: `w i j` is moved from `x[i]` to `y[j]`. -/
structure Plan (x y : List ℝ) (w : Fin x.length → Fin y.length → ℝ) : Prop where
  nonneg : ∀ i j, 0 ≤ w i j
  out : ∀ i, ∑ j, w i j = 1 / (x.length : ℝ)
  into : ∀ j, ∑ i, w i j = 1 / (y.length : ℝ)

/-- Its cost: mass times distance. -/
def cost (x y : List ℝ) (w : Fin x.length → Fin y.length → ℝ) : ℝ :=
  ∑ i, ∑ j, w i j * |x[i] - y[j]|

/-- The average distance between a sample of `x` and one of `y`. -/
def averageDistance (x y : List ℝ) : ℝ := averageOf (fun a => averageOf (fun b => |a - b|) y) x

end Spec
open Spec

/-! ### Averages -/

theorem averageOf_add (f g : ℝ → ℝ) (xs : List ℝ) : averageOf (fun a => f a + g a) xs = averageOf f xs + averageOf g xs := by
  unfold averageOf; rw [List.sum_map_add, add_div]

theorem averageOf_mul (c : ℝ) (f : ℝ → ℝ) (xs : List ℝ) : averageOf (fun a => c * f a) xs = c * averageOf f xs := by
  unfold averageOf; rw [List.sum_map_mul_left, mul_div_assoc]

theorem averageOf_sub (f g : ℝ → ℝ) (xs : List ℝ) : averageOf (fun a => f a - g a) xs = averageOf f xs - averageOf g xs := by
  have := averageOf_add f (fun a => (-1) * g a) xs
  rw [averageOf_mul] at this
  simpa [sub_eq_add_neg] using this

theorem averageOf_const {c : ℝ} {xs : List ℝ} (h : xs ≠ []) : averageOf (fun _ => c) xs = c := by
  unfold averageOf
  rw [List.map_const', List.sum_replicate, nsmul_eq_mul]
  have : (xs.length : ℝ) ≠ 0 := by simpa using h
  field_simp

theorem averageOf_congr {f g : ℝ → ℝ} {xs : List ℝ} (h : ∀ a ∈ xs, f a = g a) : averageOf f xs = averageOf g xs := by
  unfold averageOf; rw [List.map_congr_left h]

theorem averageOf_le {f g : ℝ → ℝ} {xs : List ℝ} (h : ∀ a ∈ xs, f a ≤ g a) : averageOf f xs ≤ averageOf g xs := by
  unfold averageOf
  exact div_le_div_of_nonneg_right (List.sum_le_sum h) (by positivity)

theorem averageOf_nonneg {f : ℝ → ℝ} {xs : List ℝ} (h : ∀ a ∈ xs, 0 ≤ f a) : 0 ≤ averageOf f xs := by
  have := averageOf_le (f := fun _ => 0) (xs := xs) h
  refine le_trans ?_ this
  unfold averageOf
  simp

theorem averageOf_map (f g : ℝ → ℝ) (xs : List ℝ) : averageOf f (xs.map g) = averageOf (fun a => f (g a)) xs := by
  unfold averageOf; simp [Function.comp_def]

theorem averageOf_perm {f : ℝ → ℝ} {xs ys : List ℝ} (h : xs.Perm ys) : averageOf f xs = averageOf f ys := by
  unfold averageOf; rw [(h.map f).sum_eq, h.length_eq]

theorem ecdf_eq (xs : List ℝ) (t : ℝ) : ecdf xs t = fraction xs t := by
  unfold ecdf fraction averageOf searchRight
  congr 1
  induction xs with
  | nil => simp
  | cons a xs ih => by_cases h : a ≤ t <;> simp [h, ih, add_comm]

theorem fraction_nonneg (xs : List ℝ) (t : ℝ) : 0 ≤ fraction xs t :=
  averageOf_nonneg fun a _ => by split <;> norm_num

theorem fraction_le_one (xs : List ℝ) (t : ℝ) : fraction xs t ≤ 1 := by
  by_cases h : xs = []
  · subst h; simp [fraction, averageOf]
  · have := averageOf_le (xs := xs) (f := fun x => if x ≤ t then (1 : ℝ) else 0) (g := fun _ => 1)
      fun a _ => by split <;> norm_num
    rwa [averageOf_const h] at this

/-! ### Sums over neighbours -/

/-- The sum over neighbours of a value at the first times an increment. -/
def wsum (z : List ℝ) (g h : ℝ → ℝ) : ℝ := ((neighbours z).map (fun p => h p.1 * (g p.2 - g p.1))).sum

theorem wsum_cons (a b : ℝ) (z : List ℝ) (g h : ℝ → ℝ) :
    wsum (a :: b :: z) g h = h a * (g b - g a) + wsum (b :: z) g h := by
  simp [wsum, neighbours]

theorem wsum_single (a : ℝ) (g h : ℝ → ℝ) : wsum [a] g h = 0 := by simp [wsum, neighbours]

theorem wsum_nil (g h : ℝ → ℝ) : wsum [] g h = 0 := by simp [wsum, neighbours]

theorem wsum_add (z : List ℝ) (g h k : ℝ → ℝ) : wsum z g (fun t => h t + k t) = wsum z g h + wsum z g k := by
  unfold wsum
  rw [← List.sum_map_add]
  congr 1
  exact List.map_congr_left fun p _ => by ring

theorem wsum_mul (z : List ℝ) (g h : ℝ → ℝ) (c : ℝ) : wsum z g (fun t => c * h t) = c * wsum z g h := by
  unfold wsum
  rw [← List.sum_map_mul_left]
  congr 1
  exact List.map_congr_left fun p _ => by ring

theorem wsum_sub (z : List ℝ) (g h k : ℝ → ℝ) : wsum z g (fun t => h t - k t) = wsum z g h - wsum z g k := by
  have := wsum_add z g h (fun t => (-1) * k t)
  rw [wsum_mul] at this
  simpa [sub_eq_add_neg] using this

theorem neighbours_le {z : List ℝ} (hz : z.Pairwise (· ≤ ·)) {p : ℝ × ℝ} (hp : p ∈ neighbours z) : p.1 ≤ p.2 := by
  induction z with
  | nil => simp [neighbours] at hp
  | cons a z ih =>
    cases z with
    | nil => simp [neighbours] at hp
    | cons b z =>
      simp only [neighbours, List.tail_cons, List.zip_cons_cons, List.mem_cons] at hp
      rcases hp with rfl | hp
      · exact (List.pairwise_cons.1 hz).1 b (by simp)
      · exact ih (List.pairwise_cons.1 hz).2 hp

theorem neighbours_mem {z : List ℝ} {p : ℝ × ℝ} (hp : p ∈ neighbours z) : p.1 ∈ z ∧ p.2 ∈ z := by
  have := List.of_mem_zip hp
  exact ⟨this.1, List.mem_of_mem_tail this.2⟩

theorem wsum_le {z : List ℝ} (hz : z.Pairwise (· ≤ ·)) {h k : ℝ → ℝ} (hk : ∀ t, h t ≤ k t) :
    wsum z id h ≤ wsum z id k :=
  List.sum_le_sum fun _ hp => mul_le_mul_of_nonneg_right (hk _) (sub_nonneg.2 (neighbours_le hz hp))

/-- Telescoping. -/
theorem wsum_one {a : ℝ} {z : List ℝ} (g h : ℝ → ℝ) (hh : ∀ b ∈ a :: z, h b = 1) :
    wsum (a :: z) g h = g ((a :: z).getLast (by simp)) - g a := by
  induction z generalizing a with
  | nil => simp [wsum_single]
  | cons b z ih =>
    rw [wsum_cons, ih fun c hc => hh c (List.mem_cons_of_mem a hc), hh a (by simp)]
    simp

/-- The indicator of being at or above a member sums to the increment from that member to the end. -/
theorem wsum_indicator {z : List ℝ} (hz : z.Pairwise (· ≤ ·)) {a : ℝ} (ha : a ∈ z) (g : ℝ → ℝ) :
    wsum z g (fun t => if a ≤ t then 1 else 0) = g (z.getLast (List.ne_nil_of_mem ha)) - g a := by
  induction z with
  | nil => simp at ha
  | cons c z ih =>
    rw [List.pairwise_cons] at hz
    by_cases hac : a ≤ c
    · have hc : c = a := by
        rcases List.mem_cons.1 ha with h | h
        · exact h.symm
        · exact le_antisymm (hz.1 a h) hac
      subst hc
      exact wsum_one g _ fun b hb => by
        rcases List.mem_cons.1 hb with rfl | h
        · simp
        · simp [hz.1 b h]
    · cases z with
      | nil => simp at ha; exact absurd ha.le hac
      | cons b z =>
        have ha' : a ∈ b :: z := by
          rcases List.mem_cons.1 ha with h | h
          · exact absurd h.le hac
          · exact h
        rw [wsum_cons, ih hz.2 ha', if_neg hac]
        simp

theorem wsum_average (z : List ℝ) (g : ℝ → ℝ) (φ : ℝ → ℝ → ℝ) (xs : List ℝ) :
    wsum z g (fun t => averageOf (fun a => φ a t) xs) = averageOf (fun a => wsum z g (φ a)) xs := by
  have key : wsum z g (fun t => (xs.map (fun a => φ a t)).sum) = (xs.map (fun a => wsum z g (φ a))).sum := by
    induction xs with
    | nil => simp [wsum]
    | cons a xs ih =>
      simp only [List.map_cons, List.sum_cons]
      rw [wsum_add, ih]
  have h := wsum_mul z g (fun t => (xs.map (fun a => φ a t)).sum) ((xs.length : ℝ)⁻¹)
  unfold averageOf
  simp only [div_eq_inv_mul]
  rw [h, key]

/-- Averages in terms of the distribution function. -/
theorem averageOf_eq {z xs : List ℝ} (hz : z.Pairwise (· ≤ ·)) (hz0 : z ≠ []) (hx : xs ≠ []) (hs : ∀ a ∈ xs, a ∈ z)
    (f : ℝ → ℝ) : averageOf f xs = f (z.getLast hz0) - wsum z f (fraction xs) := by
  have : wsum z f (fraction xs) = averageOf (fun a => f (z.getLast hz0) - f a) xs := by
    unfold fraction
    rw [wsum_average z f (fun a t => if a ≤ t then 1 else 0) xs]
    exact averageOf_congr fun a ha => wsum_indicator hz (hs a ha) f
  rw [this, averageOf_sub, averageOf_const hx]
  ring

theorem allValues_sorted (x y : List ℝ) : (allValues x y).Pairwise (· ≤ ·) := List.pairwise_insertionSort _ _

theorem mem_allValues {x y : List ℝ} {a : ℝ} : a ∈ allValues x y ↔ a ∈ x ∨ a ∈ y := by
  unfold allValues; rw [List.mem_insertionSort, List.mem_append]

theorem allValues_perm {x y x' y' : List ℝ} (h : (x ++ y).Perm (x' ++ y')) : allValues x y = allValues x' y' :=
  ((List.perm_insertionSort _ _).trans (h.trans (List.perm_insertionSort _ _).symm)).eq_of_pairwise
    (fun _ _ _ _ h1 h2 => le_antisymm h1 h2) (allValues_sorted x y) (allValues_sorted x' y')

theorem allValues_ne_nil {x : List ℝ} (y : List ℝ) (hx : x ≠ []) : allValues x y ≠ [] := by
  obtain ⟨a, ha⟩ := List.exists_mem_of_ne_nil x hx
  exact List.ne_nil_of_mem (mem_allValues.2 (.inl ha))

/-- Differences of averages in terms of the distribution functions. -/
theorem averageOf_diff {x y : List ℝ} (hx : x ≠ []) (hy : y ≠ []) (f : ℝ → ℝ) :
    averageOf f y - averageOf f x = wsum (allValues x y) f (fun t => fraction x t - fraction y t) := by
  rw [wsum_sub, averageOf_eq (allValues_sorted x y) (allValues_ne_nil y hx) hx (fun a ha => mem_allValues.2 (.inl ha)) f,
    averageOf_eq (allValues_sorted x y) (allValues_ne_nil y hx) hy (fun a ha => mem_allValues.2 (.inr ha)) f]
  ring

theorem earthMover_eq {x y : List ℝ} (hx : x ≠ []) (hy : y ≠ []) :
    earthMover x y = .ok (wsum (allValues x y) id (fun t => |fraction x t - fraction y t|)) := by
  unfold earthMover wsum
  rw [if_neg (by simp [hx, hy])]
  simp only [ecdf_eq, id]

theorem energyDistance_eq {x y : List ℝ} (hx : x ≠ []) (hy : y ≠ []) :
    energyDistance x y = .ok (Real.sqrt 2 *
      Real.sqrt (wsum (allValues x y) id (fun t => (fraction x t - fraction y t) ^ 2))) := by
  unfold energyDistance wsum
  rw [if_neg (by simp [hx, hy])]
  simp only [ecdf_eq, id]

/-! ### Kolmogorov–Smirnov -/

/-- The fraction changes only at samples. -/
theorem fraction_const {xs : List ℝ} {s t : ℝ} (hst : s ≤ t) (h : ∀ a ∈ xs, a ≤ t → a ≤ s) :
    fraction xs t = fraction xs s := by
  unfold fraction
  refine averageOf_congr fun a ha => ?_
  by_cases h1 : a ≤ t
  · rw [if_pos h1, if_pos (h a ha h1)]
  · rw [if_neg h1, if_neg fun h2 => h1 (h2.trans hst)]

theorem fraction_zero {xs : List ℝ} {t : ℝ} (h : ∀ a ∈ xs, t < a) : fraction xs t = 0 := by
  unfold fraction
  rw [averageOf_congr (g := fun _ => 0) fun a ha => if_neg (not_le.2 (h a ha))]
  unfold averageOf
  simp

/-- At every point the fractions are those at a sample, or zero. -/
theorem fraction_cases (x y : List ℝ) (t : ℝ) :
    (fraction x t = 0 ∧ fraction y t = 0) ∨
    ∃ s ∈ x ++ y, s ≤ t ∧ fraction x t = fraction x s ∧ fraction y t = fraction y s := by
  by_cases h : (x ++ y).filter (fun a => decide (a ≤ t)) = []
  · left
    have h' : ∀ a ∈ x ++ y, t < a := by
      intro a ha
      have := List.filter_eq_nil_iff.1 h a ha
      simpa using this
    exact ⟨fraction_zero fun a ha => h' a (by simp [ha]), fraction_zero fun a ha => h' a (by simp [ha])⟩
  · right
    obtain ⟨s, hs⟩ := exists_amax h
    rw [amax_eq_some] at hs
    have hm := List.mem_filter.1 hs.1
    have hst : s ≤ t := by simpa using hm.2
    have hle : ∀ a ∈ x ++ y, a ≤ t → a ≤ s := fun a ha hat => hs.2 a (List.mem_filter.2 ⟨ha, by simpa using hat⟩)
    exact ⟨s, hm.1, hst, fraction_const hst fun a ha => hle a (by simp [ha]),
      fraction_const hst fun a ha => hle a (by simp [ha])⟩

/-- **C81 (KS distance).**  The KS statistic is the largest difference between the fractions of samples up to any
point, over all real numbers. -/
theorem C81_ks {x y : List ℝ} (hx : x ≠ []) (hy : y ≠ []) :
    ∃ d, ksStatistic x y = .ok d ∧ IsGreatest {e | ∃ t : ℝ, e = |fraction x t - fraction y t|} d := by
  have hne : (x ++ y).map (fun t => |ecdf x t - ecdf y t|) ≠ [] := by simp [hx]
  obtain ⟨d, hd⟩ := exists_amax hne
  refine ⟨d, ?_, ?_⟩
  · unfold ksStatistic
    rw [if_neg (by simp [hx, hy]), hd]
  · rw [amax_eq_some] at hd
    obtain ⟨hm, hle⟩ := hd
    simp only [ecdf_eq] at hm hle
    constructor
    · obtain ⟨t, -, rfl⟩ := List.mem_map.1 hm
      exact ⟨t, rfl⟩
    · rintro e ⟨t, rfl⟩
      rcases fraction_cases x y t with ⟨h1, h2⟩ | ⟨s, hs, -, h1, h2⟩
      · rw [h1, h2]
        obtain ⟨t, -, rfl⟩ := List.mem_map.1 hm
        simp
      · rw [h1, h2]
        exact hle _ (List.mem_map.2 ⟨s, hs, rfl⟩)

/-! ### Earth mover distance -/

theorem abs_sub_indicator {a b t : ℝ} : |(if a ≤ t then (1 : ℝ) else 0) - (if b ≤ t then 1 else 0)| =
    (if a ≤ t then 1 else 0) + (if b ≤ t then 1 else 0) -
      2 * ((if a ≤ t then 1 else 0) * (if b ≤ t then 1 else 0)) := by
  split <;> split <;> norm_num

/-- Distances in terms of indicators. -/
theorem abs_sub_eq {z : List ℝ} (hz : z.Pairwise (· ≤ ·)) {a b : ℝ} (ha : a ∈ z) (hb : b ∈ z) :
    |a - b| = wsum z id (fun t => |(if a ≤ t then (1 : ℝ) else 0) - (if b ≤ t then 1 else 0)|) := by
  wlog h : a ≤ b generalizing a b with H
  · rw [abs_sub_comm, H hb ha (le_of_not_ge h)]
    congr 1
    funext t
    exact abs_sub_comm _ _
  · have : (fun t => |(if a ≤ t then (1 : ℝ) else 0) - (if b ≤ t then 1 else 0)|) =
        fun t => (if a ≤ t then (1 : ℝ) else 0) - (if b ≤ t then 1 else 0) := by
      funext t
      rw [abs_of_nonneg]
      by_cases hb : b ≤ t
      · simp [hb, h.trans hb]
      · simp only [hb, if_false, sub_zero]
        split <;> norm_num
    rw [this, wsum_sub, wsum_indicator hz ha, wsum_indicator hz hb, abs_of_nonpos (sub_nonpos.2 h)]
    simp

/-- The largest difference of averages of 1-Lipschitz functions. -/
theorem lipschitz_le {x y : List ℝ} (hx : x ≠ []) (hy : y ≠ []) {f : ℝ → ℝ}
    (hf : ∀ s t, |f s - f t| ≤ |s - t|) :
    averageOf f x - averageOf f y ≤ wsum (allValues x y) id (fun t => |fraction x t - fraction y t|) := by
  have h := averageOf_diff hx hy f
  have : averageOf f x - averageOf f y = -wsum (allValues x y) f (fun t => fraction x t - fraction y t) := by
    rw [← h]; ring
  rw [this, ← neg_one_mul, ← wsum_mul]
  unfold wsum
  refine List.sum_le_sum fun p hp => ?_
  have hp' := neighbours_le (allValues_sorted x y) hp
  have h1 : |f p.2 - f p.1| ≤ p.2 - p.1 := by
    have := hf p.2 p.1
    rwa [abs_of_nonneg (sub_nonneg.2 hp')] at this
  calc -1 * (fraction x p.1 - fraction y p.1) * (f p.2 - f p.1)
      ≤ |-1 * (fraction x p.1 - fraction y p.1) * (f p.2 - f p.1)| := le_abs_self _
    _ = |fraction x p.1 - fraction y p.1| * |f p.2 - f p.1| := by rw [abs_mul, abs_mul]; simp
    _ ≤ |fraction x p.1 - fraction y p.1| * (p.2 - p.1) := mul_le_mul_of_nonneg_left h1 (abs_nonneg _)
    _ = |fraction x p.1 - fraction y p.1| * (id p.2 - id p.1) := rfl

/-- `t` moved into an interval. -/
def clip (a b t : ℝ) : ℝ := max a (min b t)

/-- The piecewise linear function with slope `s` of the left end between neighbours. -/
def slopes (s : ℝ → ℝ) (z : List ℝ) (t : ℝ) : ℝ :=
  ((neighbours z).map (fun p => s p.1 * (clip p.1 p.2 t - p.1))).sum

theorem slopes_cons (s : ℝ → ℝ) (a b : ℝ) (z : List ℝ) (t : ℝ) :
    slopes s (a :: b :: z) t = s a * (clip a b t - a) + slopes s (b :: z) t := by
  simp [slopes, neighbours]

theorem clip_mono {a b s t : ℝ} (h : s ≤ t) : clip a b s ≤ clip a b t :=
  max_le_max le_rfl (min_le_min le_rfl h)

theorem clip_of_le {a b t : ℝ} (h : t ≤ a) : clip a b t = a :=
  max_eq_left ((min_le_right _ _).trans h)

theorem clip_of_ge {a b t : ℝ} (hab : a ≤ b) (h : b ≤ t) : clip a b t = b := by
  unfold clip; rw [min_eq_left h, max_eq_right hab]

theorem slopes_below {s : ℝ → ℝ} {z : List ℝ} {t : ℝ} (h : ∀ a ∈ z, t ≤ a) : slopes s z t = 0 := by
  unfold slopes
  refine List.sum_eq_zero fun v hv => ?_
  obtain ⟨p, hp, rfl⟩ := List.mem_map.1 hv
  rw [clip_of_le (h _ (neighbours_mem hp).1), sub_self, mul_zero]

/-- Slopes in [-1, 1] make a 1-Lipschitz function. -/
theorem slopes_diff {s : ℝ → ℝ} (hs : ∀ t, |s t| ≤ 1) {z : List ℝ} (hz : z.Pairwise (· ≤ ·)) {u t : ℝ} (hut : u ≤ t) :
    |slopes s z t - slopes s z u| ≤ t - u ∧
      (∀ a ∈ z.head?, |slopes s z t - slopes s z u| ≤ max a t - max a u) := by
  have key : ∀ a ∈ z.head?, |slopes s z t - slopes s z u| ≤ max a t - max a u := by
    induction z with
    | nil => simp
    | cons a z ih =>
      intro a' ha'
      simp only [List.head?_cons, Option.mem_def, Option.some.injEq] at ha'
      subst ha'
      cases z with
      | nil =>
        simp only [slopes, neighbours, List.tail_cons, List.zip_nil_right, List.map_nil, List.sum_nil, sub_self, abs_zero]
        exact sub_nonneg.2 (max_le_max le_rfl hut)
      | cons b z =>
        have hz' := List.pairwise_cons.1 hz
        have hab : a ≤ b := hz'.1 b (by simp)
        have h1 := ih hz'.2 b rfl
        rw [slopes_cons, slopes_cons]
        have h2 : |s a * (clip a b t - a) - s a * (clip a b u - a)| ≤ clip a b t - clip a b u := by
          rw [← mul_sub, abs_mul, sub_sub_sub_cancel_right, abs_of_nonneg (sub_nonneg.2 (clip_mono hut))]
          exact mul_le_of_le_one_left (sub_nonneg.2 (clip_mono hut)) (hs a)
        have h3 : clip a b t - clip a b u + (max b t - max b u) = max a t - max a u := by
          have : ∀ v, clip a b v + max b v = b + max a v := by
            intro v
            unfold clip
            rcases le_total v a with h | h
            · rw [min_eq_right (h.trans hab), max_eq_left h, max_eq_left (h.trans hab)]; ring
            · rcases le_total v b with h' | h'
              · rw [min_eq_right h', max_eq_right h, max_eq_left h']; ring
              · rw [min_eq_left h', max_eq_right hab, max_eq_right h', max_eq_right h]
          linarith [this t, this u]
        calc |s a * (clip a b t - a) + slopes s (b :: z) t - (s a * (clip a b u - a) + slopes s (b :: z) u)|
            = |(s a * (clip a b t - a) - s a * (clip a b u - a)) + (slopes s (b :: z) t - slopes s (b :: z) u)| := by
              congr 1; ring
          _ ≤ _ := abs_add_le _ _
          _ ≤ (clip a b t - clip a b u) + (max b t - max b u) := add_le_add h2 h1
          _ = _ := h3
  refine ⟨?_, key⟩
  cases z with
  | nil => simp [slopes, neighbours, hut]
  | cons a z =>
    refine (key a rfl).trans ?_
    rcases le_total a u with h | h
    · rw [max_eq_right h, max_eq_right (h.trans hut)]
    · rw [max_eq_left h]
      rcases le_total a t with h' | h'
      · rw [max_eq_right h']; linarith
      · rw [max_eq_left h']; linarith

theorem slopes_lipschitz {s : ℝ → ℝ} (hs : ∀ t, |s t| ≤ 1) {z : List ℝ} (hz : z.Pairwise (· ≤ ·)) (u t : ℝ) :
    |slopes s z u - slopes s z t| ≤ |u - t| := by
  rcases le_total u t with h | h
  · rw [abs_sub_comm, abs_sub_comm u t, abs_of_nonneg (sub_nonneg.2 h)]
    exact (slopes_diff hs hz h).1
  · rw [abs_of_nonneg (sub_nonneg.2 h)]
    exact (slopes_diff hs hz h).1

/-- Its increments between neighbours. -/
theorem wsum_slopes {s : ℝ → ℝ} {z : List ℝ} (hz : z.Pairwise (· ≤ ·)) (h : ℝ → ℝ) :
    wsum z (slopes s z) h = wsum z id (fun t => h t * s t) := by
  -- generalise to a longer list of slopes
  have key : ∀ (c : ℝ) (F : ℝ → ℝ), (∀ t ∈ z, F t = c + slopes s z t) → wsum z F h = wsum z id (fun t => h t * s t) := by
    induction z with
    | nil => intros; simp [wsum_nil]
    | cons a z ih =>
      intro c F hF
      cases z with
      | nil => simp [wsum_single]
      | cons b z =>
        have hz' := List.pairwise_cons.1 hz
        have hab : a ≤ b := hz'.1 b (by simp)
        rw [wsum_cons, wsum_cons, ih hz'.2 (c + s a * (b - a)) F]
        · rw [hF a (by simp), hF b (by simp), slopes_cons, slopes_cons, clip_of_le le_rfl, clip_of_ge hab le_rfl,
            slopes_below (z := b :: z) (t := a) hz'.1, slopes_below (z := b :: z) (t := b)]
          · simp only [id]; ring
          · intro d hd
            rcases List.mem_cons.1 hd with rfl | hd
            · exact le_rfl
            · exact (List.pairwise_cons.1 hz'.2).1 d hd
        · intro t ht
          have hbt : b ≤ t := by
            rcases List.mem_cons.1 ht with rfl | hd
            · exact le_rfl
            · exact (List.pairwise_cons.1 hz'.2).1 t hd
          rw [hF t (List.mem_cons_of_mem a ht), slopes_cons, clip_of_ge hab hbt]
          ring
  exact key 0 _ fun t _ => (zero_add _).symm

/-- **C81 (earth mover distance, dual).**  The earth mover distance is the largest difference of the averages of a
function that is 1-Lipschitz; in particular averages differ by no more than it. -/
theorem C81_emd_dual {x y : List ℝ} (hx : x ≠ []) (hy : y ≠ []) :
    ∃ d, earthMover x y = .ok d ∧
      IsGreatest {e | ∃ f : ℝ → ℝ, (∀ s t, |f s - f t| ≤ |s - t|) ∧ e = averageOf f x - averageOf f y} d := by
  refine ⟨_, earthMover_eq hx hy, ?_, ?_⟩
  · set s : ℝ → ℝ := fun t => if fraction x t - fraction y t ≤ 0 then 1 else -1 with hs
    have hs1 : ∀ t, |s t| ≤ 1 := by intro t; rw [hs]; dsimp only; split <;> simp
    refine ⟨slopes s (allValues x y), fun u t => slopes_lipschitz hs1 (allValues_sorted x y) u t, ?_⟩
    have h := averageOf_diff hx hy (slopes s (allValues x y))
    rw [wsum_slopes (allValues_sorted x y)] at h
    have h2 : averageOf (slopes s (allValues x y)) x - averageOf (slopes s (allValues x y)) y =
        wsum (allValues x y) id (fun t => (-1) * ((fraction x t - fraction y t) * s t)) := by
      rw [wsum_mul, ← h]; ring
    rw [h2]
    congr 1
    funext t
    rw [hs]
    dsimp only
    split
    · rename_i h; rw [abs_of_nonpos h]; ring
    · rename_i h; rw [abs_of_pos (not_le.1 h)]; ring
  · rintro e ⟨f, hf, rfl⟩
    exact lipschitz_le hx hy hf

/-! ### Moving samples -/

theorem averageOf_fin (f : ℝ → ℝ) (xs : List ℝ) : averageOf f xs = ∑ i : Fin xs.length, 1 / (xs.length : ℝ) * f xs[i] := by
  unfold averageOf
  rw [← Finset.mul_sum, ← Fin.sum_univ_fun_getElem, one_div, div_eq_inv_mul]
  rfl

theorem wsum_finset {ι : Type} (z : List ℝ) (g : ℝ → ℝ) (S : Finset ι) (φ : ι → ℝ → ℝ) :
    wsum z g (fun t => ∑ i ∈ S, φ i t) = ∑ i ∈ S, wsum z g (φ i) := by
  classical
  induction S using Finset.induction_on with
  | empty => simp [wsum]
  | insert i S hi ih => simp only [Finset.sum_insert hi]; rw [wsum_add, ih]

/-- The cost of a plan, in terms of the mass moved across each point. -/
theorem cost_eq (x y : List ℝ) (w : Fin x.length → Fin y.length → ℝ) :
    cost x y w = wsum (allValues x y) id (fun t => ∑ i, ∑ j,
      w i j * |(if x[i] ≤ t then (1 : ℝ) else 0) - (if y[j] ≤ t then 1 else 0)|) := by
  rw [wsum_finset]
  unfold cost
  refine Finset.sum_congr rfl fun i _ => ?_
  rw [wsum_finset]
  refine Finset.sum_congr rfl fun j _ => ?_
  rw [wsum_mul, ← abs_sub_eq (a := x[i]) (b := y[j]) (allValues_sorted x y)
    (mem_allValues.2 (.inl (List.getElem_mem _))) (mem_allValues.2 (.inr (List.getElem_mem _)))]

theorem fraction_fin (xs : List ℝ) (t : ℝ) :
    fraction xs t = ∑ i : Fin xs.length, 1 / (xs.length : ℝ) * (if xs[i] ≤ t then 1 else 0) := averageOf_fin _ _

theorem Spec.Plan.left {x y : List ℝ} {w : Fin x.length → Fin y.length → ℝ} (h : Plan x y w) (t : ℝ) :
    ∑ i, ∑ j, w i j * (if x[i] ≤ t then (1 : ℝ) else 0) = fraction x t := by
  rw [fraction_fin]
  refine Finset.sum_congr rfl fun i _ => ?_
  rw [← Finset.sum_mul, h.out]

theorem Spec.Plan.right {x y : List ℝ} {w : Fin x.length → Fin y.length → ℝ} (h : Plan x y w) (t : ℝ) :
    ∑ i, ∑ j, w i j * (if y[j] ≤ t then (1 : ℝ) else 0) = fraction y t := by
  rw [fraction_fin, Finset.sum_comm]
  refine Finset.sum_congr rfl fun j _ => ?_
  rw [← Finset.sum_mul, h.into]

/-- Across each point at least the difference of the fractions is moved. -/
theorem plan_ge {x y : List ℝ} {w : Fin x.length → Fin y.length → ℝ} (h : Plan x y w) (t : ℝ) :
    |fraction x t - fraction y t| ≤ ∑ i, ∑ j,
      w i j * |(if x[i] ≤ t then (1 : ℝ) else 0) - (if y[j] ≤ t then 1 else 0)| := by
  rw [← h.left t, ← h.right t, ← Finset.sum_sub_distrib]
  refine (Finset.abs_sum_le_sum_abs _ _).trans (Finset.sum_le_sum fun i _ => ?_)
  rw [← Finset.sum_sub_distrib]
  refine (Finset.abs_sum_le_sum_abs _ _).trans (Finset.sum_le_sum fun j _ => ?_)
  rw [← mul_sub, abs_mul, abs_of_nonneg (h.nonneg i j)]

/-- The mass moved between the `i`-th smallest of `n` and the `j`-th smallest of `m` samples if all are moved in order:
the overlap of `[i / n, (i + 1) / n]` and `[j / m, (j + 1) / m]`. -/
def overlap (n m : ℕ) (i j : ℕ) : ℝ :=
  (min (((i + 1 : ℕ) : ℝ) / n) (((j + 1 : ℕ) : ℝ) / m) - min ((i : ℝ) / n) (((j + 1 : ℕ) : ℝ) / m)) -
    (min (((i + 1 : ℕ) : ℝ) / n) ((j : ℝ) / m) - min ((i : ℝ) / n) ((j : ℝ) / m))

theorem overlap_nonneg (n m i j : ℕ) : 0 ≤ overlap n m i j := by
  unfold overlap
  have h1 : (i : ℝ) / n ≤ ((i + 1 : ℕ) : ℝ) / n := div_le_div_of_nonneg_right (by simp) (by positivity)
  have h2 : (j : ℝ) / m ≤ ((j + 1 : ℕ) : ℝ) / m := div_le_div_of_nonneg_right (by simp) (by positivity)
  generalize (i : ℝ) / n = a at *
  generalize ((i + 1 : ℕ) : ℝ) / n = a' at *
  generalize (j : ℝ) / m = b at *
  generalize ((j + 1 : ℕ) : ℝ) / m = b' at *
  rcases le_total a b with h | h <;> rcases le_total a b' with h3 | h3 <;> rcases le_total a' b with h4 | h4 <;>
    rcases le_total a' b' with h5 | h5 <;>
    simp only [min_eq_left, min_eq_right, h, h3, h4, h5] <;> linarith

theorem overlap_sum (n m a b : ℕ) :
    ∑ i ∈ Finset.range a, ∑ j ∈ Finset.range b, overlap n m i j = min ((a : ℝ) / n) ((b : ℝ) / m) := by
  have h1 : ∀ i, ∑ j ∈ Finset.range b, overlap n m i j =
      min (((i + 1 : ℕ) : ℝ) / n) ((b : ℝ) / m) - min ((i : ℝ) / n) ((b : ℝ) / m) := by
    intro i
    have := Finset.sum_range_sub (fun j : ℕ => min (((i + 1 : ℕ) : ℝ) / n) ((j : ℝ) / m) - min ((i : ℝ) / n) ((j : ℝ) / m)) b
    have h0 : min (((i + 1 : ℕ) : ℝ) / n) (((0 : ℕ) : ℝ) / m) - min ((i : ℝ) / n) (((0 : ℕ) : ℝ) / m) = 0 := by
      rw [Nat.cast_zero, zero_div, min_eq_right (by positivity), min_eq_right (by positivity), sub_self]
    rw [h0, sub_zero] at this
    rw [← this]
    exact Finset.sum_congr rfl fun j _ => rfl
  rw [Finset.sum_congr rfl fun i _ => h1 i]
  have := Finset.sum_range_sub (fun i : ℕ => min ((i : ℝ) / n) ((b : ℝ) / m)) a
  rw [this, Nat.cast_zero, zero_div, min_eq_left (a := (0 : ℝ)) (by positivity), sub_zero]

/-- Samples in ascending order. -/
theorem ascending_count {n : ℕ} {X : Fin n → ℝ} (hX : Monotone X) (t : ℝ) :
    ∃ a ≤ n, ∀ i : Fin n, X i ≤ t ↔ (i : ℕ) < a := by
  induction n with
  | zero => exact ⟨0, le_rfl, fun i => i.elim0⟩
  | succ n ih =>
    by_cases h : X (Fin.last n) ≤ t
    · exact ⟨n + 1, le_rfl, fun i => ⟨fun _ => i.2, fun _ => (hX (Fin.le_last i)).trans h⟩⟩
    · obtain ⟨a, ha, hi⟩ := ih (X := fun i => X i.castSucc) fun i j hij => hX (by simpa using hij)
      refine ⟨a, by omega, fun i => ?_⟩
      refine Fin.lastCases ?_ (fun j => ?_) i
      · simp only [Fin.val_last]
        exact ⟨fun h' => absurd h' h, fun h' => by omega⟩
      · simpa using hi j

theorem sum_fin_lt {n a : ℕ} (ha : a ≤ n) (f : ℕ → ℝ) :
    ∑ i : Fin n, f i * (if (i : ℕ) < a then 1 else 0) = ∑ i ∈ Finset.range a, f i := by
  rw [Fin.sum_univ_eq_sum_range (fun i => f i * (if i < a then 1 else 0)) n]
  rw [← Finset.sum_subset (Finset.range_subset_range.2 ha)]
  · exact Finset.sum_congr rfl fun i hi => by rw [if_pos (Finset.mem_range.1 hi), mul_one]
  · intro i _ hi
    rw [if_neg (by simpa using hi), mul_zero]

/-- Moving all samples in order moves exactly the difference of the fractions. -/
theorem overlap_moved {n m : ℕ} (hn : n ≠ 0) (hm : m ≠ 0) {a b : ℕ} (ha : a ≤ n) (hb : b ≤ m) :
    ∑ i : Fin n, ∑ j : Fin m, overlap n m i j *
      |(if (i : ℕ) < a then (1 : ℝ) else 0) - (if (j : ℕ) < b then 1 else 0)| = |(a : ℝ) / n - (b : ℝ) / m| := by
  have h : ∀ i j : ℕ, overlap n m i j * |(if i < a then (1 : ℝ) else 0) - (if j < b then 1 else 0)| =
      overlap n m i j * (if i < a then 1 else 0) + overlap n m i j * (if j < b then 1 else 0) -
        2 * (overlap n m i j * (if j < b then 1 else 0) * (if i < a then 1 else 0)) := by
    intro i j
    split <;> split <;> norm_num
    ring
  simp only [h, Finset.sum_sub_distrib, Finset.sum_add_distrib, ← Finset.mul_sum]
  have hnn : (n : ℝ) ≠ 0 := by exact_mod_cast hn
  have hmm : (m : ℝ) ≠ 0 := by exact_mod_cast hm
  have e1 : ∑ i : Fin n, ∑ j : Fin m, overlap n m i j * (if (i : ℕ) < a then 1 else 0) = (a : ℝ) / n := by
    simp only [← Finset.sum_mul]
    rw [sum_fin_lt ha (fun i => ∑ j : Fin m, overlap n m i j)]
    rw [Finset.sum_congr rfl fun i _ => Fin.sum_univ_eq_sum_range (fun j => overlap n m i j) m, overlap_sum,
      div_self hmm]
    exact min_eq_left (by rw [div_le_one (by positivity)]; exact_mod_cast ha)
  have e2 : ∑ i : Fin n, ∑ j : Fin m, overlap n m i j * (if (j : ℕ) < b then 1 else 0) = (b : ℝ) / m := by
    rw [Finset.sum_congr rfl fun (i : Fin n) _ => sum_fin_lt hb (fun j => overlap n m i j)]
    rw [Fin.sum_univ_eq_sum_range (fun i => ∑ j ∈ Finset.range b, overlap n m i j) n, overlap_sum, div_self hnn]
    exact min_eq_right (by rw [div_le_one (by positivity)]; exact_mod_cast hb)
  have e3 : ∑ i : Fin n, ∑ j : Fin m, overlap n m i j * (if (j : ℕ) < b then 1 else 0) * (if (i : ℕ) < a then 1 else 0) =
      min ((a : ℝ) / n) ((b : ℝ) / m) := by
    simp only [← Finset.sum_mul]
    rw [sum_fin_lt ha (fun i => ∑ j : Fin m, overlap n m i j * (if (j : ℕ) < b then 1 else 0))]
    rw [Finset.sum_congr rfl fun i _ => sum_fin_lt hb (fun j => overlap n m i j), overlap_sum]
  rw [e1, e2, e3]
  rcases le_total ((a : ℝ) / n) ((b : ℝ) / m) with h | h
  · rw [min_eq_left h, abs_of_nonpos (sub_nonpos.2 h)]; ring
  · rw [min_eq_right h, abs_of_nonneg (sub_nonneg.2 h)]; ring

/-- **C81 (earth mover distance).**  The earth mover distance is the least cost, mass times distance, of moving the
samples of one list, each with the same share of a total mass of one, to those of the other. -/
theorem C81_emd {x y : List ℝ} (hx : x ≠ []) (hy : y ≠ []) :
    ∃ d, earthMover x y = .ok d ∧ IsLeast {c | ∃ w, Plan x y w ∧ c = cost x y w} d := by
  refine ⟨_, earthMover_eq hx hy, ?_, ?_⟩
  · set n := x.length with hn
    set m := y.length with hm
    have hn0 : n ≠ 0 := by rw [hn]; simpa using hx
    have hm0 : m ≠ 0 := by rw [hm]; simpa using hy
    have hnn : (n : ℝ) ≠ 0 := by exact_mod_cast hn0
    have hmm : (m : ℝ) ≠ 0 := by exact_mod_cast hm0
    set σ : Equiv.Perm (Fin n) := Tuple.sort (fun i : Fin n => x[i]) with hσ
    set τ : Equiv.Perm (Fin m) := Tuple.sort (fun j : Fin m => y[j]) with hτ
    have hX : Monotone fun i : Fin n => x[σ i] := Tuple.monotone_sort (fun i : Fin n => x[i])
    have hY : Monotone fun j : Fin m => y[τ j] := Tuple.monotone_sort (fun j : Fin m => y[j])
    -- sums over reordered indexes
    have reorder : ∀ F : Fin n → Fin m → ℝ → ℝ,
        ∑ i, ∑ j, F i j (overlap n m (σ.symm i) (τ.symm j)) = ∑ i, ∑ j, F (σ i) (τ j) (overlap n m i j) := by
      intro F
      rw [← Equiv.sum_comp σ]
      refine Finset.sum_congr rfl fun i _ => ?_
      rw [← Equiv.sum_comp τ]
      simp
    have hw : Plan x y (fun i j => overlap n m (σ.symm i) (τ.symm j)) := by
      refine ⟨fun i j => overlap_nonneg _ _ _ _, fun i => ?_, fun j => ?_⟩
      · rw [← Equiv.sum_comp τ]
        simp only [Equiv.symm_apply_apply]
        rw [Fin.sum_univ_eq_sum_range (fun j => overlap n m (σ.symm i) j) m]
        have h1 := overlap_sum n m ((σ.symm i : ℕ) + 1) m
        have h2 := overlap_sum n m (σ.symm i : ℕ) m
        rw [Finset.sum_range_succ, h2, div_self hmm] at h1
        have hi := (σ.symm i).2
        rw [min_eq_left, min_eq_left] at h1
        · have : ((((σ.symm i : ℕ) + 1 : ℕ) : ℝ)) / n = ((σ.symm i : ℕ) : ℝ) / n + 1 / n := by push_cast; ring
          rw [this] at h1
          linarith
        · rw [div_le_one (by positivity)]; exact_mod_cast hi
        · rw [div_le_one (by positivity)]; exact_mod_cast hi.le
      · rw [← Equiv.sum_comp σ]
        simp only [Equiv.symm_apply_apply]
        rw [Fin.sum_univ_eq_sum_range (fun i => overlap n m i (τ.symm j)) n]
        have h1 := overlap_sum n m n ((τ.symm j : ℕ) + 1)
        have h2 := overlap_sum n m n (τ.symm j : ℕ)
        rw [Finset.sum_comm] at h1 h2
        rw [Finset.sum_range_succ, h2, div_self hnn] at h1
        have hi := (τ.symm j).2
        rw [min_eq_right, min_eq_right] at h1
        · have : ((((τ.symm j : ℕ) + 1 : ℕ) : ℝ)) / m = ((τ.symm j : ℕ) : ℝ) / m + 1 / m := by push_cast; ring
          rw [this] at h1
          linarith
        · rw [div_le_one (by positivity)]; exact_mod_cast hi
        · rw [div_le_one (by positivity)]; exact_mod_cast hi.le
    refine ⟨_, hw, ?_⟩
    rw [cost_eq]
    congr 1
    funext t
    obtain ⟨a, ha, hai⟩ := ascending_count hX t
    obtain ⟨b, hb, hbj⟩ := ascending_count hY t
    have e := reorder fun i j v => v * |(if x[i] ≤ t then (1 : ℝ) else 0) - (if y[j] ≤ t then 1 else 0)|
    rw [e]
    simp only [hai, hbj]
    rw [overlap_moved hn0 hm0 ha hb]
    have e1 : fraction x t = (a : ℝ) / n := by
      rw [fraction_fin, ← Equiv.sum_comp σ]
      simp only [hai]
      rw [sum_fin_lt ha (fun _ => 1 / (n : ℝ))]
      simp
      ring
    have e2 : fraction y t = (b : ℝ) / m := by
      rw [fraction_fin, ← Equiv.sum_comp τ]
      simp only [hbj]
      rw [sum_fin_lt hb (fun _ => 1 / (m : ℝ))]
      simp
      ring
    rw [e1, e2]
  · rintro c ⟨w, hw, rfl⟩
    rw [cost_eq]
    exact wsum_le (allValues_sorted x y) fun t => plan_ge hw t

/-! ### Energy distance -/

theorem wsum_distance {x y : List ℝ} {z : List ℝ} (hz : z.Pairwise (· ≤ ·)) (hx : ∀ a ∈ x, a ∈ z) (hy : ∀ a ∈ y, a ∈ z)
    (hx0 : x ≠ []) (hy0 : y ≠ []) :
    averageDistance x y = wsum z id (fun t => fraction x t + fraction y t - 2 * (fraction x t * fraction y t)) := by
  unfold averageDistance
  have h : ∀ a ∈ x, averageOf (fun b => |a - b|) y = wsum z id (fun t => (if a ≤ t then 1 else 0) + fraction y t -
      2 * ((if a ≤ t then 1 else 0) * fraction y t)) := by
    intro a ha
    have h1 : ∀ b ∈ y, |a - b| = wsum z id (fun t => (if a ≤ t then 1 else 0) + (if b ≤ t then 1 else 0) -
        2 * ((if a ≤ t then 1 else 0) * (if b ≤ t then 1 else 0))) := by
      intro b hb
      rw [abs_sub_eq hz (hx a ha) (hy b hb)]
      congr 1
      funext t
      exact abs_sub_indicator
    rw [averageOf_congr h1, ← wsum_average z id (fun b t => (if a ≤ t then 1 else 0) + (if b ≤ t then 1 else 0) -
        2 * ((if a ≤ t then 1 else 0) * (if b ≤ t then 1 else 0)))]
    congr 1
    funext t
    rw [averageOf_sub, averageOf_add, averageOf_const hy0, averageOf_mul, averageOf_mul]
    rfl
  rw [averageOf_congr h, ← wsum_average z id (fun a t => (if a ≤ t then 1 else 0) + fraction y t -
      2 * ((if a ≤ t then 1 else 0) * fraction y t))]
  congr 1
  funext t
  have : (fun a : ℝ => (if a ≤ t then (1 : ℝ) else 0) + fraction y t - 2 * ((if a ≤ t then 1 else 0) * fraction y t)) =
      fun a => (if a ≤ t then (1 : ℝ) else 0) + fraction y t - (2 * fraction y t) * (if a ≤ t then 1 else 0) := by
    funext a; ring
  rw [this, averageOf_sub, averageOf_add, averageOf_const hx0, averageOf_mul]
  unfold fraction
  ring

/-- The sum in the energy distance, over any grid with all the samples. -/
theorem wsum_energy {x y : List ℝ} {z : List ℝ} (hz : z.Pairwise (· ≤ ·)) (hx : ∀ a ∈ x, a ∈ z) (hy : ∀ a ∈ y, a ∈ z)
    (hx0 : x ≠ []) (hy0 : y ≠ []) :
    2 * wsum z id (fun t => (fraction x t - fraction y t) ^ 2) =
      2 * averageDistance x y - averageDistance x x - averageDistance y y := by
  rw [wsum_distance hz hx hy hx0 hy0, wsum_distance hz hx hx hx0 hx0, wsum_distance hz hy hy hy0 hy0, ← wsum_mul,
    ← wsum_mul, ← wsum_sub, ← wsum_sub]
  congr 1
  funext t
  ring

/-- **C81 (energy distance).**  The square of the energy distance is twice the average distance between samples of the
two lists, minus the average distances within each. -/
theorem C81_energy {x y : List ℝ} (hx : x ≠ []) (hy : y ≠ []) :
    ∃ d, energyDistance x y = .ok d ∧ 0 ≤ d ∧
      d ^ 2 = 2 * averageDistance x y - averageDistance x x - averageDistance y y := by
  refine ⟨_, energyDistance_eq hx hy, by positivity, ?_⟩
  have h0 : 0 ≤ wsum (allValues x y) id (fun t => (fraction x t - fraction y t) ^ 2) := by
    have := wsum_le (allValues_sorted x y) (h := fun _ => 0) (k := fun t => (fraction x t - fraction y t) ^ 2)
      fun t => sq_nonneg _
    refine le_trans ?_ this
    simp [wsum]
  rw [mul_pow, Real.sq_sqrt (by norm_num), Real.sq_sqrt h0]
  exact wsum_energy (allValues_sorted x y) (fun a ha => mem_allValues.2 (.inl ha))
    (fun a ha => mem_allValues.2 (.inr ha)) hx hy

/-! ### When the distances are zero -/

theorem sameDistribution_iff {x y : List ℝ} (hx : x ≠ []) (hy : y ≠ []) :
    SameDistribution x y ↔ ∀ f : ℝ → ℝ, averageOf f x = averageOf f y := by
  have hn : (x.length : ℝ) ≠ 0 := by simpa using hx
  have hm : (y.length : ℝ) ≠ 0 := by simpa using hy
  constructor
  · intro h f
    have key : ∀ (l : List ℝ) (S : Finset ℝ), l.toFinset ⊆ S → (l.map f).sum = ∑ a ∈ S, (l.count a : ℝ) * f a := by
      intro l S hS
      rw [Finset.sum_list_map_count, ← Finset.sum_subset hS]
      · exact Finset.sum_congr rfl fun a _ => nsmul_eq_mul _ _
      · intro a _ ha
        rw [List.count_eq_zero_of_not_mem (by simpa using ha)]
        simp
    unfold averageOf
    rw [key x (x.toFinset ∪ y.toFinset) Finset.subset_union_left, key y (x.toFinset ∪ y.toFinset) Finset.subset_union_right,
      div_eq_div_iff hn hm, Finset.sum_mul, Finset.sum_mul]
    refine Finset.sum_congr rfl fun a _ => ?_
    have : (x.count a : ℝ) * y.length = y.count a * x.length := by exact_mod_cast h a
    calc (x.count a : ℝ) * f a * y.length = (x.count a * y.length) * f a := by ring
      _ = _ := by rw [this]; ring
  · intro h a
    have key : ∀ l : List ℝ, (l.map (fun b => if b = a then (1 : ℝ) else 0)).sum = l.count a := by
      intro l
      induction l with
      | nil => simp
      | cons b l ih => by_cases hb : b = a <;> simp [hb, ih, add_comm]
    have := h (fun b => if b = a then 1 else 0)
    unfold averageOf at this
    rw [key, key, div_eq_div_iff hn hm] at this
    exact_mod_cast this

theorem sameDistribution_iff_fraction {x y : List ℝ} (hx : x ≠ []) (hy : y ≠ []) :
    SameDistribution x y ↔ ∀ t, fraction x t = fraction y t := by
  rw [sameDistribution_iff hx hy]
  refine ⟨fun h t => h _, fun h f => ?_⟩
  have := averageOf_diff hx hy f
  simp only [h, sub_self] at this
  have h0 : wsum (allValues x y) f (fun _ => 0) = 0 := by simp [wsum]
  rw [h0] at this
  linarith

theorem wsum_eq_zero {z : List ℝ} (hz : z.Pairwise (· ≤ ·)) {h : ℝ → ℝ} (hh : ∀ t, 0 ≤ h t) (h0 : wsum z id h = 0) :
    ∀ p ∈ neighbours z, h p.1 = 0 ∨ p.2 = p.1 := by
  intro p hp
  have := List.all_zero_of_le_zero_le_of_sum_eq_zero (l := (neighbours z).map (fun p : ℝ × ℝ => h p.1 * (id p.2 - id p.1)))
    (by
      intro v hv
      obtain ⟨q, hq, rfl⟩ := List.mem_map.1 hv
      exact mul_nonneg (hh _) (sub_nonneg.2 (neighbours_le hz hq))) h0 (List.mem_map.2 ⟨p, hp, rfl⟩)
  rcases mul_eq_zero.1 this with h | h
  · exact .inl h
  · exact .inr (sub_eq_zero.1 h)

/-- If the fractions agree wherever neighbours differ then they agree everywhere. -/
theorem same_of_neighbours {x y : List ℝ} (hx : x ≠ []) (hy : y ≠ [])
    (h : ∀ p ∈ neighbours (allValues x y), fraction x p.1 = fraction y p.1 ∨ p.2 = p.1) : SameDistribution x y := by
  rw [sameDistribution_iff hx hy]
  intro f
  have := averageOf_diff hx hy f
  have h0 : wsum (allValues x y) f (fun t => fraction x t - fraction y t) = 0 := by
    unfold wsum
    refine List.sum_eq_zero fun v hv => ?_
    obtain ⟨p, hp, rfl⟩ := List.mem_map.1 hv
    dsimp only
    rcases h p hp with e | e
    · rw [e]; ring
    · rw [e]; ring
  rw [h0] at this
  linarith

/-- **C81 (zero).**  Each of the distances is zero exactly if every value makes up the same fraction of both lists. -/
theorem C81_zero {x y : List ℝ} (hx : x ≠ []) (hy : y ≠ []) :
    (ksStatistic x y = .ok 0 ↔ SameDistribution x y) ∧ (earthMover x y = .ok 0 ↔ SameDistribution x y) ∧
    (energyDistance x y = .ok 0 ↔ SameDistribution x y) := by
  have hsf := sameDistribution_iff_fraction hx hy
  refine ⟨?_, ?_, ?_⟩
  · obtain ⟨d, hd, hg⟩ := C81_ks hx hy
    rw [hd, hsf]
    constructor
    · intro h t
      cases h
      have := hg.2 ⟨t, rfl⟩
      exact sub_eq_zero.1 (abs_eq_zero.1 (le_antisymm this (abs_nonneg _)))
    · intro h
      obtain ⟨t, ht⟩ := hg.1
      rw [h t, sub_self, abs_zero] at ht
      rw [ht]
  · rw [earthMover_eq hx hy]
    constructor
    · intro h
      have h0 := wsum_eq_zero (allValues_sorted x y) (fun t => abs_nonneg _) (Except.ok.inj h)
      exact same_of_neighbours hx hy fun p hp => (h0 p hp).imp (fun e => sub_eq_zero.1 (abs_eq_zero.1 e)) id
    · intro h
      simp [hsf.1 h, wsum]
  · rw [energyDistance_eq hx hy]
    constructor
    · intro h
      have h1 := (mul_eq_zero.1 (Except.ok.inj h)).resolve_left (by simp)
      have hz := allValues_sorted x y
      have hn : 0 ≤ wsum (allValues x y) id (fun t => (fraction x t - fraction y t) ^ 2) := by
        have := wsum_le hz (h := fun _ => 0) (k := fun t => (fraction x t - fraction y t) ^ 2) fun t => sq_nonneg _
        refine le_trans ?_ this
        simp [wsum]
      rw [Real.sqrt_eq_zero hn] at h1
      have h0 := wsum_eq_zero hz (fun t => sq_nonneg _) h1
      exact same_of_neighbours hx hy fun p hp =>
        (h0 p hp).imp (fun e => sub_eq_zero.1 (pow_eq_zero_iff (two_ne_zero) |>.1 e)) id
    · intro h
      simp [hsf.1 h, wsum]

/-! ### Metrics -/

/-- **C81 (symmetry).** -/
theorem C81_symmetric (x y : List ℝ) :
    ksStatistic x y = ksStatistic y x ∧ earthMover x y = earthMover y x ∧ energyDistance x y = energyDistance y x := by
  by_cases h : x = [] ∨ y = []
  · unfold ksStatistic earthMover energyDistance
    simp [h, h.symm]
  · obtain ⟨hx, hy⟩ := not_or.1 h
    refine ⟨?_, ?_, ?_⟩
    · obtain ⟨d, hd, hg⟩ := C81_ks hx hy
      obtain ⟨d', hd', hg'⟩ := C81_ks hy hx
      rw [hd, hd']
      congr 1
      refine hg.unique ?_
      simpa only [abs_sub_comm] using hg'
    · rw [earthMover_eq hx hy, earthMover_eq hy hx]
      have : allValues y x = allValues x y := allValues_perm List.perm_append_comm
      rw [this]
      simp only [abs_sub_comm]
    · obtain ⟨d, hd, h0, hg⟩ := C81_energy hx hy
      obtain ⟨d', hd', h0', hg'⟩ := C81_energy hy hx
      rw [hd, hd']
      congr 1
      have hsym : averageDistance x y = averageDistance y x := by
        rw [wsum_distance (allValues_sorted x y) (fun a ha => mem_allValues.2 (.inl ha))
          (fun a ha => mem_allValues.2 (.inr ha)) hx hy, wsum_distance (allValues_sorted x y)
          (fun a ha => mem_allValues.2 (.inr ha)) (fun a ha => mem_allValues.2 (.inl ha)) hy hx]
        congr 1
        funext t
        ring
      have : d ^ 2 = d' ^ 2 := by rw [hg, hg', hsym]; ring
      exact (pow_left_inj₀ h0 h0' two_ne_zero).1 this

theorem wsum_cauchy {z : List ℝ} (hz : z.Pairwise (· ≤ ·)) (a b : ℝ → ℝ) :
    Real.sqrt (wsum z id (fun t => (a t + b t) ^ 2)) ≤
      Real.sqrt (wsum z id (fun t => a t ^ 2)) + Real.sqrt (wsum z id (fun t => b t ^ 2)) := by
  set A := wsum z id (fun t => a t ^ 2) with hA
  set B := wsum z id (fun t => b t ^ 2) with hB
  set C := wsum z id (fun t => a t * b t) with hC
  have expand : ∀ s : ℝ, wsum z id (fun t => (a t + s * b t) ^ 2) = A + 2 * s * C + s ^ 2 * B := by
    intro s
    rw [hA, hB, hC, ← wsum_mul, ← wsum_mul, ← wsum_add, ← wsum_add]
    congr 1
    funext t
    ring
  have nonneg : ∀ k : ℝ → ℝ, 0 ≤ wsum z id (fun t => k t ^ 2) := by
    intro k
    have := wsum_le hz (h := fun _ => 0) (k := fun t => k t ^ 2) fun t => sq_nonneg _
    refine le_trans ?_ this
    simp [wsum]
  have hd : discrim B (2 * C) A ≤ 0 := discrim_le_zero fun s => by
    have := nonneg (fun t => a t + s * b t)
    rw [expand s] at this
    linarith
  have hCAB : C ^ 2 ≤ A * B := by unfold discrim at hd; linarith
  have hC' : C ≤ Real.sqrt A * Real.sqrt B := by
    rw [← Real.sqrt_mul (nonneg a)]
    exact (le_abs_self C).trans (Real.abs_le_sqrt hCAB)
  have h1 := expand 1
  simp only [one_mul, one_pow] at h1
  rw [h1]
  refine Real.sqrt_le_iff.2 ⟨by positivity, ?_⟩
  rw [add_sq, Real.sq_sqrt (nonneg a), Real.sq_sqrt (nonneg b)]
  linarith

/-- **C81 (triangle inequality).** -/
theorem C81_triangle {x y z : List ℝ} (hx : x ≠ []) (hy : y ≠ []) (hz : z ≠ []) :
    (∀ a b c, ksStatistic x y = .ok a → ksStatistic y z = .ok b → ksStatistic x z = .ok c → c ≤ a + b) ∧
    (∀ a b c, earthMover x y = .ok a → earthMover y z = .ok b → earthMover x z = .ok c → c ≤ a + b) ∧
    (∀ a b c, energyDistance x y = .ok a → energyDistance y z = .ok b → energyDistance x z = .ok c → c ≤ a + b) := by
  refine ⟨fun a b c ha hb hc => ?_, fun a b c ha hb hc => ?_, fun a b c ha hb hc => ?_⟩
  · obtain ⟨a', ha', hga⟩ := C81_ks hx hy
    obtain ⟨b', hb', hgb⟩ := C81_ks hy hz
    obtain ⟨c', hc', hgc⟩ := C81_ks hx hz
    rw [ha] at ha'; rw [hb] at hb'; rw [hc] at hc'
    cases ha'; cases hb'; cases hc'
    obtain ⟨t, rfl⟩ := hgc.1
    exact (abs_sub_le _ (fraction y t) _).trans (add_le_add (hga.2 ⟨t, rfl⟩) (hgb.2 ⟨t, rfl⟩))
  · obtain ⟨a', ha', hga⟩ := C81_emd_dual hx hy
    obtain ⟨b', hb', hgb⟩ := C81_emd_dual hy hz
    obtain ⟨c', hc', hgc⟩ := C81_emd_dual hx hz
    rw [ha] at ha'; rw [hb] at hb'; rw [hc] at hc'
    cases ha'; cases hb'; cases hc'
    obtain ⟨f, hf, rfl⟩ := hgc.1
    have h1 := hga.2 ⟨f, hf, rfl⟩
    have h2 := hgb.2 ⟨f, hf, rfl⟩
    linarith
  · set g := (x ++ (y ++ z)).insertionSort (· ≤ ·) with hg
    have hgs : g.Pairwise (· ≤ ·) := List.pairwise_insertionSort _ _
    have hmx : ∀ v ∈ x, v ∈ g := fun v hv => by rw [hg, List.mem_insertionSort]; simp [hv]
    have hmy : ∀ v ∈ y, v ∈ g := fun v hv => by rw [hg, List.mem_insertionSort]; simp [hv]
    have hmz : ∀ v ∈ z, v ∈ g := fun v hv => by rw [hg, List.mem_insertionSort]; simp [hv]
    have key : ∀ {u v : List ℝ} {d : ℝ}, u ≠ [] → v ≠ [] → (∀ s ∈ u, s ∈ g) → (∀ s ∈ v, s ∈ g) →
        energyDistance u v = .ok d →
        d = Real.sqrt 2 * Real.sqrt (wsum g id (fun t => (fraction u t - fraction v t) ^ 2)) := by
      intro u v d hu hv hmu hmv hd
      rw [energyDistance_eq hu hv] at hd
      rw [← Except.ok.inj hd]
      congr 2
      have h1 := wsum_energy (allValues_sorted u v) (fun a ha => mem_allValues.2 (.inl ha))
        (fun a ha => mem_allValues.2 (.inr ha)) hu hv
      have h2 := wsum_energy hgs hmu hmv hu hv
      linarith
    rw [key hx hy hmx hmy ha, key hy hz hmy hmz hb, key hx hz hmx hmz hc, ← mul_add]
    refine mul_le_mul_of_nonneg_left ?_ (Real.sqrt_nonneg _)
    have := wsum_cauchy hgs (fun t => fraction x t - fraction y t) (fun t => fraction y t - fraction z t)
    simpa only [sub_add_sub_cancel] using this

/-! ### Transformations -/

theorem ecdf_map {g : ℝ → ℝ} (hg : StrictMono g) (xs : List ℝ) (t : ℝ) : ecdf (xs.map g) (g t) = ecdf xs t := by
  rw [ecdf_eq, ecdf_eq]
  unfold fraction
  rw [averageOf_map]
  simp only [hg.le_iff_le]

/-- **C81 (order of samples).**  The order in which samples are listed is irrelevant. -/
theorem C81_order {x x' y y' : List ℝ} (hx : x.Perm x') (hy : y.Perm y') :
    ksStatistic x y = ksStatistic x' y' ∧ earthMover x y = earthMover x' y' ∧
    energyDistance x y = energyDistance x' y' := by
  by_cases h : x = [] ∨ y = []
  · have h' : x' = [] ∨ y' = [] := h.imp (fun e => by subst e; exact hx.nil_eq.symm) (fun e => by subst e; exact hy.nil_eq.symm)
    unfold ksStatistic earthMover energyDistance
    rw [if_pos h, if_pos h', if_pos h, if_pos h', if_pos h, if_pos h']
    exact ⟨rfl, rfl, rfl⟩
  · obtain ⟨hx0, hy0⟩ := not_or.1 h
    have hx0' : x' ≠ [] := fun e => hx0 (by subst e; exact hx.eq_nil)
    have hy0' : y' ≠ [] := fun e => hy0 (by subst e; exact hy.eq_nil)
    have fx : fraction x = fraction x' := funext fun t => averageOf_perm hx
    have fy : fraction y = fraction y' := funext fun t => averageOf_perm hy
    have hall : allValues x y = allValues x' y' := allValues_perm (hx.append hy)
    refine ⟨?_, ?_, ?_⟩
    · obtain ⟨d, hd, hg⟩ := C81_ks hx0 hy0
      obtain ⟨d', hd', hg'⟩ := C81_ks hx0' hy0'
      rw [hd, hd']
      congr 1
      rw [fx, fy] at hg
      exact hg.unique hg'
    · rw [earthMover_eq hx0 hy0, earthMover_eq hx0' hy0', hall, fx, fy]
    · rw [energyDistance_eq hx0 hy0, energyDistance_eq hx0' hy0', hall, fx, fy]

/-- **C81 (KS distance and transformations).**  The KS statistic is between 0 and 1, and strictly increasing
transformations of all samples do not change it. -/
theorem C81_ks_invariant {x y : List ℝ} (hx : x ≠ []) (hy : y ≠ []) :
    (∃ d, ksStatistic x y = .ok d ∧ 0 ≤ d ∧ d ≤ 1) ∧
    ∀ g : ℝ → ℝ, StrictMono g → ksStatistic (x.map g) (y.map g) = ksStatistic x y := by
  constructor
  · obtain ⟨d, hd, hg⟩ := C81_ks hx hy
    obtain ⟨t, rfl⟩ := hg.1
    refine ⟨_, hd, abs_nonneg _, ?_⟩
    have h1 := fraction_nonneg x t
    have h2 := fraction_le_one x t
    have h3 := fraction_nonneg y t
    have h4 := fraction_le_one y t
    exact abs_le.2 ⟨by linarith, by linarith⟩
  · intro g hg
    unfold ksStatistic
    simp only [List.map_eq_nil_iff, ← List.map_append, List.map_map]
    have : (fun t => |ecdf (x.map g) t - ecdf (y.map g) t|) ∘ g = fun t => |ecdf x t - ecdf y t| := by
      funext t
      simp only [Function.comp]
      rw [ecdf_map hg, ecdf_map hg]
    rw [this]

/-- **C81 (scale).**  Scaling by `a` and shifting all samples multiplies the earth mover distance by `|a|` and the energy
distance by the root of `|a|`. -/
theorem C81_scale {x y : List ℝ} (hx : x ≠ []) (hy : y ≠ []) (a b : ℝ) {d e : ℝ} (hd : earthMover x y = .ok d)
    (he : energyDistance x y = .ok e) :
    earthMover (x.map (fun v => a * v + b)) (y.map (fun v => a * v + b)) = .ok (|a| * d) ∧
    energyDistance (x.map (fun v => a * v + b)) (y.map (fun v => a * v + b)) = .ok (Real.sqrt |a| * e) := by
  have hx' : x.map (fun v => a * v + b) ≠ [] := by simpa using hx
  have hy' : y.map (fun v => a * v + b) ≠ [] := by simpa using hy
  constructor
  · obtain ⟨d₁, hd₁, hg₁⟩ := C81_emd_dual hx hy
    obtain ⟨d₂, hd₂, hg₂⟩ := C81_emd_dual hx' hy'
    rw [hd] at hd₁
    cases hd₁
    rw [hd₂]
    congr 1
    by_cases ha : a = 0
    · subst ha
      obtain ⟨f, hf, rfl⟩ := hg₂.1
      rw [averageOf_map, averageOf_map]
      simp only [zero_mul, zero_add, abs_zero]
      rw [averageOf_const hx, averageOf_const hy, sub_self]
    · have hpos : 0 < |a| := abs_pos.2 ha
      apply le_antisymm
      · obtain ⟨f, hf, rfl⟩ := hg₂.1
        rw [averageOf_map, averageOf_map]
        have := hg₁.2 ⟨fun v => |a|⁻¹ * f (a * v + b), fun s t => by
          rw [← mul_sub, abs_mul, abs_inv, abs_abs, inv_mul_le_iff₀ hpos]
          refine (hf _ _).trans (le_of_eq ?_)
          rw [← abs_mul]; congr 1; ring, rfl⟩
        rw [averageOf_mul, averageOf_mul, ← mul_sub, inv_mul_le_iff₀ hpos] at this
        exact this
      · obtain ⟨f, hf, hfd⟩ := hg₁.1
        have := hg₂.2 ⟨fun v => |a| * f ((v - b) / a), fun s t => by
          rw [← mul_sub, abs_mul, abs_abs]
          refine (mul_le_mul_of_nonneg_left (hf _ _) hpos.le).trans (le_of_eq ?_)
          rw [← abs_mul]; congr 1; field_simp; ring, rfl⟩
        rw [averageOf_mul, averageOf_mul, averageOf_map, averageOf_map, ← mul_sub] at this
        have hc : (fun v => f ((a * v + b - b) / a)) = f := by
          funext v; congr 1; field_simp; ring
        rw [hc, ← hfd] at this
        exact this
  · obtain ⟨e₁, he₁, h0₁, hg₁⟩ := C81_energy hx hy
    obtain ⟨e₂, he₂, h0₂, hg₂⟩ := C81_energy hx' hy'
    rw [he] at he₁
    cases he₁
    rw [he₂]
    congr 1
    have scale : ∀ u v : List ℝ, averageDistance (u.map (fun v => a * v + b)) (v.map (fun v => a * v + b)) =
        |a| * averageDistance u v := by
      intro u v
      unfold averageDistance
      rw [averageOf_map, ← averageOf_mul]
      congr 1
      funext s
      rw [averageOf_map, ← averageOf_mul]
      congr 1
      funext t
      rw [← abs_mul]; congr 1; ring
    rw [scale, scale, scale] at hg₂
    refine (pow_left_inj₀ h0₂ (by positivity) two_ne_zero).1 ?_
    rw [hg₂, mul_pow, Real.sq_sqrt (abs_nonneg a), hg₁]
    ring

/-! ### The list of distances -/

/-- **C81 (returned list).**  `statistical_distances` returns the p-value and the distances asked for, in this order, and
raises ValueError if and only if one of the lists is empty; so C42 applies with these distances. -/
theorem C81_returns (pvalue : List ℝ → List ℝ → ℝ) (x y : List ℝ) (emd energy : Bool) :
    (x ≠ [] → y ≠ [] → statDistances pvalue x y emd energy =
      .ok (statisticalDistances (scipyDistances pvalue) x y emd energy)) ∧
    (x = [] ∨ y = [] → statDistances pvalue x y emd energy = .error .value) := by
  constructor
  · intro hx hy
    obtain ⟨d, hd, -⟩ := C81_ks hx hy
    unfold statDistances statisticalDistances scipyDistances
    dsimp only
    rw [hd, earthMover_eq hx hy, energyDistance_eq hx hy]
    cases emd <;> cases energy <;> rfl
  · intro h
    unfold statDistances ksStatistic
    rw [if_pos h]
    rfl

/-- Two lists with the same distribution but of different lengths, and two with different ones. -/
example : SameDistribution [1, 2] [2, 1, 1, 2] := by
  intro a
  by_cases h1 : (1 : ℝ) = a
  · subst h1; norm_num
  · by_cases h2 : (2 : ℝ) = a
    · subst h2; norm_num
    · simp [h1, h2]

example : ¬ SameDistribution [1] [2] := by
  intro h
  have := h 1
  norm_num at this

/-- The distances between 0, 1 and 2. -/
example : ksStatistic [0, 1] [2] = .ok 1 ∧ earthMover [0, 1] [2] = .ok (3 / 2) := by
  constructor
  · norm_num [ksStatistic, ecdf, searchRight, amax]
    intro h; cases h
  · norm_num [earthMover, allValues, neighbours, ecdf, searchRight, List.insertionSort, List.orderedInsert]
    intro h; cases h

end
end Nestcheck
