import Mathlib.Data.List.Nodup
import Mathlib.Data.List.Perm.Basic
import Verif.Props.ErrorAnalysis

/-! Implementation errors (C41) and statistical distances between samples (C42). -/

namespace Nestcheck
open Spec

/-! ### C41 -/

noncomputable section implementation
variable {σ : Type} (R : Rng σ ℝ) (N : NormalRng σ)

theorem impStd_le {v b : ℝ} (hv : 0 ≤ v) (h : v ≤ b) : impStd v b = 0 := by
  unfold impStd signedRoot
  have h1 : v ^ 2 - b ^ 2 ≤ 0 := by nlinarith
  dsimp only
  rw [if_pos]
  split
  · linarith
  · split
    · have := Real.sqrt_nonneg |v ^ 2 - b ^ 2|
      linarith
    · simp

theorem impStd_gt {v b : ℝ} (hb : 0 ≤ b) (h : b < v) : impStd v b = Real.sqrt (v ^ 2 - b ^ 2) := by
  unfold impStd signedRoot
  have h1 : 0 < v ^ 2 - b ^ 2 := by nlinarith
  dsimp only
  rw [if_pos h1, abs_of_pos h1, mul_one, if_neg]
  exact not_le.mpr (Real.sqrt_pos.mpr h1)

theorem impStd_bounds {v b : ℝ} (hv : 0 ≤ v) (hb : 0 ≤ b) : 0 ≤ impStd v b ∧ impStd v b ≤ v := by
  by_cases h : v ≤ b
  · rw [impStd_le hv h]; exact ⟨le_rfl, hv⟩
  · rw [impStd_gt hb (not_le.mp h)]
    refine ⟨Real.sqrt_nonneg _, ?_⟩
    rw [Real.sqrt_le_iff]
    exact ⟨hv, by nlinarith⟩

/-- The standard deviation of a list of values: nan if there are less than two values or one is nan. -/
def Spec.StdOf (cell : List (Option ℝ)) (v : Option ℝ) : Prop :=
  (∀ xs : List ℝ, cell = xs.map some → 2 ≤ xs.length → v = some (stdev xs)) ∧
  (cell.length < 2 ∨ none ∈ cell → v = none)

theorem npStd_stdOf (cell : List (Option ℝ)) : StdOf cell (npStd cell) := by
  refine ⟨?_, ?_⟩
  · rintro xs rfl h; exact npStd_some h
  · rintro (h | h)
    · exact npStd_short (by omega)
    · exact npStd_nan h

/-- A ratio, nan if the denominator is zero. -/
def Spec.ratio (x y : ℝ) : Option ℝ := if y = 0 then none else some (x / y)

/-- The root of the difference of two variances, negative if the second is larger. -/
def Spec.signedExcess (x y : ℝ) : ℝ :=
  if y ^ 2 ≤ x ^ 2 then Real.sqrt (x ^ 2 - y ^ 2) else -Real.sqrt (y ^ 2 - x ^ 2)

/-- The random state after `np.random.seed(random_seed)`; `False` is the integer 0. -/
def Spec.startState (R : Rng σ ℝ) : Seed → σ
  | .keep => R.seed 0
  | .os e => R.seedOS e
  | .num n => R.seed n

/-- `u` and `f` are the uncertainties of an implementation error and of its fraction: the standard
deviations of the values calculated from `nsim` draws of `vals_std`, made in state `s`, and as many of
`bs_std`, made in the state this leaves.  An uncertainty that is nan makes them nan. -/
def Spec.ImpUncertain (N : NormalRng σ) (s : σ) (nsim : Nat) (v : ℝ) (vu : Option ℝ) (b : ℝ) (bu : Option ℝ)
    (u f : Option ℝ) : Prop :=
  (vu = none ∨ bu = none → u = none ∧ f = none) ∧
  ∀ x y, vu = some x → bu = some y → ∀ vs bs s' s'', N.normal v x nsim s = (vs, s') → N.normal b y nsim s' = (bs, s'') →
    StdOf ((vs.zip bs).map (fun p => some (signedExcess p.1 p.2))) u ∧
    StdOf ((vs.zip bs).map (fun p => ratio (signedExcess p.1 p.2) p.1)) f

theorem signedRoot_excess (x y : ℝ) : signedRoot (x ^ 2 - y ^ 2) = signedExcess x y := by
  unfold signedRoot signedExcess
  by_cases h : y ^ 2 ≤ x ^ 2
  · rw [if_pos h]
    rcases h.lt_or_eq with h' | h'
    · rw [if_pos (by linarith), abs_of_pos (by linarith), mul_one]
    · rw [h']; simp
  · rw [if_neg h, if_neg (by linarith), if_pos (by linarith), abs_of_neg (by linarith)]
    rw [show -(x ^ 2 - y ^ 2) = y ^ 2 - x ^ 2 by ring]; ring

/-- The element of the result belonging to the inputs `vals_std = v`, `bs_std = b`. -/
structure Spec.ImpElement (v b : ℝ) (y : ImpRow) : Prop where
  zero : v ≤ b → y.std = 0
  excess : b ≤ v → y.std ^ 2 + b ^ 2 = v ^ 2
  nonneg : 0 ≤ y.std
  le : y.std ≤ v
  frac : ∃ f, y.frac = some f ∧ f * v = y.std ∧ 0 ≤ f ∧ f ≤ 1

theorem seedAlways_start (seed : Seed) (w : World σ) : seedAlways R seed w = (.ok (), ⟨startState R seed, w.warns⟩) := by
  cases seed <;> rfl

theorem npNormal_ok {loc scale : ℝ} (h : 0 ≤ scale) (n : Nat) (w : World σ) :
    npNormal N loc scale n w = (.ok (N.normal loc scale n w.rng).1, ⟨(N.normal loc scale n w.rng).2, w.warns⟩) := by
  unfold npNormal
  rw [if_neg (not_lt.mpr h)]
  rfl

theorem npNormal_negative {loc scale : ℝ} (h : scale < 0) (n : Nat) (w : World σ) :
    npNormal N loc scale n w = (.error .value, w) := by
  unfold npNormal
  rw [if_pos h]
  rfl

theorem implementationElt_fixed (nsim : Nat) (seed : Seed) (v b : ℝ) {vu bu : ℝ} (hvu : 0 ≤ vu) (hbu : 0 ≤ bu) :
    ∃ y, (∀ w : World σ, implementationElt R N nsim seed v vu b bu w = (.ok y, w)) ∧
      y.std = impStd v b ∧ y.frac = nanDiv (impStd v b) v ∧
      ImpUncertain N (startState R seed) nsim v (some vu) b (some bu) y.stdU y.fracU := by
  rcases h1 : N.normal v vu nsim (startState R seed) with ⟨vs, s1⟩
  rcases h2 : N.normal b bu nsim s1 with ⟨bs, s2⟩
  refine ⟨{ std := impStd v b,
            stdU := npStd ((List.zipWith (fun x y => signedRoot (x ^ 2 - y ^ 2)) vs bs).map some),
            frac := nanDiv (impStd v b) v,
            fracU := npStd (List.zipWith nanDiv (List.zipWith (fun x y => signedRoot (x ^ 2 - y ^ 2)) vs bs) vs) },
          fun w => ?_, rfl, rfl, by simp, ?_⟩
  · unfold implementationElt
    rw [M.bind_ok (x := M.getState) (a := w.rng) (w' := w) rfl, M.bind_ok (seedAlways_start R seed w),
      M.bind_ok (npNormal_ok N hvu nsim _), M.bind_ok (npNormal_ok N hbu nsim _)]
    simp only [h1, h2]
    rfl
  · rintro x y hx hy vs' bs' s' s'' h1' h2'
    cases hx; cases hy
    rw [h1] at h1'
    cases h1'
    rw [h2] at h2'
    cases h2'
    have e : ∀ (l m : List ℝ), (List.zipWith (fun x y => signedRoot (x ^ 2 - y ^ 2)) l m).map some =
        (l.zip m).map (fun p => some (signedExcess p.1 p.2)) ∧
        List.zipWith nanDiv (List.zipWith (fun x y => signedRoot (x ^ 2 - y ^ 2)) l m) l =
        (l.zip m).map (fun p => ratio (signedExcess p.1 p.2) p.1) := by
      intro l
      induction l with
      | nil => simp
      | cons x l ih =>
        intro m
        cases m with
        | nil => simp
        | cons y m =>
          simp only [List.zipWith_cons_cons, List.map_cons, List.zip_cons_cons]
          rw [(ih m).1, (ih m).2, signedRoot_excess]
          exact ⟨rfl, rfl⟩
    rw [← (e vs bs).1, ← (e vs bs).2]
    exact ⟨npStd_stdOf _, npStd_stdOf _⟩

theorem implementationElt_spec (nsim : Nat) (seed : Seed) {v vu b bu : ℝ} (hv : 0 < v) (hb : 0 ≤ b)
    (hvu : 0 ≤ vu) (hbu : 0 ≤ bu) (w : World σ) :
    ∃ y, implementationElt R N nsim seed v vu b bu w = (.ok y, w) ∧ ImpElement v b y ∧
      ImpUncertain N (startState R seed) nsim v (some vu) b (some bu) y.stdU y.fracU := by
  obtain ⟨h1, h2⟩ := impStd_bounds hv.le hb
  obtain ⟨y, hy, e1, e2, hu⟩ := implementationElt_fixed R N nsim seed v b hvu hbu
  refine ⟨y, hy w, ⟨?_, ?_, by rw [e1]; exact h1, by rw [e1]; exact h2, impStd v b / v, ?_, ?_, ?_, ?_⟩, hu⟩
  · rw [e1]; exact impStd_le hv.le
  · intro h
    rw [e1]
    rcases h.lt_or_eq with h | h
    · rw [impStd_gt hb h, Real.sq_sqrt (by nlinarith)]; ring
    · rw [impStd_le hv.le h.ge, h]; ring
  · rw [e2]
    unfold nanDiv
    rw [if_neg hv.ne']
  · rw [e1]; exact div_mul_cancel₀ _ hv.ne'
  · exact div_nonneg h1 hv.le
  · exact (div_le_one hv).mpr h2

/-- C41.  For positive standard deviations of results, non-negative bootstrap errors and
non-negative uncertainties, `implementation_std` returns one element for each input, in order,
which is zero or makes up the difference of the variances, lies between zero and the standard
deviation of results, and whose fraction lies in [0, 1]; its uncertainties are the standard
deviations of the results simulated from the seed.  Whatever the seed, the call leaves the
global state as it was. -/
theorem C41_elements (nsim : Nat) (seed : Seed) {xs : List (ℝ × ℝ × ℝ × ℝ)}
    (hx : ∀ x ∈ xs, 0 < x.1 ∧ 0 ≤ x.2.1 ∧ 0 ≤ x.2.2.1 ∧ 0 ≤ x.2.2.2) (w : World σ) :
    ∃ ys, implementationStd R N nsim seed xs w = (.ok ys, w) ∧
      List.Forall₂ (fun x y => ImpElement x.1 x.2.2.1 y ∧
        ImpUncertain N (startState R seed) nsim x.1 (some x.2.1) x.2.2.1 (some x.2.2.2) y.stdU y.fracU) xs ys := by
  induction xs with
  | nil => exact ⟨[], rfl, .nil⟩
  | cons x xs ih =>
    obtain ⟨v, vu, b, bu⟩ := x
    obtain ⟨ys, h1, h2⟩ := ih fun x h => hx x (by simp [h])
    obtain ⟨hv, hvu, hb, hbu⟩ := hx _ (List.mem_cons_self)
    obtain ⟨y, h3, h4, h5⟩ := implementationElt_spec R N nsim seed (vu := vu) (bu := bu) hv hb hvu hbu w
    refine ⟨y :: ys, ?_, .cons ⟨h4, h5⟩ h2⟩
    rw [implementationStd, M.bind_ok h3, M.bind_ok h1]
    rfl

/-- C41.  A negative uncertainty raises `ValueError`, after the random state has been changed: the
state the caller had is lost. -/
theorem C41_negative (nsim : Nat) (seed : Seed) {xs zs : List (ℝ × ℝ × ℝ × ℝ)} {v vu b bu : ℝ}
    (hx : ∀ x ∈ xs, 0 ≤ x.2.1 ∧ 0 ≤ x.2.2.2) (w : World σ) :
    (vu < 0 → implementationStd R N nsim seed (xs ++ (v, vu, b, bu) :: zs) w =
      (.error .value, ⟨startState R seed, w.warns⟩)) ∧
    (0 ≤ vu → bu < 0 → implementationStd R N nsim seed (xs ++ (v, vu, b, bu) :: zs) w =
      (.error .value, ⟨(N.normal v vu nsim (startState R seed)).2, w.warns⟩)) := by
  induction xs with
  | nil =>
    refine ⟨fun h => ?_, fun h h' => ?_⟩
    · refine M.bind_error ?_
      unfold implementationElt
      rw [M.bind_ok (x := M.getState) (a := w.rng) (w' := w) rfl, M.bind_ok (seedAlways_start R seed w),
        M.bind_error (npNormal_negative N h nsim _)]
    · refine M.bind_error ?_
      unfold implementationElt
      rw [M.bind_ok (x := M.getState) (a := w.rng) (w' := w) rfl, M.bind_ok (seedAlways_start R seed w),
        M.bind_ok (npNormal_ok N h nsim _), M.bind_error (npNormal_negative N h' nsim _)]
  | cons x xs ih =>
    obtain ⟨v', vu', b', bu'⟩ := x
    obtain ⟨hvu, hbu⟩ := hx _ (List.mem_cons_self)
    obtain ⟨y, hy, -⟩ := implementationElt_fixed R N nsim seed v' b' hvu hbu
    obtain ⟨ih1, ih2⟩ := ih fun x h => hx x (by simp [h])
    refine ⟨fun h => ?_, fun h h' => ?_⟩
    · rw [List.cons_append, implementationStd, M.bind_ok (hy w), M.bind_error (ih1 h)]
    · rw [List.cons_append, implementationStd, M.bind_ok (hy w), M.bind_error (ih2 h h')]

/-- C41.  The estimate grows with the standard deviation of results and falls with the
bootstrap error. -/
theorem C41_monotone {v b v' b' : ℝ} {y y' : ImpRow} (hv : 0 ≤ v) (hb : 0 ≤ b') (h1 : v ≤ v') (h2 : b' ≤ b)
    (hy : ImpElement v b y) (hy' : ImpElement v' b' y') : y.std ≤ y'.std := by
  rcases le_total v b with h | h
  · rw [hy.zero h]; exact hy'.nonneg
  · have e1 := hy.excess h
    have e2 := hy'.excess (by linarith)
    have : y.std ^ 2 ≤ y'.std ^ 2 := by nlinarith
    exact (sq_le_sq₀ hy.nonneg hy'.nonneg).mp this

/-- C41.  The result, with its uncertainties, does not depend on the random state. -/
theorem C41_reproducible (nsim : Nat) (seed : Seed) {xs : List (ℝ × ℝ × ℝ × ℝ)}
    (hx : ∀ x ∈ xs, 0 ≤ x.2.1 ∧ 0 ≤ x.2.2.2) : Fixed (implementationStd R N nsim seed xs) := by
  induction xs with
  | nil => exact .pure _
  | cons x xs ih =>
    obtain ⟨v, vu, b, bu⟩ := x
    obtain ⟨hvu, hbu⟩ := hx _ (List.mem_cons_self)
    obtain ⟨y, hy, -⟩ := implementationElt_fixed R N nsim seed v b hvu hbu
    exact .bind ⟨_, hy⟩ fun y => .bind (ih fun x h => hx x (by simp [h])) fun ys => .pure _

/-- The implementation error of 5 with bootstrap error 3 is 4, with bootstrap error 6 it
is 0. -/
example : impStd 5 3 = 4 ∧ impStd 5 6 = 0 := by
  refine ⟨?_, impStd_le (by norm_num) (by norm_num)⟩
  rw [impStd_gt (by norm_num) (by norm_num), show (5 : ℝ) ^ 2 - 3 ^ 2 = 4 ^ 2 by norm_num,
    Real.sqrt_sq (by norm_num)]

/-- With draws that are `loc` and `loc + scale`, two simulations of 5 ± 0 with bootstrap error 3 ± 1 give 4 and 3:
the uncertainty is the standard deviation of these. -/
example (R : Rng Nat ℝ) (w : World Nat) :
    ∃ y, implementationStd R ⟨fun a b n s => ((List.range n).map (fun k : Nat => a + k * b), s), by simp⟩ 2 (.num 7)
      [(5, 0, 3, 1)] w = (.ok [y], w) ∧ y.stdU = some (stdev [4, 3]) ∧ y.fracU = some (stdev [4 / 5, 3 / 5]) := by
  obtain ⟨ys, h1, h2⟩ := C41_elements R ⟨fun a b n s => ((List.range n).map (fun k : Nat => a + k * b), s), by simp⟩ 2 (.num 7)
    (xs := [(5, 0, 3, 1)]) (by intro x hx; rw [List.mem_singleton] at hx; subst hx; norm_num) w
  obtain ⟨y, ys, ⟨-, -, hu⟩, h3, rfl⟩ := List.forall₂_cons_left_iff.mp h2
  cases h3
  refine ⟨y, h1, ?_⟩
  obtain ⟨⟨u1, -⟩, u2, -⟩ := hu 0 1 rfl rfl _ _ _ _ rfl rfl
  have e1 : Real.sqrt ((5 : ℝ) ^ 2 - 3 ^ 2) = 4 := by
    rw [show (5 : ℝ) ^ 2 - 3 ^ 2 = 4 ^ 2 by norm_num, Real.sqrt_sq (by norm_num)]
  have e2 : Real.sqrt ((5 : ℝ) ^ 2 - 4 ^ 2) = 3 := by
    rw [show (5 : ℝ) ^ 2 - 4 ^ 2 = 3 ^ 2 by norm_num, Real.sqrt_sq (by norm_num)]
  have s1 : signedExcess 5 3 = 4 := by rw [signedExcess, if_pos (by norm_num), e1]
  have s2 : signedExcess 5 4 = 3 := by rw [signedExcess, if_pos (by norm_num), e2]
  constructor
  · refine u1 [4, 3] ?_ (by simp)
    norm_num [List.range_succ, s1, s2]
  · refine u2 [4 / 5, 3 / 5] ?_ (by simp)
    norm_num [List.range_succ, s1, s2, ratio]

end implementation

/-! ### C42 -/

section pairs
variable {α β : Type}

/-- The distances computed, with their names. -/
def Spec.distanceTypes (D : Distances α β) (emd energy : Bool) : List (String × (α → α → β)) :=
  [("ks pvalue", D.ksPvalue), ("ks distance", D.ksStatistic)] ++
    (if emd then [("earth mover distance", D.earthMover)] else []) ++
    (if energy then [("energy distance", D.energy)] else [])

/-- The pairs of samples compared, with their positions. -/
def comparedPairs (xs : List α) : List ((α × Nat) × (α × Nat)) :=
  xs.zipIdx.flatMap (fun p => (xs.zipIdx.filter (fun q => decide (q.2 < p.2))).map (fun q => (p, q)))

theorem filterMap_eq_map_of {γ δ : Type} {l : List γ} {f : γ → Option δ} {g : γ → δ}
    (h : ∀ x ∈ l, f x = some (g x)) : l.filterMap f = l.map g := by
  induction l with
  | nil => rfl
  | cons x l ih =>
    rw [List.filterMap_cons, h x (by simp), ih fun y hy => h y (by simp [hy])]
    rfl

theorem pairwiseDistances_eq (D : Distances α β) (xs : List α) (emd energy : Bool) :
    pairwiseDistances D xs emd energy = (distanceTypes D emd energy).flatMap (fun t =>
      (comparedPairs xs).map (fun pq => ((t.1, pairName pq.1.2 pq.2.2), t.2 pq.1.1 pq.2.1))) := by
  have hr : pairRows D xs emd energy = (comparedPairs xs).map (fun pq =>
      (pairName pq.1.2 pq.2.2, statisticalDistances D pq.1.1 pq.2.1 emd energy)) := by
    unfold pairRows comparedPairs
    rw [List.map_flatMap]
    simp only [List.map_map]
    rfl
  unfold pairwiseDistances
  rw [hr]
  simp only [List.filterMap_map]
  have key : ∀ (n : String) (k : Nat) (d : α → α → β),
      (∀ x y, (statisticalDistances D x y emd energy)[k]? = some (d x y)) →
      (comparedPairs xs).filterMap ((fun row : String × List β => (row.2[k]?).map (fun v => ((n, row.1), v))) ∘
        (fun pq => (pairName pq.1.2 pq.2.2, statisticalDistances D pq.1.1 pq.2.1 emd energy))) =
      (comparedPairs xs).map (fun pq => ((n, pairName pq.1.2 pq.2.2), d pq.1.1 pq.2.1)) := by
    intro n k d hd
    refine filterMap_eq_map_of fun pq _ => ?_
    simp only [Function.comp, hd, Option.map_some]
  cases emd <;> cases energy <;>
    simp only [distanceNames, distanceTypes, if_true, if_false, List.append_nil, List.cons_append,
      List.nil_append, List.zipIdx_cons, List.zipIdx_nil, List.flatMap_cons, List.flatMap_nil,
      Bool.false_eq_true] <;>
    (repeat rw [key _ _ _ (fun x y => rfl)])

theorem mem_comparedPairs {xs : List α} {pq : (α × Nat) × (α × Nat)} :
    pq ∈ comparedPairs xs ↔ xs[pq.1.2]? = some pq.1.1 ∧ xs[pq.2.2]? = some pq.2.1 ∧ pq.2.2 < pq.1.2 := by
  unfold comparedPairs
  rw [List.mem_flatMap]
  constructor
  · rintro ⟨p, hp, h⟩
    obtain ⟨q, hq, rfl⟩ := List.mem_map.mp h
    rw [List.mem_filter] at hq
    exact ⟨List.mem_zipIdx_iff_getElem?.mp hp, List.mem_zipIdx_iff_getElem?.mp hq.1, by simpa using hq.2⟩
  · rintro ⟨h1, h2, h3⟩
    refine ⟨pq.1, List.mem_zipIdx_iff_getElem?.mpr h1, List.mem_map.mpr ⟨pq.2, ?_, rfl⟩⟩
    rw [List.mem_filter]
    exact ⟨List.mem_zipIdx_iff_getElem?.mpr h2, by simpa using h3⟩

theorem comparedPairs_indexes (xs : List α) : (comparedPairs xs).map (fun pq => (pq.1.2, pq.2.2)) =
    (List.range xs.length).flatMap (fun i => (List.range i).map (fun j => (i, j))) := by
  have hz : xs.zipIdx.map (·.2) = List.range xs.length := by
    rw [List.zipIdx_map_snd, List.range_eq_range']
  have hf : ∀ i, i < xs.length → (xs.zipIdx.filter (fun q => decide (q.2 < i))).map (·.2) = List.range i := by
    intro i hi
    have : (xs.zipIdx.filter (fun q => decide (q.2 < i))).map (·.2) =
        (xs.zipIdx.map (·.2)).filter (fun j => decide (j < i)) := by
      rw [List.filter_map]
      rfl
    rw [this, hz, show xs.length = i + (xs.length - i) by omega, List.range_add, List.filter_append]
    have h1 : (List.range i).filter (fun j => decide (j < i)) = List.range i :=
      List.filter_eq_self.mpr fun j hj => by simpa using hj
    have h2 : ((List.range (xs.length - i)).map (i + ·)).filter (fun j => decide (j < i)) = [] := by
      rw [List.filter_eq_nil_iff]
      intro j hj
      obtain ⟨k, -, rfl⟩ := List.mem_map.mp hj
      simp
    rw [h1, h2, List.append_nil]
  unfold comparedPairs
  rw [List.map_flatMap, ← hz, List.flatMap_map]
  apply List.flatMap_congr
  intro p hp
  have hlt : p.2 < xs.length := by
    have := List.mem_zipIdx_iff_getElem?.mp hp
    exact (List.getElem?_eq_some_iff.mp this).1
  rw [← hf p.2 hlt, List.map_map, List.map_map]
  rfl

theorem indexes_nodup (n : Nat) :
    ((List.range n).flatMap (fun i => (List.range i).map (fun j => (i, j)))).Nodup := by
  rw [List.nodup_flatMap]
  refine ⟨fun i _ => (List.nodup_range).map (fun a b h => by simpa using h), ?_⟩
  refine List.nodup_range.imp ?_
  intro a b hab
  show List.Disjoint _ _
  intro p hp hq
  obtain ⟨j, -, rfl⟩ := List.mem_map.mp hp
  obtain ⟨k, -, hk⟩ := List.mem_map.mp hq
  exact hab (by simpa using (congrArg Prod.fst hk).symm)

theorem indexes_length (n : Nat) :
    2 * ((List.range n).flatMap (fun i => (List.range i).map (fun j => (i, j)))).length = n * (n - 1) := by
  induction n with
  | zero => rfl
  | succ n ih =>
    rw [List.range_succ, List.flatMap_append, List.length_append, mul_add, ih]
    simp only [List.flatMap_cons, List.flatMap_nil, List.append_nil, List.length_map, List.length_range]
    cases n with
    | zero => rfl
    | succ n => simp; ring

theorem digits_no_comma {n : Nat} : ',' ∉ Nat.toDigits 10 n := by
  intro h
  have := Nat.isDigit_of_mem_toDigits (by decide) (by decide) h
  exact absurd this (by decide)

theorem digits_no_paren {n : Nat} : ')' ∉ Nat.toDigits 10 n := by
  intro h
  have := Nat.isDigit_of_mem_toDigits (by decide) (by decide) h
  exact absurd this (by decide)

theorem append_sep_inj {γ : Type} [DecidableEq γ] {s : γ} {a b c d : List γ} (ha : s ∉ a) (hb : s ∉ b)
    (h : a ++ s :: c = b ++ s :: d) : a = b ∧ c = d := by
  induction a generalizing b with
  | nil =>
    cases b with
    | nil => exact ⟨rfl, by simpa using h⟩
    | cons x b => simp only [List.nil_append, List.cons_append, List.cons.injEq] at h; simp [h.1] at hb
  | cons x a ih =>
    cases b with
    | nil => simp only [List.nil_append, List.cons_append, List.cons.injEq] at h; simp [h.1] at ha
    | cons y b =>
      simp only [List.cons_append, List.cons.injEq] at h
      obtain ⟨h1, h2⟩ := ih (fun hm => ha (by simp [hm])) (fun hm => hb (by simp [hm])) h.2
      rw [h.1, h1]; exact ⟨rfl, h2⟩

theorem toDigits_inj {m n : Nat} (h : Nat.toDigits 10 m = Nat.toDigits 10 n) : m = n := by
  rw [← Nat.ofDigitChars_ten_toDigits (n := m), h, Nat.ofDigitChars_ten_toDigits]

theorem pairName_inj {i j i' j' : Nat} (h : pairName i j = pairName i' j') : i = i' ∧ j = j' := by
  have h' := congrArg String.toList h
  unfold pairName at h'
  simp only [String.toList_append, Nat.toString_eq_repr, Nat.toList_repr] at h'
  have e1 : ∀ i j : Nat, "(".toList ++ Nat.toDigits 10 i ++ ", ".toList ++ Nat.toDigits 10 j ++ ")".toList =
      '(' :: (Nat.toDigits 10 i ++ ',' :: (' ' :: (Nat.toDigits 10 j ++ ')' :: []))) := by
    intro i j; simp
  rw [e1, e1, List.cons.injEq] at h'
  obtain ⟨h1, h2⟩ := append_sep_inj digits_no_comma digits_no_comma h'.2
  rw [List.cons.injEq] at h2
  obtain ⟨h3, -⟩ := append_sep_inj digits_no_paren digits_no_paren h2.2
  exact ⟨toDigits_inj h1, toDigits_inj h3⟩

/-- C42.  The entries of the result of `pairwise_distances` are, for each type of distance
computed and each pair of positions `j < i` in the list, the distance of that type between
sample `i` and sample `j`, under the type's name and the text of `(i, j)`; no entry occurs
twice; there are n(n-1)/2 for each type. -/
theorem C42_pairs (D : Distances α β) (xs : List α) (emd energy : Bool) :
    (∀ name pair v, ((name, pair), v) ∈ pairwiseDistances D xs emd energy ↔
      ∃ (d : α → α → β) (i j : Nat) (x y : α), (name, d) ∈ distanceTypes D emd energy ∧ j < i ∧
        xs[i]? = some x ∧ xs[j]? = some y ∧
        pair = "(" ++ toString i ++ ", " ++ toString j ++ ")" ∧ v = d x y) ∧
    ((pairwiseDistances D xs emd energy).map (·.1)).Nodup ∧
    2 * (pairwiseDistances D xs emd energy).length =
      (distanceTypes D emd energy).length * (xs.length * (xs.length - 1)) ∧
    ∀ t ∈ distanceTypes D emd energy, 2 * (pairwiseDistances D xs emd energy).countP (fun e => e.1.1 == t.1) =
      xs.length * (xs.length - 1) := by
  have hcl : 2 * (comparedPairs xs).length = xs.length * (xs.length - 1) := by
    rw [← indexes_length, ← comparedPairs_indexes, List.length_map]
  have hnames : ((distanceTypes D emd energy).map (·.1)).Nodup := by
    cases emd <;> cases energy <;> simp [distanceTypes]
  rw [pairwiseDistances_eq]
  refine ⟨?_, ?_, ?_, ?_⟩
  · intro name pair v
    rw [List.mem_flatMap]
    constructor
    · rintro ⟨t, ht, h⟩
      obtain ⟨pq, hpq, h⟩ := List.mem_map.mp h
      obtain ⟨h1, h2, h3⟩ := mem_comparedPairs.mp hpq
      simp only [Prod.mk.injEq] at h
      refine ⟨t.2, pq.1.2, pq.2.2, pq.1.1, pq.2.1, ?_, h3, h1, h2, h.1.2.symm, h.2.symm⟩
      rw [← h.1.1]; exact ht
    · rintro ⟨d, i, j, x, y, h1, h2, h3, h4, rfl, rfl⟩
      exact ⟨_, h1, List.mem_map.mpr ⟨((x, i), (y, j)), mem_comparedPairs.mpr ⟨h3, h4, h2⟩, rfl⟩⟩
  · rw [List.map_flatMap, List.nodup_flatMap]
    constructor
    · intro t _
      rw [List.map_map]
      have : (comparedPairs xs).map ((fun e : (String × String) × β => e.1) ∘
          fun pq => ((t.1, pairName pq.1.2 pq.2.2), t.2 pq.1.1 pq.2.1)) =
          ((comparedPairs xs).map (fun pq => (pq.1.2, pq.2.2))).map (fun ij => (t.1, pairName ij.1 ij.2)) := by
        rw [List.map_map]; rfl
      rw [this, comparedPairs_indexes]
      refine (indexes_nodup _).map fun a b hab => ?_
      obtain ⟨h1, h2⟩ := pairName_inj (congrArg Prod.snd hab)
      exact Prod.ext h1 h2
    · have : (distanceTypes D emd energy).Pairwise (fun s t => s.1 ≠ t.1) := List.pairwise_map.mp hnames
      refine this.imp ?_
      intro s t hst
      show List.Disjoint _ _
      intro e he he'
      simp only [List.mem_map, List.map_map, Function.comp] at he he'
      obtain ⟨a, -, rfl⟩ := he
      obtain ⟨b, -, hb⟩ := he'
      exact hst (congrArg Prod.fst hb).symm
  · rw [List.length_flatMap]
    simp only [List.length_map, List.map_const', List.sum_replicate, smul_eq_mul]
    rw [← hcl]; ring
  · intro t ht
    rw [List.countP_flatMap]
    have hc : ∀ s ∈ distanceTypes D emd energy, (List.countP (fun e : (String × String) × β => e.1.1 == t.1) ∘ fun t =>
        (comparedPairs xs).map (fun pq => ((t.1, pairName pq.1.2 pq.2.2), t.2 pq.1.1 pq.2.1))) s =
        if s.1 = t.1 then (comparedPairs xs).length else 0 := by
      intro s _
      simp only [Function.comp, List.countP_map]
      split
      · rename_i h
        rw [List.countP_eq_length.mpr]
        intro a _
        simpa using h
      · rename_i h
        rw [List.countP_eq_zero]
        intro a _
        simpa using h
    rw [List.map_congr_left hc, ← hcl]
    congr 1
    clear hc
    cases emd <;> cases energy <;> simp [distanceTypes] at ht ⊢ <;>
      rcases ht with rfl | rfl | rfl | rfl <;> simp

/-- Three samples, compared by the difference of their values. -/
example : pairwiseDistances (α := Int) (β := Int) ⟨fun x y => x - y, fun x y => y - x, fun x y => x + y, fun _ _ => 0⟩
    [10, 7, 20] true false =
    [(("ks pvalue", "(1, 0)"), -3), (("ks pvalue", "(2, 0)"), 10), (("ks pvalue", "(2, 1)"), 13),
     (("ks distance", "(1, 0)"), 3), (("ks distance", "(2, 0)"), -10), (("ks distance", "(2, 1)"), -13),
     (("earth mover distance", "(1, 0)"), 17), (("earth mover distance", "(2, 0)"), 30),
     (("earth mover distance", "(2, 1)"), 27)] := by decide

end pairs
end Nestcheck
