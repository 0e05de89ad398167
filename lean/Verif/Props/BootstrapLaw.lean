import Mathlib.Probability.UniformOn
import Mathlib.Probability.Moments.Variance
import Mathlib.Algebra.BigOperators.Fin
import Verif.Props.Bootstrap

/-! C78: means and variances over bootstrap replications. -/

namespace Nestcheck
open Spec MeasureTheory ProbabilityTheory
variable {σ K Ω : Type} [CommRing K] [LinearOrder K] {R : Rng σ K}

noncomputable section

/-- The threads from which the `j`-th thread of a replication is drawn. -/
def Spec.group (n : Nat) (sep : Option Nat) (j : Nat) : Finset Nat :=
  match sep with
  | none => Finset.range n
  | some k => if j < k then Finset.range k else Finset.Ico k n

/-- The `n` draws are independent and uniform on their groups. -/
def Spec.IndependentDraws [MeasurableSpace Ω] (P : Measure Ω) (n : Nat) (sep : Option Nat) (draws : Ω → List Nat) :
    Prop :=
  P.map (fun ω (j : Fin n) => (draws ω).getD j 0) = Measure.pi (fun j : Fin n => uniformOn (group n sep j : Set Nat))

/-- The sum of `f` over the samples of the run returned. -/
def Spec.totalOver (f : K × List K → ℝ) (x : Except Err (Run K × Option Settings)) : ℝ :=
  match x with
  | .ok (run, _) => ((run.logl.zip run.theta).map f).sum
  | .error _ => 0

/-- The sum of `f` over the samples of thread `k`. -/
def Spec.threadTotal (f : K × List K → ℝ) (r : Run K) (labels : List Int) (k : Nat) : ℝ :=
  (((r.logl.zip r.theta).zip labels).map (fun p => if p.2 = (k : Int) then f p.1 else 0)).sum

/-- The arithmetic mean of `F` over `s`. -/
def Spec.meanOver (s : Finset Nat) (F : Nat → ℝ) : ℝ := (∑ i ∈ s, F i) / s.card

/-! ### Uniform draws from a finite set -/

theorem integrableOn_count (s : Finset Nat) (g : Nat → ℝ) : IntegrableOn g (s : Set Nat) Measure.count := by
  have : IsFiniteMeasure (Measure.count.restrict (s : Set Nat)) := ⟨by simp⟩
  have h := IntegrableOn.finset (μ := Measure.count.restrict (s : Set Nat)) (s := s) (f := g)
  unfold IntegrableOn at h ⊢
  rwa [Measure.restrict_restrict s.measurableSet, Set.inter_self] at h

theorem integrable_uniformOn (s : Finset Nat) (g : Nat → ℝ) : Integrable g (uniformOn (s : Set Nat)) := by
  have h := integrableOn_count s g
  unfold uniformOn ProbabilityTheory.cond
  by_cases hs : s = ∅
  · simp [hs]
  · exact Integrable.smul_measure h (by simp [hs])

theorem integral_uniformOn (s : Finset Nat) (g : Nat → ℝ) :
    ∫ x, g x ∂(uniformOn (s : Set Nat)) = meanOver s g := by
  have h := integrableOn_count s g
  unfold uniformOn ProbabilityTheory.cond meanOver
  rw [integral_smul_measure, setIntegral_finset _ h]
  simp [Measure.real, div_eq_inv_mul]

theorem memLp_uniformOn (s : Finset Nat) (g : Nat → ℝ) : MemLp g 2 (uniformOn (s : Set Nat)) :=
  (memLp_two_iff_integrable_sq (by fun_prop)).mpr (integrable_uniformOn s _)

theorem variance_uniformOn (s : Finset Nat) (g : Nat → ℝ) :
    Var[g; uniformOn (s : Set Nat)] = meanOver s (fun i => (g i - meanOver s g) ^ 2) := by
  rw [variance_eq_integral (by fun_prop), integral_uniformOn, integral_uniformOn]

theorem mem_group {n j : Nat} {sep : Option Nat} (hsep : ∀ k, sep = some k → k ≤ n) (hj : j < n) :
    j ∈ group n sep j := by
  unfold group
  cases sep with
  | none => simpa using hj
  | some k =>
    have := hsep k rfl
    by_cases hk : j < k
    · simp [hk]
    · simp [hk, hj]; omega

/-- Means over the groups add up to the sum over all threads. -/
theorem sum_meanOver {n : Nat} {sep : Option Nat} (hsep : ∀ k, sep = some k → k ≤ n) (h : Finset Nat → Nat → ℝ) :
    ∑ j ∈ Finset.range n, meanOver (group n sep j) (h (group n sep j)) =
      ∑ i ∈ Finset.range n, h (group n sep i) i := by
  have key : ∀ s : Finset Nat, ∑ _j ∈ s, meanOver s (h s) = ∑ i ∈ s, h s i := by
    intro s
    rw [Finset.sum_const, nsmul_eq_mul, meanOver]
    by_cases hs : s.card = 0
    · rw [Finset.card_eq_zero.mp hs]; simp
    · field_simp
  cases sep with
  | none => exact key (Finset.range n)
  | some k =>
    have hk := hsep k rfl
    rw [← Finset.sum_range_add_sum_Ico _ hk, ← Finset.sum_range_add_sum_Ico _ hk]
    have h1 : ∀ j ∈ Finset.range k, group n (some k) j = Finset.range k := by
      intro j hj
      simp [group, Finset.mem_range.mp hj]
    have h2 : ∀ j ∈ Finset.Ico k n, group n (some k) j = Finset.Ico k n := by
      intro j hj
      simp [group, (Finset.mem_Ico.mp hj).1]
    congr 1
    · rw [Finset.sum_congr rfl (fun j hj => by rw [h1 j hj]), key]
      exact Finset.sum_congr rfl (fun j hj => by rw [h1 j hj])
    · rw [Finset.sum_congr rfl (fun j hj => by rw [h2 j hj]), key]
      exact Finset.sum_congr rfl (fun j hj => by rw [h2 j hj])

section draws
variable {n : Nat} {sep : Option Nat} (hsep : ∀ k, sep = some k → k ≤ n)
include hsep

theorem group_prob (j : Fin n) : IsProbabilityMeasure (uniformOn (group n sep j : Set Nat)) :=
  isProbabilityMeasure_uniformOn (Finset.finite_toSet _) ⟨j, mem_group hsep j.2⟩

theorem sum_mean (F : Nat → ℝ) :
    Integrable (fun u : Fin n → Nat => ∑ j, F (u j)) (Measure.pi (fun j : Fin n => uniformOn (group n sep j : Set Nat))) ∧
    ∫ u : Fin n → Nat, ∑ j, F (u j) ∂(Measure.pi (fun j : Fin n => uniformOn (group n sep j : Set Nat))) =
      ∑ i ∈ Finset.range n, F i := by
  have := fun j => group_prob hsep (n := n) j
  have hev : ∀ j : Fin n, MeasurePreserving (fun u : Fin n → Nat => u j)
      (Measure.pi (fun j : Fin n => uniformOn (group n sep j : Set Nat))) (uniformOn (group n sep j : Set Nat)) :=
    fun j => measurePreserving_eval (fun j : Fin n => uniformOn (group n sep j : Set Nat)) j
  have hint : ∀ j : Fin n, Integrable (fun u : Fin n → Nat => F (u j))
      (Measure.pi (fun j : Fin n => uniformOn (group n sep j : Set Nat))) :=
    fun j => (hev j).integrable_comp_of_integrable (integrable_uniformOn _ F)
  refine ⟨integrable_finsetSum _ fun j _ => hint j, ?_⟩
  rw [integral_finsetSum _ fun j _ => hint j, ← sum_meanOver hsep (fun _ => F), Finset.sum_range]
  apply Finset.sum_congr rfl
  intro j _
  rw [← integral_uniformOn]
  have := integral_map (μ := Measure.pi (fun j : Fin n => uniformOn (group n sep j : Set Nat)))
    (hev j).measurable.aemeasurable (f := F) (by fun_prop)
  rw [(hev j).map_eq] at this
  exact this.symm

theorem sum_variance (F : Nat → ℝ) :
    Var[fun u : Fin n → Nat => ∑ j, F (u j); Measure.pi (fun j : Fin n => uniformOn (group n sep j : Set Nat))] =
      ∑ i ∈ Finset.range n, (F i - meanOver (group n sep i) F) ^ 2 := by
  have := fun j => group_prob hsep (n := n) j
  have h1 := variance_sum_pi (μ := fun j : Fin n => uniformOn (group n sep j : Set Nat)) (X := fun _ => F)
    (fun j => memLp_uniformOn _ _)
  have h2 : (∑ j : Fin n, fun u : Fin n → Nat => F (u j)) = fun u => ∑ j, F (u j) := by
    funext u
    simp
  rw [h2] at h1
  rw [h1, ← sum_meanOver hsep (fun s i => (F i - meanOver s F) ^ 2), Finset.sum_range]
  apply Finset.sum_congr rfl
  intro j _
  rw [variance_uniformOn]

theorem drawn_moments [MeasurableSpace Ω] {P : Measure Ω} {D : Ω → List Nat} (hd : IndependentDraws P n sep D)
    (F : Nat → ℝ) {T : Ω → ℝ} (hT : ∀ ω, T ω = ∑ j : Fin n, F ((D ω).getD j 0)) :
    Integrable T P ∧ ∫ ω, T ω ∂P = ∑ i ∈ Finset.range n, F i ∧
      Var[T; P] = ∑ i ∈ Finset.range n, (F i - meanOver (group n sep i) F) ^ 2 := by
  have heq : T = (fun u : Fin n → Nat => ∑ j, F (u j)) ∘ (fun ω (j : Fin n) => (D ω).getD j 0) := funext hT
  have hprob := fun j => group_prob hsep (n := n) j
  have hne : Measure.pi (fun j : Fin n => uniformOn (group n sep j : Set Nat)) ≠ 0 :=
    IsProbabilityMeasure.ne_zero _
  unfold IndependentDraws at hd
  have hmeas : AEMeasurable (fun ω (j : Fin n) => (D ω).getD j 0) P := by
    by_contra hc
    rw [Measure.map_of_not_aemeasurable hc] at hd
    exact hne hd.symm
  have hF0 : Measurable (fun u : Fin n → Nat => ∑ j, F (u j)) :=
    Finset.measurable_sum _ fun j _ => Measurable.of_discrete.comp (measurable_pi_apply j)
  have hF : AEStronglyMeasurable (fun u : Fin n → Nat => ∑ j, F (u j))
      (P.map (fun ω (j : Fin n) => (D ω).getD j 0)) := hF0.aestronglyMeasurable
  obtain ⟨m1, m2⟩ := sum_mean hsep F
  refine ⟨?_, ?_, ?_⟩
  · rw [heq, ← integrable_map_measure hF hmeas, hd]
    exact m1
  · rw [heq]
    have := integral_map hmeas hF
    rw [hd, m2] at this
    exact this.symm
  · rw [heq, ← sum_variance hsep, ← hd, variance_map hF.aemeasurable hmeas]

end draws

/-! ### The samples of the threads -/

theorem sum_pick {α : Type} (f : α → ℝ) (k : Int) {labels : List Int} {xs : List α} :
    ((pick labels k xs).map f).sum = ((xs.zip labels).map (fun p => if p.2 = k then f p.1 else 0)).sum := by
  induction labels generalizing xs with
  | nil => simp [pick]
  | cons l ls ih =>
    cases xs with
    | nil => simp [pick]
    | cons x xs =>
      have := ih (xs := xs)
      unfold pick at this ⊢
      rw [List.map_map] at this
      by_cases hl : l = k
      · simp [hl, this]
      · simp [hl, this]

theorem sum_flatMap_eq {α : Type} (g : α → List ℝ) (xs : List α) : (xs.flatMap g).sum = (xs.map (fun x => (g x).sum)).sum := by
  induction xs with
  | nil => rfl
  | cons x xs ih => rw [List.flatMap_cons, List.sum_append, ih, List.map_cons, List.sum_cons]

theorem sum_threads {r : Run K} {labels : List Int} {tmm : List (WithBot K × K)} (h : ValidWith r labels tmm)
    (f : K × List K → ℝ) :
    ∑ k ∈ Finset.range tmm.length, threadTotal f r labels k = ((r.logl.zip r.theta).map f).sum := by
  obtain ⟨-, -, -, h1, h2, -, h3⟩ := validWith_iff.mp h
  have hp := pick_perm (labels := labels) (n := tmm.length) (xs := r.logl.zip r.theta) (fun k hk => (h3.1 k).mp hk) (by
    rw [List.length_zip, h1, h2, min_self])
  rw [← (hp.map f).sum_eq, List.map_flatMap, sum_flatMap_eq, ← List.sum_toFinset _ List.nodup_range]
  rw [List.toFinset_range]
  apply Finset.sum_congr rfl
  intro k _
  rw [sum_pick]
  rfl

theorem sum_samples {r : Run K} {labels : List Int} {tmm : List (WithBot K × K)} (h : ValidWith r labels tmm)
    (f : K × List K → ℝ) {inds : List Nat} :
    ((samplesOf r labels inds).map f).sum = (inds.map (threadTotal f r labels)).sum := by
  obtain ⟨-, -, -, h1, h2, -, -⟩ := validWith_iff.mp h
  unfold samplesOf
  rw [List.map_flatMap, sum_flatMap_eq]
  congr 1
  apply List.map_congr_left
  intro k _
  rw [← pick_zip h1 (h1.trans h2.symm), sum_pick]
  rfl

theorem sum_getD {n : Nat} {inds : List Nat} (hn : inds.length = n) (F : Nat → ℝ) :
    (inds.map F).sum = ∑ j : Fin n, F (inds.getD j 0) := by
  subst hn
  rw [← List.sum_ofFn]
  congr 1
  apply List.ext_getElem
  · simp
  · intro k h1 h2
    simp

/-- C78.  If the threads are drawn uniformly and independently (with `ninit_sep` separately from the initial and the
other threads), then every replication of a static run is returned, the sum of any function over its samples has the
sum over the run as its mean, and its variance is the sum over the threads of the squared deviations from the mean of
the group of threads. -/
theorem C78 {A : Argsort K} {r : Run K} {labels : List Int} {tmm : List (WithBot K × K)}
    (h : ProperThreads r labels tmm) (hs : ∀ p ∈ tmm, p.1 = ⊥) {settings : Option Settings} {sep : Bool}
    (hsep : ∀ k, separately settings sep = some k → k ≤ tmm.length)
    [MeasurableSpace Ω] {P : Measure Ω} {w : Ω → World σ} {seed : Ω → Seed}
    (hd : IndependentDraws P tmm.length (separately settings sep) (fun ω =>
      indexes R tmm.length (separately settings sep) (seeded R (seed ω) (w ω).rng)))
    (f : K × List K → ℝ) :
    (∀ ω, ∃ run w', bootstrapResampleRun A R r settings none sep (seed ω) (w ω) = (.ok (run, settings), w')) ∧
    Integrable (fun ω => totalOver f (bootstrapResampleRun A R r settings none sep (seed ω) (w ω)).1) P ∧
    ∫ ω, totalOver f (bootstrapResampleRun A R r settings none sep (seed ω) (w ω)).1 ∂P =
      ((r.logl.zip r.theta).map f).sum ∧
    Var[fun ω => totalOver f (bootstrapResampleRun A R r settings none sep (seed ω) (w ω)).1; P] =
      ∑ k ∈ Finset.range tmm.length, (threadTotal f r labels k -
        meanOver (group tmm.length (separately settings sep) k) (threadTotal f r labels)) ^ 2 := by
  have hret : ∀ ω, ∃ run w', bootstrapResampleRun A R r settings none sep (seed ω) (w ω) = (.ok (run, settings), w') := by
    intro ω
    obtain ⟨run, w', h1, -⟩ := C36_static R (A := A) h hs hsep (seed ω) (w ω)
    exact ⟨run, w', h1⟩
  refine ⟨hret, ?_⟩
  rw [← sum_threads h.toValidWith]
  apply drawn_moments hsep hd (threadTotal f r labels)
  intro ω
  obtain ⟨run, w', h1⟩ := hret ω
  obtain ⟨-, inds, h2, h3, -⟩ := C34_bootstrap R h.toValidWith h1
  rw [h1]
  show ((run.logl.zip run.theta).map f).sum = _
  rw [(h3.map f).sum_eq, sum_samples h.toValidWith, sum_getD h2.count, h2.drawn]

/-- C78: on average a replication contains each sample as often as the run does, and has as many samples. -/
theorem C78_count {A : Argsort K} {r : Run K} {labels : List Int} {tmm : List (WithBot K × K)}
    (h : ProperThreads r labels tmm) (hs : ∀ p ∈ tmm, p.1 = ⊥) {settings : Option Settings} {sep : Bool}
    (hsep : ∀ k, separately settings sep = some k → k ≤ tmm.length)
    [MeasurableSpace Ω] {P : Measure Ω} {w : Ω → World σ} {seed : Ω → Seed}
    (hd : IndependentDraws P tmm.length (separately settings sep) (fun ω =>
      indexes R tmm.length (separately settings sep) (seeded R (seed ω) (w ω).rng))) :
    ∃ run : Ω → Run K, (∀ ω, ∃ w', bootstrapResampleRun A R r settings none sep (seed ω) (w ω) =
        (.ok (run ω, settings), w')) ∧
      (∀ x, ∫ ω, (((run ω).logl.zip (run ω).theta).count x : ℝ) ∂P = (r.logl.zip r.theta).count x) ∧
      ∫ ω, ((run ω).logl.length : ℝ) ∂P = r.logl.length := by
  have hret := (C78 (A := A) h hs hsep hd (fun _ => 0)).1
  choose run hrun using hret
  have htot : ∀ f ω, totalOver f (bootstrapResampleRun A R r settings none sep (seed ω) (w ω)).1 =
      (((run ω).logl.zip (run ω).theta).map f).sum := by
    intro f ω
    obtain ⟨w', h1⟩ := hrun ω
    rw [h1]
    rfl
  have hcount : ∀ (x : K × List K) (l : List (K × List K)),
      (l.map (fun y => if y = x then (1 : ℝ) else 0)).sum = (l.count x : ℝ) := by
    intro x l
    induction l with
    | nil => simp
    | cons y ys ih =>
      rw [List.map_cons, List.sum_cons, ih, List.count_cons]
      by_cases hy : y = x <;> simp [hy, add_comm]
  refine ⟨run, hrun, ?_, ?_⟩
  · intro x
    obtain ⟨-, -, h2, -⟩ := C78 (A := A) h hs hsep hd (fun y => if y = x then (1 : ℝ) else 0)
    simp only [htot, hcount] at h2
    exact h2
  · obtain ⟨-, -, h2, -⟩ := C78 (A := A) h hs hsep hd (fun _ => (1 : ℝ))
    simp only [htot, List.map_const', List.sum_replicate, List.length_zip, nsmul_eq_mul, mul_one,
      h.toValidWith.theta_len, min_self] at h2
    rw [← h2]
    apply integral_congr_ae
    filter_upwards with ω
    obtain ⟨w', h1⟩ := hrun ω
    obtain ⟨-, _, -, -, -, h3, -⟩ := C34_bootstrap R h.toValidWith h1
    simp only [h3, min_self]

/-! ### An example -/

/-- A generator whose state holds the next two draws. -/
def twoRng : Rng (Fin 2 → Nat) ℤ where
  seed _ := fun _ => 0
  seedOS _ := fun _ => 0
  randint lo hi n s := (List.ofFn (fun k : Fin n => if h : (k : Nat) < 2 then
    (if lo ≤ s ⟨k, h⟩ ∧ s ⟨k, h⟩ < hi then s ⟨k, h⟩ else lo) else lo), s)
  randint_length := by simp
  randint_range := by
    intro lo hi n s h x hx
    obtain ⟨k, rfl⟩ := List.mem_ofFn.mp hx
    split_ifs with h1 h2
    · exact h2
    · exact ⟨le_rfl, h⟩
    · exact ⟨le_rfl, h⟩
  shuffle n s := (List.range n, s)
  shuffle_perm _ _ := List.Perm.refl _
  uniform n s := (List.replicate n 0, s)
  uniform_length := by simp
  uniform_range := by
    intro n s x hx
    rw [List.eq_of_mem_replicate hx]
    exact ⟨le_rfl, one_pos⟩

theorem twoRng_independent : IndependentDraws (Measure.pi (fun _ : Fin 2 => uniformOn (Finset.range 2 : Set Nat))) 2 none
    (fun s => indexes twoRng 2 none s) := by
  have := isProbabilityMeasure_uniformOn (s := (Finset.range 2 : Set Nat)) (Finset.finite_toSet _) ⟨0, by simp⟩
  unfold IndependentDraws
  rw [Measure.map_congr (g := id), Measure.map_id]
  · rfl
  · have hr : ∀ᵐ x ∂(uniformOn (Finset.range 2 : Set Nat)), x < 2 := by
      rw [ae_iff, uniformOn_eq_zero_iff (Finset.finite_toSet _)]
      ext x
      simp
    have : ∀ᵐ s : Fin 2 → Nat ∂(Measure.pi (fun _ : Fin 2 => uniformOn (Finset.range 2 : Set Nat))), ∀ i, s i < 2 :=
      ae_all_iff.mpr fun i => (measurePreserving_eval (fun _ : Fin 2 => uniformOn (Finset.range 2 : Set Nat)) i).quasiMeasurePreserving.ae hr
    filter_upwards [this] with s hs
    funext i
    have h0 := hs 0
    have h1 := hs 1
    fin_cases i <;> simp [indexes, block, twoRng] <;> omega

/-- C78 applies: the threads of the run have 8 = 3 + 5 and 12 = 5 + 7 as the sums of their loglikelihoods, so the sum over a
replication has mean 20 and variance (8 - 10)² + (12 - 10)² = 8. -/
example :
    ∫ s, totalOver (fun p : ℤ × List ℤ => (p.1 : ℝ)) (bootstrapResampleRun (stableSort ℤ) twoRng exStatic none none false .keep
      ⟨s, []⟩).1 ∂(Measure.pi (fun _ : Fin 2 => uniformOn (Finset.range 2 : Set Nat))) = 20 ∧
    Var[fun s => totalOver (fun p : ℤ × List ℤ => (p.1 : ℝ)) (bootstrapResampleRun (stableSort ℤ) twoRng exStatic none none
      false .keep ⟨s, []⟩).1; Measure.pi (fun _ : Fin 2 => uniformOn (Finset.range 2 : Set Nat))] = 8 := by
  obtain ⟨-, -, h1, h2⟩ := C78 (A := stableSort ℤ) (R := twoRng) exStatic_proper (by decide) (settings := none) (sep := false)
    (by simp [separately]) (w := fun s => ⟨s, []⟩) (seed := fun _ => .keep) twoRng_independent
    (fun p : ℤ × List ℤ => (p.1 : ℝ))
  refine ⟨h1.trans ?_, h2.trans ?_⟩
  · simp [exStatic]; norm_num
  · simp [exStatic, threadTotal, meanOver, group, separately, Finset.sum_range_succ]; norm_num

end
end Nestcheck
