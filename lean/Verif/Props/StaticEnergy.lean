import Verif.Props.StaticDepth
import Verif.Props.AdaptiveEvidence

/-! C102: the mean of the squares of the lengths of the threads of an ideal sampler. -/

namespace Nestcheck
open Spec MeasureTheory ENNReal
variable {σ : Type} {N : Nat}

noncomputable section

/-- Twice the depths of the first `k` points removed, plus one each, until a point is not replaced. -/
def energy : Nat → (Fin N → Nat) → List (Removal N) → ℝ≥0∞
  | 0, _, _ => 0
  | _ + 1, _, [] => 0
  | k + 1, f, s :: l => if s.born = ∅ then 0 else
      ((2 * f s.point + 1 : Nat) : ℝ≥0∞) + energy k (fun b => if b ∈ s.born then f s.point + 1 else f b) l

theorem energy_eq : ∀ (k d : Nat) (f : Fin N → Nat) (l : List (Removal N)), d ≤ l.length →
    (∀ (i : Nat) s, l[i]? = some s → (s.born = ∅ ↔ d ≤ i)) →
    energy k f l = ((∑ i ∈ Finset.range (min k d), (2 * (inherit (fun m _ => m + 1) f l).getD i 0 + 1) : Nat) : ℝ≥0∞)
  | 0, d, f, l, _, _ => by simp [energy]
  | k + 1, d, f, [], hd, _ => by
    have : d = 0 := by simpa using hd
    simp [energy, this]
  | k + 1, d, f, s :: l, hd, h => by
    have h0 := h 0 s rfl
    rw [energy]
    rcases Nat.eq_zero_or_pos d with rfl | hpos
    · rw [if_pos (h0.mpr le_rfl)]
      simp
    · rw [if_neg (fun e => by have := h0.mp e; omega)]
      obtain ⟨d, rfl⟩ : ∃ d', d = d' + 1 := ⟨d - 1, by omega⟩
      have hd' : d ≤ l.length := by simpa using hd
      rw [energy_eq k d _ l hd' fun i t ht => by
        have := h (i + 1) t (by rw [List.getElem?_cons_succ]; exact ht)
        rw [this]; omega]
      rw [Nat.succ_min_succ, Finset.sum_range_succ', ← Nat.cast_add, Nat.add_comm]
      rfl

theorem expect_const_add {rule : Rule N} (C : ℝ≥0∞) : ∀ (k : Nat) {hist : List (Fin N × ℝ)} {A : Finset (Fin N)} {c : ℝ}
    {Φ : List (Removal N) → ℝ≥0∞}, expect rule k hist A c (fun l => C + Φ l) = C + expect rule k hist A c Φ
  | 0, _, _, _, _ => rfl
  | k + 1, hist, A, c, Φ => by
    by_cases hA : A.Nonempty
    swap
    · rw [expect, expect, if_pos (Finset.not_nonempty_iff_eq_empty.mp hA), if_pos (Finset.not_nonempty_iff_eq_empty.mp hA)]
    rw [expect, expect, if_neg hA.ne_empty, if_neg hA.ne_empty]
    simp only [expect_const_add C k, lintegral_add_left measurable_const, lintegral_const, measure_univ, mul_one, mul_add,
      Finset.sum_add_distrib]
    rw [card_average hA (f := fun _ => C) (m := C) fun _ _ => rfl]

theorem expect_zero {rule : Rule N} : ∀ (k : Nat) {hist : List (Fin N × ℝ)} {A : Finset (Fin N)} {c : ℝ},
    expect rule k hist A c (fun _ => 0) = 0
  | 0, _, _, _ => rfl
  | k + 1, hist, A, c => by
    rw [expect]
    simp only [expect_zero k, lintegral_zero, mul_zero, Finset.sum_const_zero, ite_self]

/-- A bound for the mean of the energy. -/
def energyBound (k m n : Nat) : ℝ≥0∞ := ∑ i ∈ Finset.range k, ((n : ℝ≥0∞)⁻¹ * (2 * (m + i) : Nat) + 1)

theorem expect_energy {rule : Rule N} (hsingle : ∀ hist, (rule hist).card ≤ 1) : ∀ (k : Nat) {hist : List (Fin N × ℝ)}
    {A D : Finset (Fin N)} {c : ℝ} {k0 : Nat} {f : Fin N → Nat}, A ⊆ D → A.Nonempty → Fresh rule k hist A D →
    expect rule k hist A c (energy k0 f) ≤ energyBound k0 (∑ a ∈ A, f a) A.card
  | 0, _, _, _, _, k0, _, _, _, _ => by
    cases k0 <;> simp [expect, energy]
  | k + 1, hist, A, D, c, 0, f, _, _, _ => by
    have : (energy 0 f : List (Removal N) → ℝ≥0∞) = fun _ => 0 := by funext l; rw [energy]
    rw [this, expect_zero]
    simp
  | k + 1, hist, A, D, c, k0 + 1, f, hAD, hA, hf => by
    set m := ∑ a ∈ A, f a with hm
    have hpos := Finset.card_pos.mpr hA
    rw [expect, if_neg hA.ne_empty]
    have hstep : ∀ a ∈ A, ∀ v, expect rule k ((a, c * root A.card v) :: hist) (A.erase a ∪ rule ((a, c * root A.card v) :: hist))
        (c * root A.card v) (fun l => energy (k0 + 1) f (⟨a, c * root A.card v, A.card, rule ((a, c * root A.card v) :: hist)⟩ :: l)) ≤
        ((2 * f a + 1 : Nat) : ℝ≥0∞) + energyBound k0 (m + 1) A.card := by
      intro a ha v
      set t := c * root A.card v with ht
      obtain ⟨hd, hf'⟩ := hf a ha t
      set S := rule ((a, t) :: hist) with hS
      simp only [energy]
      by_cases hS0 : S = ∅
      · simp only [hS0, if_true]
        rw [expect_zero]
        exact zero_le
      · simp only [hS0, if_false]
        rw [expect_const_add]
        have hS1 : S.card = 1 := by
          have h1 := hsingle ((a, t) :: hist)
          have h2 := Finset.card_pos.mpr (Finset.nonempty_iff_ne_empty.mpr hS0)
          rw [← hS] at h1
          omega
        obtain ⟨b, hb⟩ := Finset.card_eq_one.mp hS1
        have hSA : Disjoint (A.erase a) S := Finset.disjoint_left.mpr fun x hx hxS =>
          Finset.disjoint_left.mp hd hxS (hAD (Finset.mem_of_mem_erase hx))
        have hc : (A.erase a ∪ S).card = A.card := by
          rw [Finset.card_union_of_disjoint hSA, Finset.card_erase_of_mem ha]
          omega
        have ih := expect_energy hsingle k (hist := (a, t) :: hist) (A := A.erase a ∪ S) (D := D ∪ S) (c := t) (k0 := k0)
          (f := fun x => if x ∈ S then f a + 1 else f x)
          (Finset.union_subset_union ((Finset.erase_subset _ _).trans hAD) (Finset.Subset.refl _))
          (Finset.card_pos.mp (by omega)) hf'
        have hsum : ∑ x ∈ A.erase a ∪ S, (if x ∈ S then f a + 1 else f x) = m + 1 := by
          rw [Finset.sum_union hSA, Finset.sum_congr rfl fun x hx => if_neg (Finset.disjoint_left.mp hSA hx),
            Finset.sum_congr (s₁ := S) rfl fun x hx => if_pos hx, Finset.sum_const, hS1, one_smul]
          have h5 : f a + ∑ x ∈ A.erase a, f x = m := Finset.add_sum_erase A f ha
          change (∑ x ∈ A.erase a, f x) + (f a + 1) = m + 1
          omega
        rw [hc, hsum] at ih
        exact add_le_add le_rfl ih
    refine (Finset.sum_le_sum fun a ha => mul_le_mul_right (lintegral_mono (g := fun _ => ((2 * f a + 1 : Nat) : ℝ≥0∞) +
      energyBound k0 (m + 1) A.card) (hstep a ha)) _).trans (le_of_eq ?_)
    simp only [lintegral_const, measure_univ, mul_one, mul_add, Finset.sum_add_distrib]
    rw [card_average hA (f := fun _ => energyBound k0 (m + 1) A.card) (m := energyBound k0 (m + 1) A.card) fun _ _ => rfl]
    unfold energyBound
    rw [Finset.sum_range_succ', add_comm]
    congr 1
    · refine Finset.sum_congr rfl fun i _ => ?_
      rw [show m + 1 + i = m + (i + 1) by omega]
    · rw [← Finset.mul_sum, ← Nat.cast_sum, Finset.sum_add_distrib, ← Finset.mul_sum, Finset.sum_const, smul_eq_mul, mul_one, ← hm,
        Nat.cast_add, mul_add, ENNReal.inv_mul_cancel (by exact_mod_cast hpos.ne') (by finiteness), Nat.add_zero]

theorem energy_decisions : ∀ (k : Nat) (f : Fin N → Nat) (l l' : List (Removal N)), l.map decision = l'.map decision →
    energy k f l = energy k f l'
  | 0, _, _, _, _ => rfl
  | k + 1, f, [], [], _ => rfl
  | k + 1, f, [], t :: l', h => by simp at h
  | k + 1, f, s :: l, [], h => by simp at h
  | k + 1, f, s :: l, t :: l', h => by
    simp only [List.map_cons, List.cons.injEq] at h
    obtain ⟨h1, h2⟩ := h
    unfold decision at h1
    simp only [Prod.mk.injEq] at h1
    rw [energy, energy, h1.1, h1.2.2, energy_decisions k _ l l' h2]

/-- A function of the decisions only is measurable. -/
theorem decisions_measurableIn {α β : Type*} [MeasurableSpace α] [MeasurableSpace β] {Φ : List (Removal N) → β}
    (h : ∀ l l' : List (Removal N), l.map decision = l'.map decision → Φ l = Φ l') : MeasurableIn (fun (_ : α) => Φ) := by
  intro ds
  have hl : MList ds.length (fun p : α × (Fin ds.length → ℝ) => List.ofFn p.2) := MList.ofFn measurable_snd
  have e : ∀ p q : α × (Fin ds.length → ℝ), Φ (withVolumes ds (List.ofFn p.2)) = Φ (withVolumes ds (List.ofFn q.2)) := fun p q =>
    h _ _ (by rw [withVolumes_decision ds _ (hl.len p), withVolumes_decision ds _ (hl.len q)])
  exact measurable_const' e

theorem lintegral_energy {rule : Rule N} {start : Finset (Fin N)} (hs : StaticSchedule rule start) (k0 : Nat) :
    ∫⁻ u, energy k0 (fun _ => 0) (removals rule start u) ∂unifPow N ≤ energyBound k0 0 start.card := by
  have h1 := lintegral_iterate (Φ := energy k0 (fun _ => 0)) hs.measurable N one_pos (Finset.Subset.refl start) hs.fresh
    (decisions_measurableIn (energy_decisions k0 _))
  simp only [scale_one] at h1
  refine (le_of_eq h1).trans ((expect_energy hs.single N (Finset.Subset.refl _) hs.nonempty hs.fresh).trans (le_of_eq ?_))
  simp

theorem energyBound_le {k n : Nat} (hn : 0 < n) : energyBound k 0 n ≤ ENNReal.ofReal ((k : ℝ) + (k : ℝ) ^ 2 / n) := by
  have hn' : (0 : ℝ) < n := by exact_mod_cast hn
  have h1 : energyBound k 0 n ≤ ENNReal.ofReal (∑ i ∈ Finset.range k, ((n : ℝ)⁻¹ * (2 * i) + 1)) := by
    unfold energyBound
    rw [ENNReal.ofReal_sum_of_nonneg fun i _ => by positivity]
    refine Finset.sum_le_sum fun i _ => ?_
    rw [ENNReal.ofReal_add (by positivity) (by norm_num), ENNReal.ofReal_mul (by positivity), ENNReal.ofReal_one,
      ENNReal.ofReal_inv_of_pos hn', ENNReal.ofReal_natCast, Nat.zero_add]
    refine add_le_add (mul_le_mul_right (le_of_eq ?_) _) le_rfl
    rw [← ENNReal.ofReal_natCast]
    push_cast
    rfl
  refine h1.trans (ENNReal.ofReal_le_ofReal ?_)
  rw [Finset.sum_add_distrib, ← Finset.mul_sum, ← Finset.mul_sum, Finset.sum_const, Finset.card_range, nsmul_eq_mul, mul_one, add_comm]
  have h2 : ∀ k : Nat, 2 * ∑ i ∈ Finset.range k, (i : ℝ) ≤ (k : ℝ) ^ 2 := by
    intro k
    induction k with
    | zero => simp
    | succ k ih =>
      rw [Finset.sum_range_succ]
      push_cast
      nlinarith
  have h3 : (n : ℝ)⁻¹ * (2 * ∑ i ∈ Finset.range k, (i : ℝ)) ≤ (k : ℝ) ^ 2 / n := by
    rw [div_eq_inv_mul]
    exact mul_le_mul_of_nonneg_left (h2 k) (by positivity)
  linarith

end
end Nestcheck
