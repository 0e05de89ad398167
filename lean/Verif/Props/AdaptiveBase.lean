import Verif.Spec.Adaptive
import Verif.Props.Volumes

/-! Lemmas for C92: the largest of some of several uniform draws, and the others given the largest. -/

namespace Nestcheck
open Spec MeasureTheory ENNReal
variable {N : Nat}

noncomputable section

/-- Substitution: the density of the largest of `n + 1` uniform draws. -/
theorem lintegral_root (n : Nat) {g : ℝ → ℝ≥0∞} (hg : Measurable g) :
    ∫⁻ x, g (root (n + 1) x) ∂unif = (n + 1) * ∫⁻ t, ENNReal.ofReal t ^ n * g t ∂unif := by
  have h2 : ∫⁻ u, g (takeMax (List.ofFn u)).1 ∂unifPow (n + 1) = ∫⁻ x, g (root (n + 1) x) ∂unif := by
    rw [← lintegral_map hg (measurable_root _), root_law, lintegral_map hg (measurable_takeMax n)]
  rw [← h2, lintegral_takeMax (H := fun t _ => g t) (hg.comp measurable_fst)]
  congr 1
  apply lintegral_congr_ae
  filter_upwards [unif_pos] with t ht
  rw [unifPow_restrict n ht.1 ht.2.le, lintegral_smul_measure, smul_eq_mul, lintegral_const]
  rw [Measure.map_apply (by fun_prop) MeasurableSet.univ]
  simp

/-- Scaling of the coordinates in `B`. -/
def scale (c : ℝ) (B : Finset (Fin N)) (u : Fin N → ℝ) : Fin N → ℝ := fun b => if b ∈ B then c * u b else u b

theorem measurable_scale (c : ℝ) (B : Finset (Fin N)) : Measurable (scale c B) := by
  refine measurable_pi_lambda _ fun b => ?_
  unfold scale
  split_ifs
  · fun_prop
  · fun_prop

theorem unifPow_restrict_subset (B : Finset (Fin N)) {t : ℝ} (h0 : 0 < t) (h1 : t ≤ 1) :
    (unifPow N).restrict {v | ∀ i ∈ B, v i < t} = ENNReal.ofReal t ^ B.card • (unifPow N).map (scale t B) := by
  have hs : {v : Fin N → ℝ | ∀ i ∈ B, v i < t} = Set.univ.pi (fun i => if i ∈ B then Set.Iio t else Set.univ) := by
    ext v
    simp only [Set.mem_ofPred_eq, Set.mem_univ_pi]
    refine forall_congr' fun i => ?_
    by_cases hi : i ∈ B <;> simp [hi]
  have hm := measurable_scale t B
  rw [hs, Measure.restrict_pi_pi]
  refine Measure.pi_eq fun s hsm => ?_
  rw [Measure.smul_apply, Measure.map_apply hm (MeasurableSet.univ_pi hsm)]
  have : scale t B ⁻¹' (Set.univ.pi s) = Set.univ.pi (fun i => (fun x => if i ∈ B then t * x else x) ⁻¹' (s i)) := by
    ext v
    simp [scale]
  rw [this, Measure.pi_pi]
  have : ∀ i, unif.restrict (if i ∈ B then Set.Iio t else Set.univ) (s i) =
      (if i ∈ B then ENNReal.ofReal t else 1) * unif ((fun x => if i ∈ B then t * x else x) ⁻¹' (s i)) := by
    intro i
    by_cases hi : i ∈ B
    · simp only [hi, if_true]
      rw [unif_restrict h0 h1, Measure.smul_apply, Measure.map_apply (measurable_const_mul t) (hsm i), smul_eq_mul]
    · simp [hi]
  simp only [this, Finset.prod_mul_distrib, smul_eq_mul]
  rw [Finset.prod_ite_mem, Finset.univ_inter, Finset.prod_const]

/-- The draws when the largest of those in `A` is number `a`, from unrestricted draws. -/
def below (a : Fin N) (A : Finset (Fin N)) (u : Fin N → ℝ) : Fin N → ℝ :=
  fun b => if b = a then root A.card (u a) else if b ∈ A then root A.card (u a) * u b else u b

theorem measurable_below (a : Fin N) (A : Finset (Fin N)) : Measurable (below a A) := by
  refine measurable_pi_lambda _ fun b => ?_
  unfold below
  have h1 : Measurable (fun u : Fin N → ℝ => root A.card (u a)) := (measurable_root _).comp (measurable_pi_apply a)
  split_ifs
  · exact h1
  · exact h1.mul (measurable_pi_apply b)
  · exact measurable_pi_apply b

/-- The draws in `A` of which number `a` is the largest. -/
theorem lintegral_below {a : Fin N} {A : Finset (Fin N)} (ha : a ∈ A) {F : (Fin N → ℝ) → ℝ≥0∞} (hF : Measurable F) :
    ∫⁻ u in {u | ∀ b ∈ A, b ≠ a → u b < u a}, F u ∂unifPow N = (A.card : ℝ≥0∞)⁻¹ * ∫⁻ u, F (below a A u) ∂unifPow N := by
  cases N with
  | zero => exact a.elim0
  | succ N =>
    set B : Finset (Fin N) := Finset.univ.filter (fun i => a.succAbove i ∈ A) with hB
    have hcard : A.card = B.card + 1 := by
      have : A = insert a (B.map (Fin.succAboveEmb a)) := by
        ext b
        simp only [Finset.mem_insert, Finset.mem_map, hB, Finset.mem_filter, Finset.mem_univ, true_and]
        constructor
        · intro hb
          by_cases hba : b = a
          · exact Or.inl hba
          · obtain ⟨i, rfl⟩ := Fin.exists_succAbove_eq hba
            exact Or.inr ⟨i, hb, rfl⟩
        · rintro (rfl | ⟨i, hi, rfl⟩)
          · exact ha
          · exact hi
      rw [this, Finset.card_insert_of_notMem, Finset.card_map]
      intro h
      obtain ⟨i, _, hi⟩ := Finset.mem_map.mp h
      exact Fin.succAbove_ne a i hi
    have hset : MeasurableSet {u : Fin (N + 1) → ℝ | ∀ b ∈ A, b ≠ a → u b < u a} := by
      have : {u : Fin (N + 1) → ℝ | ∀ b ∈ A, b ≠ a → u b < u a} = ⋂ b, {u | b ∈ A → b ≠ a → u b < u a} := by ext; simp
      rw [this]
      refine MeasurableSet.iInter fun b => ?_
      by_cases h : b ∈ A ∧ b ≠ a
      · have : {u : Fin (N + 1) → ℝ | b ∈ A → b ≠ a → u b < u a} = {u | u b < u a} := by ext; simp [h.1, h.2]
        rw [this]
        exact measurableSet_lt (measurable_pi_apply b) (measurable_pi_apply a)
      · have : {u : Fin (N + 1) → ℝ | b ∈ A → b ≠ a → u b < u a} = Set.univ := by
          ext u
          simp only [Set.mem_ofPred_eq, Set.mem_univ, iff_true]
          intro h1 h2
          exact absurd ⟨h1, h2⟩ h
        rw [this]
        exact MeasurableSet.univ
    set e := MeasurableEquiv.piFinSuccAbove (fun _ : Fin (N + 1) => ℝ) a with he
    have hp := measurePreserving_piFinSuccAbove (fun _ : Fin (N + 1) => unif) a
    have hes : ∀ v w i, e.symm (v, w) (a.succAbove i) = w i := fun v w i => by
      simp [he, MeasurableEquiv.piFinSuccAbove, Fin.insertNthEquiv]
    have hea : ∀ v w, e.symm (v, w) a = v := fun v w => by
      simp [he, MeasurableEquiv.piFinSuccAbove, Fin.insertNthEquiv]
    have hsplit : ∀ {G : (Fin (N + 1) → ℝ) → ℝ≥0∞}, Measurable G →
        ∫⁻ u, G u ∂unifPow (N + 1) = ∫⁻ v, ∫⁻ w, G (e.symm (v, w)) ∂unifPow N ∂unif := by
      intro G hG
      have h := (hp.symm e).lintegral_comp hG
      exact h.symm.trans (lintegral_prod _ (hG.comp e.symm.measurable).aemeasurable)
    have hG : Measurable (fun v : ℝ => ∫⁻ w, F (e.symm (v, scale v B w)) ∂unifPow N) := by
      have : Measurable (fun p : ℝ × (Fin N → ℝ) => F (e.symm (p.1, scale p.1 B p.2))) := by
        refine hF.comp (e.symm.measurable.comp (measurable_fst.prodMk (measurable_pi_lambda _ fun b => ?_)))
        unfold scale
        split_ifs
        · fun_prop
        · fun_prop
      exact this.lintegral_prod_right'
    have h1 : ∫⁻ u in {u | ∀ b ∈ A, b ≠ a → u b < u a}, F u ∂unifPow (N + 1) =
        ∫⁻ v, ENNReal.ofReal v ^ B.card * ∫⁻ w, F (e.symm (v, scale v B w)) ∂unifPow N ∂unif := by
      rw [← lintegral_indicator hset, hsplit (hF.indicator hset)]
      apply lintegral_congr_ae
      filter_upwards [unif_pos] with v hv
      have hmem : ∀ w, e.symm (v, w) ∈ {u : Fin (N + 1) → ℝ | ∀ b ∈ A, b ≠ a → u b < u a} ↔ w ∈ {w : Fin N → ℝ | ∀ i ∈ B, w i < v} := by
        intro w
        simp only [Set.mem_ofPred_eq, hea]
        constructor
        · intro h i hi
          have := h (a.succAbove i) (by simpa [hB] using hi) (Fin.succAbove_ne a i)
          rwa [hes] at this
        · intro h b hb hba
          obtain ⟨i, rfl⟩ := Fin.exists_succAbove_eq hba
          rw [hes]
          exact h i (by simpa [hB] using hb)
      have hms : MeasurableSet {w : Fin N → ℝ | ∀ i ∈ B, w i < v} := by
        have hh := hset.preimage (e.symm.measurable.comp (measurable_prodMk_left (x := v)))
        have : {w : Fin N → ℝ | ∀ i ∈ B, w i < v} = (e.symm ∘ Prod.mk v) ⁻¹' {u | ∀ b ∈ A, b ≠ a → u b < u a} := by
          ext w
          exact (hmem w).symm
        rw [this]
        exact hh
      have : ∀ w, {u : Fin (N + 1) → ℝ | ∀ b ∈ A, b ≠ a → u b < u a}.indicator F (e.symm (v, w)) =
          {w : Fin N → ℝ | ∀ i ∈ B, w i < v}.indicator (fun w => F (e.symm (v, w))) w := by
        intro w
        by_cases hw : w ∈ {w : Fin N → ℝ | ∀ i ∈ B, w i < v}
        · rw [Set.indicator_of_mem hw, Set.indicator_of_mem ((hmem w).mpr hw)]
        · rw [Set.indicator_of_notMem hw, Set.indicator_of_notMem (fun h => hw ((hmem w).mp h))]
      simp only [this]
      have hFv : Measurable (fun w : Fin N → ℝ => F (e.symm (v, w))) := hF.comp (e.symm.measurable.comp measurable_prodMk_left)
      rw [lintegral_indicator hms, unifPow_restrict_subset B hv.1 hv.2.le, lintegral_smul_measure, smul_eq_mul,
        lintegral_map hFv (measurable_scale v B)]
    have h2 : ∫⁻ u, F (below a A u) ∂unifPow (N + 1) = (B.card + 1) *
        ∫⁻ v, ENNReal.ofReal v ^ B.card * ∫⁻ w, F (e.symm (v, scale v B w)) ∂unifPow N ∂unif := by
      rw [← lintegral_root B.card hG]
      refine (hsplit (hF.comp (measurable_below a A))).trans ?_
      refine lintegral_congr fun v => lintegral_congr fun w => ?_
      show F (below a A (e.symm (v, w))) = _
      congr 1
      funext b
      by_cases hba : b = a
      · subst hba
        simp [below, hea, hcard]
      · obtain ⟨i, rfl⟩ := Fin.exists_succAbove_eq hba
        have hiB : i ∈ B ↔ a.succAbove i ∈ A := by simp [hB]
        simp only [below, hes, hea, hcard, hba, if_false, scale, hiB]
    rw [h1, h2, hcard, ← mul_assoc]
    push_cast
    rw [ENNReal.inv_mul_cancel (by simp) (by finiteness), one_mul]

/-- One of the draws, and the others, for a function of both that does not look at the draw among the others. -/
theorem lintegral_decouple (a : Fin N) {Ψ : ℝ → (Fin N → ℝ) → ℝ≥0∞} (hm : Measurable (fun p : ℝ × (Fin N → ℝ) => Ψ p.1 p.2))
    (hi : ∀ v u u', (∀ b, b ≠ a → u b = u' b) → Ψ v u = Ψ v u') :
    ∫⁻ u, Ψ (u a) u ∂unifPow N = ∫⁻ v, ∫⁻ u, Ψ v u ∂unifPow N ∂unif := by
  cases N with
  | zero => exact a.elim0
  | succ N =>
    set e := MeasurableEquiv.piFinSuccAbove (fun _ : Fin (N + 1) => ℝ) a with he
    have hp := measurePreserving_piFinSuccAbove (fun _ : Fin (N + 1) => unif) a
    have hes : ∀ v w i, e.symm (v, w) (a.succAbove i) = w i := fun v w i => by
      simp [he, MeasurableEquiv.piFinSuccAbove, Fin.insertNthEquiv]
    have hea : ∀ v w, e.symm (v, w) a = v := fun v w => by
      simp [he, MeasurableEquiv.piFinSuccAbove, Fin.insertNthEquiv]
    have hsplit : ∀ {G : (Fin (N + 1) → ℝ) → ℝ≥0∞}, Measurable G →
        ∫⁻ u, G u ∂unifPow (N + 1) = ∫⁻ v, ∫⁻ w, G (e.symm (v, w)) ∂unifPow N ∂unif := by
      intro G hG
      have h := (hp.symm e).lintegral_comp hG
      exact h.symm.trans (lintegral_prod _ (hG.comp e.symm.measurable).aemeasurable)
    have hm1 : Measurable (fun u : Fin (N + 1) → ℝ => Ψ (u a) u) := by
      have hq : Measurable (fun u : Fin (N + 1) → ℝ => (u a, u)) := (measurable_pi_apply a).prodMk measurable_id
      exact hm.comp hq
    have hm2 : ∀ v, Measurable (Ψ v) := fun v => hm.comp measurable_prodMk_left
    rw [hsplit hm1]
    refine lintegral_congr fun v => ?_
    rw [hsplit (hm2 v)]
    have : ∀ x, ∫⁻ w, Ψ v (e.symm (x, w)) ∂unifPow N = ∫⁻ w, Ψ v (e.symm (v, w)) ∂unifPow N := by
      intro x
      refine lintegral_congr fun w => hi _ _ _ fun b hb => ?_
      obtain ⟨i, rfl⟩ := Fin.exists_succAbove_eq hb
      rw [hes, hes]
    simp only [this, lintegral_const, measure_univ, mul_one, hea]

theorem tops_nonempty {A : Finset (Fin N)} (h : A.Nonempty) (x : Fin N → ℝ) : (tops A x).Nonempty := by
  obtain ⟨a, ha, hmax⟩ := A.exists_max_image x h
  exact ⟨a, Finset.mem_filter.mpr ⟨ha, hmax⟩⟩

theorem tops_eq_singleton {A : Finset (Fin N)} {x : Fin N → ℝ} {a : Fin N} (ha : a ∈ A) (h : ∀ b ∈ A, b ≠ a → x b < x a) :
    tops A x = {a} := by
  ext b
  simp only [tops, Finset.mem_filter, Finset.mem_singleton]
  constructor
  · rintro ⟨hb, hm⟩
    by_contra hne
    exact absurd (hm a ha) (not_le.mpr (h b hb hne))
  · intro e
    rw [e]
    refine ⟨ha, fun d hd => ?_⟩
    by_cases hda : d = a
    · rw [hda]
    · exact (h d hd hda).le

theorem tops_congr {A : Finset (Fin N)} {x y : Fin N → ℝ} (h : ∀ b ∈ A, x b = y b) : tops A x = tops A y := by
  unfold tops
  refine Finset.filter_congr fun a ha => ?_
  constructor
  · intro hm b hb
    rw [← h a ha, ← h b hb]
    exact hm b hb
  · intro hm b hb
    rw [h a ha, h b hb]
    exact hm b hb

theorem tops_scale {c : ℝ} (hc : 0 < c) (A : Finset (Fin N)) (u : Fin N → ℝ) : tops A (scale c A u) = tops A u := by
  unfold tops
  refine Finset.filter_congr fun a ha => forall₂_congr fun b hb => ?_
  simp only [scale, ha, hb, if_true]
  exact mul_le_mul_iff_of_pos_left hc

theorem measurableSet_below (a : Fin N) (A : Finset (Fin N)) : MeasurableSet {u : Fin N → ℝ | ∀ b ∈ A, b ≠ a → u b < u a} := by
  have : {u : Fin N → ℝ | ∀ b ∈ A, b ≠ a → u b < u a} = ⋂ b ∈ A.erase a, {u | u b < u a} := by
    ext u
    simp only [Set.mem_ofPred_eq, Set.mem_iInter, Finset.mem_erase]
    exact ⟨fun h b hb => h b hb.2 hb.1, fun h b h1 h2 => h b ⟨h2, h1⟩⟩
  rw [this]
  exact Finset.measurableSet_biInter _ fun b _ => measurableSet_lt (measurable_pi_apply b) (measurable_pi_apply a)

/-- Which of the draws in `A` is the largest: each of them with the same probability. -/
theorem lintegral_tops {A : Finset (Fin N)} (hA : A.Nonempty) {G : (Fin N → ℝ) → ℝ≥0∞} {H : Fin N → (Fin N → ℝ) → ℝ≥0∞}
    (hH : ∀ a ∈ A, Measurable (H a)) (hG : ∀ a ∈ A, ∀ u, tops A u = {a} → G u = H a u) :
    ∫⁻ u, G u ∂unifPow N = ∑ a ∈ A, (A.card : ℝ≥0∞)⁻¹ * ∫⁻ u, H a (below a A u) ∂unifPow N := by
  have h1 : ∫⁻ u, G u ∂unifPow N =
      ∫⁻ u, ∑ a ∈ A, {u : Fin N → ℝ | ∀ b ∈ A, b ≠ a → u b < u a}.indicator (H a) u ∂unifPow N := by
    apply lintegral_congr_ae
    filter_upwards [unifPow_injective N] with u hu
    obtain ⟨a, ha, hmax⟩ := A.exists_max_image u hA
    have hlt : ∀ b ∈ A, b ≠ a → u b < u a := fun b hb hne => lt_of_le_of_ne (hmax b hb) fun e => hne (hu e)
    rw [hG a ha u (tops_eq_singleton ha hlt), Finset.sum_eq_single_of_mem a ha]
    · rw [Set.indicator_of_mem (show u ∈ {u : Fin N → ℝ | ∀ b ∈ A, b ≠ a → u b < u a} from hlt)]
    · intro b hb hne
      rw [Set.indicator_of_notMem]
      intro (h : ∀ b' ∈ A, b' ≠ b → u b' < u b)
      exact absurd (h a ha hne.symm) (not_lt.mpr (hmax b hb))
  rw [h1, lintegral_finsetSum _ fun a ha => (hH a ha).indicator (measurableSet_below a A)]
  refine Finset.sum_congr rfl fun a ha => ?_
  rw [lintegral_indicator (measurableSet_below a A), lintegral_below ha (hH a ha)]

/-! ### Measurability -/

theorem measurable_select {α β γ : Type*} [MeasurableSpace α] [MeasurableSpace β] [Countable γ] {g : α → γ}
    (hg : ∀ c, MeasurableSet {a | g a = c}) {f : γ → α → β} (hf : ∀ c, Measurable (f c)) : Measurable (fun a => f (g a) a) := by
  intro s hs
  have : (fun a => f (g a) a) ⁻¹' s = ⋃ c, {a | g a = c} ∩ f c ⁻¹' s := by
    ext a
    simp
  rw [this]
  exact MeasurableSet.iUnion fun c => (hg c).inter (hf c hs)

theorem measurableSet_tops {α : Type*} [MeasurableSpace α] {x : α → Fin N → ℝ} (hx : Measurable x) (A T : Finset (Fin N)) :
    MeasurableSet {a | tops A (x a) = T} := by
  have : {a | tops A (x a) = T} = ⋂ i : Fin N, {a | i ∈ tops A (x a) ↔ i ∈ T} := by
    ext a
    simp [Finset.ext_iff]
  rw [this]
  refine MeasurableSet.iInter fun i => ?_
  have hm : MeasurableSet {a | i ∈ tops A (x a)} := by
    by_cases hi : i ∈ A
    · have : {a | i ∈ tops A (x a)} = ⋂ b ∈ A, {a | x a b ≤ x a i} := by
        ext a
        simp [tops, hi]
      rw [this]
      exact Finset.measurableSet_biInter _ fun b _ =>
        measurableSet_le ((measurable_pi_apply b).comp hx) ((measurable_pi_apply i).comp hx)
    · have : {a | i ∈ tops A (x a)} = ∅ := by
        ext a
        simp [tops, hi]
      rw [this]
      exact MeasurableSet.empty
  by_cases hT : i ∈ T
  · simpa [hT] using hm
  · simp only [hT, iff_false]
    exact hm.compl

end

end Nestcheck
