import Verif.Props.AdaptiveBase

/-! C92: the prior volumes of an ideal sampler that allocates its points adaptively. -/

namespace Nestcheck
open Spec MeasureTheory ENNReal
variable {σ Ω : Type} {N : Nat}

noncomputable section

theorem iterate_succ {rule : Rule N} {k : Nat} {hist : List (Fin N × ℝ)} {A : Finset (Fin N)} {x : Fin N → ℝ} {T : Finset (Fin N)}
    (e : tops A x = T) (h : T.Nonempty) : iterate rule (k + 1) hist A x =
      ⟨T.min' h, x (T.min' h), A.card, rule ((T.min' h, x (T.min' h)) :: hist)⟩ ::
        iterate rule k ((T.min' h, x (T.min' h)) :: hist) (A.erase (T.min' h) ∪ rule ((T.min' h, x (T.min' h)) :: hist))
          (fun b => if b ∈ rule ((T.min' h, x (T.min' h)) :: hist) then x (T.min' h) * x b else x b) := by
  subst e
  rw [iterate, dif_pos h]

theorem iterate_empty {rule : Rule N} {k : Nat} {hist : List (Fin N × ℝ)} {A : Finset (Fin N)} {x : Fin N → ℝ}
    (e : ¬ (tops A x).Nonempty) : iterate rule k hist A x = [] := by
  cases k with
  | zero => rfl
  | succ k => rw [iterate, dif_neg e]

theorem min'_mem_of_tops {A : Finset (Fin N)} {x : Fin N → ℝ} (h : (tops A x).Nonempty) : (tops A x).min' h ∈ A :=
  (Finset.mem_filter.mp ((tops A x).min'_mem h)).1

theorem tops_empty {A : Finset (Fin N)} {x : Fin N → ℝ} (hA : ¬ A.Nonempty) : ¬ (tops A x).Nonempty := fun h =>
  hA ⟨_, min'_mem_of_tops h⟩

theorem Spec.Feasible.fresh {rule : Rule N} : ∀ {k : Nat} {hist : List (Fin N × ℝ)} {A D : Finset (Fin N)}, Feasible rule k hist A D →
    Fresh rule k hist A D
  | 0, _, _, _, _ => trivial
  | _ + 1, _, _, _, h => fun a ha t => ⟨(h.2 a ha t).1, (h.2 a ha t).2.fresh⟩

theorem Spec.AdaptiveSchedule.stopping {rule : Rule N} {start : Finset (Fin N)} (hs : AdaptiveSchedule rule start) :
    StoppingSchedule rule start where
  nonempty := by
    have h1 := hs.feasible
    have h2 := hs.nonempty
    obtain ⟨n, rfl⟩ : ∃ n, N = n + 1 := ⟨N - 1, by omega⟩
    exact h1.1
  measurable := hs.measurable
  fresh := hs.feasible.fresh

/-- A point which is neither alive nor still to be drawn does not matter. -/
theorem iterate_congr {rule : Rule N} : ∀ (k : Nat) {hist : List (Fin N × ℝ)} {A D : Finset (Fin N)} {x y : Fin N → ℝ}, A ⊆ D →
    Fresh rule k hist A D → (∀ b, b ∈ A ∨ b ∉ D → x b = y b) → iterate rule k hist A x = iterate rule k hist A y
  | 0, _, _, _, _, _, _, _, _ => rfl
  | k + 1, hist, A, D, x, y, hAD, hf, h => by
    by_cases hA : A.Nonempty
    swap
    · rw [iterate_empty (tops_empty hA), iterate_empty (tops_empty hA)]
    have e : tops A y = tops A x := tops_congr fun b hb => (h b (.inl hb)).symm
    have hne := tops_nonempty hA x
    have ha : (tops A x).min' hne ∈ A := min'_mem_of_tops hne
    rw [iterate_succ rfl hne, iterate_succ e hne, ← h _ (.inl ha)]
    obtain ⟨hd, hf⟩ := hf _ ha (x ((tops A x).min' hne))
    congr 1
    refine iterate_congr k ?_ hf ?_
    · exact Finset.union_subset_union ((Finset.erase_subset _ _).trans hAD) (Finset.Subset.refl _)
    · intro b hb
      by_cases hS : b ∈ rule (((tops A x).min' hne, x ((tops A x).min' hne)) :: hist)
      · rw [if_pos hS, if_pos hS, h b (.inr (Finset.disjoint_left.mp hd hS))]
      · rw [if_neg hS, if_neg hS]
        refine h b ?_
        rcases hb with hb | hb
        · rcases Finset.mem_union.mp hb with hb | hb
          · exact .inl (Finset.mem_of_mem_erase hb)
          · exact absurd hb hS
        · exact .inr fun hD => hb (Finset.mem_union_left _ hD)

theorem iterate_length {rule : Rule N} : ∀ (k : Nat) {hist : List (Fin N × ℝ)} {A D : Finset (Fin N)} {x : Fin N → ℝ},
    Feasible rule k hist A D → (iterate rule k hist A x).length = k
  | 0, _, _, _, _, _ => rfl
  | k + 1, hist, A, D, x, ⟨hA, hf⟩ => by
    have hne := tops_nonempty hA x
    rw [iterate_succ rfl hne, List.length_cons, iterate_length k (hf _ (min'_mem_of_tops hne) _).2]

theorem shrinkages_length : ∀ (l : List (Removal N)) (c : ℝ), (shrinkages c l).length = l.length
  | [], _ => rfl
  | s :: l, c => by rw [shrinkages, List.length_cons, shrinkages_length l, List.length_cons]

/-! ### Measurability -/

/-- A list of removals from the volumes and the other data. -/
def withVolumes : List (Fin N × Nat × Finset (Fin N)) → List ℝ → List (Removal N)
  | d :: ds, v :: vs => ⟨d.1, v, d.2.1, d.2.2⟩ :: withVolumes ds vs
  | _, _ => []

/-- `Φ` is a measurable function of a parameter and of the volumes in a list of removals. -/
def MeasurableIn {α β : Type*} [MeasurableSpace α] [MeasurableSpace β] (Φ : α → List (Removal N) → β) : Prop :=
  ∀ ds : List (Fin N × Nat × Finset (Fin N)), Measurable (fun q : α × (Fin ds.length → ℝ) => Φ q.1 (withVolumes ds (List.ofFn q.2)))

theorem MeasurableIn.nil {α β : Type*} [MeasurableSpace α] [MeasurableSpace β] {Φ : α → List (Removal N) → β} (h : MeasurableIn Φ) :
    Measurable (fun a => Φ a []) := by
  have hq : Measurable (fun a : α => (a, (fun i => i.elim0 : Fin ([] : List (Fin N × Nat × Finset (Fin N))).length → ℝ))) :=
    measurable_id.prodMk measurable_const
  exact (h []).comp hq

theorem MeasurableIn.comp {α α' β : Type*} [MeasurableSpace α] [MeasurableSpace α'] [MeasurableSpace β] {Φ : α → List (Removal N) → β}
    (h : MeasurableIn Φ) {g : α' → α} (hg : Measurable g) : MeasurableIn (fun a => Φ (g a)) := by
  intro ds
  have hq : Measurable (fun q : α' × (Fin ds.length → ℝ) => (g q.1, q.2)) := (hg.comp measurable_fst).prodMk measurable_snd
  exact (h ds).comp hq

theorem MeasurableIn.cons {α β : Type*} [MeasurableSpace α] [MeasurableSpace β] {Φ : α → List (Removal N) → β} (h : MeasurableIn Φ)
    {t : α → ℝ} (ht : Measurable t) (p : Fin N) (n : Nat) (S : Finset (Fin N)) : MeasurableIn (fun a l => Φ a (⟨p, t a, n, S⟩ :: l)) := by
  intro ds
  have hq : Measurable (fun q : α × (Fin ds.length → ℝ) => (q.1, (Fin.cons (t q.1) q.2 : Fin (ds.length + 1) → ℝ))) := by
    refine measurable_fst.prodMk (measurable_pi_lambda _ fun i => ?_)
    refine Fin.cases ?_ (fun i => ?_) i
    · exact ht.comp measurable_fst
    · exact (measurable_pi_apply i).comp measurable_snd
  have := (h ((p, n, S) :: ds)).comp hq
  convert this using 1
  funext q
  symm
  show Φ q.1 (withVolumes ((p, n, S) :: ds) (List.ofFn (Fin.cons (t q.1) q.2 : Fin (ds.length + 1) → ℝ))) = _
  rw [List.ofFn_succ]
  simp only [Fin.cons_zero, Fin.cons_succ]
  rfl

theorem rule_measurable {α : Type*} [MeasurableSpace α] {rule : Rule N} (hr : MeasurableRule rule) {is : List (Fin N)} {τ : α → List ℝ}
    (hτ : MList is.length τ) (S : Finset (Fin N)) : MeasurableSet {a | rule (is.zip (τ a)) = S} := by
  have : {a | rule (is.zip (τ a)) = S} = (fun a (i : Fin is.length) => (τ a).getD i 0) ⁻¹'
      {v : Fin is.length → ℝ | rule (is.zip (List.ofFn v)) = S} := by
    ext a
    simp only [Set.mem_preimage, Set.mem_ofPred_eq]
    rw [← hτ.eq_ofFn a]
  rw [this]
  exact (hr is S).preimage (measurable_pi_lambda _ fun i => hτ.meas i)

theorem iterate_measurable {α β : Type*} [MeasurableSpace α] [MeasurableSpace β] {rule : Rule N} (hr : MeasurableRule rule) :
    ∀ (k : Nat) (is : List (Fin N)) (A : Finset (Fin N)) {τ : α → List ℝ} {x : α → Fin N → ℝ} {Φ : α → List (Removal N) → β},
    MList is.length τ → Measurable x → MeasurableIn Φ → Measurable (fun a => Φ a (iterate rule k (is.zip (τ a)) A (x a)))
  | 0, is, A, τ, x, Φ, _, _, hΦ => hΦ.nil
  | k + 1, is, A, τ, x, Φ, hτ, hx, hΦ => by
    by_cases hA : A.Nonempty
    swap
    · have : ∀ a, iterate rule (k + 1) (is.zip (τ a)) A (x a) = [] := fun a =>
        iterate_empty fun h => hA ⟨_, min'_mem_of_tops h⟩
      simp only [this]
      exact hΦ.nil
    set f : Finset (Fin N) → α → β := fun T a => if h : T.Nonempty then Φ a
        (⟨T.min' h, x a (T.min' h), A.card, rule ((T.min' h, x a (T.min' h)) :: is.zip (τ a))⟩ ::
        iterate rule k ((T.min' h, x a (T.min' h)) :: is.zip (τ a)) (A.erase (T.min' h) ∪ rule ((T.min' h, x a (T.min' h)) :: is.zip (τ a)))
          (fun b => if b ∈ rule ((T.min' h, x a (T.min' h)) :: is.zip (τ a)) then x a (T.min' h) * x a b else x a b)) else Φ a []
      with hf
    have he : (fun a => Φ a (iterate rule (k + 1) (is.zip (τ a)) A (x a))) = fun a => f (tops A (x a)) a := by
      funext a
      have h := tops_nonempty hA (x a)
      simp only [hf]
      rw [dif_pos h, iterate_succ rfl h]
    rw [he]
    refine measurable_select (measurableSet_tops hx A) fun T => ?_
    by_cases hT : T.Nonempty
    swap
    · simp only [hf, hT, dif_neg, not_false_eq_true]
      exact hΦ.nil
    simp only [hf, dif_pos hT]
    set p := T.min' hT
    have hxp : Measurable (fun a => x a p) := (measurable_pi_apply p).comp hx
    have hτ' : MList (p :: is).length (fun a => x a p :: τ a) := hτ.cons hxp
    refine measurable_select (g := fun a => rule ((p, x a p) :: is.zip (τ a))) (rule_measurable hr hτ')
      (f := fun S a => Φ a (⟨p, x a p, A.card, S⟩ :: iterate rule k ((p, x a p) :: is.zip (τ a)) (A.erase p ∪ S)
        (fun b => if b ∈ S then x a p * x a b else x a b))) fun S => ?_
    refine iterate_measurable hr k (p :: is) (A.erase p ∪ S) hτ' (measurable_pi_lambda _ fun b => ?_)
      (hΦ.cons hxp p A.card S)
    have hxb : Measurable (fun a => x a b) := (measurable_pi_apply b).comp hx
    split_ifs
    · exact hxp.mul hxb
    · exact hxb

theorem measurable_scale' {α : Type*} [MeasurableSpace α] {c : α → ℝ} (hc : Measurable c) {u : α → Fin N → ℝ} (hu : Measurable u)
    (B : Finset (Fin N)) : Measurable (fun p => scale (c p) B (u p)) := by
  refine measurable_pi_lambda _ fun b => ?_
  have hub : Measurable (fun a => u a b) := (measurable_pi_apply b).comp hu
  unfold scale
  split_ifs
  · exact hc.mul hub
  · exact hub

/-- The iterations after the removal of `a` with the volume `t`. -/
theorem step_measurable {α β : Type*} [MeasurableSpace α] [MeasurableSpace β] {rule : Rule N} (hr : MeasurableRule rule) {k n : Nat}
    {hist : List (Fin N × ℝ)} {B : Finset (Fin N)} {a : Fin N} {t : α → ℝ} (ht : Measurable t) {y : Finset (Fin N) → α → Fin N → ℝ}
    (hy : ∀ S, Measurable (y S)) {Φ : α → List (Removal N) → β} (hΦ : MeasurableIn Φ) :
    Measurable (fun p => Φ p (⟨a, t p, n, rule ((a, t p) :: hist)⟩ ::
      iterate rule k ((a, t p) :: hist) (B ∪ rule ((a, t p) :: hist)) (y (rule ((a, t p) :: hist)) p))) := by
  have hz : hist = (hist.map Prod.fst).zip (hist.map Prod.snd) := by
    rw [List.zip_map']
    simp
  have hτ : MList (a :: hist.map Prod.fst).length (fun p => t p :: hist.map Prod.snd) := by
    refine MList.cons ht ⟨fun _ => by simp, fun i => measurable_const⟩
  have he : ∀ p, (a, t p) :: hist = (a :: hist.map Prod.fst).zip (t p :: hist.map Prod.snd) := by
    intro p
    rw [List.zip_cons_cons, ← hz]
  have hg : ∀ S, MeasurableSet {p | rule ((a, t p) :: hist) = S} := by
    simp only [he]
    exact rule_measurable hr hτ
  refine measurable_select hg (f := fun S p => Φ p (⟨a, t p, n, S⟩ :: iterate rule k ((a, t p) :: hist) (B ∪ S) (y S p))) fun S => ?_
  simp only [he]
  exact iterate_measurable hr k _ (B ∪ S) hτ (hy S) (hΦ.cons ht a n S)

/-! ### The law of the removals -/

theorem root_pos (n : Nat) (v : ℝ) : 0 < root n v := Real.exp_pos _

theorem root_pow {n : Nat} (hn : n ≠ 0) {v : ℝ} (hv : 0 < v) : root n v ^ n = v := by
  rw [root, ← Real.exp_nat_mul, mul_div_cancel₀ _ (by exact_mod_cast hn), Real.exp_log hv]

/-- The mean over executions in which every iteration removes each of the live points with the same probability and shrinks the
volume by the root of a uniform draw, until there is no live point. -/
def expect (rule : Rule N) : Nat → List (Fin N × ℝ) → Finset (Fin N) → ℝ → (List (Removal N) → ℝ≥0∞) → ℝ≥0∞
  | 0, _, _, _, Φ => Φ []
  | k + 1, hist, A, c, Φ => if A = ∅ then Φ [] else ∑ a ∈ A, (A.card : ℝ≥0∞)⁻¹ * ∫⁻ v, expect rule k ((a, c * root A.card v) :: hist)
      (A.erase a ∪ rule ((a, c * root A.card v) :: hist)) (c * root A.card v)
      (fun l => Φ (⟨a, c * root A.card v, A.card, rule ((a, c * root A.card v) :: hist)⟩ :: l)) ∂unif

theorem lintegral_iterate {rule : Rule N} (hr : MeasurableRule rule) : ∀ (k : Nat) {hist : List (Fin N × ℝ)} {A D : Finset (Fin N)} {c : ℝ}
    {Φ : List (Removal N) → ℝ≥0∞}, 0 < c → A ⊆ D → Fresh rule k hist A D → MeasurableIn (fun (_ : Unit) => Φ) →
    ∫⁻ u, Φ (iterate rule k hist A (scale c A u)) ∂unifPow N = expect rule k hist A c Φ
  | 0, hist, A, D, c, Φ, _, _, _, _ => by simp [iterate, expect]
  | k + 1, hist, A, D, c, Φ, hc, hAD, hf, hΦ => by
    by_cases hA : A.Nonempty
    swap
    · rw [expect, if_pos (Finset.not_nonempty_iff_eq_empty.mp hA)]
      simp only [iterate_empty (tops_empty hA), lintegral_const, measure_univ, mul_one]
    have hn : A.card ≠ 0 := Finset.card_ne_zero.mpr hA
    have hΦ' : ∀ {α : Type} [MeasurableSpace α], MeasurableIn (fun (_ : α) => Φ) := fun {α} _ => hΦ.comp (measurable_const (a := ()))
    set H : Fin N → (Fin N → ℝ) → ℝ≥0∞ := fun a u => Φ (⟨a, c * u a, A.card, rule ((a, c * u a) :: hist)⟩ ::
      iterate rule k ((a, c * u a) :: hist) (A.erase a ∪ rule ((a, c * u a) :: hist))
        (fun b => if b ∈ rule ((a, c * u a) :: hist) then c * u a * scale c A u b else scale c A u b)) with hH
    have hHm : ∀ a ∈ A, Measurable (H a) := by
      intro a ha
      have hta : Measurable (fun u : Fin N → ℝ => c * u a) := measurable_const.mul (measurable_pi_apply a)
      exact step_measurable hr hta (y := fun S u b => if b ∈ S then c * u a * scale c A u b else scale c A u b)
        (fun S => by
          refine measurable_pi_lambda _ fun b => ?_
          have hb : Measurable (fun u : Fin N → ℝ => scale c A u b) := (measurable_pi_apply b).comp (measurable_scale c A)
          split_ifs
          · exact hta.mul hb
          · exact hb) hΦ'
    rw [lintegral_tops hA hHm (G := fun u => Φ (iterate rule (k + 1) hist A (scale c A u))) ?_]
    swap
    · intro a ha u hu
      have e := iterate_succ (rule := rule) (k := k) (hist := hist) ((tops_scale hc A u).trans hu) (Finset.singleton_nonempty a)
      simp only [Finset.min'_singleton] at e
      have hs : scale c A u a = c * u a := by simp [scale, ha]
      rw [hs] at e
      simp only [hH]
      rw [e]
    rw [expect, if_neg hA.ne_empty]
    refine Finset.sum_congr rfl fun a ha => ?_
    congr 1
    set t : ℝ → ℝ := fun v => c * root A.card v with ht
    have htm : Measurable t := measurable_const.mul (measurable_root _)
    have htp : ∀ v, 0 < t v := fun v => mul_pos hc (root_pos _ _)
    set Ψ : ℝ → (Fin N → ℝ) → ℝ≥0∞ := fun v u => Φ (⟨a, t v, A.card, rule ((a, t v) :: hist)⟩ :: iterate rule k ((a, t v) :: hist)
      (A.erase a ∪ rule ((a, t v) :: hist)) (scale (t v) (A.erase a ∪ rule ((a, t v) :: hist)) u)) with hΨ
    have hsub : ∀ v, A.erase a ∪ rule ((a, t v) :: hist) ⊆ D ∪ rule ((a, t v) :: hist) := fun v =>
      Finset.union_subset_union ((Finset.erase_subset _ _).trans hAD) (Finset.Subset.refl _)
    have hΨm : Measurable (fun p : ℝ × (Fin N → ℝ) => Ψ p.1 p.2) :=
      step_measurable hr (htm.comp measurable_fst) (y := fun S (p : ℝ × (Fin N → ℝ)) => scale (t p.1) (A.erase a ∪ S) p.2)
        (fun S => measurable_scale' (htm.comp measurable_fst) measurable_snd _) hΦ'
    have h1 : ∫⁻ u, H a (below a A u) ∂unifPow N = ∫⁻ u, Ψ (u a) u ∂unifPow N := by
      refine lintegral_congr fun u => ?_
      have hba : below a A u a = root A.card (u a) := by simp [below]
      simp only [hH, hΨ, hba]
      congr 2
      obtain ⟨hd, hf⟩ := hf a ha (t (u a))
      refine iterate_congr k (hsub _) hf fun b hb => ?_
      by_cases hS : b ∈ rule ((a, t (u a)) :: hist)
      · have hbD := Finset.disjoint_left.mp hd hS
        have hbA : b ∉ A := fun h => hbD (hAD h)
        have hne : b ≠ a := fun h => hbA (h ▸ ha)
        have hm : b ∈ A.erase a ∪ rule ((a, t (u a)) :: hist) := Finset.mem_union_right _ hS
        rw [if_pos hS]
        show t (u a) * scale c A (below a A u) b = scale (t (u a)) (A.erase a ∪ rule ((a, t (u a)) :: hist)) u b
        rw [scale, scale, if_neg hbA, if_pos hm, below, if_neg hne, if_neg hbA]
      · rw [if_neg hS]
        rcases hb with hb | hb
        · rcases Finset.mem_union.mp hb with hb | hb
          · obtain ⟨hne, hbA⟩ := Finset.mem_erase.mp hb
            simp only [scale, hbA, below, hne, ht, if_true, if_false, Finset.mem_union, Finset.mem_erase, ne_eq, not_false_eq_true,
              and_self, true_or, mul_assoc]
          · exact absurd hb hS
        · rw [Finset.mem_union, not_or] at hb
          have hbA : b ∉ A := fun h => hb.1 (hAD h)
          have hne : b ≠ a := fun h => hbA (h ▸ ha)
          simp [scale, hbA, below, hne, hS]
    rw [h1, lintegral_decouple a hΨm]
    · refine lintegral_congr fun v => ?_
      exact lintegral_iterate (Φ := fun l => Φ (⟨a, t v, A.card, rule ((a, t v) :: hist)⟩ :: l)) hr k (htp v) (hsub v) (hf a ha (t v)).2
        (hΦ'.cons measurable_const a A.card _)
    · intro v u u' hu
      simp only [hΨ]
      congr 2
      obtain ⟨hd, hf⟩ := hf a ha (t v)
      refine iterate_congr k (hsub v) hf fun b hb => ?_
      have hne : b ≠ a := by
        rintro rfl
        rcases hb with hb | hb
        · rcases Finset.mem_union.mp hb with hb | hb
          · simp at hb
          · exact Finset.disjoint_left.mp hd hb (hAD ha)
        · exact hb (Finset.mem_union_left _ (hAD ha))
      simp only [scale, hu b hne]

theorem card_average {A : Finset (Fin N)} (hA : A.Nonempty) {f : Fin N → ℝ≥0∞} {m : ℝ≥0∞} (h : ∀ a ∈ A, f a = m) :
    ∑ a ∈ A, (A.card : ℝ≥0∞)⁻¹ * f a = m := by
  rw [Finset.sum_congr rfl fun a ha => by rw [h a ha], Finset.sum_const, nsmul_eq_mul, ← mul_assoc,
    ENNReal.mul_inv_cancel (by exact_mod_cast Finset.card_ne_zero.mpr hA) (by finiteness), one_mul]

/-- Whatever the sampler decides, the shrinkages, continued with independent uniform draws when it stops, are like independent uniform
draws. -/
theorem expect_shrinkages {rule : Rule N} : ∀ (k : Nat) {hist : List (Fin N × ℝ)} {A : Finset (Fin N)} {c : ℝ}
    {F : List ℝ → ℝ≥0∞}, 0 < c → expect rule k hist A c (fun l => mean (k - l.length) (fun t => F (shrinkages c l ++ t))) = mean k F
  | 0, hist, A, c, F, _ => by simp [expect, shrinkages, mean]
  | k + 1, hist, A, c, F, hc => by
    by_cases hA : A.Nonempty
    swap
    · rw [expect, if_pos (Finset.not_nonempty_iff_eq_empty.mp hA)]
      rfl
    rw [expect, if_neg hA.ne_empty]
    refine card_average hA fun a ha => ?_
    rw [mean]
    apply lintegral_congr_ae
    filter_upwards [unif_pos] with v hv
    simp only [shrinkages, mul_div_cancel_left₀ _ hc.ne', root_pow (Finset.card_ne_zero.mpr hA) hv.1, List.length_cons,
      Nat.add_sub_add_right, List.cons_append]
    exact expect_shrinkages (F := fun l => F (v :: l)) k (mul_pos hc (root_pos _ _))

theorem shrinkages_withVolumes : ∀ (ds : List (Fin N × Nat × Finset (Fin N))) {α : Type} [MeasurableSpace α] {c : α → ℝ}
    {τ : α → List ℝ}, Measurable c → MList ds.length τ → MList ds.length (fun a => shrinkages (c a) (withVolumes ds (τ a)))
  | [], α, _, c, τ, _, _ => by simpa [withVolumes, shrinkages] using MList.nil
  | d :: ds, α, _, c, τ, hc, hτ => by
    have h1 : ∀ a, τ a = (τ a).getD 0 0 :: (τ a).drop 1 := by
      intro a
      have := hτ.len a
      cases h : τ a with
      | nil => rw [h] at this; simp at this
      | cons x l => simp
    have he : (fun a => shrinkages (c a) (withVolumes (d :: ds) (τ a))) = fun a => ((τ a).getD 0 0 / c a) ^ d.2.1 ::
        shrinkages ((τ a).getD 0 0) (withVolumes ds ((τ a).drop 1)) := by
      funext a
      conv_lhs => rw [h1 a]
      rfl
    rw [he]
    refine MList.cons (((hτ.meas 0).div hc).pow_const _) ?_
    exact shrinkages_withVolumes ds (hτ.meas 0) ((hτ.drop 1).cast (by simp))

theorem shrinkages_measurableIn {k : Nat} {c : ℝ} {F : List ℝ → ℝ≥0∞} (hF : Measurable (fun u : Fin k → ℝ => F (List.ofFn u))) :
    MeasurableIn (fun (_ : Unit) (l : List (Removal N)) =>
      if l.length ≤ k then mean (k - l.length) (fun t => F (shrinkages c l ++ t)) else 0) := by
  intro ds
  have hl : MList ds.length (fun q : Unit × (Fin ds.length → ℝ) => List.ofFn q.2) := MList.ofFn measurable_snd
  have hs := shrinkages_withVolumes ds (measurable_const (a := c)) hl
  have hlen : ∀ q : Unit × (Fin ds.length → ℝ), (withVolumes ds (List.ofFn q.2)).length = ds.length := by
    intro q
    rw [← shrinkages_length _ c, hs.len]
  by_cases h : ds.length ≤ k
  · simp only [hlen, h, if_true]
    refine measurable_mean (k - ds.length)
      (F := fun (q : Unit × (Fin ds.length → ℝ)) t => F (shrinkages c (withVolumes ds (List.ofFn q.2)) ++ t)) ?_
    have h2 : MList (k - ds.length) (fun p : (Unit × (Fin ds.length → ℝ)) × (Fin (k - ds.length) → ℝ) => List.ofFn p.2) :=
      MList.ofFn measurable_snd
    have h3 : MList ds.length (fun p : (Unit × (Fin ds.length → ℝ)) × (Fin (k - ds.length) → ℝ) =>
        shrinkages c (withVolumes ds (List.ofFn p.1.2))) := ⟨fun p => hs.len p.1, fun i => (hs.meas i).comp measurable_fst⟩
    exact ((h3.append h2).cast (by omega)).comp hF
  · simp only [hlen, h, if_false]
    exact measurable_const

theorem iterate_length_le {rule : Rule N} : ∀ (k : Nat) {hist : List (Fin N × ℝ)} {A : Finset (Fin N)} {x : Fin N → ℝ},
    (iterate rule k hist A x).length ≤ k
  | 0, _, _, _ => le_rfl
  | k + 1, hist, A, x => by
    by_cases hne : (tops A x).Nonempty
    · rw [iterate_succ rfl hne, List.length_cons]
      exact Nat.succ_le_succ (iterate_length_le k)
    · rw [iterate_empty hne]
      exact Nat.zero_le _

/-- The mean of a function of the shrinkages, continued with uniform draws. -/
theorem mean_stopped {rule : Rule N} (hr : MeasurableRule rule) (k : Nat) {hist : List (Fin N × ℝ)} {A D : Finset (Fin N)} {c : ℝ}
    {F : List ℝ → ℝ≥0∞} (hc : 0 < c) (hAD : A ⊆ D) (hf : Fresh rule k hist A D)
    (hF : Measurable (fun u : Fin k → ℝ => F (List.ofFn u))) :
    ∫⁻ u, mean (k - (iterate rule k hist A (scale c A u)).length) (fun t => F (shrinkages c (iterate rule k hist A (scale c A u)) ++ t))
      ∂unifPow N = mean k F := by
  have h := lintegral_iterate hr k hc hAD hf (shrinkages_measurableIn (N := N) (c := c) hF)
  simp only [iterate_length_le, if_true] at h
  rw [h, ← expect_shrinkages (rule := rule) (hist := hist) (A := A) (F := F) k hc]
  have hle : ∀ (k : Nat) {hist : List (Fin N × ℝ)} {A : Finset (Fin N)} {c : ℝ} {Φ : List (Removal N) → ℝ≥0∞},
      expect rule k hist A c Φ = expect rule k hist A c (fun l => if l.length ≤ k then Φ l else 0) := by
    intro k
    induction k with
    | zero => intros; rfl
    | succ k ih =>
      intro hist A c Φ
      rw [expect, expect]
      congr 1
      refine Finset.sum_congr rfl fun a _ => ?_
      congr 1
      refine lintegral_congr fun v => ?_
      rw [ih]
      simp only [List.length_cons, Nat.add_le_add_iff_right]
  exact (hle k).symm

/-- The mean of a function of the shrinkages. -/
theorem mean_iterate {rule : Rule N} (hr : MeasurableRule rule) (k : Nat) {hist : List (Fin N × ℝ)} {A D : Finset (Fin N)} {c : ℝ}
    {F : List ℝ → ℝ≥0∞} (hc : 0 < c) (hAD : A ⊆ D) (hf : Feasible rule k hist A D)
    (hF : Measurable (fun u : Fin k → ℝ => F (List.ofFn u))) :
    ∫⁻ u, F (shrinkages c (iterate rule k hist A (scale c A u))) ∂unifPow N = mean k F := by
  rw [← mean_stopped hr k hc hAD hf.fresh hF]
  refine lintegral_congr fun u => ?_
  rw [iterate_length k hf, Nat.sub_self, mean, List.append_nil]

theorem iterate_mlist {α : Type} [MeasurableSpace α] {rule : Rule N} (hr : MeasurableRule rule) {k : Nat} {A D : Finset (Fin N)}
    (hf : Feasible rule k [] A D) {x : α → Fin N → ℝ} (hx : Measurable x) :
    MList k (fun a => shrinkages 1 (iterate rule k [] A (x a))) := by
  refine ⟨fun a => by rw [shrinkages_length, iterate_length k hf], fun i => ?_⟩
  refine iterate_measurable hr k [] A (τ := fun _ => []) (Φ := fun _ l => (shrinkages 1 l).getD i 0) MList.nil hx fun ds => ?_
  have hl : MList ds.length (fun q : α × (Fin ds.length → ℝ) => List.ofFn q.2) := MList.ofFn measurable_snd
  exact (shrinkages_withVolumes ds (measurable_const (a := (1 : ℝ))) hl).meas i

theorem shrinkages_law {rule : Rule N} (hr : MeasurableRule rule) {k : Nat} {A : Finset (Fin N)} (hf : Feasible rule k [] A A) :
    (unifPow N).map (fun u (i : Fin k) => (shrinkages 1 (iterate rule k [] A u)).getD i 0) = unifPow k := by
  have hml : MList k (fun u : Fin N → ℝ => shrinkages 1 (iterate rule k [] A u)) := iterate_mlist hr hf measurable_id
  have hm : Measurable (fun (u : Fin N → ℝ) (i : Fin k) => (shrinkages 1 (iterate rule k [] A u)).getD i 0) :=
    measurable_pi_lambda _ fun i => hml.meas i
  refine Measure.ext fun s hs => ?_
  rw [Measure.map_apply hm hs]
  set F : List ℝ → ℝ≥0∞ := fun l => s.indicator 1 (fun i : Fin k => l.getD i 0) with hF
  have hl : MList k (fun u : Fin k → ℝ => List.ofFn u) := MList.ofFn measurable_id
  have hFm : Measurable (fun u : Fin k → ℝ => F (List.ofFn u)) :=
    (measurable_one.indicator hs).comp (measurable_pi_lambda _ fun i => hl.meas i)
  have h := mean_iterate hr k (c := 1) one_pos (Finset.Subset.refl A) hf hFm
  have hsc : ∀ u : Fin N → ℝ, scale 1 A u = u := fun u => by
    funext b
    simp [scale]
  simp only [hsc] at h
  rw [mean_eq_lintegral _ hFm] at h
  rw [← lintegral_indicator_one (hm hs), ← lintegral_indicator_one hs]
  refine Eq.trans h (lintegral_congr fun u => ?_)
  have : (fun i : Fin k => (List.ofFn u).getD i 0) = u := by
    funext i
    simp [List.getD_eq_getElem?_getD]
  simp only [hF, this]

/-! ### Executions -/

/-- The largest volume is that of the point removed. -/
theorem le_of_tops {A : Finset (Fin N)} {x : Fin N → ℝ} (h : (tops A x).Nonempty) : ∀ b ∈ A, x b ≤ x ((tops A x).min' h) :=
  (Finset.mem_filter.mp ((tops A x).min'_mem h)).2

theorem perm_erase_union {A S : Finset (Fin N)} {la : List (Fin N)} (hla : la.Perm A.toList) {a : Fin N} (hS : Disjoint S A) :
    (la.erase a ++ S.toList).Perm (A.erase a ∪ S).toList := by
  have hn : la.Nodup := hla.nodup_iff.mpr A.nodup_toList
  refine (List.perm_ext_iff_of_nodup ?_ (Finset.nodup_toList _)).mpr fun b => ?_
  · refine List.nodup_append.mpr ⟨hn.erase a, S.nodup_toList, fun b hb c hc e => ?_⟩
    subst e
    exact Finset.disjoint_left.mp hS (Finset.mem_toList.mp hc) (Finset.mem_toList.mp (hla.subset (List.mem_of_mem_erase hb)))
  · simp only [List.mem_append, hn.mem_erase_iff, hla.mem_iff, Finset.mem_toList, Finset.mem_union, Finset.mem_erase]

/-- Whatever execution draws its points in this way, it removes the points found by the specification. -/
theorem Spec.Sampling.dead_removals {loglike : ℝ → ℝ} (hanti : StrictAntiOn loglike (Set.Ioo 0 1)) {rule : Rule N} {u : Fin N → ℝ}
    (hu : ∀ b, u b ∈ Set.Ioo (0 : ℝ) 1) {live final : List (Sample ℝ)} {its : List (Iteration ℝ)} (h : Sampling live its final) :
    ∀ {k : Nat} {hist : List (Fin N × ℝ)} {A D : Finset (Fin N)} {x : Fin N → ℝ}, A ⊆ D → Fresh rule k hist A D →
    (∀ b ∈ A, x b ∈ Set.Ioo (0 : ℝ) 1) → (∀ b, b ∉ D → x b = u b) → (live.map (·.logl)).Perm (A.toList.map (fun b => loglike (x b))) →
    List.Forall₂ (fun it (s : Removal N) => (it.born.map (·.logl)).Perm (s.born.toList.map (fun b => loglike (s.volume * u b)))) its
      (iterate rule k hist A x) →
    its.map (·.dead.logl) = (iterate rule k hist A x).map (fun s => loglike s.volume) ∧
      its.map (·.alive) = (iterate rule k hist A x).map (·.alive) := by
  induction h with
  | stop live =>
    intro k hist A D x _ hf _ _ _ hfa
    cases hfa' : iterate rule k hist A x with
    | nil => exact ⟨rfl, rfl⟩
    | cons s l => rw [hfa'] at hfa; cases hfa
  | @step live rest born final p its h1 h2 h3 h4 ih =>
    intro k hist A D x hAD hf hx hxu hperm hfa
    cases k with
    | zero => simp [iterate] at hfa
    | succ k =>
      have hA : A.Nonempty := by
        by_contra hA
        rw [iterate_empty (tops_empty hA)] at hfa
        cases hfa
      have hne := tops_nonempty hA x
      rw [iterate_succ rfl hne] at hfa ⊢
      set a := (tops A x).min' hne with ha'
      have ha : a ∈ A := min'_mem_of_tops hne
      have hmax : ∀ b ∈ A, x b ≤ x a := le_of_tops hne
      obtain ⟨hd, hf⟩ := hf a ha (x a)
      set S := rule ((a, x a) :: hist) with hS
      simp only [List.forall₂_cons] at hfa
      obtain ⟨hb, hfa⟩ := hfa
      have hlen : live.length = A.card := by simpa using hperm.length_eq
      have hAp : A.toList.Perm (a :: (A.toList.erase a)) := List.perm_cons_erase (Finset.mem_toList.mpr ha)
      have hmem : ∀ b, b ∈ A.toList.erase a → b ∈ A := fun b hb => Finset.mem_toList.mp (List.mem_of_mem_erase hb)
      have hpp : (p.logl :: rest.map (·.logl)).Perm (loglike (x a) :: (A.toList.erase a).map (fun b => loglike (x b))) := by
        have := ((h1.map (·.logl)).symm.trans hperm).trans (hAp.map _)
        simpa using this
      have hdead : p.logl = loglike (x a) := by
        refine perm_min hpp ?_ ?_
        · intro z hz
          obtain ⟨q, hq, rfl⟩ := List.mem_map.mp hz
          exact (h2 q hq).le
        · intro z hz
          obtain ⟨b, hb', rfl⟩ := List.mem_map.mp hz
          exact hanti.antitoneOn (hx b (hmem b hb')) (hx a ha) (hmax b (hmem b hb'))
      have hrest : (rest.map (·.logl)).Perm ((A.toList.erase a).map (fun b => loglike (x b))) := by
        rw [hdead] at hpp
        exact hpp.cons_inv
      have hSD : ∀ b ∈ S, b ∉ D := fun b hb => Finset.disjoint_left.mp hd hb
      have hSA : Disjoint S A := Finset.disjoint_left.mpr fun b hb hbA => hSD b hb (hAD hbA)
      have := ih (k := k) (hist := (a, x a) :: hist) (A := A.erase a ∪ S) (D := D ∪ S)
        (x := fun b => if b ∈ S then x a * x b else x b)
        (Finset.union_subset_union ((Finset.erase_subset _ _).trans hAD) (Finset.Subset.refl _)) hf
        (fun b hb => by
          by_cases hbS : b ∈ S
          · simp only [hbS, if_true]
            rw [hxu b (hSD b hbS)]
            exact ⟨mul_pos (hx a ha).1 (hu b).1, mul_lt_one_of_nonneg_of_lt_one_left (hx a ha).1.le (hx a ha).2 (hu b).2.le⟩
          · simp only [hbS, if_false]
            rcases Finset.mem_union.mp hb with hb | hb
            · exact hx b (Finset.mem_of_mem_erase hb)
            · exact absurd hb hbS)
        (fun b hb => by
          rw [Finset.mem_union, not_or] at hb
          simp only [hb.2, if_false]
          exact hxu b hb.1)
        (by
          rw [List.map_append]
          refine (hrest.append hb).trans ?_
          refine List.Perm.trans ?_ ((perm_erase_union (List.Perm.refl A.toList) (a := a) hSA).map _)
          rw [List.map_append]
          refine List.Perm.of_eq ?_
          congr 1
          · refine List.map_congr_left fun b hb => ?_
            rw [if_neg (fun hbS => Finset.disjoint_left.mp hSA hbS (hmem b hb))]
          · refine List.map_congr_left fun b hb => ?_
            have hbS := Finset.mem_toList.mp hb
            rw [if_pos hbS, hxu b (hSD b hbS)])
        hfa
      refine ⟨?_, ?_⟩
      · rw [List.map_cons, List.map_cons, this.1, hdead]
      · rw [List.map_cons, List.map_cons, this.2, hlen]

/-- When the volumes decrease strictly such an execution exists. -/
theorem exists_sampling_removals {loglike : ℝ → ℝ} (hanti : StrictAntiOn loglike (Set.Ioo 0 1)) {rule : Rule N} {u : Fin N → ℝ}
    (hu : ∀ b, u b ∈ Set.Ioo (0 : ℝ) 1) (place : ℝ → Fin N → List ℝ) : ∀ (k : Nat) {hist : List (Fin N × ℝ)} {A D : Finset (Fin N)} {x : Fin N → ℝ}
    {la : List (Fin N)} {smp : Fin N → Sample ℝ}, A ⊆ D → Fresh rule k hist A D → k = A.card + Dᶜ.card →
    (∀ b ∈ A, x b ∈ Set.Ioo (0 : ℝ) 1) → (∀ b, b ∉ D → x b = u b) → la.Perm A.toList → (∀ b ∈ A, (smp b).logl = loglike (x b) ∧ (smp b).theta = place (x b) b) →
    List.IsChain (· > ·) ((iterate rule k hist A x).map (·.volume)) →
    ∃ its, Sampling (la.map smp) its [] ∧
      List.Forall₂ (fun it (s : Removal N) => (it.born.map (fun p => (p.logl, p.theta))).Perm
          (s.born.toList.map (fun b => (loglike (s.volume * u b), place (s.volume * u b) b)))) its
        (iterate rule k hist A x)
  | 0, hist, A, D, x, la, smp, _, _, hk, _, _, hla, _, _ => by
    have hA : A = ∅ := Finset.card_eq_zero.mp (by omega)
    subst hA
    have : la = [] := by simpa using hla
    subst this
    exact ⟨[], .stop _, .nil⟩
  | k + 1, hist, A, D, x, la, smp, hAD, hf, hk, hx, hxu, hla, hsmp, hch => by
    by_cases hA : A.Nonempty
    swap
    · have : la = [] := by
        rw [Finset.not_nonempty_iff_eq_empty.mp hA] at hla
        simpa using hla
      subst this
      rw [iterate_empty (tops_empty hA)]
      exact ⟨[], .stop _, .nil⟩
    have hne := tops_nonempty hA x
    rw [iterate_succ rfl hne] at hch ⊢
    set a := (tops A x).min' hne with ha'
    have ha : a ∈ A := min'_mem_of_tops hne
    have hmax : ∀ b ∈ A, x b ≤ x a := le_of_tops hne
    obtain ⟨hd, hf⟩ := hf a ha (x a)
    set S := rule ((a, x a) :: hist) with hS
    have hSD : ∀ b ∈ S, b ∉ D := fun b hb => Finset.disjoint_left.mp hd hb
    have hSA : Disjoint S A := Finset.disjoint_left.mpr fun b hb hbA => hSD b hb (hAD hbA)
    set x' : Fin N → ℝ := fun b => if b ∈ S then x a * x b else x b with hx'
    have hxS : ∀ b ∈ S, x' b = x a * u b := fun b hb => by rw [hx']; simp only [hb, if_true]; rw [hxu b (hSD b hb)]
    have hxA : ∀ b ∈ A, x' b = x b := fun b hb => by
      rw [hx']; simp only; rw [if_neg (fun h => Finset.disjoint_left.mp hSA h hb)]
    have hcard : k = (A.erase a ∪ S).card + (D ∪ S)ᶜ.card := by
      have h1 : (A.erase a ∪ S).card = A.card - 1 + S.card := by
        rw [Finset.card_union_of_disjoint (hSA.symm.mono_left (Finset.erase_subset _ _)), Finset.card_erase_of_mem ha]
      have h2 : (D ∪ S).card = D.card + S.card := Finset.card_union_of_disjoint hd.symm
      have h3 := Finset.card_le_univ (D ∪ S)
      have h4 := Finset.card_pos.mpr hA
      rw [Finset.card_compl] at hk ⊢
      omega
    have hstrict : ∀ q ∈ A, q ≠ a → x q < x a := by
      intro q hq hqa
      refine lt_of_le_of_ne (hmax q hq) fun e => ?_
      have hq' : q ∈ A.erase a ∪ S := Finset.mem_union_left _ (Finset.mem_erase.mpr ⟨hqa, hq⟩)
      have hne' := tops_nonempty ⟨q, hq'⟩ x'
      cases k with
      | zero =>
        have := Finset.card_pos.mpr ⟨q, hq'⟩
        omega
      | succ k =>
        rw [iterate_succ rfl hne'] at hch
        simp only [List.map_cons, List.isChain_cons_cons] at hch
        have h1 := le_of_tops hne' q hq'
        rw [hxA q hq, e] at h1
        exact absurd hch.1 (not_lt.mpr h1)
    set smp' : Fin N → Sample ℝ := fun b => if b ∈ S then ⟨place (x' b) b, loglike (x' b), (smp a).logl⟩ else smp b with hsmp'
    obtain ⟨its, h1, h2⟩ := exists_sampling_removals hanti hu place k (hist := (a, x a) :: hist) (A := A.erase a ∪ S) (D := D ∪ S)
      (x := x') (la := la.erase a ++ S.toList) (smp := smp')
      (Finset.union_subset_union ((Finset.erase_subset _ _).trans hAD) (Finset.Subset.refl _)) hf hcard
      (fun b hb => by
        by_cases hbS : b ∈ S
        · rw [hxS b hbS]
          exact ⟨mul_pos (hx a ha).1 (hu b).1, mul_lt_one_of_nonneg_of_lt_one_left (hx a ha).1.le (hx a ha).2 (hu b).2.le⟩
        · rcases Finset.mem_union.mp hb with hb | hb
          · rw [hxA b (Finset.mem_of_mem_erase hb)]
            exact hx b (Finset.mem_of_mem_erase hb)
          · exact absurd hb hbS)
      (fun b hb => by
        rw [Finset.mem_union, not_or] at hb
        simp only [hx', hb.2, if_false]
        exact hxu b hb.1)
      (perm_erase_union hla hSA)
      (fun b hb => by
        by_cases hbS : b ∈ S
        · simp only [hsmp', hbS, if_true, and_self]
        · rcases Finset.mem_union.mp hb with hb | hb
          · simp only [hsmp', hbS, if_false]
            rw [hxA b (Finset.mem_of_mem_erase hb)]
            exact hsmp b (Finset.mem_of_mem_erase hb)
          · exact absurd hb hbS)
      (by
        rw [List.map_cons] at hch
        exact hch.tail)
    have hlaA : ∀ b, b ∈ la.erase a → b ∈ A := fun b hb => Finset.mem_toList.mp (hla.subset (List.mem_of_mem_erase hb))
    have hnd : la.Nodup := hla.nodup_iff.mpr A.nodup_toList
    rw [List.map_append] at h1
    have hrest : (la.erase a).map smp' = (la.erase a).map smp := by
      refine List.map_congr_left fun b hb => ?_
      simp only [hsmp']
      rw [if_neg (fun h => Finset.disjoint_left.mp hSA h (hlaA b hb))]
    rw [hrest] at h1
    have hpos : (smp a).logl = loglike (x a) := (hsmp a ha).1
    refine ⟨⟨smp a, (la.map smp).length, S.toList.map smp'⟩ :: its, .step ?_ ?_ ?_ h1, ?_⟩
    · exact (List.perm_cons_erase (hla.symm.subset (Finset.mem_toList.mpr ha))).map smp
    · intro q hq
      obtain ⟨b, hb, rfl⟩ := List.mem_map.mp hq
      have hbA := hlaA b hb
      rw [hpos, (hsmp b hbA).1]
      exact hanti (hx b hbA) (hx a ha) (hstrict b hbA (hnd.mem_erase_iff.mp hb).1)
    · intro q hq
      obtain ⟨b, hb, rfl⟩ := List.mem_map.mp hq
      have hbS := Finset.mem_toList.mp hb
      have e : smp' b = ⟨place (x a * u b) b, loglike (x a * u b), (smp a).logl⟩ := by simp only [hsmp', hbS, if_true, hxS b hbS]
      rw [e]
      refine ⟨rfl, ?_⟩
      rw [hpos]
      refine hanti ⟨mul_pos (hx a ha).1 (hu b).1, ?_⟩ (hx a ha) ?_
      · exact mul_lt_one_of_nonneg_of_lt_one_left (hx a ha).1.le (hx a ha).2 (hu b).2.le
      · nlinarith [(hx a ha).1, (hu b).2]
    · simp only [List.forall₂_cons]
      refine ⟨List.Perm.of_eq ?_, h2⟩
      rw [List.map_map]
      refine List.map_congr_left fun b hb => ?_
      have hbS := Finset.mem_toList.mp hb
      simp only [Function.comp, hsmp', hbS, if_true, hxS b hbS]

/-! ### What the sampler's volumes are -/

theorem iterate_alive {rule : Rule N} : ∀ (k : Nat) {hist : List (Fin N × ℝ)} {A : Finset (Fin N)} {x : Fin N → ℝ},
    ∀ s ∈ iterate rule k hist A x, 0 < s.alive
  | 0, _, _, _, _, hs => by simp [iterate] at hs
  | k + 1, hist, A, x, s, hs => by
    by_cases hne : (tops A x).Nonempty
    · rw [iterate_succ rfl hne] at hs
      rcases List.mem_cons.mp hs with rfl | hs
      · exact Finset.card_pos.mpr ⟨_, min'_mem_of_tops hne⟩
      · exact iterate_alive k s hs
    · rw [iterate_empty hne] at hs
      simp at hs

theorem iterate_volume {rule : Rule N} : ∀ (k : Nat) {hist : List (Fin N × ℝ)} {A D : Finset (Fin N)} {x : Fin N → ℝ},
    Fresh rule k hist A D → A ⊆ D → (∀ b, b ∈ A ∨ b ∉ D → 0 < x b) → ∀ s ∈ iterate rule k hist A x, 0 < s.volume
  | 0, _, _, _, _, _, _, _, _, hs => by simp [iterate] at hs
  | k + 1, hist, A, D, x, hf, hAD, hx, s, hs => by
    by_cases hne : (tops A x).Nonempty
    swap
    · rw [iterate_empty hne] at hs
      simp at hs
    have ha := min'_mem_of_tops hne
    rw [iterate_succ rfl hne] at hs
    rcases List.mem_cons.mp hs with rfl | hs
    · exact hx _ (.inl ha)
    · obtain ⟨hd, hf⟩ := hf _ ha (x ((tops A x).min' hne))
      refine iterate_volume k hf (Finset.union_subset_union ((Finset.erase_subset _ _).trans hAD) (Finset.Subset.refl _)) ?_ s hs
      intro b hb
      by_cases hS : b ∈ rule (((tops A x).min' hne, x ((tops A x).min' hne)) :: hist)
      · rw [if_pos hS]
        exact mul_pos (hx _ (.inl ha)) (hx b (.inr (Finset.disjoint_left.mp hd hS)))
      · rw [if_neg hS]
        refine hx b ?_
        rcases hb with hb | hb
        · rcases Finset.mem_union.mp hb with hb | hb
          · exact .inl (Finset.mem_of_mem_erase hb)
          · exact absurd hb hS
        · exact .inr fun hD => hb (Finset.mem_union_left _ hD)

/-- Shrinkages below one mean that the volumes decrease strictly. -/
theorem chain_of_shrinkages : ∀ (l : List (Removal N)) {c : ℝ}, 0 < c → (∀ s ∈ l, 0 < s.volume ∧ 0 < s.alive) →
    (∀ u ∈ shrinkages c l, u < 1) → List.IsChain (· > ·) (c :: l.map (·.volume))
  | [], c, _, _, _ => by simp
  | s :: l, c, hc, hl, h => by
    simp only [List.map_cons, List.isChain_cons_cons]
    obtain ⟨h1, h2⟩ := hl s (by simp)
    refine ⟨?_, chain_of_shrinkages l h1 (fun t ht => hl t (by simp [ht])) (fun u hu => h u (by simp [shrinkages, hu]))⟩
    have h3 := h ((s.volume / c) ^ s.alive) (by simp [shrinkages])
    by_contra hge
    have : 1 ≤ s.volume / c := by rw [le_div_iff₀ hc]; linarith [not_lt.mp hge]
    exact absurd h3 (not_lt.mpr (one_le_pow₀ this))

theorem positions_cons (x : ℝ) (l : List ℝ) : positions (x :: l) = x :: (positions l).map (x + ·) := by
  apply List.ext_getElem
  · simp [positions]
  · intro i h1 h2
    cases i with
    | zero => simp [positions]
    | succ i => simp [positions]

/-- The logarithms of the volumes are the sums of the steps which `get_logx` makes of the shrinkages. -/
theorem positions_shrinkages : ∀ (l : List (Removal N)) {c : ℝ}, 0 < c → (∀ s ∈ l, 0 < s.volume ∧ 0 < s.alive) →
    (positions (simulatedSteps (shrinkages c l) (l.map (fun s => (s.alive : Int))))).map (Real.log c + ·) =
      l.map (fun s => Real.log s.volume)
  | [], _, _, _ => rfl
  | s :: l, c, hc, hl => by
    obtain ⟨h1, h2⟩ := hl s (by simp)
    have ih := positions_shrinkages l h1 (fun t ht => hl t (by simp [ht]))
    have e : Real.log ((s.volume / c) ^ s.alive) / ((s.alive : Int) : ℝ) = Real.log s.volume - Real.log c := by
      rw [Real.log_pow, Real.log_div h1.ne' hc.ne']
      have : ((s.alive : Int) : ℝ) ≠ 0 := by exact_mod_cast h2.ne'
      push_cast at this ⊢
      field_simp
    show (positions (Real.log ((s.volume / c) ^ s.alive) / ((s.alive : Int) : ℝ) ::
      simulatedSteps (shrinkages s.volume l) (l.map (fun s => (s.alive : Int))))).map (Real.log c + ·) = _
    rw [positions_cons, e, List.map_cons, List.map_cons, ← ih, List.map_map]
    congr 1
    · ring
    · refine List.map_congr_left fun y _ => ?_
      simp only [Function.comp]
      ring

/-! ### The properties -/

theorem Spec.IidUniform.vector_ae [MeasurableSpace Ω] {P : Measure Ω} {n : Nat} {draws : Ω → List ℝ} (h : IidUniform P n draws)
    {p : (Fin n → ℝ) → Prop} (hp : ∀ᵐ u ∂unifPow n, p u) : ∀ᵐ ω ∂P, p (fun i => (draws ω).getD i 0) := by
  rw [unifPow, ← h] at hp
  exact ae_of_ae_map h.aemeasurable hp

/-- C92.  Let an ideal nested sampler draw `N` points with independent uniform draws, deciding after each removal by an arbitrary
measurable rule which points to draw next from inside the contour of the point removed.  The fractions by which the volume shrinks,
each to the power of the number of live points, are independent and uniform. -/
theorem C92_uniform [MeasurableSpace Ω] {P : Measure Ω} {rule : Rule N} {start : Finset (Fin N)} (hs : AdaptiveSchedule rule start)
    {draws : Ω → List ℝ} (hu : IidUniform P N draws) :
    IidUniform P N (fun ω => shrinkages 1 (removals rule start (fun i => (draws ω).getD i 0))) := by
  have hml : MList N (fun u : Fin N → ℝ => shrinkages 1 (iterate rule N [] start u)) := iterate_mlist hs.measurable hs.feasible measurable_id
  have hm : Measurable (fun (u : Fin N → ℝ) (i : Fin N) => (shrinkages 1 (iterate rule N [] start u)).getD i 0) :=
    measurable_pi_lambda _ fun i => hml.meas i
  unfold IidUniform
  have h := shrinkages_law hs.measurable hs.feasible
  rw [unifPow, ← hu, AEMeasurable.map_map_of_aemeasurable hm.aemeasurable hu.aemeasurable] at h
  rw [← hu]
  exact h

theorem removals_ne_nil {rule : Rule N} {start : Finset (Fin N)} (hs : StoppingSchedule rule start) (u : Fin N → ℝ) :
    removals rule start u ≠ [] := by
  obtain ⟨b, hb⟩ := hs.nonempty
  obtain ⟨n, rfl⟩ : ∃ n, N = n + 1 := ⟨N - 1, by have := b.isLt; omega⟩
  rw [removals, iterate_succ rfl (tops_nonempty hs.nonempty u)]
  simp

theorem scale_one' (A : Finset (Fin N)) (u : Fin N → ℝ) : scale 1 A u = u := by
  funext b
  simp [scale]

theorem mean_const_eq : ∀ (n : Nat) (c : ℝ≥0∞), mean n (fun _ => c) = c
  | 0, _ => rfl
  | n + 1, c => by
    rw [mean]
    simp only [mean_const_eq n c, lintegral_const, measure_univ, mul_one]

/-- C92.  If the sampler may stop at any time, the fractions by which the volume shrinks, each to the power of the number of live points
and continued with independent uniform draws after the sampler has stopped, are independent and uniform. -/
theorem C92_stopped [MeasurableSpace Ω] {Ω' : Type} [MeasurableSpace Ω'] {P : Measure Ω} {Q : Measure Ω'} [SFinite P] [SFinite Q]
    {rule : Rule N} {start : Finset (Fin N)} (hs : StoppingSchedule rule start) {draws : Ω → List ℝ} (hu : IidUniform P N draws)
    {pad : Ω' → List ℝ} (hlen : ∀ ω, (pad ω).length = N) (hp : IidUniform Q N pad) :
    IidUniform (P.prod Q) N (fun p => shrinkages 1 (removals rule start (fun i => (draws p.1).getD i 0)) ++ pad p.2) := by
  set G : (Fin N → ℝ) × (Fin N → ℝ) → Fin N → ℝ := fun p i => (shrinkages 1 (iterate rule N [] start p.1) ++ List.ofFn p.2).getD i 0 with hG
  have hGm : Measurable G := by
    refine measurable_pi_lambda _ fun i => ?_
    refine iterate_measurable (Φ := fun (p : (Fin N → ℝ) × (Fin N → ℝ)) l => (shrinkages 1 l ++ List.ofFn p.2).getD i 0) hs.measurable N []
      start (τ := fun _ => []) (x := fun p : (Fin N → ℝ) × (Fin N → ℝ) => p.1) MList.nil measurable_fst fun ds => ?_
    have hl : MList ds.length (fun q : ((Fin N → ℝ) × (Fin N → ℝ)) × (Fin ds.length → ℝ) => List.ofFn q.2) := MList.ofFn measurable_snd
    have h2 : MList N (fun q : ((Fin N → ℝ) × (Fin N → ℝ)) × (Fin ds.length → ℝ) => List.ofFn q.1.2) :=
      MList.ofFn (measurable_snd.comp measurable_fst)
    exact ((shrinkages_withVolumes ds (measurable_const (a := (1 : ℝ))) hl).append h2).meas i
  -- the law for draws which are given as vectors
  have hlaw : ((unifPow N).prod (unifPow N)).map G = unifPow N := by
    refine Measure.ext fun S hS => ?_
    rw [Measure.map_apply hGm hS, Measure.prod_apply (hGm hS)]
    set F : List ℝ → ℝ≥0∞ := fun l => S.indicator 1 (fun i : Fin N => l.getD i 0) with hF
    have hl : MList N (fun u : Fin N → ℝ => List.ofFn u) := MList.ofFn measurable_id
    have hFm : Measurable (fun u : Fin N → ℝ => F (List.ofFn u)) :=
      (measurable_one.indicator hS).comp (measurable_pi_lambda _ fun i => hl.meas i)
    have h := mean_stopped hs.measurable N one_pos (Finset.Subset.refl start) hs.fresh hFm
    simp only [scale_one'] at h
    have e2 : mean N F = unifPow N S := by
      rw [mean_eq_lintegral _ hFm, ← lintegral_indicator_one hS]
      refine lintegral_congr fun u => ?_
      have : (fun i : Fin N => (List.ofFn u).getD i 0) = u := by
        funext i
        simp [List.getD_eq_getElem?_getD]
      simp only [hF, this]
    rw [← e2, ← h]
    refine lintegral_congr fun u => ?_
    set l := iterate rule N [] start u with hl'
    have hle : l.length ≤ N := iterate_length_le N
    have e3 : mean (N - l.length) (fun t => F (shrinkages 1 l ++ t)) = mean N (fun t => F (shrinkages 1 l ++ t)) := by
      have e4 := mean_append (N - l.length) l.length (fun t => F (shrinkages 1 l ++ t))
      rw [Nat.sub_add_cancel hle] at e4
      rw [e4]
      refine mean_congr _ fun a ha => ?_
      have : ∀ b, F (shrinkages 1 l ++ (a ++ b)) = F (shrinkages 1 l ++ a) := by
        intro b
        simp only [hF]
        congr 1
        funext i
        rw [← List.append_assoc, List.getD_eq_getElem?_getD, List.getD_eq_getElem?_getD, List.getElem?_append_left]
        rw [List.length_append, shrinkages_length, ha]
        have := i.isLt
        omega
      simp only [this, mean_const_eq]
    rw [e3]
    have hm : Measurable (fun t : Fin N → ℝ => F (shrinkages 1 l ++ List.ofFn t)) :=
      (measurable_one.indicator hS).comp (hGm.comp measurable_prodMk_left)
    rw [mean_eq_lintegral _ hm, ← lintegral_indicator_one (measurable_prodMk_left (hGm hS))]
    rfl
  have hX := hu.aemeasurable
  have hY := hp.aemeasurable
  have e : (fun (p : Ω × Ω') (i : Fin N) => (shrinkages 1 (removals rule start (fun i => (draws p.1).getD i 0)) ++ pad p.2).getD i 0) =
      fun p => G ((fun i : Fin N => (draws p.1).getD i 0), (fun i : Fin N => (pad p.2).getD i 0)) := by
    funext p i
    simp only [hG]
    have : List.ofFn (fun i : Fin N => (pad p.2).getD i 0) = pad p.2 := by
      apply List.ext_getElem
      · simp [hlen]
      · intro i h1 h2
        simp [List.getD_eq_getElem?_getD, List.getElem?_eq_getElem h2]
    rw [this]
    rfl
  unfold IidUniform
  rw [e]
  have hae : (fun p : Ω × Ω' => G ((fun i : Fin N => (draws p.1).getD i 0), (fun i : Fin N => (pad p.2).getD i 0))) =ᵐ[P.prod Q]
      fun p => G (hX.mk _ p.1, hY.mk _ p.2) := by
    have h1 := Measure.quasiMeasurePreserving_fst (μ := P) (ν := Q) |>.ae_eq_comp hX.ae_eq_mk
    have h2 := Measure.quasiMeasurePreserving_snd (μ := P) (ν := Q) |>.ae_eq_comp hY.ae_eq_mk
    filter_upwards [h1, h2] with p h1 h2
    simp only [Function.comp] at h1 h2
    rw [h1, h2]
  rw [Measure.map_congr hae]
  have hprod := Measure.map_prod_map P Q hX.measurable_mk hY.measurable_mk
  rw [← Measure.map_congr hX.ae_eq_mk, ← Measure.map_congr hY.ae_eq_mk, hu, hp] at hprod
  have h3 := Measure.map_map (μ := P.prod Q) hGm (hX.measurable_mk.prodMap hY.measurable_mk)
  rw [← hprod] at h3
  exact h3.symm.trans hlaw

theorem adaptive_ae [MeasurableSpace Ω] {P : Measure Ω} {rule : Rule N} {start : Finset (Fin N)} (hs : StoppingSchedule rule start)
    {draws : Ω → List ℝ} (hu : IidUniform P N draws) : ∀ᵐ ω ∂P, (∀ b : Fin N, (draws ω).getD b 0 ∈ Set.Ioo (0 : ℝ) 1) ∧
      (∀ s ∈ removals rule start (fun i => (draws ω).getD i 0), 0 < s.volume ∧ 0 < s.alive) ∧
      (∀ v ∈ shrinkages 1 (removals rule start (fun i => (draws ω).getD i 0)), v ∈ Set.Ioo (0 : ℝ) 1) := by
  classical
  have h1 := hu.vector_ae (pi_pos N)
  have h2 : ∀ᵐ u ∂unifPow N, ∀ v ∈ shrinkages 1 (removals rule start u), v ∈ Set.Ioo (0 : ℝ) 1 := by
    set F : List ℝ → ℝ≥0∞ := fun l => if ∀ i : Fin N, l.getD i 0 ∈ Set.Ioo (0 : ℝ) 1 then 0 else 1 with hF
    have hl : MList N (fun u : Fin N → ℝ => List.ofFn u) := MList.ofFn measurable_id
    have hFm : Measurable (fun u : Fin N → ℝ => F (List.ofFn u)) := by
      refine Measurable.ite ?_ measurable_const measurable_const
      have : {u : Fin N → ℝ | ∀ i : Fin N, (List.ofFn u).getD i 0 ∈ Set.Ioo (0 : ℝ) 1} = ⋂ i : Fin N, {u | (List.ofFn u).getD i 0 ∈ Set.Ioo (0 : ℝ) 1} := by
        ext u
        simp
      rw [this]
      exact MeasurableSet.iInter fun i => (hl.meas i) measurableSet_Ioo
    have h := mean_stopped hs.measurable N one_pos (Finset.Subset.refl start) hs.fresh hFm
    simp only [scale_one'] at h
    have h0 : mean N F = 0 := by
      rw [mean_eq_lintegral _ hFm, lintegral_eq_zero_iff hFm]
      filter_upwards [pi_pos N] with u hu
      simp only [hF, Pi.zero_apply]
      rw [if_pos]
      intro i
      simpa [List.getD_eq_getElem?_getD] using hu i
    rw [h0, lintegral_eq_zero_iff'] at h
    · filter_upwards [h] with u hu v hv
      by_contra hbad
      obtain ⟨i, hi, rfl⟩ := List.getElem_of_mem hv
      have hi' : i < N := by
        rw [shrinkages_length] at hi
        exact lt_of_lt_of_le hi (iterate_length_le N)
      have hF1 : ∀ t, F (shrinkages 1 (iterate rule N [] start u) ++ t) = 1 := by
        intro t
        simp only [hF]
        rw [if_neg]
        intro hall
        have := hall ⟨i, hi'⟩
        rw [List.getD_eq_getElem?_getD] at this
        erw [List.getElem?_append_left hi, List.getElem?_eq_getElem hi] at this
        exact hbad this
      simp only [hF1, mean_const_eq, Pi.zero_apply] at hu
      exact one_ne_zero hu
    · have := iterate_measurable (Φ := fun _ l => if l.length ≤ N then mean (N - l.length) (fun t => F (shrinkages 1 l ++ t)) else 0)
        hs.measurable N [] start (τ := fun _ => []) (x := fun u : Fin N → ℝ => u) MList.nil measurable_id
        ((shrinkages_measurableIn (N := N) (c := 1) hFm).comp (measurable_const (a := ())))
      simp only [iterate_length_le, if_true] at this
      exact this.aemeasurable
  filter_upwards [h1, hu.vector_ae h2] with ω h1 h2
  exact ⟨h1, fun s hm => ⟨iterate_volume N hs.fresh (Finset.Subset.refl _) (fun b _ => (h1 b).1) s hm, iterate_alive N s hm⟩, h2⟩

/-- C92.  With probability one such executions exist, and from every one, in whatever order its points are written,
`process_samples_array` returns a run without error: its loglikelihoods are those of the enclosed volumes in the order of removal, and
its numbers of live points are those of the sampler. -/
theorem C92_run [MeasurableSpace Ω] {P : Measure Ω} {R : Rng σ ℝ} {rule : Rule N} {start : Finset (Fin N)}
    (hs : StoppingSchedule rule start) {draws : Ω → List ℝ} (hu : IidUniform P N draws) {loglike : ℝ → ℝ}
    (hanti : StrictAntiOn loglike (Set.Ioo 0 1)) {init : ℝ} (hinit : ∀ x ∈ Set.Ioo (0 : ℝ) 1, init < loglike x) :
    ∀ᵐ ω ∂P, (∃ live its, AdaptiveExecution loglike rule start (fun i => (draws ω).getD i 0) init live its) ∧
      ∀ live its, AdaptiveExecution loglike rule start (fun i => (draws ω).getD i 0) init live its →
        ∀ samples, samples.Perm (its.map (·.dead)) → ∀ (A : Argsort ℝ) (da dw : Bool),
          ∃ r : Run ℝ, (∀ w : World σ, processSamples A R samples da dw w = (.ok r, w)) ∧
            r.logl = (removals rule start (fun i => (draws ω).getD i 0)).map (fun s => loglike s.volume) ∧
            r.nlive = (removals rule start (fun i => (draws ω).getD i 0)).map (fun s => (s.alive : Int)) := by
  have hne := hs.nonempty
  filter_upwards [adaptive_ae hs hu] with ω ⟨h1, h2, h3⟩
  set u : Fin N → ℝ := fun i => (draws ω).getD i 0 with hu'
  constructor
  · set smp : Fin N → Sample ℝ := fun b => ⟨[], loglike (u b), init⟩ with hsmp
    have hch : List.IsChain (· > ·) ((iterate rule N [] start u).map (·.volume)) :=
      (chain_of_shrinkages _ one_pos h2 (fun v hv => (h3 v hv).2)).tail
    obtain ⟨its, e1, e2⟩ := exists_sampling_removals hanti h1 (fun _ _ => []) N (x := u) (la := start.toList) (smp := smp) (Finset.Subset.refl _)
      hs.fresh (by rw [Finset.card_compl, Fintype.card_fin]; have := Finset.card_le_univ start; simp at this; omega) (fun b _ => h1 b)
      (fun _ _ => rfl) (List.Perm.refl _) (fun _ _ => ⟨rfl, rfl⟩) hch
    refine ⟨start.toList.map smp, its, ⟨?_, ?_, ?_⟩, e1, ?_, e2.imp fun _ _ h => ?_⟩
    · obtain ⟨b, hb⟩ := hne
      exact List.ne_nil_of_mem (List.mem_map_of_mem (Finset.mem_toList.mpr hb))
    · intro q hq
      obtain ⟨b, _, rfl⟩ := List.mem_map.mp hq
      rfl
    · intro q hq
      obtain ⟨b, _, rfl⟩ := List.mem_map.mp hq
      exact hinit _ (h1 b)
    · rw [List.map_map]
      exact List.Perm.refl _
    · have := h.map Prod.fst
      rwa [List.map_map, List.map_map] at this
  · intro live its hex samples hperm A da dw
    obtain ⟨r, e1, e2, _, e4⟩ := C87_replay (R := R) (σ := σ) hex.prior hex.run hperm A da dw
    obtain ⟨d1, d2⟩ := hex.run.dead_removals hanti h1 (Finset.Subset.refl _) hs.fresh (fun b _ => h1 b) (fun _ _ => rfl) hex.initial
      hex.added
    refine ⟨r, e1, e2.trans d1, ?_⟩
    have := congrArg (List.map (fun m : Nat => (m : Int))) d2
    rw [List.map_map, List.map_map] at this
    exact e4.trans this

/-- C92.  `get_logx` with these draws and the numbers of live points of the run returns the logarithms of the volumes which the points
of the sampler really enclose. -/
theorem C92_logx [MeasurableSpace Ω] {P : Measure Ω} {R : Rng σ ℝ} {rule : Rule N} {start : Finset (Fin N)}
    (hs : StoppingSchedule rule start) {draws : Ω → List ℝ} (hu : IidUniform P N draws) :
    ∀ᵐ ω ∂P, ∀ w : World σ, (R.uniform (removals rule start (fun i => (draws ω).getD i 0)).length w.rng).1 =
        shrinkages 1 (removals rule start (fun i => (draws ω).getD i 0)) →
      getLogx R ((removals rule start (fun i => (draws ω).getD i 0)).map (fun s => (s.alive : Int))) true w =
        (.ok ((removals rule start (fun i => (draws ω).getD i 0)).map (fun s => Real.log s.volume)),
          { w with rng := (R.uniform (removals rule start (fun i => (draws ω).getD i 0)).length w.rng).2 }) := by
  filter_upwards [adaptive_ae hs hu] with ω ⟨h1, h2, h3⟩ w hw
  have hne : removals rule start (fun i => (draws ω).getD i 0) ≠ [] := removals_ne_nil hs _
  set l := removals rule start (fun i => (draws ω).getD i 0) with hl
  have hml : (l.map (fun s => (s.alive : Int))).length = l.length := List.length_map _
  have := getLogx_simulated (R := R) (nlive := l.map (fun s => (s.alive : Int))) (by simpa using hne) (fun n hn => by
    obtain ⟨s, hm, rfl⟩ := List.mem_map.mp hn
    exact_mod_cast (h2 s hm).2) w (by rw [hml, hw]; exact fun v hv => (h3 v hv).1)
  rw [this, hml, hw]
  have hp := positions_shrinkages l one_pos h2
  simp only [Real.log_one, zero_add, List.map_id'] at hp
  rw [hp]

end

end Nestcheck
