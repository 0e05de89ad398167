import Verif.Props.Adaptive

/-! C92: the mean of the log volumes, and an example. -/

namespace Nestcheck
open Spec MeasureTheory ENNReal
variable {σ Ω : Type} {N : Nat}

noncomputable section

/-- The volumes decrease from `c` and stay positive. -/
def Descends : ℝ → List (Removal N) → Prop
  | _, [] => True
  | c, s :: l => 0 < s.volume ∧ s.volume < c ∧ 0 < s.alive ∧ Descends s.volume l

theorem root_lt_one {n : Nat} (hn : n ≠ 0) {v : ℝ} (h0 : 0 < v) (h1 : v < 1) : root n v < 1 := by
  rw [root, Real.exp_lt_one_iff]
  exact div_neg_of_neg_of_pos (Real.log_neg h0 h1) (by positivity)

theorem expect_congr {rule : Rule N} : ∀ (k : Nat) {hist : List (Fin N × ℝ)} {A : Finset (Fin N)} {c : ℝ}
    {Φ Ψ : List (Removal N) → ℝ≥0∞}, 0 < c → (∀ l, l.length ≤ k → Descends c l → Φ l = Ψ l) →
    expect rule k hist A c Φ = expect rule k hist A c Ψ
  | 0, _, _, _, _, _, _, h => h [] le_rfl trivial
  | k + 1, hist, A, c, Φ, Ψ, hc, h => by
    rw [expect, expect]
    split
    · exact h [] (Nat.zero_le _) trivial
    · rename_i hA
      have hA := Finset.nonempty_iff_ne_empty.mpr hA
      have hn : A.card ≠ 0 := Finset.card_ne_zero.mpr hA
      refine Finset.sum_congr rfl fun a ha => ?_
      congr 1
      apply lintegral_congr_ae
      filter_upwards [unif_pos] with v hv
      have ht := mul_pos hc (root_pos A.card v)
      refine expect_congr k ht fun l hl hd => h _ (by simpa using hl) ⟨ht, ?_, Finset.card_pos.mpr hA, hd⟩
      nlinarith [root_lt_one hn hv.1 hv.2]

theorem expect_add {rule : Rule N} : ∀ (k : Nat) {hist : List (Fin N × ℝ)} {A : Finset (Fin N)} {c : ℝ} {m : ℝ≥0∞}
    {Φ : List (Removal N) → ℝ≥0∞}, expect rule k hist A c (fun l => m + Φ l) = m + expect rule k hist A c Φ
  | 0, _, _, _, _, _ => rfl
  | k + 1, hist, A, c, m, Φ => by
    rw [expect, expect]
    split
    · rfl
    rename_i hA
    have hA := Finset.nonempty_iff_ne_empty.mpr hA
    simp only [expect_add k, lintegral_add_left measurable_const, lintegral_const, measure_univ, mul_one, mul_add]
    rw [Finset.sum_add_distrib, card_average hA (fun _ _ => rfl)]

theorem expect_const {rule : Rule N} (k : Nat) {hist : List (Fin N × ℝ)} {A : Finset (Fin N)} {c : ℝ} {m : ℝ≥0∞} :
    expect rule k hist A c (fun _ => m) = m := by
  have h0 : ∀ (k : Nat) (hist : List (Fin N × ℝ)) (A : Finset (Fin N)) (c : ℝ), expect rule k hist A c (fun _ => 0) = 0 := by
    intro k
    induction k with
    | zero => intros; rfl
    | succ k ih => intro hist A c; simp [expect, ih]
  have := expect_add (rule := rule) (hist := hist) (A := A) (m := m) (Φ := fun _ => 0) (c := c) k
  rw [h0, add_zero] at this
  simpa using this

/-- The volume after `i` removals, or after the last one. -/
def lastVolume (c : ℝ) (i : Nat) (l : List (Removal N)) : ℝ := ((l.take i).map (·.volume)).getLastD c

theorem Descends.last : ∀ {l : List (Removal N)} {c : ℝ}, 0 < c → Descends c l → ∀ i, 0 < lastVolume c i l ∧ lastVolume c i l ≤ c
  | [], c, hc, _, i => by simp [lastVolume, hc]
  | s :: l, c, hc, ⟨h1, h2, _, h4⟩, i => by
    cases i with
    | zero => simp [lastVolume, hc]
    | succ i =>
      obtain ⟨e1, e2⟩ := h4.last h1 i
      simp only [lastVolume, List.take_succ_cons, List.map_cons, List.getLastD_cons] at e1 e2 ⊢
      exact ⟨e1, e2.trans h2.le⟩

theorem lintegral_neg_log {n : Nat} : ∫⁻ v, ENNReal.ofReal (-Real.log v / n) ∂unif = ENNReal.ofReal (1 / n) := by
  rw [← ofReal_integral_eq_lintegral_ofReal]
  · congr 1
    rw [integral_div, integral_neg, integral_log_unif, neg_neg]
  · exact (integrable_log_unif.neg).div_const _
  · filter_upwards [unif_pos] with v hv
    exact div_nonneg (neg_nonneg.mpr (Real.log_nonpos hv.1.le hv.2.le)) (Nat.cast_nonneg n)

/-- The mean shrinkage is what `get_logx` takes it to be. -/
theorem expect_log {rule : Rule N} : ∀ (k i : Nat) {hist : List (Fin N × ℝ)} {A : Finset (Fin N)} {c : ℝ}, 0 < c →
    expect rule k hist A c (fun l => ENNReal.ofReal (Real.log c - Real.log (lastVolume c i l))) =
      expect rule k hist A c (fun l => ENNReal.ofReal (((l.take i).map (fun s => 1 / (s.alive : ℝ))).sum))
  | _, 0, _, _, _, _ => by simp [lastVolume]
  | 0, _ + 1, _, _, _, _ => by simp [expect, lastVolume]
  | k + 1, i + 1, hist, A, c, hc => by
    rw [expect, expect]
    split
    · simp [lastVolume]
    rename_i hA
    have hA := Finset.nonempty_iff_ne_empty.mpr hA
    have hn : A.card ≠ 0 := Finset.card_ne_zero.mpr hA
    refine Finset.sum_congr rfl fun a ha => ?_
    congr 1
    have hroot : ∀ v, 0 < v → Real.log c - Real.log (c * root A.card v) = -Real.log v / A.card := by
      intro v hv
      rw [Real.log_mul hc.ne' (root_pos _ _).ne', root, Real.log_exp]
      ring
    set E : ℝ → ℝ≥0∞ := fun v => expect rule k ((a, c * root A.card v) :: hist)
        (A.erase a ∪ rule ((a, c * root A.card v) :: hist)) (c * root A.card v)
        (fun l => ENNReal.ofReal (((l.take i).map (fun s => 1 / (s.alive : ℝ))).sum)) with hE
    have e1 : ∀ v, 0 < v → v < 1 → expect rule k ((a, c * root A.card v) :: hist)
        (A.erase a ∪ rule ((a, c * root A.card v) :: hist)) (c * root A.card v)
        (fun l => ENNReal.ofReal (Real.log c - Real.log (lastVolume c (i + 1) (⟨a, c * root A.card v, A.card,
          rule ((a, c * root A.card v) :: hist)⟩ :: l)))) = ENNReal.ofReal (-Real.log v / A.card) + E v := by
      intro v h0 h1
      have ht := mul_pos hc (root_pos A.card v)
      simp only [hE]
      rw [← expect_log k i ht, ← expect_add k]
      refine expect_congr k ht fun l hl hd => ?_
      obtain ⟨g1, g2⟩ := hd.last ht i
      have hlast : lastVolume c (i + 1) (⟨a, c * root A.card v, A.card, rule ((a, c * root A.card v) :: hist)⟩ :: l) =
          lastVolume (c * root A.card v) i l := by
        simp only [lastVolume, List.take_succ_cons, List.map_cons, List.getLastD_cons]
      rw [hlast, ← ENNReal.ofReal_add]
      · congr 1
        rw [← hroot v h0]
        ring
      · exact div_nonneg (neg_nonneg.mpr (Real.log_nonpos h0.le h1.le)) (Nat.cast_nonneg _)
      · exact sub_nonneg.mpr (Real.log_le_log g1 g2)
    have e2 : ∀ v, expect rule k ((a, c * root A.card v) :: hist)
        (A.erase a ∪ rule ((a, c * root A.card v) :: hist)) (c * root A.card v)
        (fun l => ENNReal.ofReal ((((⟨a, c * root A.card v, A.card, rule ((a, c * root A.card v) :: hist)⟩ ::
          l : List (Removal N)).take (i + 1)).map (fun s => 1 / (s.alive : ℝ))).sum)) = ENNReal.ofReal (1 / A.card) + E v := by
      intro v
      simp only [hE]
      rw [← expect_add k]
      congr 1
      funext l
      rw [List.take_succ_cons, List.map_cons, List.sum_cons, ENNReal.ofReal_add (by positivity)]
      refine List.sum_nonneg fun y hy => ?_
      obtain ⟨s, _, rfl⟩ := List.mem_map.mp hy
      positivity
    simp only [e2]
    rw [lintegral_congr_ae (g := fun v => ENNReal.ofReal (-Real.log v / A.card) + E v)
      (by filter_upwards [unif_pos] with v hv using e1 v hv.1 hv.2)]
    rw [lintegral_add_left (by fun_prop), lintegral_add_left measurable_const, lintegral_neg_log, lintegral_const, measure_univ, mul_one]

theorem withVolumes_alive : ∀ (ds : List (Fin N × Nat × Finset (Fin N))) (vs : List ℝ), vs.length = ds.length →
    (withVolumes ds vs).map (·.alive) = ds.map (·.2.1) ∧ (withVolumes ds vs).map (·.volume) = vs
  | [], [], _ => ⟨rfl, rfl⟩
  | d :: ds, v :: vs, h => by
    obtain ⟨e1, e2⟩ := withVolumes_alive ds vs (by simpa using h)
    simp [withVolumes, e1, e2]

theorem volume_measurableIn {α : Type} [MeasurableSpace α] (i : Nat) :
    MeasurableIn (fun (_ : α) (l : List (Removal N)) => (l.map (·.volume)).getD i 0) := by
  intro ds
  have hl : MList ds.length (fun q : α × (Fin ds.length → ℝ) => List.ofFn q.2) := MList.ofFn measurable_snd
  have : ∀ q : α × (Fin ds.length → ℝ), (withVolumes ds (List.ofFn q.2)).map (·.volume) = List.ofFn q.2 := fun q =>
    (withVolumes_alive ds _ (hl.len q)).2
  simp only [this]
  exact hl.meas i

theorem alive_measurableIn {α β : Type} [MeasurableSpace α] [MeasurableSpace β] (f : List Nat → β) :
    MeasurableIn (fun (_ : α) (l : List (Removal N)) => f (l.map (·.alive))) := by
  intro ds
  have hl : MList ds.length (fun q : α × (Fin ds.length → ℝ) => List.ofFn q.2) := MList.ofFn measurable_snd
  have : ∀ q : α × (Fin ds.length → ℝ), (withVolumes ds (List.ofFn q.2)).map (·.alive) = ds.map (·.2.1) := fun q =>
    (withVolumes_alive ds _ (hl.len q)).1
  simp only [this]
  exact measurable_const

theorem removals_measurable {β : Type} [MeasurableSpace β] {rule : Rule N} {start : Finset (Fin N)} (hr : MeasurableRule rule)
    {Φ : List (Removal N) → β} (hΦ : MeasurableIn (fun (_ : Fin N → ℝ) => Φ)) :
    Measurable (fun u : Fin N → ℝ => Φ (removals rule start u)) :=
  iterate_measurable hr N [] start (τ := fun _ => []) (Φ := fun _ => Φ) MList.nil measurable_id hΦ

theorem descends_of : ∀ (l : List (Removal N)) {c : ℝ}, 0 < c → (∀ s ∈ l, 0 < s.volume ∧ 0 < s.alive) →
    (∀ v ∈ shrinkages c l, v < 1) → Descends c l
  | [], _, _, _, _ => trivial
  | s :: l, c, hc, h1, h2 => by
    have h3 := chain_of_shrinkages (s :: l) hc h1 h2
    obtain ⟨e1, e2⟩ := h1 s (by simp)
    simp only [List.map_cons, List.isChain_cons_cons] at h3
    exact ⟨e1, h3.1, e2, descends_of l e1 (fun t ht => h1 t (by simp [ht])) (fun v hv => h2 v (by simp [shrinkages, hv]))⟩

theorem removals_descend {rule : Rule N} {start : Finset (Fin N)} (hs : StoppingSchedule rule start) :
    ∀ᵐ u ∂unifPow N, Descends 1 (removals rule start u) := by
  filter_upwards [adaptive_ae hs (ofFn_iid N)] with u ⟨_, h2, h3⟩
  have hvec : (fun i : Fin N => (List.ofFn u).getD i 0) = u := by
    funext i
    simp [List.getD_eq_getElem?_getD]
  rw [hvec] at h2 h3
  exact descends_of _ one_pos h2 (fun v hv => (h3 v hv).2)

theorem scale_one (A : Finset (Fin N)) (u : Fin N → ℝ) : scale 1 A u = u := by
  funext b
  simp [scale]

theorem expected_sum : ∀ (l : List (Removal N)) (i : Nat), i < l.length →
    (positions (expectedSteps (l.map (fun s => (s.alive : Int))))).getD i 0 = -((l.take (i + 1)).map (fun s => 1 / (s.alive : ℝ))).sum := by
  intro l i hi
  rw [positions, List.getD_eq_getElem?_getD, List.getElem?_map, List.getElem?_range (by simpa [expectedSteps] using hi)]
  simp only [Option.map_some, Option.getD_some, expectedSteps, List.map_map, ← List.map_take]
  induction l.take (i + 1) with
  | nil => simp
  | cons s t ih =>
    rw [List.map_cons, List.sum_cons, List.map_cons, List.sum_cons, ih]
    simp only [Function.comp, Int.cast_natCast]
    ring

theorem last_measurableIn {α : Type} [MeasurableSpace α] (c : ℝ) (i : Nat) :
    MeasurableIn (fun (_ : α) (l : List (Removal N)) => lastVolume c i l) := by
  intro ds
  have hl : MList ds.length (fun q : α × (Fin ds.length → ℝ) => List.ofFn q.2) := MList.ofFn measurable_snd
  have : ∀ q : α × (Fin ds.length → ℝ), lastVolume c i (withVolumes ds (List.ofFn q.2)) = ((List.ofFn q.2).take i).getLastD c := fun q => by
    rw [lastVolume, List.map_take, (withVolumes_alive ds _ (hl.len q)).2]
  simp only [this]
  have h2 := hl.take i
  have : ∀ q : α × (Fin ds.length → ℝ), ((List.ofFn q.2).take i).getLastD c =
      if min i ds.length = 0 then c else ((List.ofFn q.2).take i).getD (min i ds.length - 1) 0 := by
    intro q
    have hlen := h2.len q
    split_ifs with h0
    · rw [List.eq_nil_of_length_eq_zero (hlen.trans h0)]
      rfl
    · have hi : min i ds.length - 1 < ((List.ofFn q.2).take i).length := by omega
      rw [List.getLastD_eq_getLast?, List.getLast?_eq_getElem?, hlen, List.getD_eq_getElem?_getD, List.getElem?_eq_getElem hi]
      rfl
  simp only [this]
  split_ifs with h0
  · exact measurable_const
  · exact h2.meas _

theorem lastVolume_eq {l : List (Removal N)} (hl : l ≠ []) (c : ℝ) (i : Nat) :
    lastVolume c (i + 1) l = (l.map (·.volume)).getD (min i (l.length - 1)) 0 := by
  have hpos := List.length_pos_of_ne_nil hl
  have hi : min i (l.length - 1) < (l.map (·.volume)).length := by simp; omega
  have e : min (i + 1) l.length - 1 = min i (l.length - 1) := by omega
  rw [lastVolume, List.getLastD_eq_getLast?, List.getLast?_eq_getElem?, List.length_map, List.length_take, List.getD_eq_getElem?_getD,
    List.map_take, List.getElem?_take, if_pos (by omega), e, List.getElem?_eq_getElem hi]
  rfl

/-- C92.  The log volumes that `get_logx` returns with `simulate=False` have the right mean: the logarithm of the volume enclosed by
the point removed in iteration `i`, or in the last iteration if there are fewer, has the same mean as the value which `get_logx`
computes from the numbers of live points. -/
theorem C92_mean [MeasurableSpace Ω] {P : Measure Ω} {R : Rng σ ℝ} {rule : Rule N} {start : Finset (Fin N)}
    (hs : StoppingSchedule rule start) {draws : Ω → List ℝ} (hu : IidUniform P N draws) (i : Nat) (w : World σ)
    {its : Ω → List (Removal N)} (hits : ∀ ω, its ω = removals rule start (fun i => (draws ω).getD i 0)) :
    Integrable (fun ω => Real.log (((its ω).map (·.volume)).getD (min i ((its ω).length - 1)) 0)) P ∧
    Integrable (fun ω => entry (getLogx R ((its ω).map (fun s => (s.alive : Int))) false w).1 (min i ((its ω).length - 1))) P ∧
    ∫ ω, Real.log (((its ω).map (·.volume)).getD (min i ((its ω).length - 1)) 0) ∂P =
      ∫ ω, entry (getLogx R ((its ω).map (fun s => (s.alive : Int))) false w).1 (min i ((its ω).length - 1)) ∂P := by
  obtain rfl : its = fun ω => removals rule start (fun i => (draws ω).getD i 0) := funext hits
  have hne := fun u => removals_ne_nil hs u
  simp only [← lastVolume_eq (hne _) 1]
  set f : (Fin N → ℝ) → ℝ := fun u => Real.log (lastVolume 1 (i + 1) (removals rule start u)) with hf
  set g : (Fin N → ℝ) → ℝ := fun u => -(((removals rule start u).take (i + 1)).map (fun s => 1 / (s.alive : ℝ))).sum with hg
  have hent : ∀ u, entry (getLogx R ((removals rule start u).map (fun s => (s.alive : Int))) false w).1
      (min i ((removals rule start u).length - 1)) = g u := by
    intro u
    have hpos := List.length_pos_of_ne_nil (hne u)
    rw [getLogx_expected (by simpa using hne u) (fun n hn => by
      obtain ⟨s, hm, rfl⟩ := List.mem_map.mp hn
      exact_mod_cast iterate_alive N s hm)]
    refine (expected_sum _ _ (by omega)).trans ?_
    simp only [hg]
    congr 3
    rw [show min i ((removals rule start u).length - 1) + 1 = min (i + 1) (removals rule start u).length by omega, ← List.take_take,
      List.take_length]
  simp only [hent]
  have hsum : ∀ l : List (Removal N), 0 ≤ (l.map (fun s => 1 / (s.alive : ℝ))).sum := fun l =>
    List.sum_nonneg fun y hy => by
      obtain ⟨s, _, rfl⟩ := List.mem_map.mp hy
      positivity
  have hgm : Measurable g := by
    have := alive_measurableIn (N := N) (α := Fin N → ℝ) (fun l => -((l.take (i + 1)).map (fun n : Nat => 1 / (n : ℝ))).sum)
    have h2 := removals_measurable (start := start) hs.measurable this
    simp only [← List.map_take, List.map_map] at h2
    exact h2
  have hfm : Measurable f := Real.measurable_log.comp (removals_measurable hs.measurable (last_measurableIn 1 (i + 1)))
  have hle : ∫⁻ u, ENNReal.ofReal (-f u) ∂unifPow N = ∫⁻ u, ENNReal.ofReal (-g u) ∂unifPow N := by
    have h1 := lintegral_iterate (Φ := fun l => ENNReal.ofReal (Real.log 1 - Real.log (lastVolume 1 (i + 1) l))) hs.measurable N
      one_pos (Finset.Subset.refl start) hs.fresh (fun ds => by
        have := last_measurableIn (N := N) (α := Unit) 1 (i + 1) ds
        exact ENNReal.measurable_ofReal.comp (measurable_const.sub (Real.measurable_log.comp this)))
    have h2 := lintegral_iterate (Φ := fun l => ENNReal.ofReal (((l.take (i + 1)).map (fun s => 1 / (s.alive : ℝ))).sum)) hs.measurable N
      one_pos (Finset.Subset.refl start) hs.fresh (by
        have := alive_measurableIn (N := N) (α := Unit) (fun l => ENNReal.ofReal ((l.take (i + 1)).map (fun n : Nat => 1 / (n : ℝ))).sum)
        simp only [← List.map_take, List.map_map] at this
        exact this)
    rw [← expect_log N (i + 1) one_pos, ← h1] at h2
    simp only [scale_one, Real.log_one, zero_sub] at h2
    simp only [hf, hg, neg_neg]
    exact h2.symm
  have hg0 : ∀ u, 0 ≤ -g u := fun u => by simp only [hg, neg_neg]; exact hsum _
  have hg1 : ∀ u, -g u ≤ i + 1 := by
    intro u
    simp only [hg, neg_neg]
    refine (List.sum_le_card_nsmul _ 1 fun y hy => ?_).trans ?_
    · obtain ⟨s, hm, rfl⟩ := List.mem_map.mp hy
      have : (1 : ℝ) ≤ s.alive := by exact_mod_cast iterate_alive N s (List.mem_of_mem_take hm)
      rw [div_le_one (by linarith)]
      exact this
    · rw [List.length_map, List.length_take, nsmul_eq_mul, mul_one]
      exact_mod_cast min_le_left _ _
  have hgi : Integrable g (unifPow N) := by
    refine Integrable.of_bound hgm.aestronglyMeasurable (i + 1) (Filter.Eventually.of_forall fun u => ?_)
    rw [Real.norm_eq_abs, abs_le]
    constructor <;> [linarith [hg1 u]; linarith [hg0 u]]
  have hf0 : 0 ≤ᵐ[unifPow N] fun u => -f u := by
    filter_upwards [removals_descend hs] with u hu
    obtain ⟨e1, e2⟩ := hu.last one_pos (i + 1)
    simp only [hf, Pi.zero_apply]
    exact neg_nonneg.mpr (Real.log_nonpos e1.le e2)
  have hfi : Integrable f (unifPow N) := by
    have h1 : ∫⁻ u, ENNReal.ofReal (-f u) ∂unifPow N ≠ ∞ := by
      rw [hle]
      exact (lintegral_ofReal_ne_top_iff_integrable hgm.neg.aestronglyMeasurable (Filter.Eventually.of_forall hg0)).mpr hgi.neg
    have := (lintegral_ofReal_ne_top_iff_integrable hfm.neg.aestronglyMeasurable hf0).mp h1
    simpa using this.neg
  have heq : ∫ u, f u ∂unifPow N = ∫ u, g u ∂unifPow N := by
    have h1 := integral_eq_lintegral_of_nonneg_ae hf0 hfm.neg.aestronglyMeasurable
    have h2 := integral_eq_lintegral_of_nonneg_ae (μ := unifPow N) (Filter.Eventually.of_forall hg0) hgm.neg.aestronglyMeasurable
    rw [hle, ← h2, integral_neg, integral_neg] at h1
    exact neg_inj.mp h1
  refine ⟨hu.integrable hfi, hu.integrable hgi, ?_⟩
  rw [hu.integral hfm, hu.integral hgm]
  exact heq

/-! ### An example -/

/-- Two points are drawn at first; the third is drawn after the first removal if the point removed enclosed more than half of the
prior, and after the second removal otherwise. -/
def exRule : Rule 3
  | [(_, t)] => if 1 / 2 < t then {2} else ∅
  | [_, (_, t)] => if 1 / 2 < t then ∅ else {2}
  | _ => ∅

theorem measurableSet_ite_eq {α β : Type*} [MeasurableSpace α] {p : α → Prop} [DecidablePred p] (hp : MeasurableSet {a | p a})
    (x y z : β) : MeasurableSet {a | (if p a then x else y) = z} := by
  have : {a | (if p a then x else y) = z} = ({a | p a} ∩ {_a | x = z}) ∪ ({a | p a}ᶜ ∩ {_a | y = z}) := by
    ext a
    by_cases h : p a <;> simp [h]
  rw [this]
  exact (hp.inter (MeasurableSet.const _)).union (hp.compl.inter (MeasurableSet.const _))

theorem exAdaptive : AdaptiveSchedule exRule {0, 1} where
  nonempty := by decide
  measurable := by
    intro points S
    match points with
    | [] => simp [exRule]
    | [p] =>
      have : {v : Fin [p].length → ℝ | exRule ([p].zip (List.ofFn v)) = S} =
          {v : Fin [p].length → ℝ | (if 1 / 2 < v 0 then ({2} : Finset (Fin 3)) else ∅) = S} := by
        ext v
        simp [exRule, List.ofFn_succ]
      rw [this]
      exact measurableSet_ite_eq (measurableSet_lt measurable_const (measurable_pi_apply _)) _ _ _
    | [p, q] =>
      have : {v : Fin [p, q].length → ℝ | exRule ([p, q].zip (List.ofFn v)) = S} =
          {v : Fin [p, q].length → ℝ | (if 1 / 2 < v 1 then (∅ : Finset (Fin 3)) else {2}) = S} := by
        ext v
        simp [exRule, List.ofFn_succ]
      rw [this]
      exact measurableSet_ite_eq (measurableSet_lt measurable_const (measurable_pi_apply _)) _ _ _
    | p :: q :: r :: l => simp [exRule, List.ofFn_succ]
  feasible := by
    refine ⟨by decide, fun a ha t => ?_⟩
    by_cases h : 1 / 2 < t
    · have e1 : exRule [(a, t)] = {2} := by simp only [exRule, h, if_true]
      have e2 : ∀ b s, exRule [(b, s), (a, t)] = ∅ := fun b s => by simp only [exRule, h, if_true]
      have e3 : ∀ d r b s, exRule [(d, r), (b, s), (a, t)] = ∅ := fun _ _ _ _ => rfl
      rw [e1]
      refine ⟨by decide, ⟨2, by simp⟩, fun b hb s => ?_⟩
      rw [e2]
      refine ⟨by simp, ?_, fun d hd r => ?_⟩
      · clear e1 e2 e3
        revert a b
        decide
      · rw [e3]
        exact ⟨by simp, trivial⟩
    · have e1 : exRule [(a, t)] = ∅ := by simp only [exRule, h, if_false]
      have e2 : ∀ b s, exRule [(b, s), (a, t)] = {2} := fun b s => by simp only [exRule, h, if_false]
      have e3 : ∀ d r b s, exRule [(d, r), (b, s), (a, t)] = ∅ := fun _ _ _ _ => rfl
      rw [e1]
      refine ⟨by simp, ?_, fun b hb s => ?_⟩
      · clear e1 e2 e3
        revert a
        decide
      rw [e2]
      refine ⟨by decide, ⟨2, by simp⟩, fun d hd r => ?_⟩
      rw [e3]
      exact ⟨by simp, trivial⟩

/-- For the loglikelihood -x, two initial points and a third added adaptively: executions exist, their runs are valid, and the
shrinkages are independent and uniform. -/
example : (∀ᵐ u ∂unifPow 3, (∃ live its, AdaptiveExecution (fun x => -x) exRule {0, 1} (fun i => (List.ofFn u).getD i 0) (-1) live its)) ∧
    IidUniform (unifPow 3) 3 (fun u => shrinkages 1 (removals exRule {0, 1} (fun i => (List.ofFn u).getD i 0))) := by
  refine ⟨?_, C92_uniform exAdaptive (ofFn_iid 3)⟩
  have := C92_run (R := cubeRng 3) exAdaptive.stopping (ofFn_iid 3) (loglike := fun x => -x) (init := -1)
    (fun x _ y _ h => by simpa using h) (fun x hx => by simpa using hx.2)
  filter_upwards [this] with u hu
  exact hu.1

/-- Two points are drawn at first, and a third after the first removal unless the point removed enclosed less than half of the prior;
then the sampler stops. -/
def exStopRule : Rule 3
  | [(_, t)] => if 1 / 2 < t then {2} else ∅
  | _ => ∅

theorem exStopping : StoppingSchedule exStopRule {0, 1} where
  nonempty := by decide
  measurable := by
    intro points S
    match points with
    | [] => simp [exStopRule]
    | [p] =>
      have : {v : Fin [p].length → ℝ | exStopRule ([p].zip (List.ofFn v)) = S} =
          {v : Fin [p].length → ℝ | (if 1 / 2 < v 0 then ({2} : Finset (Fin 3)) else ∅) = S} := by
        ext v
        simp [exStopRule, List.ofFn_succ]
      rw [this]
      exact measurableSet_ite_eq (measurableSet_lt measurable_const (measurable_pi_apply _)) _ _ _
    | p :: q :: l => simp [exStopRule, List.ofFn_succ]
  fresh := by
    have e : ∀ p q l, exStopRule (p :: q :: l) = ∅ := fun _ _ _ => rfl
    refine fun a ha t => ⟨?_, fun b hb s => ⟨by simp [e], fun d hd r => ⟨by simp [e], trivial⟩⟩⟩
    by_cases h : 1 / 2 < t
    · rw [show exStopRule [(a, t)] = {2} by simp only [exStopRule, h, if_true]]
      decide
    · rw [show exStopRule [(a, t)] = ∅ by simp only [exStopRule, h, if_false]]
      simp

theorem iterate_of_tops {rule : Rule N} {k : Nat} {hist : List (Fin N × ℝ)} {A : Finset (Fin N)} {x : Fin N → ℝ} {a : Fin N}
    (h : tops A x = {a}) : iterate rule (k + 1) hist A x = ⟨a, x a, A.card, rule ((a, x a) :: hist)⟩ ::
      iterate rule k ((a, x a) :: hist) (A.erase a ∪ rule ((a, x a) :: hist))
        (fun b => if b ∈ rule ((a, x a) :: hist) then x a * x b else x b) := by
  have h1 : (tops A x).Nonempty := by simp [h]
  have h2 : (tops A x).min' h1 = a := by simp [h]
  rw [iterate, dif_pos h1]
  simp only [h2]

/-- The rule stops after two points if the first removal is at less than half of the prior. -/
example : (removals exStopRule {0, 1} (fun i => if i = 0 then 1 / 4 else 1 / 8)).length = 2 ∧
    IidUniform ((unifPow 3).prod (unifPow 3)) 3 (fun p => shrinkages 1 (removals exStopRule {0, 1}
      (fun i => (List.ofFn p.1).getD i 0)) ++ List.ofFn p.2) := by
  refine ⟨?_, C92_stopped exStopping (ofFn_iid 3) (fun _ => by simp) (ofFn_iid 3)⟩
  set x : Fin 3 → ℝ := fun i => if i = 0 then 1 / 4 else 1 / 8 with hx
  have h1 : tops {0, 1} x = {0} := by
    ext i
    fin_cases i <;> simp [tops, hx] <;> norm_num
  have e1 : exStopRule [((0 : Fin 3), x 0)] = ∅ := by
    have : ¬ (1 / 2 < x 0) := by simp [hx]; norm_num
    simp only [exStopRule, this, if_false]
  have h2 : tops {1} x = {1} := by
    ext i
    fin_cases i <;> simp [tops]
  have e2 : ({0, 1} : Finset (Fin 3)).erase 0 = {1} := by decide
  have e3 : ({1} : Finset (Fin 3)).erase 1 = ∅ := by decide
  have e4 : ∀ p q l, exStopRule (p :: q :: l) = ∅ := fun _ _ _ => rfl
  rw [removals, iterate_of_tops h1]
  simp only [e1, e2, Finset.union_empty, Finset.notMem_empty, if_false]
  rw [iterate_of_tops h2]
  simp only [e3, e4, Finset.union_empty, Finset.notMem_empty, if_false]
  simp [iterate, tops]

end

end Nestcheck
