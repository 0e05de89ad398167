import Verif.Props.Shrinkage
import Verif.Props.AdaptiveEvidence

/-! C98: simulated prior volumes are close to the expected ones if there are many live points. -/

namespace Nestcheck
open Spec MeasureTheory ProbabilityTheory ENNReal Filter Topology
variable {σ : Type} {N : Nat} {ns : List Nat}

noncomputable section

/-! ### The cells of the samples -/

/-- The edges of the cells of `n` samples which enclose the volumes `V 1`, ..., `V n`. -/
def edgesOf (V : Nat → ℝ) (n i : Nat) : ℝ := if i = 0 then 1 else if i < n then (V i + V (i + 1)) / 2 else 0

theorem cut_eq (i : Nat) : cut ns i = edgesOf (expectedVolume ns) ns.length i := rfl

theorem shells_eq {X : List ℝ} {V : Nat → ℝ} (hne : X ≠ []) (hg : ∀ i < X.length, X[i]? = some (V (i + 1))) :
    shells X = (List.range X.length).map (fun i => edgesOf V X.length i - edgesOf V X.length (i + 1)) := by
  have hpos : 0 < X.length := List.length_pos_of_ne_nil hne
  have he : edges X = (List.range (X.length + 1)).map (edgesOf V X.length) := by
    apply List.ext_getElem?
    intro i
    unfold edges
    rcases i with _ | i
    · simp [edgesOf]
    · rw [List.getElem?_cons_succ]
      have hzl : (List.zipWith (fun a b : ℝ => (a + b) / 2) X X.tail).length = X.length - 1 := by simp
      rcases lt_trichotomy (i + 1) X.length with h | h | h
      · rw [List.getElem?_append_left (by omega), List.getElem?_map, List.getElem?_range (by omega), List.getElem?_zipWith,
          List.getElem?_tail, hg i (by omega), hg (i + 1) h]
        simp [edgesOf, h]
      · rw [List.getElem?_append_right (by omega), List.getElem?_map, List.getElem?_range (by omega), hzl]
        simp [edgesOf, ← h]
      · rw [List.getElem?_append_right (by omega), List.getElem?_eq_none (by simp; omega), List.getElem?_eq_none (by simp; omega)]
  rw [shells, he]
  apply List.ext_getElem?
  intro i
  rw [List.getElem?_zipWith, List.getElem?_tail]
  by_cases h : i < X.length
  · simp [h, (by omega : i < X.length + 1)]
  · simp [h]

theorem edgesOf_antitone {V : Nat → ℝ} {n : Nat} (hV : ∀ i < n, V (i + 1) ≤ V i) (h0 : V 0 ≤ 1) (hpos : ∀ i, 0 ≤ V i) (i : Nat) :
    edgesOf V n (i + 1) ≤ edgesOf V n i := by
  unfold edgesOf
  rw [if_neg (by omega)]
  by_cases h1 : i + 1 < n
  · rw [if_pos h1]
    have h2 := hV i (by omega)
    have h3 := hV (i + 1) h1
    split_ifs with h4 h5
    · subst h4
      linarith
    · linarith
    · omega
  · rw [if_neg h1]
    split_ifs
    · exact zero_le_one
    · linarith [hpos i, hpos (i + 1)]
    · exact le_rfl

theorem edgesOf_end {V : Nat → ℝ} {n : Nat} (hn : n ≠ 0) : edgesOf V n n = 0 := by simp [edgesOf, hn]

/-! ### Simulated volumes -/

/-- The volume left after `i` removals, if removing one of `n` points shrinks it by `u ^ (1 / n)`, where `u` is a draw from `s`. -/
def simVolume (ns : List Nat) (s : Fin N → ℝ) (i : Nat) : ℝ :=
  if i = 0 then 1 else Real.exp (simPos (fun j : Fin N => ((ns.getD j 1 : Nat) : ℝ)) (i - 1) s)

theorem simVolume_pos (s : Fin N → ℝ) (i : Nat) : 0 < simVolume ns s i := by
  unfold simVolume
  split_ifs
  · exact one_pos
  · exact Real.exp_pos _

theorem simPos_succ {n : Nat} (a : Fin n → ℝ) (i : Nat) (u : Fin n → ℝ) (hi : i + 1 < n) :
    simPos a (i + 1) u = simPos a i u + Real.log (u ⟨i + 1, hi⟩) / a ⟨i + 1, hi⟩ := by
  unfold simPos
  have : ∀ j : Fin n, (if (j : Nat) ≤ i + 1 then Real.log (u j) / a j else 0) =
      (if (j : Nat) ≤ i then Real.log (u j) / a j else 0) + (if j = ⟨i + 1, hi⟩ then Real.log (u j) / a j else 0) := by
    intro j
    by_cases h1 : (j : Nat) ≤ i
    · rw [if_pos h1, if_pos (by omega), if_neg (fun h => by rw [h] at h1; simp at h1), add_zero]
    · by_cases h2 : j = ⟨i + 1, hi⟩
      · rw [if_neg h1, if_pos h2, if_pos (by rw [h2]), zero_add]
      · have h3 : ¬ (j : Nat) ≤ i + 1 := fun h => h2 (Fin.ext (by simp; omega))
        rw [if_neg h1, if_neg h2, if_neg h3, add_zero]
  simp only [this, Finset.sum_add_distrib]
  simp

theorem simVolume_succ {s : Fin N → ℝ} (hs : ∀ j, 0 < s j ∧ s j < 1) {i : Nat} (hi : i < ns.length) (hN : ns.length ≤ N) :
    simVolume ns s (i + 1) ≤ simVolume ns s i := by
  have hl : ∀ j : Fin N, Real.log (s j) / ((ns.getD j 1 : Nat) : ℝ) ≤ 0 := fun j =>
    div_nonpos_of_nonpos_of_nonneg (Real.log_nonpos (hs j).1.le (hs j).2.le) (Nat.cast_nonneg _)
  unfold simVolume
  rw [if_neg (by omega)]
  split_ifs with h
  · rw [← Real.exp_zero]
    refine Real.exp_le_exp.mpr (Finset.sum_nonpos fun j _ => ?_)
    split_ifs
    · exact hl j
    · exact le_rfl
  · refine Real.exp_le_exp.mpr ?_
    obtain ⟨i, rfl⟩ := Nat.exists_eq_succ_of_ne_zero h
    have := simPos_succ (fun j : Fin N => ((ns.getD j 1 : Nat) : ℝ)) i s (by omega)
    simp only [Nat.succ_eq_add_one, Nat.add_sub_cancel]
    rw [this]
    linarith [hl ⟨i + 1, by omega⟩]

theorem simVolume_anti {s : Fin N → ℝ} (hs : ∀ j, 0 < s j ∧ s j < 1) (hN : ns.length ≤ N) {i j : Nat} (hij : i ≤ j) (hj : j ≤ ns.length) :
    simVolume ns s j ≤ simVolume ns s i := by
  induction j, hij using Nat.le_induction with
  | base => exact le_rfl
  | succ j hij ih => exact (simVolume_succ hs (by omega) hN).trans (ih (by omega))

theorem simVolume_le_one {s : Fin N → ℝ} (hs : ∀ j, 0 < s j ∧ s j < 1) (hN : ns.length ≤ N) {i : Nat} (hi : i ≤ ns.length) :
    simVolume ns s i ≤ 1 := by
  have := simVolume_anti hs hN (Nat.zero_le i) hi
  simpa [simVolume] using this

theorem simVolume_measurable (i : Nat) : Measurable (fun s : Fin N → ℝ => simVolume ns s i) := by
  unfold simVolume
  split_ifs
  · exact measurable_const
  · exact Real.measurable_exp.comp (simPos_measurable _ _)

/-- The edges of the cells with simulated volumes. -/
def simCut (ns : List Nat) (s : Fin N → ℝ) (i : Nat) : ℝ := edgesOf (simVolume ns s) ns.length i

theorem simCut_measurable (i : Nat) : Measurable (fun s : Fin N → ℝ => simCut ns s i) := by
  unfold simCut edgesOf
  split_ifs
  · exact measurable_const
  · exact ((simVolume_measurable _).add (simVolume_measurable _)).div_const _
  · exact measurable_const

theorem simCut_anti {s : Fin N → ℝ} (hs : ∀ j, 0 < s j ∧ s j < 1) (hN : ns.length ≤ N) (i : Nat) : simCut ns s (i + 1) ≤ simCut ns s i :=
  edgesOf_antitone (fun _ hi => simVolume_succ hs hi hN) (by simp [simVolume]) (fun i => (simVolume_pos s i).le) i

theorem simulated_eq (hne : ns ≠ []) (s : Fin N → ℝ) (hN : ns.length ≤ N) :
    priorVolumes true ((List.ofFn s).take ns.length) (ns.map (fun m : Nat => (m : Int))) =
      (List.range ns.length).map (fun i => simCut ns s i - simCut ns s (i + 1)) := by
  set us := (List.ofFn s).take ns.length with hus
  have hul : us.length = ns.length := by simp [hus, hN]
  set X := (positions (simulatedSteps us (ns.map (fun m : Nat => (m : Int))))).map Real.exp with hX
  have hl : X.length = ns.length := by simp [hX, positions, simulatedSteps, hul]
  have hg : ∀ i < X.length, X[i]? = some (simVolume ns s (i + 1)) := fun i hi => by
    have hi' : i < ns.length := hl ▸ hi
    rw [hX, List.getElem?_map, positions, List.getElem?_map, List.getElem?_range (by simpa [simulatedSteps, hul] using hi')]
    simp only [Option.map_some, simVolume, Nat.add_sub_cancel]
    rw [if_neg (by omega)]
    congr 2
    have hz : ∀ j (hj : j < ns.length), (simulatedSteps us (ns.map (fun m : Nat => (m : Int)))).getD j 0 =
        Real.log (s ⟨j, by omega⟩) / ((ns.getD j 1 : Nat) : ℝ) := by
      intro j hj
      simp only [simulatedSteps, List.getD_eq_getElem?_getD, List.getElem?_zipWith, List.getElem?_map, List.getElem?_eq_getElem hj,
        List.getElem?_eq_getElem (show j < us.length by omega), Option.map_some, Option.getD_some]
      simp [hus]
    have hlen : (simulatedSteps us (ns.map (fun m : Nat => (m : Int)))).length = ns.length := by simp [simulatedSteps, hul]
    generalize simulatedSteps us (ns.map (fun m : Nat => (m : Int))) = l at hz hlen
    clear hi
    induction i with
    | zero =>
      have h0 : simPos (fun j : Fin N => ((ns.getD j 1 : Nat) : ℝ)) 0 s = Real.log (s ⟨0, by omega⟩) / ((ns.getD 0 1 : Nat) : ℝ) := by
        unfold simPos
        rw [Finset.sum_eq_single ⟨0, by omega⟩]
        · simp
        · intro b _ hb
          rw [if_neg]
          intro h
          exact hb (Fin.ext (by simp; omega))
        · simp
      rw [h0, ← hz 0 hi']
      have : 0 < l.length := by omega
      rw [List.take_add_one, List.take_zero, List.getD_eq_getElem?_getD, List.getElem?_eq_getElem this]
      simp
    | succ i ih =>
      rw [simPos_succ _ _ _ (by omega), ← ih (by omega) hz, List.take_add_one, List.sum_append]
      congr 1
      have := hz (i + 1) hi'
      rw [List.getD_eq_getElem?_getD, List.getElem?_eq_getElem (by omega)] at this
      rw [List.getElem?_eq_getElem (by omega)]
      simpa using this
  unfold priorVolumes
  simp only [if_true]
  rw [← hX, shells_eq (List.ne_nil_of_length_pos (by rw [hl]; exact List.length_pos_of_ne_nil hne)) hg, hl]
  rfl

/-! ### The distance between simulated and expected volumes -/

theorem abs_exp_sub_le {a b : ℝ} (ha : a ≤ 0) (hb : b ≤ 0) : |Real.exp a - Real.exp b| ≤ |a - b| := by
  wlog h : b ≤ a with H
  · rw [abs_sub_comm, abs_sub_comm a]
    exact H hb ha (le_of_not_ge h)
  rw [abs_of_nonneg (by linarith [Real.exp_le_exp.mpr h]), abs_of_nonneg (by linarith)]
  have h1 := Real.add_one_le_exp (b - a)
  have h2 : Real.exp b = Real.exp a * Real.exp (b - a) := by rw [← Real.exp_add]; congr 1; ring
  have h3 : Real.exp a ≤ 1 := by rw [← Real.exp_zero]; exact Real.exp_le_exp.mpr ha
  rw [h2]
  nlinarith [Real.exp_pos a]

theorem sum_take_getD {f : Nat → ℝ} {i : Nat} (hi : i < ns.length) (hN : ns.length ≤ N) :
    ∑ j : Fin N, (if (j : Nat) ≤ i then f (ns.getD j 1) else 0) = ((ns.take (i + 1)).map f).sum := by
  have h1 : ∀ j : Nat, (ns.map f).getD j 0 = if j < ns.length then f (ns.getD j 1) else 0 := by
    intro j
    split_ifs with h
    · simp [List.getD_eq_getElem?_getD, List.getElem?_eq_getElem h]
    · simp [List.getD_eq_getElem?_getD, List.getElem?_eq_none (not_lt.mp h)]
  have h2 : ∀ (l : List ℝ) (m : Nat), m ≤ l.length → (l.take m).sum = ∑ j ∈ Finset.range m, l.getD j 0 := by
    intro l m
    induction m with
    | zero => simp
    | succ m ih =>
      intro hm
      rw [Finset.sum_range_succ, ← ih (by omega), List.take_add_one, List.sum_append, List.getD_eq_getElem?_getD,
        List.getElem?_eq_getElem (by omega)]
      simp
  rw [List.map_take, h2 _ _ (by simpa using hi), Fin.sum_univ_eq_sum_range (fun j => if j ≤ i then f (ns.getD j 1) else 0) N]
  rw [← Finset.sum_filter]
  have h3 : (Finset.range N).filter (fun j => j ≤ i) = Finset.range (i + 1) := by
    ext j
    simp
    omega
  rw [h3]
  refine Finset.sum_congr rfl fun j hj => ?_
  rw [h1, if_pos (by simp at hj; omega)]

theorem sim_dev (hN : ns.length ≤ N) {i : Nat} (hi : i ≤ ns.length) {K η : ℝ} (hη : 0 < η) (hK : spread (ns.take i) ≤ K) :
    ∫⁻ s, ‖simVolume ns s i - expectedVolume ns i‖ₑ ∂unifPow N ≤ ENNReal.ofReal (η + K / η) := by
  have hK0 : 0 ≤ K := by
    refine le_trans (List.sum_nonneg ?_) hK
    intro y hy
    obtain ⟨n, _, rfl⟩ := List.mem_map.mp hy
    positivity
  rcases i with _ | i
  · simp [simVolume, expectedVolume_zero]
  set a : Fin N → ℝ := fun j : Fin N => ((ns.getD j 1 : Nat) : ℝ) with ha
  set m := -((ns.take (i + 1)).map (fun n : Nat => 1 / (n : ℝ))).sum with hm
  have hmean : ∫ s, simPos a i s ∂unifPow N = m := by
    rw [unifPow, simPos_mean, hm, ← sum_take_getD (f := fun n : Nat => 1 / (n : ℝ)) (N := N) hi hN, ← Finset.sum_neg_distrib]
    refine Finset.sum_congr rfl fun j _ => ?_
    split_ifs
    · rw [ha]
      ring
    · simp
  have hL : MemLp (simPos a i) 2 (unifPow N) := simPos_memLp a i
  have hvar : variance (simPos a i) (unifPow N) ≤ K := by
    rw [unifPow, simPos_variance]
    refine le_trans (le_of_eq ?_) hK
    exact sum_take_getD (f := fun n : Nat => 1 / (n : ℝ) ^ 2) hi hN
  have hint : Integrable (fun s => (simPos a i s - m) ^ 2) (unifPow N) := (hL.sub (memLp_const m)).integrable_sq
  have hm0 : m ≤ 0 := by
    rw [hm, neg_nonpos]
    refine List.sum_nonneg ?_
    intro y hy
    obtain ⟨n, _, rfl⟩ := List.mem_map.mp hy
    positivity
  have hae : ∀ᵐ s ∂unifPow N, ‖simVolume ns s (i + 1) - expectedVolume ns (i + 1)‖ₑ ≤
      ENNReal.ofReal η + ENNReal.ofReal ((simPos a i s - m) ^ 2 / η) := by
    filter_upwards [pi_pos N] with s hs
    rw [Real.enorm_eq_ofReal_abs, ← ENNReal.ofReal_add hη.le (by positivity)]
    refine ENNReal.ofReal_le_ofReal ?_
    have h1 : simVolume ns s (i + 1) = Real.exp (simPos a i s) := by simp [simVolume, ha]
    have h2 : simPos a i s ≤ 0 := by
      have := simVolume_le_one (ns := ns) hs hN hi
      rw [h1] at this
      simpa using this
    rw [h1, expectedVolume, ← hm]
    refine (abs_exp_sub_le h2 hm0).trans ?_
    by_cases h : |simPos a i s - m| ≤ η
    · have : 0 ≤ (simPos a i s - m) ^ 2 / η := by positivity
      linarith
    · rw [not_le] at h
      have : |simPos a i s - m| ≤ (simPos a i s - m) ^ 2 / η := by
        rw [le_div_iff₀ hη, ← sq_abs, pow_two]
        exact mul_le_mul_of_nonneg_left h.le (abs_nonneg _)
      linarith
  calc ∫⁻ s, ‖simVolume ns s (i + 1) - expectedVolume ns (i + 1)‖ₑ ∂unifPow N
      ≤ ∫⁻ s, (ENNReal.ofReal η + ENNReal.ofReal ((simPos a i s - m) ^ 2 / η)) ∂unifPow N := lintegral_mono_ae hae
    _ = ENNReal.ofReal η + ENNReal.ofReal (∫ s, (simPos a i s - m) ^ 2 / η ∂unifPow N) := by
        rw [lintegral_add_left measurable_const, lintegral_const, measure_univ, mul_one,
          ofReal_integral_eq_lintegral_ofReal (hint.div_const η) (ae_of_all _ fun e => by positivity)]
    _ = ENNReal.ofReal η + ENNReal.ofReal (variance (simPos a i) (unifPow N) / η) := by
        rw [integral_div, variance_eq_integral hL.aestronglyMeasurable.aemeasurable, hmean]
    _ ≤ ENNReal.ofReal η + ENNReal.ofReal (K / η) := by gcongr
    _ = _ := by rw [← ENNReal.ofReal_add hη.le (by positivity)]

theorem plenty_spread {ε : ℝ} {n : Nat} (hn : 0 < n) (hp : Plenty ε n ns) {i : Nat} (hi : i ≤ ns.length)
    (hε : ∀ j < i, ε ≤ expectedVolume ns j) (hε0 : 0 < ε) (hε1 : ε ≤ 1) : spread (ns.take i) ≤ 1 / n * (1 / n - Real.log ε) := by
  have hn0 : (0 : ℝ) < n := by exact_mod_cast hn
  have hall : ∀ m ∈ ns.take i, n ≤ m := by
    intro m hm
    obtain ⟨j, hj, rfl⟩ := List.getElem_of_mem hm
    have hj' : j < i := by
      rw [List.length_take] at hj
      omega
    rw [List.getElem_take]
    exact hp j _ (List.getElem?_eq_getElem (by omega)) (hε j hj')
  have hinv : ∀ {m : Nat}, n ≤ m → 1 / (m : ℝ) ≤ 1 / n := fun {m} h => one_div_le_one_div_of_le hn0 (by exact_mod_cast h)
  calc spread (ns.take i) ≤ ((ns.take i).map (fun m : Nat => 1 / n * (1 / (m : ℝ)))).sum := by
        refine List.sum_le_sum fun m hm => ?_
        have h7 := hinv (hall m hm)
        have : 1 / (m : ℝ) ^ 2 = 1 / m * (1 / m) := by rw [sq, one_div_mul_one_div]
        rw [this]
        exact mul_le_mul_of_nonneg_right h7 (by positivity)
    _ = 1 / n * (-Real.log (expectedVolume ns i)) := by
        rw [List.sum_map_mul_left, expectedVolume, Real.log_exp, neg_neg]
    _ ≤ 1 / n * (1 / n - Real.log ε) := by
        refine mul_le_mul_of_nonneg_left ?_ (by positivity)
        rcases i with _ | i
        · rw [expectedVolume_zero, Real.log_one]
          have := Real.log_nonpos hε0.le hε1
          have h2 : (0 : ℝ) ≤ 1 / n := by positivity
          linarith
        · have h1 := hε i (Nat.lt_succ_self i)
          have hi' : i < ns.length := hi
          rw [expectedVolume_succ (List.getElem?_eq_getElem hi'), Real.log_mul (expectedVolume_pos i).ne' (Real.exp_pos _).ne', Real.log_exp]
          have h2 := Real.log_le_log hε0 h1
          have h3 := hinv (hp i _ (List.getElem?_eq_getElem hi') h1)
          linarith

/-- Simulated volumes are close to those expected, at all the samples. -/
theorem simVolume_close (hN : ns.length ≤ N) {ε : ℝ} (hε0 : 0 < ε) (hε1 : ε ≤ 1) {n : Nat} (hn : 0 < n) (hp : Plenty ε n ns) {η : ℝ} (hη : 0 < η)
    {i : Nat} (hi : i ≤ ns.length) : ∫⁻ s, ‖simVolume ns s i - expectedVolume ns i‖ₑ ∂unifPow N ≤
      ENNReal.ofReal (2 * ε + (η + 1 / n * (1 / n - Real.log ε) / η)) := by
  have hlog := Real.log_nonpos hε0.le hε1
  have h0 : (0 : ℝ) ≤ η + 1 / n * (1 / n - Real.log ε) / η := by
    have h2 : (0 : ℝ) ≤ 1 / n := by positivity
    have : 0 ≤ 1 / (n : ℝ) * (1 / n - Real.log ε) := mul_nonneg h2 (by linarith)
    positivity
  by_cases h : ∃ j ≤ i, expectedVolume ns j < ε
  swap
  · push Not at h
    refine (sim_dev hN hi hη (plenty_spread hn hp hi (fun j hj => h j hj.le) hε0 hε1)).trans (ENNReal.ofReal_le_ofReal ?_)
    linarith
  classical
  have hex : ∃ j, expectedVolume ns j < ε := ⟨h.choose, h.choose_spec.2⟩
  set j := Nat.find hex with hj
  have hj1 : expectedVolume ns j < ε := Nat.find_spec hex
  have hji : j ≤ i := (Nat.find_min' hex h.choose_spec.2).trans h.choose_spec.1
  have hdev := sim_dev hN (hji.trans hi) hη (plenty_spread hn hp (hji.trans hi) (fun m hm => not_lt.mp (Nat.find_min hex hm)) hε0 hε1)
  have hae : ∀ᵐ s ∂unifPow N, ‖simVolume ns s i - expectedVolume ns i‖ₑ ≤
      ENNReal.ofReal (2 * ε) + ‖simVolume ns s j - expectedVolume ns j‖ₑ := by
    filter_upwards [pi_pos N] with s hs
    rw [Real.enorm_eq_ofReal_abs, Real.enorm_eq_ofReal_abs, ← ENNReal.ofReal_add (by positivity) (abs_nonneg _)]
    refine ENNReal.ofReal_le_ofReal ?_
    have h1 := simVolume_anti hs hN hji hi
    have h2 := expectedVolume_anti (ns := ns) hji
    have h3 := simVolume_pos (ns := ns) s i
    have h4 := expectedVolume_pos (ns := ns) i
    have h5 := le_abs_self (simVolume ns s j - expectedVolume ns j)
    have h6 := expectedVolume_pos (ns := ns) j
    rw [abs_le]
    constructor <;> linarith [abs_nonneg (simVolume ns s j - expectedVolume ns j)]
  calc ∫⁻ s, ‖simVolume ns s i - expectedVolume ns i‖ₑ ∂unifPow N
      ≤ ∫⁻ s, (ENNReal.ofReal (2 * ε) + ‖simVolume ns s j - expectedVolume ns j‖ₑ) ∂unifPow N := lintegral_mono_ae hae
    _ = ENNReal.ofReal (2 * ε) + ∫⁻ s, ‖simVolume ns s j - expectedVolume ns j‖ₑ ∂unifPow N := by
        rw [lintegral_add_left measurable_const, lintegral_const, measure_univ, mul_one]
    _ ≤ ENNReal.ofReal (2 * ε) + ENNReal.ofReal (η + 1 / n * (1 / n - Real.log ε) / η) := by gcongr
    _ = _ := by rw [← ENNReal.ofReal_add (by positivity) h0]

theorem simCut_close {κ : ℝ} (h : ∀ i ≤ ns.length, ∫⁻ s, ‖simVolume ns s i - expectedVolume ns i‖ₑ ∂unifPow N ≤ ENNReal.ofReal κ) (i : Nat) :
    ∫⁻ s, ‖simCut ns (N := N) s i - cut ns i‖ₑ ∂unifPow N ≤ ENNReal.ofReal κ := by
  rw [cut_eq]
  unfold simCut edgesOf
  split_ifs with h1 h2
  · simp
  · have hm : ∀ i, Measurable (fun s : Fin N → ℝ => ‖simVolume ns s i - expectedVolume ns i‖ₑ) := fun i =>
      ((simVolume_measurable i).sub_const _).enorm
    calc ∫⁻ s, ‖(simVolume ns s i + simVolume ns s (i + 1)) / 2 - (expectedVolume ns i + expectedVolume ns (i + 1)) / 2‖ₑ ∂unifPow N
        ≤ ∫⁻ s, (2⁻¹ * ‖simVolume ns s i - expectedVolume ns i‖ₑ + 2⁻¹ * ‖simVolume ns s (i + 1) - expectedVolume ns (i + 1)‖ₑ) ∂unifPow N := by
          refine lintegral_mono fun s => ?_
          have h3 : (2⁻¹ : ℝ≥0∞) = ‖(2⁻¹ : ℝ)‖ₑ := by
            rw [Real.enorm_eq_ofReal_abs, abs_of_pos (by norm_num), ENNReal.ofReal_inv_of_pos two_pos, ENNReal.ofReal_ofNat]
          rw [h3, ← enorm_mul, ← enorm_mul]
          refine le_trans (le_of_eq ?_) (enorm_add_le _ _)
          congr 1
          ring
      _ = 2⁻¹ * (∫⁻ s, ‖simVolume ns s i - expectedVolume ns i‖ₑ ∂unifPow N) +
          2⁻¹ * ∫⁻ s, ‖simVolume ns s (i + 1) - expectedVolume ns (i + 1)‖ₑ ∂unifPow N := by
          rw [lintegral_add_left ((hm i).const_mul _), lintegral_const_mul _ (hm _), lintegral_const_mul _ (hm _)]
      _ ≤ 2⁻¹ * ENNReal.ofReal κ + 2⁻¹ * ENNReal.ofReal κ := by
          gcongr
          · exact h i h2.le
          · exact h (i + 1) h2
      _ = ENNReal.ofReal κ := by rw [← add_mul, ENNReal.inv_two_add_inv_two, one_mul]
  · simp

/-! ### Sums over the samples -/

/-- The sum over the samples of their simulated prior volumes, times `h`. -/
def simWeighted (h : Nat → ℝ) (ns : List Nat) (s : Fin N → ℝ) : ℝ :=
  ∑ i ∈ Finset.range ns.length, (simCut ns s i - simCut ns s (i + 1)) * h i

theorem simWeighted_measurable {h : Nat → ℝ} : Measurable (fun s : Fin N → ℝ => simWeighted h ns s) :=
  Finset.measurable_fun_sum _ fun i _ => ((simCut_measurable i).sub (simCut_measurable (i + 1))).mul_const _

theorem sum_by_parts (D h : Nat → ℝ) : ∀ n : Nat, ∑ i ∈ Finset.range (n + 1), (D i - D (i + 1)) * h i =
    D 0 * h 0 - D (n + 1) * h n + ∑ i ∈ Finset.range n, D (i + 1) * (h (i + 1) - h i)
  | 0 => by simp; ring
  | n + 1 => by
    rw [Finset.sum_range_succ, sum_by_parts D h n, Finset.sum_range_succ]
    ring

/-- For quantities which grow with the likelihood, sums with simulated prior volumes are close to those with expected ones. -/
theorem simWeighted_close {κ : ℝ} (hκ : ∀ i, ∫⁻ s, ‖simCut ns (N := N) s i - cut ns i‖ₑ ∂unifPow N ≤ ENNReal.ofReal κ) (hne : ns ≠ []) {h : Nat → ℝ}
    (hmono : ∀ i, i + 1 < ns.length → h i ≤ h (i + 1)) :
    ∫⁻ s, ‖simWeighted h ns s - ∑ i ∈ Finset.range ns.length, (cut ns i - cut ns (i + 1)) * h i‖ₑ ∂unifPow N ≤
      ENNReal.ofReal κ * ENNReal.ofReal (h (ns.length - 1) - h 0) := by
  obtain ⟨n, hn⟩ : ∃ n, ns.length = n + 1 := ⟨ns.length - 1, by have := List.length_pos_of_ne_nil hne; omega⟩
  have hmain : ∀ s : Fin N → ℝ, simWeighted h ns s - ∑ i ∈ Finset.range ns.length, (cut ns i - cut ns (i + 1)) * h i =
      ∑ i ∈ Finset.range n, (simCut ns s (i + 1) - cut ns (i + 1)) * (h (i + 1) - h i) := by
    intro s
    have h1 := sum_by_parts (fun i => simCut ns s i - cut ns i) h n
    have e0 : simCut ns s 0 - cut ns 0 = 0 := by simp [simCut, cut_eq, edgesOf]
    have e1 : simCut ns s (n + 1) - cut ns (n + 1) = 0 := by simp [simCut, cut_eq, edgesOf, hn]
    simp only [e0, e1, zero_mul, sub_zero, zero_add] at h1
    rw [← h1, simWeighted, hn, ← Finset.sum_sub_distrib]
    refine Finset.sum_congr rfl fun i _ => ?_
    ring
  have hm : ∀ i, Measurable (fun s : Fin N → ℝ => ‖simCut ns s (i + 1) - cut ns (i + 1)‖ₑ) := fun i =>
    ((simCut_measurable (i + 1)).sub_const _).enorm
  calc ∫⁻ s, ‖simWeighted h ns s - ∑ i ∈ Finset.range ns.length, (cut ns i - cut ns (i + 1)) * h i‖ₑ ∂unifPow N
      ≤ ∫⁻ s, ∑ i ∈ Finset.range n, ‖simCut ns s (i + 1) - cut ns (i + 1)‖ₑ * ENNReal.ofReal (h (i + 1) - h i) ∂unifPow N := by
        refine lintegral_mono fun s => ?_
        rw [hmain]
        refine (enorm_sum_le _ _).trans (Finset.sum_le_sum fun i hi => ?_)
        rw [enorm_mul, Real.enorm_eq_ofReal_abs (h (i + 1) - h i), abs_of_nonneg]
        have := hmono i (by have := Finset.mem_range.mp hi; omega)
        linarith
    _ = ∑ i ∈ Finset.range n, (∫⁻ s, ‖simCut ns s (i + 1) - cut ns (i + 1)‖ₑ ∂unifPow N) * ENNReal.ofReal (h (i + 1) - h i) := by
        rw [lintegral_finsetSum _ fun i _ => (hm i).mul_const _]
        exact Finset.sum_congr rfl fun i _ => lintegral_mul_const _ (hm i)
    _ ≤ ∑ i ∈ Finset.range n, ENNReal.ofReal κ * ENNReal.ofReal (h (i + 1) - h i) := by
        gcongr
        exact hκ _
    _ = ENNReal.ofReal κ * ENNReal.ofReal (h (ns.length - 1) - h 0) := by
        rw [← Finset.mul_sum, ← ENNReal.ofReal_sum_of_nonneg, Finset.sum_range_sub, hn, Nat.add_sub_cancel]
        intro i hi
        have := hmono i (by have := Finset.mem_range.mp hi; omega)
        linarith

/-- With enough live points in the beginning, the cells of all samples are close to those expected. -/
theorem simCut_uniform {τ : ℝ} (hτ : 0 < τ) : ∃ C : Nat, ∀ {ns : List Nat} {N n0 : Nat}, ns.length ≤ N → ns.head? = some n0 → C ≤ n0 →
    ns.IsChain (fun a b => a ≤ b + 1) → (∀ m ∈ ns, 0 < m) → ∀ i, ∫⁻ s, ‖simCut ns (N := N) s i - cut ns i‖ₑ ∂unifPow N ≤ ENNReal.ofReal τ := by
  set ε := min (τ / 8) 1 with hε
  have hε0 : 0 < ε := lt_min (by positivity) one_pos
  have hε1 : ε ≤ 1 := min_le_right _ _
  have hε2 : ε ≤ τ / 8 := min_le_left _ _
  have hlim : Tendsto (fun n : Nat => 1 / (n : ℝ) * (1 / n - Real.log ε) / (τ / 4)) atTop (𝓝 0) := by
    have h1 : Tendsto (fun n : Nat => 1 / (n : ℝ)) atTop (𝓝 0) := tendsto_one_div_atTop_nhds_zero_nat
    have h2 := (h1.mul (h1.sub_const (Real.log ε))).div_const (τ / 4)
    simpa using h2
  obtain ⟨n, n1, n2⟩ := ((hlim.eventually_lt_const (show (0 : ℝ) < τ / 4 by positivity)).and (eventually_gt_atTop 0)).exists
  obtain ⟨C, hC⟩ := exists_nat_gt (n / ε)
  refine ⟨C, fun {ns N n0} hN h0 hC0 hch hpos => simCut_close fun i hi => ?_⟩
  have hp : Plenty ε n ns := plenty_of_start h0 hch hpos (by
    have h4 : (C : ℝ) ≤ n0 := by exact_mod_cast hC0
    rw [div_lt_iff₀ hε0] at hC
    nlinarith)
  refine (simVolume_close hN hε0 hε1 n2 hp (show (0 : ℝ) < τ / 4 by positivity) hi).trans (ENNReal.ofReal_le_ofReal ?_)
  linarith

end

end Nestcheck
