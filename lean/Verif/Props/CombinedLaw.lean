import Mathlib.Data.List.SplitLengths
import Verif.Props.SideBySide
import Verif.Props.MergeArrays

/-! C93: combining the runs of independent ideal samplers. -/

namespace Nestcheck
open Spec MeasureTheory ENNReal
variable {σ Ω : Type} {N : Nat}

noncomputable section

/-! ### The samplers take the random numbers one after the other -/

/-- The number of points drawn by all samplers. -/
abbrev planned (ps : List SamplerPlan) : Nat := (ps.map SamplerPlan.size).sum

/-- The points of the samplers. -/
def blocks (ps : List SamplerPlan) : List (List (Fin (planned ps))) := (ps.map SamplerPlan.size).splitLengths (List.finRange (planned ps))

theorem map_splitLengths {α β : Type} (f : α → β) : ∀ (sz : List Nat) (l : List α),
    (sz.splitLengths l).map (List.map f) = sz.splitLengths (l.map f)
  | [], _ => rfl
  | k :: sz, l => by
    simp only [List.splitLengths_cons, List.map_cons, map_splitLengths f sz, List.map_take, List.map_drop]

theorem splitLengths_flatten {α : Type} : ∀ ds : List (List α), (ds.map List.length).splitLengths ds.flatten = ds
  | [] => rfl
  | d :: ds => by
    simp only [List.map_cons, List.splitLengths_cons, List.flatten_cons, List.take_left, List.drop_left, splitLengths_flatten ds]

theorem blocks_flatten (ps : List SamplerPlan) : (blocks ps).flatten = List.finRange (planned ps) :=
  List.flatten_splitLengths _ _ (by simp)

theorem blocks_length (ps : List SamplerPlan) : (blocks ps).length = ps.length := by simp [blocks]

theorem blocks_lengths (ps : List SamplerPlan) : (blocks ps).map List.length = ps.map SamplerPlan.size :=
  List.map_splitLengths_length _ _ (by simp)

/-- The plan and the points of sampler `i`. -/
abbrev startOfPlan (ps : List SamplerPlan) (i : Nat) : Nat := (ps.getD i (0, [])).1
abbrev addsOfPlan (ps : List SamplerPlan) (i : Nat) : List Nat := (ps.getD i (0, [])).2
abbrev pointsOfPlan (ps : List SamplerPlan) (i : Nat) : List (Fin (planned ps)) := (blocks ps).getD i []

theorem exists_layout {ps : List SamplerPlan} (hne : ps ≠ []) (hs : ∀ p ∈ ps, VolumeSchedule p.1 p.2) :
    ∃ owner, Layout (planned ps) ps.length (startOfPlan ps) (addsOfPlan ps) (pointsOfPlan ps) owner := by
  have hnd : (blocks ps).flatten.Nodup := by rw [blocks_flatten]; exact List.nodup_finRange _
  rw [List.nodup_flatten] at hnd
  have hget : ∀ i (hi : i < ps.length), pointsOfPlan ps i = (blocks ps)[i]'(by rw [blocks_length]; exact hi) := by
    intro i hi
    have : i < (blocks ps).length := by rw [blocks_length]; exact hi
    rw [pointsOfPlan, List.getD_eq_getElem?_getD, List.getElem?_eq_getElem this, Option.getD_some]
  have hmem : ∀ i < ps.length, pointsOfPlan ps i ∈ blocks ps := fun i hi => by rw [hget i hi]; exact List.getElem_mem _
  have hex : ∀ p : Fin (planned ps), ∃ i, i < ps.length ∧ p ∈ pointsOfPlan ps i := by
    intro p
    have : p ∈ (blocks ps).flatten := by rw [blocks_flatten]; exact List.mem_finRange p
    obtain ⟨b, hb, hp⟩ := List.mem_flatten.mp this
    obtain ⟨i, hi, rfl⟩ := List.getElem_of_mem hb
    rw [blocks_length] at hi
    exact ⟨i, hi, by rw [hget i hi]; exact hp⟩
  choose owner h1 h2 using hex
  refine ⟨owner, List.length_pos_iff.mpr hne, fun i hi => ?_, fun i hi => ?_, fun i hi => hnd.1 _ (hmem i hi), fun i hi p hp => ?_, h1, h2⟩
  · have : ps.getD i (0, []) = ps[i] := by rw [List.getD_eq_getElem?_getD, List.getElem?_eq_getElem hi]; rfl
    rw [startOfPlan, addsOfPlan, this]
    exact hs _ (List.getElem_mem hi)
  · have h := congrArg (fun l => l[i]?) (blocks_lengths ps)
    have hb : i < (blocks ps).length := by rw [blocks_length]; exact hi
    simp only [List.getElem?_map, List.getElem?_eq_getElem hi, List.getElem?_eq_getElem hb, Option.map_some, Option.some.injEq] at h
    rw [hget i hi, h]
    have : ps.getD i (0, []) = ps[i] := by rw [List.getD_eq_getElem?_getD, List.getElem?_eq_getElem hi]; rfl
    rw [startOfPlan, addsOfPlan, this]
    rfl
  · by_contra hne
    have hdis := List.pairwise_iff_getElem.mp hnd.2
    have hb1 : owner p < (blocks ps).length := by rw [blocks_length]; exact h1 p
    have hb2 : i < (blocks ps).length := by rw [blocks_length]; exact hi
    have hp1 := h2 p
    rw [hget _ (h1 p)] at hp1
    rw [hget i hi] at hp
    rcases Nat.lt_or_gt_of_ne hne with h | h
    · exact hdis _ _ hb1 hb2 h hp1 hp
    · exact hdis _ _ hb2 hb1 h hp hp1

/-- Sampler `i` uses its own random numbers. -/
theorem points_draws {ps : List SamplerPlan} {ds : List (List ℝ)} (h : ds.map List.length = ps.map SamplerPlan.size) (i : Nat) :
    (pointsOfPlan ps i).map (fun p : Fin (planned ps) => ds.flatten.getD p 0) = ds.getD i [] := by
  have e1 : (List.finRange (planned ps)).map (fun p : Fin (planned ps) => ds.flatten.getD p 0) = ds.flatten := by
    have hl : ds.flatten.length = planned ps := by rw [List.length_flatten, h]
    apply List.ext_getElem
    · simp [hl]
    · intro j h1 h2
      simp [List.getD_eq_getElem?_getD, List.getElem?_eq_getElem h2]
  have e2 : (blocks ps).map (List.map (fun p : Fin (planned ps) => ds.flatten.getD p 0)) = ds := by
    rw [blocks, map_splitLengths, e1, ← h, splitLengths_flatten]
  conv_rhs => rw [← e2]
  simp only [pointsOfPlan, List.getD_eq_getElem?_getD, List.getElem?_map]
  cases (blocks ps)[i]? <;> rfl

/-! ### The order of the volumes -/

theorem perm_fibers {α : Type} (o : α → Nat) : ∀ (m : Nat) (l : List α),
    (l.filter (fun x => decide (o x < m))).Perm ((List.range m).flatMap (fun i => l.filter (fun x => decide (o x = i))))
  | 0, l => by simp
  | m + 1, l => by
    rw [List.range_succ, List.flatMap_append]
    refine List.Perm.trans ?_ ((perm_fibers o m l).append (List.Perm.refl _))
    have h := (List.filter_append_perm (fun x => decide (o x < m)) (l.filter (fun x => decide (o x < m + 1)))).symm
    refine h.trans (List.Perm.of_eq ?_)
    simp only [List.filter_filter, List.flatMap_cons, List.flatMap_nil, List.append_nil]
    congr 1
    · refine List.filter_congr fun x _ => ?_
      by_cases hx : o x < m
      · simp [hx, Nat.lt_succ_of_lt hx]
      · simp [hx]
    · refine List.filter_congr fun x _ => ?_
      rw [← decide_not, ← Bool.decide_and]
      exact decide_eq_decide.mpr (by omega)

theorem zipWith_getD {α β γ : Type} (f : α → β → γ) (a : α) (b : β) (l : List α) (l' : List β) (h : l'.length = l.length) :
    List.zipWith f l l' = (List.range l.length).map (fun i => f (l.getD i a) (l'.getD i b)) := by
  apply List.ext_getElem
  · simp [h]
  · intro i h1 h2
    have hi : i < l.length := by simpa using h2
    simp [List.getD_eq_getElem?_getD, List.getElem?_eq_getElem hi, List.getElem?_eq_getElem (h ▸ hi : i < l'.length)]

theorem mergeSort_eq {l l' : List ℝ} (h : l.Perm l') (hs : l.Pairwise (· > ·)) : l'.mergeSort (fun a b => decide (b ≤ a)) = l := by
  have h1 : (l'.mergeSort (fun a b => decide (b ≤ a))).Pairwise (fun a b => decide (b ≤ a) = true) :=
    List.pairwise_mergeSort (fun a b c h1 h2 => by simp only [decide_eq_true_eq] at *; exact h2.trans h1)
      (fun a b => by simp only [Bool.or_eq_true, decide_eq_true_eq]; exact le_total b a) l'
  refine List.Perm.eq_of_pairwise (le := fun a b : ℝ => b ≤ a) (fun a b _ _ h1 h2 => le_antisymm h2 h1) ?_ ?_
    ((List.mergeSort_perm _ _).trans h.symm)
  · exact h1.imp (fun h => by simpa using h)
  · exact hs.imp (fun h => le_of_lt h)

/-- The removals of the joint sampler, in terms of the single samplers. -/
theorem joint_merged {ps : List SamplerPlan} {owner : Fin (planned ps) → Nat}
    (L : Layout (planned ps) ps.length (startOfPlan ps) (addsOfPlan ps) (pointsOfPlan ps) owner) {ds : List (List ℝ)}
    (h : ds.map List.length = ps.map SamplerPlan.size) {l : List (Removal (planned ps))}
    (hl : l = removals (byOrder (joint (startOfPlan ps) (addsOfPlan ps) (pointsOfPlan ps) owner))
      (jointStart (startOfPlan ps) (pointsOfPlan ps) owner) (fun i => ds.flatten.getD i 0))
    (hdesc : (l.map (·.volume)).Pairwise (· > ·)) :
    l.map (·.volume) = mergedVolumes ps ds ∧ l.map (·.alive) = mergedLive ps ds ∧
      (l.map (·.volume)).Perm (List.zipWith (fun p d => deadVolumes p.1 p.2 d) ps ds).flatten := by
  have hlen : ds.length = ps.length := by simpa using congrArg List.length h
  have halone : ∀ i < ps.length, (l.filter (fun s => decide (owner s.point = i))).map (·.volume) =
      deadVolumes (startOfPlan ps i) (addsOfPlan ps i) (ds.getD i []) := by
    intro i hi
    rw [hl, L.alone hi, points_draws h i]
  have hperm : (l.map (·.volume)).Perm (List.zipWith (fun p d => deadVolumes p.1 p.2 d) ps ds).flatten := by
    have h1 := perm_fibers (fun s : Removal (planned ps) => owner s.point) ps.length l
    rw [List.filter_eq_self.mpr (fun s _ => by simpa using L.lt s.point)] at h1
    refine (h1.map (·.volume)).trans (List.Perm.of_eq ?_)
    rw [zipWith_getD _ (0, []) [] ps ds hlen, List.map_flatMap, ← List.flatMap_def]
    exact List.flatMap_congr fun i hi => halone i (List.mem_range.mp hi)
  have hv : l.map (·.volume) = mergedVolumes ps ds := (mergeSort_eq hperm hdesc).symm
  refine ⟨hv, ?_, hperm⟩
  rw [mergedLive, ← hv, List.map_map]
  refine List.map_congr_left fun s hs => ?_
  obtain ⟨pre, post, e⟩ := List.append_of_mem hs
  have ha := L.alive_at (planned ps) (hist := []) L.start (by simp) pre s post (hl.symm.trans e)
  rw [ha]
  simp only [Function.comp]
  rw [zipWith_getD _ (0, []) [] ps ds hlen]
  have hsum : ∀ g : Nat → Nat, ((List.range ps.length).map g).sum = ∑ i ∈ Finset.range ps.length, g i := by
    intro g
    rw [Finset.sum_range, ← List.sum_ofFn, List.ofFn_eq_map, ← List.map_coe_finRange_eq_range, List.map_map]
    rfl
  rw [hsum]
  refine Finset.sum_congr rfl fun i hi => ?_
  have hi := Finset.mem_range.mp hi
  have hc : (deadVolumes (ps.getD i (0, [])).1 (ps.getD i (0, [])).2 (ds.getD i [])).countP (fun v => decide (s.volume < v)) =
      pre.countP (fun s => decide (owner s.point = i)) := by
    rw [← halone i hi, List.countP_map, List.countP_filter, e, List.countP_append]
    rw [e] at hdesc
    rw [List.map_append, List.pairwise_append] at hdesc
    obtain ⟨-, h2, h3⟩ := hdesc
    rw [List.map_cons, List.pairwise_cons] at h2
    have z : (s :: post).countP (fun a => ((fun v => decide (s.volume < v)) ∘ fun x => x.volume) a && decide (owner a.point = i)) = 0 := by
      rw [List.countP_eq_zero]
      intro t ht
      simp only [Function.comp, Bool.and_eq_true, decide_eq_true_eq, not_and]
      intro hlt
      rcases List.mem_cons.mp ht with rfl | ht
      · exact absurd hlt (lt_irrefl _)
      · exact absurd hlt (h2.1 _ (List.mem_map_of_mem ht)).not_gt
    rw [z, Nat.add_zero]
    refine List.countP_congr fun t ht => ?_
    have := h3 _ (List.mem_map_of_mem ht) s.volume (by simp)
    simp only [Function.comp, Bool.and_eq_true, decide_eq_true_eq]
    exact ⟨fun h => h.2, fun h => ⟨this, h⟩⟩
  rw [hc]
  simp only [List.map_nil, removed, List.countP_nil, Nat.zero_add]
  set c := pre.countP (fun s => decide (owner s.point = i)) with hcc
  have hsch := L.schedule i hi
  by_cases hlt : c < (addsOfPlan ps i).length
  · have := liveCounts_getD (addsOfPlan ps i) (startOfPlan ps i) c hsch.alive hlt
    unfold drawn
    simp only [startOfPlan, addsOfPlan] at *
    omega
  · have h0 : (liveCounts (ps.getD i (0, [])).1 (ps.getD i (0, [])).2).getD c 0 = 0 := by
      rw [List.getD_eq_getElem?_getD, List.getElem?_eq_none (by rw [liveCounts_length]; exact not_lt.mp hlt)]
      rfl
    rw [h0]
    have h1 := drawn_le (n := startOfPlan ps) (adds := addsOfPlan ps) (i := i) c
    have h2 := hsch.finish
    omega

/-! ### The random numbers of one of the samplers -/

theorem unifPow_comp {k : Nat} {e : Fin k → Fin N} (he : Function.Injective e) :
    (unifPow N).map (fun u (j : Fin k) => u (e j)) = unifPow k := by
  classical
  have hm : Measurable (fun (u : Fin N → ℝ) (j : Fin k) => u (e j)) := measurable_pi_lambda _ fun j => measurable_pi_apply _
  refine (Measure.pi_eq fun s hs => ?_).symm
  rw [Measure.map_apply hm (MeasurableSet.univ_pi hs)]
  have : (fun (u : Fin N → ℝ) (j : Fin k) => u (e j)) ⁻¹' Set.univ.pi s =
      Set.univ.pi (fun i => {x | ∀ j, e j = i → x ∈ s j}) := by
    ext u
    simp only [Set.mem_preimage, Set.mem_pi, Set.mem_univ, true_implies, Set.mem_ofPred_eq]
    exact ⟨fun h i j hj => hj ▸ h j, fun h j => h (e j) j rfl⟩
  rw [this, Measure.pi_pi]
  refine (Fintype.prod_of_injective e he _ _ ?_ ?_).symm
  · intro i hi
    have : {x : ℝ | ∀ j, e j = i → x ∈ s j} = Set.univ :=
      Set.eq_univ_of_forall fun x j hj => absurd ⟨j, hj⟩ hi
    rw [this]
    exact measure_univ
  · intro j
    congr 1
    ext x
    simp only [Set.mem_ofPred_eq]
    exact ⟨fun h j' hj' => he hj' ▸ h, fun h => h j rfl⟩

theorem iid_block [MeasurableSpace Ω] {P : Measure Ω} {ps : List SamplerPlan} (hne : ps ≠ []) (hs : ∀ p ∈ ps, VolumeSchedule p.1 p.2)
    {draws : Ω → List (List ℝ)} (hlen : ∀ ω, (draws ω).map List.length = ps.map SamplerPlan.size)
    (hu : IidUniform P (planned ps) (fun ω => (draws ω).flatten)) {i : Nat} (hi : i < ps.length) :
    IidUniform P (startOfPlan ps i + (addsOfPlan ps i).sum) (fun ω => (draws ω).getD i []) := by
  obtain ⟨owner, L⟩ := exists_layout hne hs
  have hl := L.length i hi
  set e : Fin (startOfPlan ps i + (addsOfPlan ps i).sum) → Fin (planned ps) := fun j => (pointsOfPlan ps i)[(j : Nat)]'(by rw [hl]; exact j.2)
    with he
  have hinj : Function.Injective e := fun j j' h => by
    have := (List.Nodup.getElem_inj_iff (L.nodup i hi)).mp h
    exact Fin.ext this
  have hm : Measurable (fun (u : Fin (planned ps) → ℝ) j => u (e j)) := measurable_pi_lambda _ fun j => measurable_pi_apply _
  unfold IidUniform
  have h := unifPow_comp hinj
  rw [unifPow, ← hu, AEMeasurable.map_map_of_aemeasurable hm.aemeasurable hu.aemeasurable] at h
  rw [unifPow] at h
  rw [← h]
  congr 1
  funext ω j
  dsimp only
  rw [← points_draws (hlen ω) i]
  simp only [Function.comp, he]
  rw [List.getD_eq_getElem?_getD, List.getElem?_map, List.getElem?_eq_getElem (by rw [hl]; exact j.2)]
  rfl

/-! ### The combined run -/

theorem zipWith_eq_ofFn {α β γ : Type} (f : α → β → γ) (b : β) (l : List α) (l' : List β) (h : l'.length = l.length) :
    List.zipWith f l l' = List.ofFn (fun i : Fin l.length => f l[i] (l'.getD i b)) := by
  apply List.ext_getElem
  · simp [h]
  · intro i h1 h2
    have hi : i < l.length := by simpa using h2
    simp [List.getD_eq_getElem?_getD, List.getElem?_eq_getElem (h ▸ hi : i < l'.length)]

theorem combined_run {R : Rng σ ℝ} {ps : List SamplerPlan} (hne : ps ≠ []) (hhead : ∀ p ∈ ps, p.2.headD 0 ≤ 1) {ds : List (List ℝ)}
    (hlen : ds.length = ps.length) {loglike : ℝ → ℝ} (hanti : StrictAntiOn loglike (Set.Ioo 0 1)) {init : ℝ}
    (hdesc : (mergedVolumes ps ds).Pairwise (· > ·)) (hin : ∀ v ∈ mergedVolumes ps ds, v ∈ Set.Ioo (0 : ℝ) 1)
    {live : Fin ps.length → List (Sample ℝ)} {its : Fin ps.length → List (Iteration ℝ)} {samples : Fin ps.length → List (Sample ℝ)}
    (hex : ∀ i : Fin ps.length, IdealExecution loglike ps[i].1 ps[i].2 (ds.getD i []) init (live i) (its i))
    (hsam : ∀ i, (samples i).Perm ((its i).map (·.dead))) (hdim : SameDim ((List.ofFn samples).flatten.map (·.theta)))
    (A : Argsort ℝ) (da dw da' dw' : Bool) {r : Fin ps.length → Run ℝ}
    (hr : ∀ i, (∀ w : World σ, processSamples A R (samples i) da dw w = (.ok (r i), w)) ∧
      (r i).logl = (deadVolumes ps[i].1 ps[i].2 (ds.getD i [])).map loglike ∧
      (r i).nlive = (liveCounts ps[i].1 ps[i].2).map (fun m : Nat => (m : Int))) :
    ∃ c : Run ℝ, (∀ w : World σ, combineRuns A (List.ofFn r) da' dw' w = (.ok c, w)) ∧
      c.logl = (mergedVolumes ps ds).map loglike ∧ c.nlive = (mergedLive ps ds).map (fun m : Nat => (m : Int)) := by
  set V := mergedVolumes ps ds with hV
  have hcons : ∀ i, Consistent (samples i) init := fun i =>
    C87_consistent (hex i).start (hex i).run (by simp) (by simpa using hsam i)
  have hVp : (List.ofFn (fun i : Fin ps.length => deadVolumes ps[i].1 ps[i].2 (ds.getD i []))).flatten.Perm V := by
    rw [hV, mergedVolumes, zipWith_eq_ofFn _ [] ps ds hlen]
    exact (List.mergeSort_perm _ _).symm
  have hdin : ∀ i : Fin ps.length, ∀ v ∈ deadVolumes ps[i].1 ps[i].2 (ds.getD i []), v ∈ Set.Ioo (0 : ℝ) 1 := fun i v hv =>
    hin v (hVp.mem_iff.mp (List.mem_flatten.mpr ⟨_, List.mem_ofFn.mpr ⟨i, rfl⟩, hv⟩))
  -- the loglikelihoods
  have hlogl : ((List.ofFn samples).flatten.map (·.logl)).Perm (V.map loglike) := by
    refine List.Perm.trans ?_ (hVp.map loglike)
    rw [List.map_flatten, List.map_flatten]
    refine List.Perm.flatten_congr ?_
    rw [List.map_ofFn, List.map_ofFn]
    rw [List.forall₂_iff_get]
    refine ⟨by simp, fun j h1 h2 => ?_⟩
    simp only [List.get_eq_getElem, List.getElem_ofFn, Function.comp]
    set i : Fin ps.length := ⟨j, by simpa using h1⟩
    have h3 := (C03_valid_lossless R (hcons i) A da dw _ _ ((hr i).1 ⟨R.seed 0, []⟩))
    have h4 := h3.2.2.2.2.2.map Prod.fst
    rw [List.map_fst_zip (by rw [h3.2.2.2.1, h3.2.2.2.2.1]), List.map_map, (hr i).2.1] at h4
    exact h4.symm
  have hsorted : (V.map loglike).Pairwise (· < ·) := by
    rw [List.pairwise_map]
    refine hdesc.imp_of_mem fun {a b} ha hb hab => hanti (hin b hb) (hin a ha) hab
  have hind : Independent (List.ofFn samples) init := by
    refine ⟨?_, ?_, ?_⟩
    · intro h0
      have := congrArg List.length h0
      simp only [List.length_ofFn, List.length_nil] at this
      exact hne (List.length_eq_zero_iff.mp this)
    · intro g hg
      obtain ⟨i, rfl⟩ := List.mem_ofFn.mp hg
      exact hcons i
    · exact hlogl.nodup_iff.mpr (hsorted.imp ne_of_lt)
  have hlow : ∀ u ∈ (List.ofFn samples).flatten, (∀ v ∈ (List.ofFn samples).flatten, u.logl ≤ v.logl) →
      ∀ s ∈ (List.ofFn samples).flatten, ∀ t ∈ (List.ofFn samples).flatten, s.birth = u.logl → t.birth = u.logl → s.logl = t.logl := by
    intro u hu hmin
    obtain ⟨g, hg, hug⟩ := List.mem_flatten.mp hu
    obtain ⟨i, rfl⟩ := List.mem_ofFn.mp hg
    have hgi := hg
    -- every such point is one of those added in the first iteration
    have key : ∀ s ∈ (List.ofFn samples).flatten, s.birth = u.logl → ∃ it, (its i).head? = some it ∧ s ∈ it.born := by
      intro s hs hb
      obtain ⟨g', hg', hsg⟩ := List.mem_flatten.mp hs
      have hsi : s ∈ samples i := by
        rcases (hind.consistent g' hg').births s hsg with e | ⟨t, ht, e, -⟩
        · rw [e] at hb
          exact absurd hb (ne_of_lt ((hcons i).below u hug))
        · have htu : t = u := hind.eq_of_logl (List.mem_flatten.mpr ⟨g', hg', ht⟩) hu (e.symm.trans hb)
          rw [htu] at ht
          rw [hind.eq_group hg' hgi ht hug] at hsg
          exact hsg
      have hsd : s ∈ (its i).map (·.dead) ++ [] := by simpa using (hsam i).mem_iff.mp hsi
      rcases (hex i).run.origin hsd with h | ⟨it, hit, h⟩
      · rw [(hex i).start.birth s h] at hb
        exact absurd hb (ne_of_lt ((hcons i).below u hug))
      · have hd := ((hex i).run.born it hit s h).1
        have hasc := (hex i).run.ascending
        obtain ⟨it0, tl, e0⟩ : ∃ it0 tl, its i = it0 :: tl := by
          cases hit' : its i with
          | nil => rw [hit'] at hit; simp at hit
          | cons a b => exact ⟨a, b, rfl⟩
        refine ⟨it0, by rw [e0]; rfl, ?_⟩
        rw [e0, List.map_cons, List.pairwise_cons] at hasc
        rw [e0] at hit
        rcases List.mem_cons.mp hit with rfl | hit
        · exact h
        · have h1 := hasc.1 _ (List.mem_map_of_mem hit)
          have h2 : it0.dead ∈ (List.ofFn samples).flatten := by
            refine List.mem_flatten.mpr ⟨_, hgi, (hsam i).mem_iff.mpr ?_⟩
            rw [e0]
            simp
          have h3 := hmin _ h2
          rw [← hb, hd] at h3
          exact absurd h1 h3.not_gt
    intro s hs t ht hbs hbt
    obtain ⟨it, e1, m1⟩ := key s hs hbs
    obtain ⟨it', e2, m2⟩ := key t ht hbt
    have e : it' = it := by rw [e1] at e2; exact (Option.some.inj e2).symm
    subst e
    -- only one point is added in the first iteration
    have hadd := (hex i).added
    cases hi : its i with
    | nil => rw [hi] at e1; simp at e1
    | cons a l =>
      rw [hi] at e1 hadd
      simp only [List.head?_cons, Option.some.injEq] at e1
      subst e1
      have hh := hhead _ (List.getElem_mem i.2)
      have hk : ∃ k ks, ps[i].2 = k :: ks := by
        cases hk : ps[i].2 with
        | nil => rw [hk] at hadd; cases hadd
        | cons k ks => exact ⟨k, ks, rfl⟩
      obtain ⟨k, ks, hk⟩ := hk
      rw [hk] at hadd
      simp only [sampleVolumes, List.forall₂_cons] at hadd
      have hlen1 := hadd.1.length_eq
      have hk1 : k ≤ 1 := by
        have h5 : ps[(i : Nat)].2 = k :: ks := hk
        rw [h5] at hh
        simpa using hh
      simp only [List.length_map, List.length_take] at hlen1
      have hle : a.born.length ≤ 1 := by omega
      obtain ⟨x, hx⟩ | h0 : (∃ x, a.born = [x]) ∨ a.born = [] := by
        cases hb : a.born with
        | nil => exact .inr rfl
        | cons x y =>
          rw [hb] at hle
          have : y = [] := List.eq_nil_of_length_eq_zero (by simpa using hle)
          exact .inl ⟨x, by rw [this]⟩
      · rw [hx] at m1 m2
        rw [List.mem_singleton.mp m1, List.mem_singleton.mp m2]
      · rw [h0] at m1; simp at m1
  obtain ⟨rs, c, c', labels, labels', tmm, tmm', k1, k2, k3, k4, -, k6, -⟩ := C88_merge R hind hdim hlow A A da dw da' dw' (σ := σ)
  have hrs : rs = List.ofFn r := by
    rw [List.forall₂_iff_get] at k1
    obtain ⟨q1, q2⟩ := k1
    apply List.ext_getElem
    · simpa using q1.symm
    · intro j h1 h2
      have hj : j < ps.length := by simpa using h2
      have := q2 j (by simpa using hj) h1 ⟨R.seed 0, []⟩
      simp only [List.get_eq_getElem, List.getElem_ofFn] at this
      rw [(hr ⟨j, hj⟩).1] at this
      simp only [List.getElem_ofFn]
      exact (Except.ok.inj (congrArg Prod.fst this)).symm
  rw [hrs] at k2
  have hcF := hind.flatten
  obtain ⟨c'', d1, d2, d3, d4⟩ := C01_nlive_exact R hcF A da dw (σ := σ)
  have hc'' : c'' = c' := by
    have := d1 ⟨R.seed 0, []⟩
    rw [k3] at this
    exact (Except.ok.inj (congrArg Prod.fst this)).symm
  subst hc''
  obtain ⟨ls, tm, hpa⟩ := processedAs R hcF A da dw (d1 ⟨R.seed 0, []⟩)
  have hcl : c.logl = V.map loglike := by
    rw [k4]
    refine List.Perm.eq_of_pairwise (le := fun a b : ℝ => a ≤ b) (fun a b _ _ h1 h2 => le_antisymm h1 h2) ?_ ?_
      (hpa.logl_perm.trans hlogl)
    · exact hpa.strict.imp le_of_lt
    · exact hsorted.imp le_of_lt
  refine ⟨c, k2, hcl, ?_⟩
  rw [k6]
  apply List.ext_getElem?
  intro j
  by_cases hj : j < V.length
  · have e1 : c''.logl[j]? = some (loglike V[j]) := by
      rw [← k4, hcl, List.getElem?_map, List.getElem?_eq_getElem hj]; rfl
    rw [d4 j _ e1]
    have hx := hin _ (List.getElem_mem hj)
    have e2 : ((mergedLive ps ds).map (fun m : Nat => (m : Int)))[j]? =
        some (((List.zipWith (fun p d => (liveCounts p.1 p.2).getD ((deadVolumes p.1 p.2 d).countP (fun v => decide (V[j] < v))) 0)
          ps ds).sum : Nat) : Int) := by
      rw [List.getElem?_map, mergedLive, List.getElem?_map, ← hV, List.getElem?_eq_getElem hj]
      rfl
    rw [e2]
    congr 2
    unfold liveAt
    rw [List.countP_flatten, zipWith_eq_ofFn _ [] ps ds hlen, List.map_ofFn]
    congr 2
    funext i
    have hgt : init < loglike V[j] := by
      have : loglike V[j] ∈ (List.ofFn samples).flatten.map (·.logl) := hlogl.mem_iff.mpr (List.mem_map_of_mem (List.getElem_mem hj))
      obtain ⟨s, hs, e⟩ := List.mem_map.mp this
      rw [← e]
      exact hcF.below s hs
    have h1 := liveOf_process R (hcons i) A da dw ((hr i).1 ⟨R.seed 0, []⟩) hgt
    unfold liveOf liveAt at h1
    rw [(hr i).2.1, (hr i).2.2] at h1
    have h2 : ((deadVolumes ps[i].1 ps[i].2 (ds.getD i [])).map loglike).countP (fun x => decide (x < loglike V[j])) =
        (deadVolumes ps[i].1 ps[i].2 (ds.getD i [])).countP (fun v => decide (V[j] < v)) := by
      rw [List.countP_map]
      refine List.countP_congr fun v hv => ?_
      simp only [Function.comp, decide_eq_true_eq]
      exact hanti.lt_iff_gt (hdin i v hv) hx
    rw [h2, List.getD_eq_getElem?_getD, List.getElem?_map] at h1
    simp only [Function.comp, List.getD_eq_getElem?_getD] at h1 ⊢
    have hcast : ∀ (o : Option Nat) (k : Nat), (o.map (fun m : Nat => (m : Int))).getD 0 = k → k = o.getD 0 := by
      rintro (_ | y) k h
      · simpa using h.symm
      · simpa using h.symm
    exact hcast _ _ h1
  · have hln : c''.nlive.length = V.length := by
      rw [d3, ← d2, ← k4, hcl, List.length_map]
    rw [List.getElem?_eq_none (by omega), List.getElem?_eq_none (by simp [mergedLive, ← hV]; omega)]

theorem merged_ae [MeasurableSpace Ω] {P : Measure Ω} {ps : List SamplerPlan}
    {draws : Ω → List (List ℝ)} (hlen : ∀ ω, (draws ω).map List.length = ps.map SamplerPlan.size)
    (hu : IidUniform P (planned ps) (fun ω => (draws ω).flatten)) {owner : Fin (planned ps) → Nat}
    (L : Layout (planned ps) ps.length (startOfPlan ps) (addsOfPlan ps) (pointsOfPlan ps) owner) :
    ∀ᵐ ω ∂P, ((mergedVolumes ps (draws ω)).Pairwise (· > ·) ∧ ∀ v ∈ mergedVolumes ps (draws ω), v ∈ Set.Ioo (0 : ℝ) 1) ∧
      (removals (byOrder (joint (startOfPlan ps) (addsOfPlan ps) (pointsOfPlan ps) owner))
        (jointStart (startOfPlan ps) (pointsOfPlan ps) owner) (fun i => (draws ω).flatten.getD i 0)).map (·.volume) =
          mergedVolumes ps (draws ω) ∧
      (removals (byOrder (joint (startOfPlan ps) (addsOfPlan ps) (pointsOfPlan ps) owner))
        (jointStart (startOfPlan ps) (pointsOfPlan ps) owner) (fun i => (draws ω).flatten.getD i 0)).map (·.alive) =
          mergedLive ps (draws ω) := by
  filter_upwards [adaptive_ae L.adaptive.stopping hu] with ω ⟨_, h2, h3⟩
  have hch := chain_of_shrinkages _ one_pos h2 (fun v hv => (h3 v hv).2)
  have hp := hch.pairwise
  rw [List.pairwise_cons] at hp
  obtain ⟨e1, e2, _⟩ := joint_merged L (hlen ω) rfl hp.2
  refine ⟨⟨e1 ▸ hp.2, fun v hv => ?_⟩, e1, e2⟩
  rw [← e1] at hv
  refine ⟨?_, hp.1 v hv⟩
  obtain ⟨s, hs, rfl⟩ := List.mem_map.mp hv
  exact (h2 s hs).1

/-- C93: almost surely, for every family of executions of independent ideal samplers, the arrays of their samples can be processed in
any order and the runs combined, and the combined run has a point for each volume and the numbers of live points of all samplers
together.  At most one point may be added by each sampler in its first iteration, because of the treatment of the lowest birth
contour by `combine_ns_runs` (see C19, C88). -/
theorem C93_combined [MeasurableSpace Ω] {P : Measure Ω} {R : Rng σ ℝ} {ps : List SamplerPlan} (hne : ps ≠ [])
    (hs : ∀ p ∈ ps, VolumeSchedule p.1 p.2) (hhead : ∀ p ∈ ps, p.2.headD 0 ≤ 1)
    {draws : Ω → List (List ℝ)} (hlen : ∀ ω, (draws ω).map List.length = ps.map SamplerPlan.size)
    (hu : IidUniform P (planned ps) (fun ω => (draws ω).flatten)) {loglike : ℝ → ℝ}
    (hanti : StrictAntiOn loglike (Set.Ioo 0 1)) {init : ℝ} (hinit : ∀ x ∈ Set.Ioo (0 : ℝ) 1, init < loglike x) :
    ∀ᵐ ω ∂P, (∀ i : Fin ps.length, ∃ live its, IdealExecution loglike ps[i].1 ps[i].2 ((draws ω).getD i []) init live its) ∧
      ∀ (live : Fin ps.length → List (Sample ℝ)) (its : Fin ps.length → List (Iteration ℝ)) (samples : Fin ps.length → List (Sample ℝ)),
        (∀ i : Fin ps.length, IdealExecution loglike ps[i].1 ps[i].2 ((draws ω).getD i []) init (live i) (its i)) →
        (∀ i, (samples i).Perm ((its i).map (·.dead))) → SameDim ((List.ofFn samples).flatten.map (·.theta)) →
        ∀ (A : Argsort ℝ) (da dw da' dw' : Bool), ∃ (r : Fin ps.length → Run ℝ) (c : Run ℝ),
          (∀ i, ∀ w : World σ, processSamples A R (samples i) da dw w = (.ok (r i), w)) ∧
          (∀ w : World σ, combineRuns A (List.ofFn r) da' dw' w = (.ok c, w)) ∧
          c.logl = (mergedVolumes ps (draws ω)).map loglike ∧
          c.nlive = (mergedLive ps (draws ω)).map (fun m : Nat => (m : Int)) := by
  obtain ⟨owner, L⟩ := exists_layout hne hs
  have h1 : ∀ᵐ ω ∂P, ∀ i : Fin ps.length, (∃ live its, IdealExecution loglike ps[i].1 ps[i].2 ((draws ω).getD i []) init live its) ∧
      ∀ live its, IdealExecution loglike ps[i].1 ps[i].2 ((draws ω).getD i []) init live its →
        ∀ samples, samples.Perm (its.map (·.dead)) → ∀ (A : Argsort ℝ) (da dw : Bool),
          ∃ r : Run ℝ, (∀ w : World σ, processSamples A R samples da dw w = (.ok r, w)) ∧
            r.logl = (deadVolumes ps[i].1 ps[i].2 ((draws ω).getD i [])).map loglike ∧
            r.nlive = (liveCounts ps[i].1 ps[i].2).map (fun m : Nat => (m : Int)) := by
    rw [ae_all_iff]
    intro i
    have e1 : startOfPlan ps i = ps[i].1 := by
      simp [startOfPlan, List.getD_eq_getElem?_getD]
    have e2 : addsOfPlan ps i = ps[i].2 := by
      simp [addsOfPlan, List.getD_eq_getElem?_getD]
    have hb := iid_block hne hs hlen hu i.2
    rw [e1, e2] at hb
    refine C91_run (R := R) (hs _ (List.getElem_mem i.2)) (fun ω => ?_) hb hanti hinit
    have h := congrArg (fun l => l[(i : Nat)]?) (hlen ω)
    simp only [List.getElem?_map, List.getElem?_eq_getElem i.2, Option.map_some] at h
    rw [List.getD_eq_getElem?_getD]
    cases hq : (draws ω)[(i : Nat)]? with
    | none => rw [hq] at h; simp at h
    | some d =>
      rw [hq] at h
      simpa [SamplerPlan.size] using h
  filter_upwards [h1, merged_ae hlen hu L] with ω h1 ⟨⟨h2, h3⟩, _⟩
  refine ⟨fun i => (h1 i).1, fun live its samples hex hsam hdim A da dw da' dw' => ?_⟩
  choose r hr using fun i => (h1 i).2 _ _ (hex i) _ (hsam i) A da dw
  obtain ⟨c, c1, c2, c3⟩ := combined_run hne hhead (by simpa using congrArg List.length (hlen ω)) hanti h2 h3 hex hsam hdim A da dw da' dw' hr
  exact ⟨r, c, fun i => (hr i).1, c1, c2, c3⟩

/-- C93: given the numbers of live points of the combined run, the volumes of its points have the distribution which `get_logx`
simulates for those numbers, although the order in which the points of the samplers follow each other is random. -/
theorem C93_combined_law {Ω' : Type} [MeasurableSpace Ω] [MeasurableSpace Ω'] {P : Measure Ω} {P' : Measure Ω'} {R : Rng σ ℝ}
    {ps : List SamplerPlan} (hne : ps ≠ []) (hs : ∀ p ∈ ps, VolumeSchedule p.1 p.2)
    {draws : Ω → List (List ℝ)} (hlen : ∀ ω, (draws ω).map List.length = ps.map SamplerPlan.size)
    (hu : IidUniform P (planned ps) (fun ω => (draws ω).flatten)) {w : Ω' → World σ}
    (hw : IidUniform P' (planned ps) (fun ω => (R.uniform (planned ps) (w ω).rng).1)) (nlive : List Int)
    {B : Set (Fin (planned ps) → ℝ)} (hB : MeasurableSet B) :
    P {ω | (mergedLive ps (draws ω)).map (fun m : Nat => (m : Int)) = nlive ∧
        (fun i : Fin (planned ps) => (mergedVolumes ps (draws ω)).getD i 0) ∈ B} =
      P {ω | (mergedLive ps (draws ω)).map (fun m : Nat => (m : Int)) = nlive} *
        P' {ω | (fun i : Fin (planned ps) => Real.exp (entry (getLogx R nlive true (w ω)).1 i)) ∈ B} := by
  obtain ⟨owner, L⟩ := exists_layout hne hs
  have h := C93_law L.adaptive hu hw (fun _ => True) nlive hB
  simp only [true_and] at h
  have hae := merged_ae hlen hu L
  have e : ∀ l : List (Removal (planned ps)), l.map (fun s => (s.alive : Int)) = (l.map (·.alive)).map (fun m : Nat => (m : Int)) := fun l => by
    rw [List.map_map]; rfl
  refine Eq.trans (measure_congr ?_) (h.trans (congrArg₂ _ (measure_congr ?_) rfl))
  · filter_upwards [hae] with ω ⟨_, e1, e2⟩
    refine propext ?_
    change (_ ∧ _) ↔ (_ ∧ _)
    rw [e, e1, e2]
  · filter_upwards [hae] with ω ⟨_, e1, e2⟩
    refine propext ?_
    change (_ = _) ↔ (_ = _)
    rw [e, e2]

/-! ### Two samplers -/

/-- Two samplers: one starts with two points and adds one, the other has a single point. -/
def exPlans : List SamplerPlan := [(2, [1, 0, 0]), (1, [0])]

def exSplit (u : Fin 4 → ℝ) : List (List ℝ) := [[u 0, u 1, u 2], [u 3]]

theorem exPlans_schedules : ∀ p ∈ exPlans, VolumeSchedule p.1 p.2 := by
  intro p hp
  simp only [exPlans, List.mem_cons, List.not_mem_nil, or_false] at hp
  rcases hp with rfl | rfl
  · exact exVolSchedule
  · exact ⟨by decide, by decide, rfl⟩

theorem exSplit_iid : IidUniform (unifPow 4) (planned exPlans) (fun u => (exSplit u).flatten) := by
  have : ∀ u : Fin 4 → ℝ, (exSplit u).flatten = List.ofFn u := fun u => by simp [exSplit, List.ofFn_succ]
  simp only [this]
  exact ofFn_iid 4

/-- The executions exist almost surely, and the volumes of the combined run have the distribution of `get_logx` for each of the
possible sequences of live points, of which [3, 3, 2, 1] is one. -/
example (B : Set (Fin 4 → ℝ)) (hB : MeasurableSet B) :
    (∀ᵐ u ∂unifPow 4, ∀ i : Fin exPlans.length, ∃ live its,
      IdealExecution (fun x => -x) exPlans[i].1 exPlans[i].2 ((exSplit u).getD i []) (-1) live its) ∧
    unifPow 4 {u | (mergedLive exPlans (exSplit u)).map (fun m : Nat => (m : Int)) = [3, 3, 2, 1] ∧
        (fun i : Fin 4 => (mergedVolumes exPlans (exSplit u)).getD i 0) ∈ B} =
      unifPow 4 {u | (mergedLive exPlans (exSplit u)).map (fun m : Nat => (m : Int)) = [3, 3, 2, 1]} *
        unifPow 4 {s | (fun i : Fin 4 => Real.exp (entry (getLogx (cubeRng 4) [3, 3, 2, 1] true ⟨s, []⟩).1 i)) ∈ B} := by
  refine ⟨?_, ?_⟩
  · have := C93_combined (R := cubeRng 4) (P := unifPow 4) (ps := exPlans) (by decide) exPlans_schedules (by decide)
      (draws := exSplit) (by intro u; rfl) exSplit_iid (loglike := fun x => -x) (init := -1)
      (fun x _ y _ h => by simpa using h) (fun x hx => by simpa using hx.2)
    filter_upwards [this] with u hu
    exact hu.1
  · exact C93_combined_law (R := cubeRng 4) (P := unifPow 4) (P' := unifPow 4) (ps := exPlans) (by decide) exPlans_schedules
      (draws := exSplit) (by intro u; rfl) exSplit_iid (w := fun s => ⟨s, []⟩) (cubeRng_iid 4) [3, 3, 2, 1] hB

end

end Nestcheck
