import Verif.Model.Packages
import Verif.Model.Instances
import Verif.Proofs.CheckRun
import Verif.Proofs.RunArray

/-
C12: static dynesty results.  C63: dynamic dynesty results.
-/

set_option linter.unusedSectionVars false

namespace Nestcheck
open Spec
variable {K σ : Type} [CommRing K] [LinearOrder K] [IsStrictOrderedRing K]

/-- The thread labels of dynesty results as integers. -/
def Spec.idLabels (res : Dynesty K) : List Int := res.ids.map Int.ofNat

/-- Dynesty results with `n` threads, each with at least one sample, in ascending order
of likelihood. -/
structure Spec.DynestyShape (res : Dynesty K) (n : Nat) : Prop where
  nonempty : res.logl ≠ []
  ids_len : res.ids.length = res.logl.length
  samples_len : res.samples.length = res.logl.length
  ids_range : ∀ k, k ∈ res.ids ↔ k < n
  sorted : res.logl.Pairwise (· ≤ ·)

theorem whereIdx_idLabels (res : Dynesty K) (k : Nat) :
    whereIdx (fun x => decide (x = k)) res.ids =
      whereIdx (fun x => decide (x = (k : Int))) (idLabels res) := by
  unfold whereIdx idLabels
  rw [List.length_map]
  apply List.filter_congr
  intro i _
  rw [List.getElem?_map]
  cases res.ids[i]? with
  | none => rfl
  | some x =>
    simp only [Option.map_some, Option.any_some, Int.ofNat_eq_natCast, decide_eq_decide]
    omega

theorem idLabels_getElem? {res : Dynesty K} {i k : Nat} :
    (idLabels res)[i]? = some (k : Int) ↔ res.ids[i]? = some k := by
  unfold idLabels
  rw [List.getElem?_map]
  cases res.ids[i]? <;> simp

/-- The final samples of the threads. -/
theorem finalInds_spec {res : Dynesty K} {n : Nat} (h : DynestyShape res n) :
    ∃ e : Nat → Nat, (∀ k < n, LastOf (idLabels res) k (e k)) ∧
      finalInds res (List.range n) = (List.range n).map e ∧
      ∀ i, i ∈ finalInds res (List.range n) ↔
        ∃ k, res.ids[i]? = some k ∧ k ∉ res.ids.drop (i + 1) := by
  have hex : ∀ k, ∃ i, k < n → LastOf (idLabels res) k i := by
    intro k
    by_cases hk : k < n
    · obtain ⟨i, hi⟩ := exists_lastOf (labels := idLabels res) (k := (k : Int))
        (List.mem_map.mpr ⟨k, (h.ids_range k).mpr hk, rfl⟩)
      exact ⟨i, fun _ => hi⟩
    · exact ⟨0, fun h => absurd h hk⟩
  choose e he using hex
  have heq : finalInds res (List.range n) = (List.range n).map e := by
    unfold finalInds
    rw [← List.filterMap_eq_map]
    apply List.filterMap_congr
    intro k hk
    rw [whereIdx_idLabels, whereIdx_last_iff.mpr (he k (List.mem_range.mp hk))]
    rfl
  refine ⟨e, fun k hk => he k hk, heq, ?_⟩
  intro i
  rw [heq, List.mem_map]
  constructor
  · rintro ⟨k, hk, rfl⟩
    obtain ⟨h1, h2⟩ := he k (List.mem_range.mp hk)
    refine ⟨k, idLabels_getElem?.mp h1, ?_⟩
    intro hm
    obtain ⟨j, hj⟩ := List.mem_iff_getElem?.mp hm
    rw [List.getElem?_drop] at hj
    exact h2 (e k + 1 + j) (by omega) (idLabels_getElem?.mpr hj)
  · rintro ⟨k, h1, h2⟩
    have hk : k < n := (h.ids_range k).mp (List.mem_of_getElem? h1)
    refine ⟨k, List.mem_range.mpr hk, lastOf_unique (he k hk) ⟨idLabels_getElem?.mpr h1, ?_⟩⟩
    intro j hj hc
    apply h2
    rw [List.mem_iff_getElem?]
    refine ⟨j - (i + 1), ?_⟩
    rw [List.getElem?_drop, show i + 1 + (j - (i + 1)) = j by omega]
    exact idLabels_getElem?.mp hc

/-- The number of threads which have a sample at or after position `i`. -/
def Spec.threadsAfter (res : Dynesty K) (n i : Nat) : Nat :=
  (List.range n).countP (fun k => decide (k ∈ res.ids.drop i))

theorem countP_or_eq {n a : Nat} (ha : a < n) (p : Nat → Prop) [DecidablePred p] :
    (List.range n).countP (fun k => decide (k = a ∨ p k)) =
      (List.range n).countP (fun k => decide (p k)) + (if p a then 0 else 1) := by
  induction n with
  | zero => omega
  | succ n ih =>
    rw [List.range_succ, List.countP_append, List.countP_append]
    by_cases h : a < n
    · rw [ih h]
      have : (fun k => decide (k = a ∨ p k)) n = (fun k => decide (p k)) n := by
        simp only [decide_eq_decide]
        constructor
        · rintro (rfl | h')
          · omega
          · exact h'
        · exact .inr
      rw [List.countP_singleton, List.countP_singleton]
      simp only at this
      rw [this]
      omega
    · obtain rfl : a = n := by omega
      rw [List.countP_congr (q := fun k => decide (p k))]
      · by_cases hp : p a <;> simp [hp]
      · intro k hk
        rw [List.mem_range] at hk
        simp only [decide_eq_true_eq]
        constructor
        · rintro (rfl | h')
          · omega
          · exact h'
        · exact .inr

/-- Counting down the threads which have ended. -/
theorem endings_sum {res : Dynesty K} {n : Nat} (h : DynestyShape res n) {i : Nat}
    (hi : i ≤ res.logl.length) :
    (n : Int) + (((List.range res.logl.length).map
      (fun j => if j ∈ finalInds res (List.range n) then (-1 : Int) else 0)).take i).sum =
      (threadsAfter res n i : Int) := by
  obtain ⟨e, -, -, hmem⟩ := finalInds_spec h
  induction i with
  | zero =>
    unfold threadsAfter
    rw [List.countP_eq_length.mpr]
    · simp
    · intro k hk
      simpa using (h.ids_range k).mpr (List.mem_range.mp hk)
  | succ i ih =>
    have hil : i < res.logl.length := by omega
    have ih := ih (by omega)
    rw [List.take_add_one, List.sum_append, ← add_assoc, ih, List.getElem?_map,
      List.getElem?_range hil]
    have hid : i < res.ids.length := by rw [h.ids_len]; exact hil
    have hdrop : res.ids.drop i = res.ids[i] :: res.ids.drop (i + 1) := List.drop_eq_getElem_cons hid
    have hlt : res.ids[i] < n := (h.ids_range _).mp (List.getElem_mem hid)
    have hmi : i ∈ finalInds res (List.range n) ↔ res.ids[i] ∉ res.ids.drop (i + 1) := by
      rw [hmem, List.getElem?_eq_getElem hid]
      simp
    have hstep : threadsAfter res n i = threadsAfter res n (i + 1) +
        (if res.ids[i] ∈ res.ids.drop (i + 1) then 0 else 1) := by
      unfold threadsAfter
      rw [← countP_or_eq hlt (fun k => k ∈ res.ids.drop (i + 1))]
      apply List.countP_congr
      intro k _
      rw [hdrop]
      simp only [List.mem_cons, decide_eq_true_eq]
    rw [hstep]
    by_cases hm : res.ids[i] ∈ res.ids.drop (i + 1)
    · have : i ∉ finalInds res (List.range n) := fun h => hmi.mp h hm
      simp [hm, this]
    · have : i ∈ finalInds res (List.range n) := hmi.mpr hm
      simp [hm, this]

/-- The run made of dynesty results. -/
def dynestyRun (res : Dynesty K) (starts : List (WithBot K)) (ends : List Nat) (nl : List Int) : Run K :=
  { logl := res.logl, nlive := nl, theta := res.samples, labels := some (idLabels res),
    tmm := some (starts.zip (gather res.logl ends)) }

/-- `process_dynesty_run` once the starts of the threads are known. -/
theorem dynesty_core {A : Argsort K} {res : Dynesty K} {n : Nat} (h : DynestyShape res n)
    {starts : List (WithBot K)} (hsl : starts.length = n)
    (hst : dynestyThreadStarts res (List.range n) = .ok starts) {m : K}
    (hm : amin res.logl = some m) (hd : starts.countP (fun s => decide (s = (m : WithBot K))) ≤ 1)
    {dn : List Int}
    (hdn : dynestyDn res (res.nlive.isNone && res.samplesN.isSome) (finalInds res (List.range n)) = dn)
    (hdl : dn.length = res.logl.length) {n0 : Int}
    (hn0 : n0 = starts.countP (fun s => decide (s ≤ (m : WithBot K)))) (w : World σ) :
    processDynesty A res w =
      if (∀ i < res.logl.length, 0 < n0 + (dn.take i).sum) ∧
          n0 + (dn.take (res.logl.length - 1)).sum = 1
      then (checkRun A (dynestyRun res starts (finalInds res (List.range n)) (liveFrom n0 dn)) false false >>=
        fun _ => pure (dynestyRun res starts (finalInds res (List.range n)) (liveFrom n0 dn))) w
      else (.error .assertion, w) := by
  have hu : unique res.ids = List.range n := unique_eq_range.mpr h.ids_range
  obtain ⟨e, he, heq, -⟩ := finalInds_spec h
  have hel : (gather res.logl (finalInds res (List.range n))).length = n := by
    unfold gather
    rw [heq, List.filterMap_map, List.length_filterMap_eq_countP, List.countP_eq_length.mpr]
    · simp
    · intro k hk
      have := (he k (List.mem_range.mp hk)).1
      have hl := (List.getElem?_eq_some_iff.mp this).1
      unfold idLabels at hl
      rw [List.length_map, h.ids_len] at hl
      simp [List.getElem?_eq_getElem hl]
  have hz : ∀ p : WithBot K → Bool,
      (starts.zip (gather res.logl (finalInds res (List.range n)))).countP (fun q => p q.1) = starts.countP p := by
    intro p
    have : starts = (starts.zip (gather res.logl (finalInds res (List.range n)))).map Prod.fst := by
      rw [List.map_fst_zip (by omega)]
    conv_rhs => rw [this, List.countP_map]
    rfl
  unfold processDynesty
  rw [M.bind_ok (a := ()) (w' := w) (by
    rw [if_neg]
    · rfl
    · rintro (hc | hc)
      · exact hc h.samples_len.symm
      · exact hc (by rw [h.ids_len, h.samples_len]))]
  rw [M.bind_ok (a := ()) (w' := w) (by rw [M.assert_apply, hu]; simp)]
  rw [M.bind_ok (a := starts) (w' := w) (by rw [M.lift_apply, hu, hst])]
  simp only [hu, hdn]
  have hmk := mkRows_map (ls := res.logl) (bs := res.ids.map (fun i => some (Int.ofNat i))) (ds := dn)
    (ts := res.samples) (by rw [List.length_map, h.ids_len]) hdl h.samples_len
  set rows := mkRows res.logl (res.ids.map (fun i => some (Int.ofNat i))) dn res.samples with hrows
  have hrl : rows.length = res.logl.length := by
    have := congrArg List.length hmk.1
    simpa using this
  have hdict := dict_apply (rows := rows) (σ := σ)
    (tmm := starts.zip (gather res.logl (finalInds res (List.range n)))) (m := m) (by rw [hmk.1]; exact hm)
    (by rw [hz (fun s => decide (s = (m : WithBot K)))]; exact hd)
    (n0 := n0) (by rw [hz (fun s => decide (s ≤ (m : WithBot K)))]; exact hn0) w
  have hrun : runOfRows rows (liveFrom n0 (rows.map (·.dn)))
      (starts.zip (gather res.logl (finalInds res (List.range n)))) =
      dynestyRun res starts (finalInds res (List.range n)) (liveFrom n0 dn) := by
    unfold runOfRows dynestyRun
    rw [hmk.1, hmk.2.1, hmk.2.2.1, hmk.2.2.2]
    congr 1
    rw [show res.ids.map (fun i => some (Int.ofNat i)) = (idLabels res).map some by
      unfold idLabels; rw [List.map_map]; rfl]
    exact allSome_map_some _
  rw [hmk.2.2.1, hrl] at hdict
  rw [hmk.2.2.1] at hrun
  rw [hrun] at hdict
  by_cases hc : (∀ i < res.logl.length, 0 < n0 + (dn.take i).sum) ∧
          n0 + (dn.take (res.logl.length - 1)).sum = 1
  · rw [if_pos hc] at hdict ⊢
    rw [M.bind_ok hdict]
  · rw [if_neg hc] at hdict ⊢
    rw [M.bind_error hdict]

theorem checkRun_valid {A : Argsort K} {r : Run K} (hv : Valid r) (w : World σ) :
    checkRun A r false false w = (.ok (), w) := by
  have h1 := (checkRun_ok_iff A r false false w).mpr ⟨hv, by simp⟩
  have h2 := checkRun_world A r false false w
  rcases hx : checkRun A r false false w with ⟨x, w'⟩
  rw [hx] at h1 h2
  simp only at h1 h2
  obtain ⟨h3, h4⟩ := h2
  rcases h4 with h4 | ⟨-, h4, -⟩
  · cases w; cases w'
    simp only at h3 h4
    subst h1 h3 h4
    rfl
  · simp at h4

/-- The recorded end of thread `k`. -/
theorem ends_spec {res : Dynesty K} {n : Nat} (h : DynestyShape res n) {starts : List (WithBot K)}
    (hsl : starts.length = n) {k i : Nat} {s : WithBot K} {l : K} (hk : starts[k]? = some s)
    (hlast : LastOf (idLabels res) k i) (hl : res.logl[i]? = some l) :
    (starts.zip (gather res.logl (finalInds res (List.range n))))[k]? = some (s, l) := by
  obtain ⟨e, he, heq, -⟩ := finalInds_spec h
  have hkn : k < n := by rw [← hsl]; exact (List.getElem?_eq_some_iff.mp hk).1
  have hin : ∀ k < n, ∃ l, res.logl[e k]? = some l := by
    intro k hk
    have hl := (List.getElem?_eq_some_iff.mp (he k hk).1).1
    unfold idLabels at hl
    rw [List.length_map, h.ids_len] at hl
    exact ⟨_, List.getElem?_eq_getElem hl⟩
  have hg : gather res.logl (finalInds res (List.range n)) =
      (List.range n).map (fun k => res.logl[e k]?.getD 0) := by
    unfold gather
    rw [heq, List.filterMap_map, ← List.filterMap_eq_map]
    apply List.filterMap_congr
    intro k hk
    obtain ⟨l, hl⟩ := hin k (List.mem_range.mp hk)
    simp [hl]
  rw [List.getElem?_zip_eq_some]
  refine ⟨hk, ?_⟩
  rw [hg, List.getElem?_map, List.getElem?_range hkn]
  simp only [Option.map_some, Option.some.injEq]
  rw [lastOf_unique (he k hkn) hlast, hl]
  rfl

theorem dynestyRun_valid {res : Dynesty K} {n : Nat} (h : DynestyShape res n)
    {starts : List (WithBot K)} (hsl : starts.length = n) {nl : List Int}
    (hnl : nl.length = res.logl.length) (hbot : ⊥ ∈ starts)
    (hle : ∀ (k i : Nat) (s : WithBot K) (l : K), starts[k]? = some s → FirstOf (idLabels res) k i →
      res.logl[i]? = some l → s ≤ (l : WithBot K)) :
    ValidWith (dynestyRun res starts (finalInds res (List.range n)) nl) (idLabels res)
      (starts.zip (gather res.logl (finalInds res (List.range n)))) := by
  have hil : (idLabels res).length = res.logl.length := by
    unfold idLabels; rw [List.length_map, h.ids_len]
  have hends : ∀ k < n, ∃ i l, LastOf (idLabels res) k i ∧ res.logl[i]? = some l := by
    intro k hk
    obtain ⟨i, hi⟩ := exists_lastOf (labels := idLabels res) (k := (k : Int))
      (List.mem_map.mpr ⟨k, (h.ids_range k).mpr hk, rfl⟩)
    have := (List.getElem?_eq_some_iff.mp hi.1).1
    exact ⟨i, _, hi, List.getElem?_eq_getElem (by rw [← hil]; exact this)⟩
  have hget : ∀ k < n, ∃ i l s, LastOf (idLabels res) k i ∧ res.logl[i]? = some l ∧ starts[k]? = some s ∧
      (starts.zip (gather res.logl (finalInds res (List.range n))))[k]? = some (s, l) := by
    intro k hk
    obtain ⟨i, l, hi, hl⟩ := hends k hk
    have hs := List.getElem?_eq_getElem (l := starts) (i := k) (by omega)
    exact ⟨i, l, _, hi, hl, hs, ends_spec h hsl hs hi hl⟩
  have hzl : (starts.zip (gather res.logl (finalInds res (List.range n)))).length = n := by
    apply le_antisymm
    · rw [List.length_zip]; omega
    · by_contra hc
      obtain ⟨i, l, s, -, -, -, h4⟩ :=
        hget (starts.zip (gather res.logl (finalInds res (List.range n)))).length (by omega)
      simp at h4
  refine ⟨rfl, rfl, hnl, hil, h.samples_len, pairwise_iff_getElem?.mp h.sorted, ?_, ?_, ?_, ?_⟩
  · intro k
    rw [hzl]
    unfold idLabels
    rw [List.mem_map]
    constructor
    · rintro ⟨a, ha, rfl⟩
      have := (h.ids_range a).mp ha
      simp; exact this
    · rintro ⟨h1, h2⟩
      refine ⟨k.toNat, (h.ids_range _).mpr (by omega), by simp; omega⟩
  · obtain ⟨k, hk⟩ := List.mem_iff_getElem?.mp hbot
    have hkn : k < n := by rw [← hsl]; exact (List.getElem?_eq_some_iff.mp hk).1
    obtain ⟨i, l, s, -, -, h3, h4⟩ := hget k hkn
    rw [hk] at h3
    cases h3
    exact ⟨_, List.mem_of_getElem? h4, rfl⟩
  · intro k mm i l hmm hf hl
    have hkn : k < n := by rw [← hzl]; exact (List.getElem?_eq_some_iff.mp hmm).1
    obtain ⟨i', l', s, -, -, h3, h4⟩ := hget k hkn
    rw [hmm] at h4
    cases h4
    exact hle k i s l h3 hf hl
  · intro k mm i l hmm hla hl
    have hkn : k < n := by rw [← hzl]; exact (List.getElem?_eq_some_iff.mp hmm).1
    obtain ⟨i', l', s, h1, h2, h3, h4⟩ := hget k hkn
    rw [hmm] at h4
    cases h4
    have hl' : res.logl[i]? = some l := hl
    rw [lastOf_unique hla h1, h2] at hl'
    simpa using hl'

theorem threadsAfter_pos {res : Dynesty K} {n : Nat} (h : DynestyShape res n) {i : Nat}
    (hi : i < res.logl.length) : 0 < threadsAfter res n i := by
  unfold threadsAfter
  rw [List.countP_pos_iff]
  have hid : i < res.ids.length := by rw [h.ids_len]; exact hi
  refine ⟨res.ids[i], List.mem_range.mpr ((h.ids_range _).mp (List.getElem_mem hid)), ?_⟩
  rw [List.drop_eq_getElem_cons hid]
  simp only [List.mem_cons, true_or, decide_true]

theorem threadsAfter_last {res : Dynesty K} {n : Nat} (h : DynestyShape res n) :
    threadsAfter res n (res.logl.length - 1) = 1 := by
  have hpos : 0 < res.logl.length := List.length_pos_iff.mpr h.nonempty
  have hid : res.logl.length - 1 < res.ids.length := by rw [h.ids_len]; omega
  unfold threadsAfter
  rw [List.drop_eq_getElem_cons hid, List.drop_eq_nil_of_le (by rw [h.ids_len]; omega)]
  have hlt : res.ids[res.logl.length - 1] < n := (h.ids_range _).mp (List.getElem_mem hid)
  have := countP_or_eq hlt (fun _ => False)
  simp only [or_false] at this
  simpa using this

theorem length_endings (res : Dynesty K) (ends : List Nat) :
    ((List.range res.logl.length).map (fun i => if i ∈ ends then (-1 : Int) else 0)).length =
      res.logl.length := by simp

/-- C12.  Static dynesty results with the final live points included give a run of the
documented format, in which every thread starts from the whole prior and the number of
live points at a sample is the number of threads which have that sample or a later one. -/
theorem C12_static (A : Argsort K) {res : Dynesty K} {n : Nat} (h : DynestyShape res n)
    (hn : res.nlive = some n) (hlive : ∀ k < n, k ∈ res.ids.drop (res.ids.length - n)) :
    ∃ (run : Run K) (tmm : List (WithBot K × K)),
      (∀ w : World σ, processDynesty A res w = (.ok run, w)) ∧
      ValidWith run (idLabels res) tmm ∧ tmm.length = n ∧ (∀ p ∈ tmm, p.1 = ⊥) ∧
      run.logl = res.logl ∧ run.theta = res.samples ∧ run.nlive.length = res.logl.length ∧
      ∀ i < res.logl.length, run.nlive[i]? = some (threadsAfter res n i : Int) := by
  have hpos : 0 < res.logl.length := List.length_pos_iff.mpr h.nonempty
  obtain ⟨m, hm⟩ : ∃ m, amin res.logl = some m := by
    cases hl : res.logl with
    | nil => exact absurd hl h.nonempty
    | cons a l => exact ⟨_, rfl⟩
  have hnpos : n ≠ 0 := by
    have hid : 0 < res.ids.length := by rw [h.ids_len]; exact hpos
    have := (h.ids_range _).mp (List.getElem_mem hid)
    omega
  have hst : dynestyThreadStarts res (List.range n) = .ok (List.replicate n (⊥ : WithBot K)) := by
    unfold dynestyThreadStarts
    rw [hn]
    simp only [dynestyStatic]
    rw [if_neg (by simp), if_neg hnpos, if_neg]
    · simp
    · rw [not_not, unique_eq_range]
      intro a
      constructor
      · intro ha; exact (h.ids_range a).mp (List.mem_of_mem_drop ha)
      · exact hlive a
  have hn0 : (n : Int) = (((List.replicate n (⊥ : WithBot K)).countP
      (fun s => decide (s ≤ (m : WithBot K))) : Nat) : Int) := by
    rw [List.countP_replicate]; simp
  have hdn : dynestyDn res (res.nlive.isNone && res.samplesN.isSome) (finalInds res (List.range n)) =
      (List.range res.logl.length).map
        (fun j => if j ∈ finalInds res (List.range n) then (-1 : Int) else 0) := by
    unfold dynestyDn
    rw [hn]; simp
  have hval := dynestyRun_valid h (starts := List.replicate n ⊥) (by simp)
    (nl := liveFrom (n : Int) ((List.range res.logl.length).map
        (fun j => if j ∈ finalInds res (List.range n) then (-1 : Int) else 0)))
    (by rw [length_liveFrom (by simpa using h.nonempty)]; simp)
    (by rw [List.mem_replicate]; exact ⟨hnpos, rfl⟩)
    (by
      intro k i s l hs _ _
      rw [List.getElem?_replicate] at hs
      split_ifs at hs
      cases hs
      exact bot_le)
  have htl : ((List.replicate n (⊥ : WithBot K)).zip
      (gather res.logl (finalInds res (List.range n)))).length = n := by
    have h1 : ((n - 1 : Nat) : Int) ∈ idLabels res :=
      List.mem_map.mpr ⟨n - 1, (h.ids_range _).mpr (by omega), rfl⟩
    have h2 := (hval.labels_range _).mp h1
    have h3 : ((List.replicate n (⊥ : WithBot K)).zip
      (gather res.logl (finalInds res (List.range n)))).length ≤ n := by
      rw [List.length_zip]; simp
    omega
  refine ⟨_, _, ?_, hval, htl, ?_, rfl, rfl, hval.nlive_len, ?_⟩
  · intro w
    rw [dynesty_core h (by simp) hst hm (by rw [List.countP_replicate]; simp) hdn (by simp) hn0 w, if_pos]
    · rw [M.bind_ok (checkRun_valid ⟨_, _, hval⟩ w)]
      rfl
    · constructor
      · intro i hi
        rw [endings_sum h (by omega)]
        exact_mod_cast threadsAfter_pos h hi
      · rw [endings_sum h (by omega), threadsAfter_last h]
        rfl
  · intro p hp
    have := List.of_mem_zip (a := p.1) (b := p.2) hp
    exact (List.mem_replicate.mp this.1).2
  · intro i hi
    show (liveFrom (n : Int) _)[i]? = _
    rw [getElem?_liveFrom (by simpa using hi), endings_sum h (by omega)]

/-- C12, results without the final live points are rejected. -/
theorem C12_rejects (A : Argsort K) {res : Dynesty K} {n n' : Nat} (h : DynestyShape res n')
    (hn : res.nlive = some n) (hbad : n ≠ n' ∨ ¬ ∀ k < n, k ∈ res.ids.drop (res.ids.length - n))
    (w : World σ) : processDynesty A res w = (.error .assertion, w) := by
  have hu : unique res.ids = List.range n' := unique_eq_range.mpr h.ids_range
  have hpos : 0 < res.logl.length := List.length_pos_iff.mpr h.nonempty
  unfold processDynesty
  rw [M.bind_ok (a := ()) (w' := w) (by
    rw [if_neg]
    · rfl
    · rintro (hc | hc)
      · exact hc h.samples_len.symm
      · exact hc (by rw [h.ids_len, h.samples_len]))]
  rw [M.bind_ok (a := ()) (w' := w) (by rw [M.assert_apply, hu]; simp)]
  rw [M.bind_error (w' := w)]
  rw [M.lift_apply, hu]
  unfold dynestyThreadStarts
  rw [hn]
  simp only [dynestyStatic]
  by_cases hnn : n = n'
  · subst hnn
    have hnpos : n ≠ 0 := by
      have hid : 0 < res.ids.length := by rw [h.ids_len]; exact hpos
      have := (h.ids_range _).mp (List.getElem_mem hid)
      omega
    rw [if_neg (by simp), if_neg hnpos, if_pos]
    intro hc
    rw [unique_eq_range] at hc
    rcases hbad with hb | hb
    · exact hb rfl
    · exact hb (fun k hk => (hc k).mpr hk)
  · rw [if_pos]
    rw [List.length_range]; exact fun h => hnn h.symm

/-- The start of each thread of dynamic results: the lower bound of the batch of its
first sample. -/
def Spec.BatchStarts (res : Dynesty K) (n : Nat) (starts : List (WithBot K)) : Prop :=
  starts.length = n ∧ ∀ (k i : Nat) (s : WithBot K), starts[k]? = some s → FirstOf (idLabels res) k i →
    ∃ b : Nat, res.samplesBatch[i]? = some b ∧ res.batchStart[b]? = some s

theorem dynestyStarts_ok {res : Dynesty K} {n : Nat} (h : DynestyShape res n)
    {starts : List (WithBot K)} (hb : BatchStarts res n starts) :
    dynestyStarts res (List.range n) = .ok starts := by
  have key : ∀ (len a : Nat), a + len = n → dynestyStarts res (List.range' a len) = .ok (starts.drop a) := by
    intro len
    induction len with
    | zero =>
      intro a ha
      rw [List.range'_zero, List.drop_eq_nil_of_le (by rw [hb.1]; omega)]
      rfl
    | succ len ih =>
      intro a ha
      rw [List.range'_succ, dynestyStarts]
      obtain ⟨f, hf⟩ := exists_firstOf (labels := idLabels res) (k := (a : Int))
        (List.mem_map.mpr ⟨a, (h.ids_range a).mpr (by omega), rfl⟩)
      have hal : a < starts.length := by rw [hb.1]; omega
      obtain ⟨b, hb1, hb2⟩ := hb.2 a f _ (List.getElem?_eq_getElem hal) hf
      rw [whereIdx_idLabels, whereIdx_head_iff.mpr hf]
      simp only [Option.bind_some, hb1, hb2]
      rw [ih (a + 1) (by omega), List.drop_eq_getElem_cons hal]
  rw [List.range_eq_range']
  exact key n 0 (by omega)

theorem diff_sum {ns : List Int} (i : Nat) (hi : i < ns.length) :
    ns[0]?.getD 0 + ((diff ns ++ [0]).take i).sum = ns[i]?.getD 0 := by
  have hdl : (diff ns).length = ns.length - 1 := by
    unfold diff; rw [List.length_zipWith, List.length_tail]; omega
  induction i with
  | zero => simp
  | succ i ih =>
    rw [List.take_add_one, List.sum_append, ← add_assoc, ih (by omega)]
    rw [List.getElem?_append_left (by omega)]
    have : (diff ns)[i]? = some (ns[i + 1] - ns[i]) := by
      unfold diff
      rw [List.getElem?_zipWith, List.getElem?_eq_getElem (by omega), List.getElem?_tail,
        List.getElem?_eq_getElem hi]
    rw [this, List.getElem?_eq_getElem (show i < ns.length by omega), List.getElem?_eq_getElem hi]
    simp

/-- C63.  Dynamic dynesty results which record the number of live points (`samples_n`,
positive and ending in one): the run returned has exactly those numbers of live points,
provided the first of them is the number of threads which start at or below the lowest
sample; otherwise the results are rejected.  (At most one thread starts exactly there.) -/
theorem C63_dynamic (A : Argsort K) {res : Dynesty K} {n : Nat} (h : DynestyShape res n)
    (hn : res.nlive = none) {ns : List Int} (hns : res.samplesN = some ns)
    (hnl : ns.length = res.logl.length) (hpos : ∀ x ∈ ns, 0 < x) (hlast : ns.getLast? = some 1)
    (hbatch : res.batchNlive.sum = n) {starts : List (WithBot K)} (hb : BatchStarts res n starts)
    {m : K} (hm : res.logl[0]? = some m)
    (hd : starts.countP (fun s => decide (s = (m : WithBot K))) ≤ 1) (hbot : ⊥ ∈ starts)
    (hle : ∀ (k i : Nat) (s : WithBot K) (l : K), starts[k]? = some s → FirstOf (idLabels res) k i →
      res.logl[i]? = some l → s ≤ (l : WithBot K)) :
    (ns[0]? = some ((starts.countP (fun s => decide (s ≤ (m : WithBot K))) : Nat) : Int) →
      ∃ (run : Run K) (tmm : List (WithBot K × K)),
        (∀ w : World σ, processDynesty A res w = (.ok run, w)) ∧ ValidWith run (idLabels res) tmm ∧
        tmm.map Prod.fst = starts ∧ run.logl = res.logl ∧ run.theta = res.samples ∧ run.nlive = ns) ∧
    (ns[0]? ≠ some ((starts.countP (fun s => decide (s ≤ (m : WithBot K))) : Nat) : Int) →
      ∀ w : World σ, processDynesty A res w = (.error .assertion, w)) := by
  have hlp : 0 < res.logl.length := List.length_pos_iff.mpr h.nonempty
  have hmin : amin res.logl = some m := by
    cases hl : res.logl with
    | nil => exact absurd hl h.nonempty
    | cons a l =>
      rw [hl] at hm
      simp only [List.getElem?_cons_zero, Option.some.injEq] at hm
      subst hm
      exact amin_sorted (by rw [← hl]; exact h.sorted)
  have hst : dynestyThreadStarts res (List.range n) = .ok starts := by
    unfold dynestyThreadStarts
    rw [hn]
    unfold dynestyDynamic
    rw [if_neg (by simp [hbatch]), if_neg (by simp [hns, hnl])]
    exact dynestyStarts_ok h hb
  have hdn : dynestyDn res (res.nlive.isNone && res.samplesN.isSome) (finalInds res (List.range n)) =
      diff ns ++ [0] := by
    unfold dynestyDn
    rw [hn, hns]; rfl
  have hdl : (diff ns ++ [0]).length = res.logl.length := by
    unfold diff
    rw [List.length_append, List.length_zipWith, List.length_tail, ← hnl]
    simp; omega
  set n0 : Int := ((starts.countP (fun s => decide (s ≤ (m : WithBot K))) : Nat) : Int) with hn0
  obtain ⟨c, hc⟩ : ∃ c, ns[0]? = some c := ⟨_, List.getElem?_eq_getElem (by omega)⟩
  have hsum : ∀ i < res.logl.length, n0 + ((diff ns ++ [0]).take i).sum = n0 - c + ns[i]?.getD 0 := by
    intro i hi
    have := diff_sum (ns := ns) i (by omega)
    rw [hc] at this
    simp only [Option.getD_some] at this
    omega
  have hcore := fun w : World σ => dynesty_core (A := A) h hb.1 hst hmin hd hdn hdl hn0 w
  have hlast' : ns[res.logl.length - 1]? = some 1 := by
    rw [← hnl, ← List.getLast?_eq_getElem?]; exact hlast
  constructor
  · intro h0
    rw [h0] at hc
    have hc' : n0 = c := by simpa using hc
    have hnn : liveFrom n0 (diff ns ++ [0]) = ns := by
      apply List.ext_getElem?
      intro i
      by_cases hi : i < ns.length
      · rw [getElem?_liveFrom (by omega), hsum i (by omega), List.getElem?_eq_getElem hi]
        simp [hc']
      · rw [List.getElem?_eq_none (by rw [length_liveFrom (by simp)]; omega),
          List.getElem?_eq_none (by omega)]
    have hval := dynestyRun_valid h hb.1 (nl := ns) hnl hbot hle
    refine ⟨_, _, ?_, hval, ?_, rfl, rfl, rfl⟩
    · intro w
      rw [hcore w, if_pos, hnn, M.bind_ok (checkRun_valid ⟨_, _, hval⟩ w)]
      · rfl
      · constructor
        · intro i hi
          rw [hsum i hi, hc', List.getElem?_eq_getElem (by omega)]
          have := hpos _ (List.getElem_mem (l := ns) (n := i) (by omega))
          simpa using this
        · rw [hsum _ (by omega), hlast', hc']
          simp
    · rw [List.map_fst_zip]
      have h1 := hval.labels_range
      by_contra hcl
      have h2 := (h1 ((n - 1 : Nat) : Int)).mp
        (List.mem_map.mpr ⟨n - 1, (h.ids_range _).mpr (by have := hb.1; omega), rfl⟩)
      rw [List.length_zip] at h2
      have := hb.1
      omega
  · intro h0 w
    rw [hcore w, if_neg]
    rintro ⟨-, h2⟩
    rw [hsum _ (by omega), hlast'] at h2
    simp only [Option.getD_some] at h2
    apply h0
    rw [hc]
    congr 1
    omega

/-- C63, without `samples_n`: results in which some thread starts above the lowest sample
are always rejected, since its live point is never added.  (At most one thread starts
exactly on the lowest sample.) -/
theorem C63_no_counts (A : Argsort K) {res : Dynesty K} {n : Nat} (h : DynestyShape res n)
    (hn : res.nlive = none) (hns : res.samplesN = none) (hbatch : res.batchNlive.sum = n)
    {starts : List (WithBot K)} (hb : BatchStarts res n starts) {m : K} (hm : res.logl[0]? = some m)
    (hd : starts.countP (fun s => decide (s = (m : WithBot K))) ≤ 1)
    (hlate : ∃ s ∈ starts, (m : WithBot K) < s) (w : World σ) :
    processDynesty A res w = (.error .assertion, w) := by
  have hlp : 0 < res.logl.length := List.length_pos_iff.mpr h.nonempty
  have hmin : amin res.logl = some m := by
    cases hl : res.logl with
    | nil => exact absurd hl h.nonempty
    | cons a l =>
      rw [hl] at hm
      simp only [List.getElem?_cons_zero, Option.some.injEq] at hm
      subst hm
      exact amin_sorted (by rw [← hl]; exact h.sorted)
  have hst : dynestyThreadStarts res (List.range n) = .ok starts := by
    unfold dynestyThreadStarts
    rw [hn]
    unfold dynestyDynamic
    rw [if_neg (by simp [hbatch]), if_neg (by simp [hns])]
    exact dynestyStarts_ok h hb
  have hdn : dynestyDn res (res.nlive.isNone && res.samplesN.isSome) (finalInds res (List.range n)) =
      (List.range res.logl.length).map
        (fun j => if j ∈ finalInds res (List.range n) then (-1 : Int) else 0) := by
    unfold dynestyDn
    rw [hns]; simp
  rw [dynesty_core h hb.1 hst hmin hd hdn (by simp) rfl w, if_neg]
  rintro ⟨-, h2⟩
  have h3 := endings_sum h (i := res.logl.length - 1) (by omega)
  rw [threadsAfter_last h] at h3
  have h4 : starts.countP (fun s => decide (s ≤ (m : WithBot K))) < n := by
    obtain ⟨s, hs, hlt⟩ := hlate
    rw [← hb.1, List.countP_eq_length_filter]
    exact List.length_filter_lt_length_iff_exists.mpr ⟨s, hs, by simpa using hlt⟩
  push_cast at h3
  omega

/-- C63: dynamic results whose number of threads is not that of the live points of all batches are rejected. -/
theorem C63_rejects (A : Argsort K) {res : Dynesty K} {n : Nat} (h : DynestyShape res n) (hn : res.nlive = none)
    (hbatch : res.batchNlive.sum ≠ n) (w : World σ) : processDynesty A res w = (.error .assertion, w) := by
  have hu : unique res.ids = List.range n := unique_eq_range.mpr h.ids_range
  unfold processDynesty
  rw [M.bind_ok (a := ()) (w' := w) (by
    rw [if_neg]
    · rfl
    · rintro (hc | hc)
      · exact hc h.samples_len.symm
      · exact hc (by rw [h.ids_len, h.samples_len]))]
  rw [M.bind_ok (a := ()) (w' := w) (by rw [M.assert_apply, hu]; simp)]
  rw [M.bind_error (w' := w)]
  rw [M.lift_apply, hu]
  unfold dynestyThreadStarts
  rw [hn]
  simp only [dynestyDynamic]
  rw [if_pos (by simpa using fun e => hbatch e.symm)]

section examples

/-- Static results with two live points. -/
def exDynesty : Dynesty ℤ :=
  { samples := [[10], [20], [30], [40], [50]], logl := [1, 2, 4, 5, 6], ids := [0, 0, 1, 1, 0],
    nlive := some 2, batchNlive := [], samplesN := none, samplesBatch := [], batchStart := [] }

theorem exDynesty_shape : DynestyShape exDynesty 2 where
  nonempty := by decide
  ids_len := rfl
  samples_len := rfl
  ids_range := by
    intro k
    constructor
    · revert k; decide
    · intro hk
      have : k = 0 ∨ k = 1 := by omega
      rcases this with rfl | rfl <;> decide
  sorted := by decide

example (s : Nat) : processDynesty (stableSort ℤ) exDynesty ⟨s, []⟩ =
    (.ok { logl := [1, 2, 4, 5, 6], nlive := [2, 2, 2, 2, 1],
           theta := [[10], [20], [30], [40], [50]], labels := some [0, 0, 1, 1, 0],
           tmm := some [(⊥, 6), (⊥, 5)] }, ⟨s, []⟩) := by rfl

example : ∀ k < 2, k ∈ exDynesty.ids.drop (exDynesty.ids.length - 2) := by decide

/-- Dynamic results: a second batch of one thread starts on contour 1. -/
def exDynestyDyn : Dynesty ℤ :=
  { samples := [[10], [20], [30], [40]], logl := [1, 2, 4, 5], ids := [0, 1, 2, 0],
    nlive := none, batchNlive := [2, 1], samplesN := some [2, 3, 2, 1], samplesBatch := [0, 0, 1, 0],
    batchStart := [⊥, ((1 : ℤ) : WithBot ℤ)] }

/-- One thread starting exactly on the lowest sample is counted in the first number of
live points, which `samples_n` does not do: the results are rejected. -/
example (s : Nat) : processDynesty (stableSort ℤ) exDynestyDyn ⟨s, []⟩ = (.error .assertion, ⟨s, []⟩) := by
  rfl

def exDynestyDyn2 : Dynesty ℤ :=
  { exDynestyDyn with batchStart := [⊥, ((2 : ℤ) : WithBot ℤ)], samplesN := some [2, 2, 2, 1] }

example (s : Nat) : processDynesty (stableSort ℤ) exDynestyDyn2 ⟨s, []⟩ =
    (.ok { logl := [1, 2, 4, 5], nlive := [2, 2, 2, 1], theta := [[10], [20], [30], [40]],
           labels := some [0, 1, 2, 0], tmm := some [(⊥, 5), (⊥, 2), (((2 : ℤ) : WithBot ℤ), 4)] },
      ⟨s, []⟩) := by rfl

theorem exDynestyDyn2_starts : BatchStarts exDynestyDyn2 3 [⊥, ⊥, ((2 : ℤ) : WithBot ℤ)] := by
  refine ⟨rfl, ?_⟩
  intro k i s hk hf
  have hi := whereIdx_head_iff.mpr hf
  have hk3 : k < 3 := (List.getElem?_eq_some_iff.mp hk).1
  have h3 : k = 0 ∨ k = 1 ∨ k = 2 := by omega
  rcases h3 with rfl | rfl | rfl
  · obtain rfl : 0 = i := Option.some.inj hi
    obtain rfl : ⊥ = s := by simpa using hk
    exact ⟨0, rfl, rfl⟩
  · obtain rfl : 1 = i := Option.some.inj hi
    obtain rfl : ⊥ = s := by simpa using hk
    exact ⟨0, rfl, rfl⟩
  · obtain rfl : 2 = i := Option.some.inj hi
    obtain rfl : ((2 : ℤ) : WithBot ℤ) = s := by simpa using hk
    exact ⟨1, rfl, rfl⟩

example (s : Nat) : processDynesty (stableSort ℤ) { exDynestyDyn2 with samplesN := none } ⟨s, []⟩ =
    (.error .assertion, ⟨s, []⟩) := by rfl

end examples
end Nestcheck
