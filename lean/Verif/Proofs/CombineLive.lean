import Verif.Proofs.Combine

/-! Live counts of combine_threads. -/

set_option linter.unusedSectionVars false

namespace Nestcheck
open Spec
variable {σ K : Type} [CommRing K] [LinearOrder K] (R : Rng σ K)

theorem mem_finiteStarts {tmm : List (WithBot K × K)} {s : K} :
    s ∈ finiteStarts tmm ↔ ∃ p ∈ tmm, p.1 = (s : WithBot K) := by
  unfold finiteStarts
  rw [List.mem_filterMap]
  apply exists_congr
  rintro ⟨a, b⟩
  apply and_congr_right
  intro _
  cases a with
  | bot => simp
  | coe a => simp

theorem countP_starts (tmm : List (WithBot K × K)) (l : K) :
    tmm.countP (fun p => decide (p.1 < (l : WithBot K))) =
      tmm.countP (fun p => decide (p.1 = ⊥)) + (finiteStarts tmm).countP (fun s => decide (s < l)) := by
  induction tmm with
  | nil => rfl
  | cons p ps ih =>
    obtain ⟨a, b⟩ := p
    cases a with
    | bot =>
      have : finiteStarts (((⊥ : WithBot K), b) :: ps) = finiteStarts ps := by
        unfold finiteStarts; rw [List.filterMap_cons]; rfl
      rw [this, List.countP_cons, List.countP_cons, ih]
      simp
      omega
    | coe a =>
      have : finiteStarts (((a : WithBot K), b) :: ps) = a :: finiteStarts ps := by
        unfold finiteStarts; rw [List.filterMap_cons]; rfl
      rw [this, List.countP_cons, List.countP_cons, List.countP_cons, ih]
      simp
      omega

theorem countP_live {tmm : List (WithBot K × K)} (h : ∀ p ∈ tmm, p.1 < (p.2 : WithBot K)) (l : K) :
    (tmm.countP (fun p => decide (p.1 < (l : WithBot K) ∧ l ≤ p.2)) : Int) =
      tmm.countP (fun p => decide (p.1 < (l : WithBot K))) - tmm.countP (fun p => decide (p.2 < l)) := by
  induction tmm with
  | nil => rfl
  | cons p ps ih =>
    have ih := ih (fun q hq => h q (by simp [hq]))
    have hp := h p (by simp)
    simp only [List.countP_cons]
    by_cases h1 : p.2 < l
    · have h2 : p.1 < (l : WithBot K) := lt_trans hp (WithBot.coe_lt_coe.mpr h1)
      rw [if_neg (by simp [not_le.mpr h1]), if_pos (by simpa using h2), if_pos (by simpa using h1)]
      push_cast
      omega
    · have h3 : l ≤ p.2 := not_lt.mp h1
      by_cases h2 : p.1 < (l : WithBot K)
      · rw [if_pos (by simp [h2, h3]), if_pos (by simpa using h2), if_neg (by simpa using h1)]
        push_cast
        omega
      · rw [if_neg (by simp [h2]), if_neg (by simpa using h2), if_neg (by simpa using h1)]
        push_cast
        omega

theorem ThreadRows.start_lt {arr : List (Row K)} {p : WithBot K × K} (h : ThreadRows arr p) :
    p.1 < (p.2 : WithBot K) := by
  obtain ⟨init, last, rfl, -, -, h3⟩ := h.split
  rw [← h3]
  exact h.born last (by simp)

theorem exists_thread {arrs : List (List (Row K))} {tmm : List (WithBot K × K)}
    (h : List.Forall₂ ThreadRows arrs tmm) {r : Row K} (hr : r ∈ arrs.flatten) :
    ∃ arr ∈ arrs, ∃ p ∈ tmm, r ∈ arr ∧ ThreadRows arr p := by
  induction h with
  | nil => simp at hr
  | @cons a p as ps h1 h2 ih =>
    rw [List.flatten_cons, List.mem_append] at hr
    rcases hr with hr | hr
    · exact ⟨a, by simp, p, by simp, hr, h1⟩
    · obtain ⟨b, hb, q, hq, h3, h4⟩ := ih hr
      exact ⟨b, by simp [hb], q, by simp [hq], h3, h4⟩

theorem exists_arr {arrs : List (List (Row K))} {tmm : List (WithBot K × K)}
    (h : List.Forall₂ ThreadRows arrs tmm) {p : WithBot K × K} (hp : p ∈ tmm) :
    ∃ arr ∈ arrs, ThreadRows arr p := by
  induction h with
  | nil => simp at hp
  | @cons a q as ps h1 h2 ih =>
    rcases List.mem_cons.mp hp with rfl | hp
    · exact ⟨a, by simp, h1⟩
    · obtain ⟨b, hb, h3⟩ := ih hp
      exact ⟨b, by simp [hb], h3⟩

/-- If all logls are distinct, the threads which contain the last logl of a thread
number one. -/
theorem countP_end_le_one {arrs : List (List (Row K))} {tmm : List (WithBot K × K)}
    (h : List.Forall₂ ThreadRows arrs tmm) (hnd : (arrs.flatten.map (·.logl)).Nodup) (l : K) :
    tmm.countP (fun p => decide (p.2 = l)) ≤ 1 := by
  have : tmm.countP (fun p => decide (p.2 = l)) ≤ (arrs.flatten.map (·.logl)).count l := by
    clear hnd
    induction h with
    | nil => simp
    | @cons a p as ps h1 h2 ih =>
      rw [List.flatten_cons, List.map_append, List.count_append, List.countP_cons]
      by_cases hc : p.2 = l
      · have : 0 < (a.map (·.logl)).count l := by
          rw [List.count_pos_iff]
          obtain ⟨init, last, rfl, -, -, h3⟩ := h1.split
          rw [← hc, ← h3]; simp
        rw [if_pos (by simpa using hc)]; omega
      · rw [if_neg (by simpa using hc)]; omega
  exact le_trans this (List.nodup_iff_count_le_one.mp hnd l)

/-- Live counts of threads with distinct logls, whose births are all on samples
other than the lowest. -/
theorem combineThreads_dynamic {A : Argsort K} {threads : List (Run K)}
    {tmm : List (WithBot K × K)} {abp : Bool} (h0 : threads ≠ [])
    (hT : List.Forall₂ (fun t p => IsThread t p.1 p.2) threads tmm)
    (hdim : SameDim (threads.flatMap (·.theta)))
    (hnd : (threads.flatMap (·.logl)).Nodup)
    (hb : ∀ p ∈ tmm, ∀ s : K, p.1 = (s : WithBot K) → s ∈ threads.flatMap (·.logl) ∧
      ∃ l ∈ threads.flatMap (·.logl), l < s) :
    ∃ (rows : List (Row K)) (nl : List Int),
      (∀ w : World σ, combineThreads A R threads abp w = (.ok (finishThreads (runOfRows rows nl tmm)), w)) ∧
      rows.Pairwise (fun a b => a.logl < b.logl) ∧
      (∃ rows0 : List (Row K), rows0.map (·.logl) = threads.flatMap (·.logl) ∧
        rows0.map (·.label) = threads.flatMap labelColumn ∧
        rows0.map (·.theta) = threads.flatMap (·.theta) ∧
        (rows.map (fun r => (r.logl, r.label, r.theta))).Perm
          (rows0.map (fun r => (r.logl, r.label, r.theta)))) ∧
      nl.length = rows.length ∧
      ∀ (i : Nat) (r : Row K), rows[i]? = some r → nl[i]? =
        some (tmm.countP (fun p => decide (p.1 < (r.logl : WithBot K) ∧ r.logl ≤ p.2)) : Int) := by
  obtain ⟨arrs, hA, hR, e1, e2, e3⟩ := threads_rows hT
  set S := sortBy A (·.logl) arrs.flatten with hS
  have hperm : S.Perm arrs.flatten := sortBy_perm A _ _
  rw [← e1] at hnd hb
  have hndS : (S.map (·.logl)).Nodup := (hperm.map _).nodup_iff.mpr hnd
  have hstrict : S.Pairwise (fun a b => a.logl < b.logl) := sortBy_strict hnd
  have hin : ∀ s ∈ finiteStarts tmm, s ∈ S.map (·.logl) := by
    intro s hs
    obtain ⟨p, hp, hps⟩ := mem_finiteStarts.mp hs
    exact (hperm.map _).mem_iff.mpr (hb p hp s hps).1
  set rows := S.map (fun r => { r with dn := r.dn + ((finiteStarts tmm).count r.logl : Int) }) with hrows
  have hrl : rows.map (·.logl) = S.map (·.logl) := by rw [hrows, List.map_map]; rfl
  have hrlen : rows.length = S.length := by rw [hrows, List.length_map]
  have hstart : ∀ p ∈ tmm, p.1 < (p.2 : WithBot K) := by
    intro p hp
    obtain ⟨a, -, ha⟩ := exists_arr hR hp
    exact ha.start_lt
  -- sums
  have hsum : ∀ (i : Nat) (r : Row K), S[i]? = some r →
      ((rows.map (·.dn)).take i).sum = ((finiteStarts tmm).countP (fun s => decide (s < r.logl)) : Int) -
        tmm.countP (fun p => decide (p.2 < r.logl)) := by
    intro i r hi
    rw [hrows, List.map_map, ← List.map_take, take_eq_filter hstrict hi]
    have : ((S.filter (fun x => decide (x.logl < r.logl))).map
        ((fun x : Row K => x.dn) ∘ fun r => { r with dn := r.dn + ((finiteStarts tmm).count r.logl : Int) })).sum
        = ((S.filter (fun x => decide (x.logl < r.logl))).map (·.dn)).sum +
          ((S.filter (fun x => decide (x.logl < r.logl))).map
            (fun r => ((finiteStarts tmm).count r.logl : Int))).sum := by
      rw [← List.sum_map_add]; rfl
    rw [this, sum_starts hndS hin, ((hperm.filter _).map _).sum_eq, sum_ends hR]
    omega
  -- lowest sample
  have hSne : S ≠ [] := by
    intro h
    have : arrs.flatten = [] := by rw [h] at hperm; exact hperm.nil_eq.symm
    obtain ⟨t, ts, rfl⟩ := List.exists_cons_of_ne_nil h0
    cases hT with
    | cons h1 h2 =>
      have hne := h1.nonempty
      rw [this] at e1
      simp at e1
      exact hne e1.1
  obtain ⟨x, xs, hx⟩ := List.exists_cons_of_ne_nil (l := S.map (·.logl)) (by simpa using hSne)
  have hsortS : (S.map (·.logl)).Pairwise (· ≤ ·) := by
    rw [List.pairwise_map]; exact hstrict.imp le_of_lt
  have hmin : amin (rows.map (·.logl)) = some x := by
    rw [hrl, hx]; exact amin_sorted (by rw [← hx]; exact hsortS)
  have hxmin := (amin_eq_some.mp hmin).2
  have hfin : ∀ p ∈ tmm, ∀ s : K, p.1 = (s : WithBot K) → x < s := by
    intro p hp s hps
    obtain ⟨-, l, hl, hls⟩ := hb p hp s hps
    exact lt_of_le_of_lt (hxmin l (by rw [hrl]; exact (hperm.map _).mem_iff.mpr hl)) hls
  have hdup : tmm.countP (fun p => decide (p.1 = (x : WithBot K))) ≤ 1 := by
    rw [List.countP_eq_zero.mpr]
    · omega
    · intro p hp
      rw [decide_eq_true_iff]
      intro h
      exact absurd (hfin p hp x h) (lt_irrefl _)
  have hn0 : (tmm.countP (fun p => decide (p.1 = ⊥)) : Int) =
      tmm.countP (fun p => decide (p.1 ≤ (x : WithBot K))) := by
    congr 1
    apply List.countP_congr
    intro p hp
    simp only [decide_eq_true_eq]
    constructor
    · intro h; rw [h]; exact bot_le
    · intro h
      cases hp1 : p.1 with
      | bot => rfl
      | coe s =>
        rw [hp1] at h
        exact absurd (WithBot.coe_le_coe.mp h) (not_le.mpr (hfin p hp s hp1))
  set n0 : Int := ((tmm.countP (fun p => decide (p.1 = ⊥)) : Nat) : Int) with hn0d
  have hlive : ∀ (i : Nat) (r : Row K), S[i]? = some r → n0 + ((rows.map (·.dn)).take i).sum =
      tmm.countP (fun p => decide (p.1 < (r.logl : WithBot K) ∧ r.logl ≤ p.2)) := by
    intro i r hi
    rw [hsum i r hi, countP_live hstart, countP_starts]
    push_cast
    omega
  have hpos : 0 < S.length := List.length_pos_iff.mpr hSne
  have hcond : (∀ i < rows.length, 0 < n0 + ((rows.map (·.dn)).take i).sum) ∧
      n0 + ((rows.map (·.dn)).take (rows.length - 1)).sum = 1 := by
    have hge : ∀ (i : Nat) (r : Row K), S[i]? = some r → 0 <
        tmm.countP (fun p => decide (p.1 < (r.logl : WithBot K) ∧ r.logl ≤ p.2)) := by
      intro i r hi
      obtain ⟨arr, -, p, hp, hra, hth⟩ := exists_thread hR (hperm.mem_iff.mp (List.mem_of_getElem? hi))
      rw [List.countP_pos_iff]
      refine ⟨p, hp, ?_⟩
      rw [decide_eq_true_iff]
      refine ⟨hth.born r hra, ?_⟩
      obtain ⟨init, last, rfl, h1, h2, h3⟩ := hth.split
      rcases List.mem_append.mp hra with h | h
      · exact (h1 r h).2.le
      · simp at h; rw [h, h3]
    constructor
    · intro i hi
      rw [hrlen] at hi
      rw [hlive i S[i] (List.getElem?_eq_getElem hi)]
      have := hge i S[i] (List.getElem?_eq_getElem hi)
      omega
    · rw [hrlen]
      have hi : S.length - 1 < S.length := by omega
      have hg := List.getElem?_eq_getElem hi
      rw [hlive _ _ hg]
      have h1 := hge _ _ hg
      have h2 := countP_end_le_one hR hnd S[S.length - 1].logl
      have h3 : tmm.countP (fun p => decide (p.1 < (S[S.length - 1].logl : WithBot K) ∧
          S[S.length - 1].logl ≤ p.2)) ≤ tmm.countP (fun p => decide (p.2 = S[S.length - 1].logl)) := by
        apply List.countP_mono_left
        intro p hp
        simp only [decide_eq_true_eq]
        rintro ⟨-, h⟩
        refine le_antisymm ?_ h
        obtain ⟨a, ha, hth⟩ := exists_arr hR hp
        obtain ⟨init, last, rfl, -, -, h3⟩ := hth.split
        rw [← h3]
        have hl : last ∈ S := hperm.mem_iff.mpr (List.mem_flatten.mpr ⟨_, ha, by simp⟩)
        obtain ⟨j, hj⟩ := List.mem_iff_getElem?.mp hl
        have hjl := (List.getElem?_eq_some_iff.mp hj).1
        have : (S.map (·.logl))[j]? = some last.logl := by rw [List.getElem?_map, hj]; rfl
        rcases Nat.lt_or_ge j (S.length - 1) with hlt | hge'
        · refine pairwise_iff_getElem?.mp hsortS j (S.length - 1) _ _ hlt this ?_
          rw [List.getElem?_map, hg]; rfl
        · have : j = S.length - 1 := by omega
          subst this
          rw [hg] at hj
          simp at hj
          rw [hj]
      omega
  refine ⟨rows, liveFrom n0 (rows.map (·.dn)), ?_, ?_, ⟨arrs.flatten, e1, e2, e3, ?_⟩, ?_, ?_⟩
  · intro w
    refine combineThreads_eq R h0 hT hA (by rw [e3]; exact hdim) (s := R.seed 0) ?_ ?_
    · exact birthUpdate_unique R abp _ _ _ hndS hin
    · rw [dict_apply hmin hdup hn0, if_pos hcond]
  · rw [hrows, List.pairwise_map]; exact hstrict
  · rw [hrows, List.map_map]
    exact hperm.map _
  · rw [length_liveFrom, List.length_map]
    simpa [hrows] using hSne
  · intro i r hi
    rw [hrows, List.getElem?_map, Option.map_eq_some_iff] at hi
    obtain ⟨r0, hr0, rfl⟩ := hi
    rw [getElem?_liveFrom (by simpa [hrlen] using (List.getElem?_eq_some_iff.mp hr0).1), hlive i r0 hr0]

end Nestcheck
