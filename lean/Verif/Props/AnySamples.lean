import Verif.Props.Births

/-
C115: process_samples_array for arbitrary arrays of numbers, with duplicate loglikelihoods, birth contours which do not fit
together, and both warnings about approximate decompositions.
-/

set_option linter.unusedSectionVars false

namespace Nestcheck
open Spec
variable {σ K : Type} [CommRing K] [LinearOrder K] (R : Rng σ K)

/-! ### Birth indexes -/

theorem birthLoop_val {births logls : List K} {init : K} {pairs : List (Nat × K)}
    {acc acc' : List (Option Int)} {w w' : World σ} (hla : acc.length = births.length)
    (hacc : ∀ (i : Nat) (bl : K) (v : Int), births[i]? = some bl → acc[i]? = some (some v) →
      (bl = init ∧ v = -1) ∨ (bl ≠ init ∧ ∃ d : Nat, v = d ∧ logls[d]? = some bl))
    (hini : ∀ i : Nat, births[i]? = some init → acc[i]? = some (some (-1)))
    (hpairs : ∀ p ∈ pairs, births[p.1]? = some p.2)
    (h : birthLoop R births logls pairs acc w = (.ok acc', w')) :
    ∀ (i : Nat) (bl : K) (v : Int), births[i]? = some bl → acc'[i]? = some (some v) →
      (bl = init ∧ v = -1) ∨ (bl ≠ init ∧ ∃ d : Nat, v = d ∧ logls[d]? = some bl) := by
  induction pairs generalizing acc w with
  | nil => simp [birthLoop] at h; rw [← h.1]; exact hacc
  | cons p rest ih =>
    obtain ⟨i, bl⟩ := p
    have hi : births[i]? = some bl := hpairs (i, bl) (by simp)
    have hil : i < acc.length := by rw [hla]; exact (List.getElem?_eq_some_iff.mp hi).1
    rw [birthLoop_cons] at h
    split_ifs at h with h1 h2
    · exact ih hla hacc hini (fun p hp => hpairs p (by simp [hp])) h
    · rw [ne_eq, not_not] at h1
      have hne : bl ≠ init := by
        rintro rfl
        rw [hini i hi] at h1; simp at h1
      refine ih (by simpa using hla) ?_ ?_ (fun p hp => hpairs p (by simp [hp])) h
      · intro j bl' v hj hv
        by_cases hji : i = j
        · subst hji
          rw [hi] at hj; cases hj
          right
          obtain ⟨d, hd⟩ := List.length_eq_one_iff.mp h2
          rw [List.getElem?_set_self hil, hd] at hv
          refine ⟨hne, d, by simpa using hv.symm, mem_deathsOn.mp (by rw [hd]; simp)⟩
        · rw [List.getElem?_set_ne hji] at hv
          exact hacc j bl' v hj hv
      · intro j hj
        have hji : i ≠ j := by
          rintro rfl
          rw [hi] at hj; exact hne (by simpa using hj)
        rw [List.getElem?_set_ne hji]; exact hini j hj
    · rw [ne_eq, not_not] at h1
      have hne : bl ≠ init := by
        rintro rfl
        rw [hini i hi] at h1; simp at h1
      obtain ⟨inds, w1, h3, h4⟩ := M.bind_eq_ok.mp h
      have hinds : inds.length = (whereIdx (fun x => decide (x = bl)) births).length ∧
          ∀ d ∈ inds, d ∈ deathsOn logls bl := by
        rcases dupBirthInds_spec R births bl (deathsOn logls bl)
            (whereIdx (fun x => decide (x = bl)) births) whereIdx_nodup whereIdx_pairwise w with
          ⟨-, he⟩ | ⟨s, he⟩ | ⟨inds', s, -, he, hl, -, hm, -⟩ | ⟨inds', s, -, he, -, hl, hm⟩
        · rw [he] at h3; simp at h3
        · rw [he] at h3; simp at h3
        all_goals
          rw [he] at h3
          simp only [Prod.mk.injEq, Except.ok.injEq] at h3
          obtain ⟨rfl, -⟩ := h3
          exact ⟨hl, hm⟩
      refine ih (by rw [length_assignAt]; exact hla) ?_ ?_ (fun p hp => hpairs p (by simp [hp])) h4
      · intro j bl' v hj hv
        by_cases hjm : j ∈ whereIdx (fun x => decide (x = bl)) births
        · have := mem_whereIdx_eq.mp hjm
          rw [hj] at this; cases this
          right
          obtain ⟨p, hp⟩ := List.mem_iff_getElem?.mp hjm
          have hpl : p < inds.length := by rw [hinds.1]; exact (List.getElem?_eq_some_iff.mp hp).1
          have hjl : j < acc.length := by rw [hla]; exact (List.getElem?_eq_some_iff.mp hj).1
          rw [getElem?_assignAt whereIdx_nodup hp
            (v := some ((inds[p] : Nat) : Int)) (by rw [List.getElem?_map, List.getElem?_eq_getElem hpl]; rfl) hjl] at hv
          exact ⟨hne, inds[p], by simpa using hv.symm, mem_deathsOn.mp (hinds.2 _ (List.getElem_mem hpl))⟩
        · rw [getElem?_assignAt_of_not_mem hjm] at hv
          exact hacc j bl' v hj hv
      · intro j hj
        have hjm : j ∉ whereIdx (fun x => decide (x = bl)) births := by
          intro hc
          have := mem_whereIdx_eq.mp hc
          rw [hj] at this
          exact hne (by simpa using this.symm)
        rw [getElem?_assignAt_of_not_mem hjm]; exact hini j hj

/-- Whatever the input, birth indexes which are returned are -1 for the birth contour of the first sample, and otherwise
those of samples on the birth contour. -/
theorem birthInds_val {A : Argsort K} {births logls : List K} {da dw : Bool} {w w' : World σ} {b : List Int}
    (h : birthInds A R births logls da dw w = (.ok b, w')) :
    b.length = births.length ∧ ∃ init, births[0]? = some init ∧
      ∀ (i : Nat) (bl : K) (v : Int), births[i]? = some bl → b[i]? = some v →
        (bl = init ∧ v = -1) ∨ (bl ≠ init ∧ ∃ d : Nat, v = d ∧ logls[d]? = some bl) := by
  classical
  rw [birthInds_eq] at h
  by_cases h1 : ¬ logls.Pairwise (· ≤ ·)
  · rw [if_pos h1] at h; simp at h
  rw [if_neg h1] at h
  by_cases h2 : da = true ∧ ¬ logls.Pairwise (· < ·)
  · rw [if_pos h2] at h; simp at h
  rw [if_neg h2] at h
  set ws := if ¬ logls.Pairwise (· < ·) ∧ dw = true then w.warns ++ [.dupLogl] else w.warns with hws
  cases hb : births with
  | nil => rw [hb] at h; simp at h
  | cons init rest =>
    rw [hb] at h
    dsimp only at h
    rw [← hb] at h ⊢
    by_cases h3 : births.length ≠ logls.length
    · rw [if_pos h3] at h; simp at h
    rw [if_neg h3] at h
    by_cases h4 : ¬ ∀ (i : Nat) (x y : K), births[i]? = some x → logls[i]? = some y → x ≤ y
    · rw [if_pos h4] at h; simp at h
    rw [if_neg h4] at h
    rcases hL : birthLoop R births logls ((List.range births.length).zip births)
        (births.map (fun b => if b = init then some (-1 : Int) else none)) ⟨R.seed 0, ws⟩ with ⟨e | acc, w1⟩
    · rw [hL] at h; simp at h
    · rw [hL] at h
      simp only at h
      by_cases hall : acc.all Option.isSome = true
      swap
      · rw [if_neg hall] at h; simp at h
      rw [if_pos hall] at h
      simp only [Prod.mk.injEq, Except.ok.injEq] at h
      obtain ⟨rfl, rfl⟩ := h
      have hlen := birthLoop_length R hL
      rw [List.length_map] at hlen
      refine ⟨by simpa using hlen, init, by rw [hb]; rfl, ?_⟩
      intro i bl v hi hv
      rw [getD_map_getElem? hall] at hv
      refine birthLoop_val R (by simp) ?_ ?_ (fun p hp => zip_range_mem hp) hL i bl v hi hv
      · intro j bl v hj hv
        rw [List.getElem?_map, hj] at hv
        left
        simp only [Option.map_some, Option.some.injEq] at hv
        by_cases hc : bl = init
        · rw [if_pos hc] at hv; exact ⟨hc, by simpa using hv.symm⟩
        · rw [if_neg hc] at hv; simp at hv
      · intro j hj
        rw [List.getElem?_map, hj]; simp

theorem birthInds_error {A : Argsort K} {births logls : List K} {da dw : Bool} {w w' : World σ} {e : PyErr}
    (hne : births ≠ []) (hl : births.length = logls.length)
    (h : birthInds A R births logls da dw w = (.error e, w')) : e = .assertion ∨ e = .value := by
  classical
  rw [birthInds_eq] at h
  by_cases h1 : ¬ logls.Pairwise (· ≤ ·)
  · rw [if_pos h1] at h; simp at h; exact .inl h.1.symm
  rw [if_neg h1] at h
  by_cases h2 : da = true ∧ ¬ logls.Pairwise (· < ·)
  · rw [if_pos h2] at h; simp at h; exact .inl h.1.symm
  rw [if_neg h2] at h
  set ws := if ¬ logls.Pairwise (· < ·) ∧ dw = true then w.warns ++ [.dupLogl] else w.warns with hws
  cases hb : births with
  | nil => exact absurd hb hne
  | cons init rest =>
    rw [hb] at h
    dsimp only at h
    rw [← hb, if_neg (not_not.mpr hl)] at h
    by_cases h4 : ¬ ∀ (i : Nat) (x y : K), births[i]? = some x → logls[i]? = some y → x ≤ y
    · rw [if_pos h4] at h; simp at h; exact .inl h.1.symm
    rw [if_neg h4] at h
    rcases birthLoop_any R ((List.range births.length).zip births)
      (births.map (fun b => if b = init then some (-1 : Int) else none)) ⟨R.seed 0, ws⟩
      (births := births) (logls := logls) with ⟨e', w1, he, heq, -⟩ | ⟨acc, w1, heq, -⟩
    · rw [heq] at h
      simp only [Prod.mk.injEq, Except.error.injEq] at h
      rw [← h.1]; exact he
    · rw [heq] at h
      simp only at h
      split_ifs at h
      · simp at h
      · simp at h; exact .inl h.1.symm

/-! ### The loop over threads -/

theorem threadStep_any {logl : List K} {b : List Int} {labels : List Nat} (h0 : b[0]? = some (-1))
    (hb : ∀ (i : Nat) (v : Int), b[i]? = some v → -1 ≤ v ∧ v < b.length)
    (hl : logl.length = b.length) (hlab : labels.length = b.length) {k s e : Nat}
    (h : ThreadAt b labels k s e) (acc : ThreadAcc K) :
    threadStep logl b labels acc k = .ok
      { tmm := acc.tmm.set k (threadRange logl b s e)
        delta := (acc.delta.modify (e + 1) (· + -1)).modify (bAt b s + 1).toNat (· + 1) } := by
  have hs : s < b.length := by rw [← hlab]; exact (List.getElem?_eq_some_iff.mp h.start_mem).1
  have he : e < b.length := by rw [← hlab]; exact (List.getElem?_eq_some_iff.mp h.ends.1).1
  have hbs := getElem?_bAt hs
  have hle : logl[e]? = some (logl[e]?.getD 0) := by
    rw [List.getElem?_eq_getElem (by omega)]; rfl
  unfold threadStep
  dsimp only
  rw [h.head, h.last, h0]
  dsimp only
  rw [hle, hbs]
  dsimp only
  by_cases hm : bAt b s = -1
  · rw [if_pos hm]
    simp [threadRange, hm, Int.sub_eq_add_neg]
  · have h1 := hb s _ hbs
    have hle2 : logl[(bAt b s).toNat]? = some (logl[(bAt b s).toNat]?.getD 0) := by
      rw [List.getElem?_eq_getElem (by omega)]; rfl
    rw [if_neg hm, if_neg (by omega)]
    rw [hle2]
    dsimp only
    have : (bAt b s + 1).toNat = (bAt b s).toNat + 1 := by omega
    simp [threadRange, hm, this, Int.sub_eq_add_neg]

theorem threadStepLoop_any {logl : List K} {b : List Int} {labels : List Nat} (h0 : b[0]? = some (-1))
    (hb : ∀ (i : Nat) (v : Int), b[i]? = some v → -1 ≤ v ∧ v < b.length)
    (hl : logl.length = b.length) (hlab : labels.length = b.length) (st en : Nat → Nat)
    (labs : List Nat) (hth : ∀ k ∈ labs, ThreadAt b labels k (st k) (en k)) (hnd : labs.Nodup)
    (acc : ThreadAcc K) (hd : acc.delta.length = b.length + 1) :
    ∃ acc', threadStepLoop logl b labels labs acc = .ok acc' ∧
      acc'.tmm.length = acc.tmm.length ∧
      (∀ k, acc'.tmm[k]? = if k ∈ labs ∧ k < acc.tmm.length then
        some (threadRange logl b (st k) (en k)) else acc.tmm[k]?) ∧
      acc'.delta.length = acc.delta.length ∧
      ∀ m ≤ b.length, (acc'.delta.take (m + 1)).sum = (acc.delta.take (m + 1)).sum +
        (labs.map (fun k => (if bAt b (st k) < m then (1 : Int) else 0) -
          if en k < m then (1 : Int) else 0)).sum := by
  induction labs generalizing acc with
  | nil => exact ⟨acc, rfl, rfl, by simp, rfl, by simp⟩
  | cons k ks ih =>
    obtain ⟨hk, hnd'⟩ := List.nodup_cons.mp hnd
    have h := hth k (by simp)
    simp only [threadStepLoop]
    rw [threadStep_any h0 hb hl hlab h acc]
    dsimp only
    obtain ⟨acc', h1, h2, h3, h4, h5⟩ := ih (fun k' hk' => hth k' (by simp [hk'])) hnd'
      { tmm := acc.tmm.set k (threadRange logl b (st k) (en k))
        delta := (acc.delta.modify (en k + 1) (· + -1)).modify (bAt b (st k) + 1).toNat (· + 1) }
      (by simpa using hd)
    refine ⟨acc', h1, by simpa using h2, ?_, by simpa using h4, ?_⟩
    · intro j
      rw [h3]
      simp only [List.length_set, List.mem_cons]
      by_cases hj : j ∈ ks
      · by_cases hjl : j < acc.tmm.length
        · simp [hj, hjl]
        · rw [if_neg (by simp [hjl]), if_neg (by simp [hjl])]
          rw [List.getElem?_eq_none (by simpa using hjl), List.getElem?_eq_none (by simpa using hjl)]
      · rw [if_neg (by simp [hj])]
        by_cases hjk : j = k
        · subst hjk
          by_cases hjl : j < acc.tmm.length
          · rw [if_pos ⟨by simp, hjl⟩, List.getElem?_set_self hjl]
          · rw [if_neg (by simp [hjl])]
            rw [List.getElem?_eq_none (by simpa using hjl), List.getElem?_eq_none (by simpa using hjl)]
        · rw [if_neg (by simp [hjk, hj]), List.getElem?_set_ne (Ne.symm hjk)]
    · intro m hm
      rw [h5 m hm]
      dsimp only
      rw [sum_take_modify, sum_take_modify, List.map_cons, List.sum_cons]
      have hs : st k < b.length := by
        rw [← hlab]; exact (List.getElem?_eq_some_iff.mp h.start_mem).1
      have he : en k < b.length := by
        rw [← hlab]; exact (List.getElem?_eq_some_iff.mp h.ends.1).1
      have hv := hb _ _ (getElem?_bAt hs)
      have e1 : (en k + 1 < m + 1 ∧ en k + 1 < acc.delta.length) ↔ en k < m := by omega
      have e2 : ((bAt b (st k) + 1).toNat < m + 1 ∧
          (bAt b (st k) + 1).toNat < (acc.delta.modify (en k + 1) (· + -1)).length) ↔
          bAt b (st k) < m := by
        rw [List.length_modify, hd]; omega
      rw [if_congr e1 rfl rfl, if_congr e2 rfl rfl]
      split_ifs <;> ring

theorem exists_threadAt {b : List Int} {labels : List Nat} {k : Nat} (h : k ∈ labels) :
    ∃ s e, ThreadAt b labels k s e := by
  have hlabels : ∀ (i : Nat), (labels.map Int.ofNat)[i]? = some (k : Int) ↔ labels[i]? = some k := by
    intro i
    rw [List.getElem?_map]
    cases labels[i]? <;> simp
  have hk : (k : Int) ∈ labels.map Int.ofNat := List.mem_map.mpr ⟨k, h, rfl⟩
  obtain ⟨s, hs⟩ := exists_firstOf hk
  obtain ⟨e, he⟩ := exists_lastOf hk
  refine ⟨s, e, (hlabels s).mp hs.1, fun j hj => ?_, (hlabels e).mp he.1, fun j hj hc => he.2 j hj ((hlabels j).mpr hc)⟩
  by_contra hlt
  exact hs.2 j (by omega) ((hlabels j).mpr hj)

/-! ### process_samples_array -/

/-- What `process_samples_array` does when the birth indexes have been found. -/
theorem processSamples_any {A : Argsort K} {samples : List (Sample K)} {da dw : Bool} {w w1 : World σ} {b : List Int}
    (hB : birthInds A R ((sortBy A (·.logl) samples).map (·.birth))
      ((sortBy A (·.logl) samples).map (·.logl)) da dw w = (.ok b, w1)) :
    ∃ (labels : List Nat) (warned : List Warn) (tmm : List (WithBot K × K)) (nlive : List Int) (st en : Nat → Nat),
      processSamples A R samples da dw w =
        (.ok { logl := (sortBy A (·.logl) samples).map (·.logl), nlive := nlive,
               theta := (sortBy A (·.logl) samples).map (·.theta),
               labels := some (labels.map Int.ofNat), tmm := some tmm }, { w1 with warns := w1.warns ++ warned }) ∧
      labels.length = b.length ∧ (∀ k, k ∈ labels ↔ k < tmm.length) ∧
      (∀ k < tmm.length, ThreadAt b labels k (st k) (en k) ∧
        tmm[k]? = some (threadRange ((sortBy A (·.logl) samples).map (·.logl)) b (st k) (en k))) ∧
      nlive.length = b.length ∧
      ∀ i < b.length, nlive[i]? = some ((List.range tmm.length).map (fun k =>
        (if bAt b (st k) < i then (1 : Int) else 0) - if en k < i then (1 : Int) else 0)).sum := by
  set S := sortBy A (·.logl) samples with hS
  obtain ⟨hbl, init, h0, hval⟩ := birthInds_val R hB
  have hSb : b.length = S.length := by rw [hbl, List.length_map]
  have hpos : 0 < b.length := by rw [hbl]; exact (List.getElem?_eq_some_iff.mp h0).1
  have hb0 : b[0]? = some (-1) := by
    rcases hval 0 init _ h0 (List.getElem?_eq_getElem hpos) with ⟨-, h⟩ | ⟨h, -⟩
    · rw [List.getElem?_eq_getElem hpos, h]
    · exact absurd rfl h
  have hbv : ∀ (i : Nat) (v : Int), b[i]? = some v → -1 ≤ v ∧ v < b.length := by
    intro i v hv
    have hil : i < (S.map (·.birth)).length := by rw [← hbl]; exact (List.getElem?_eq_some_iff.mp hv).1
    rcases hval i _ v (List.getElem?_eq_getElem hil) hv with ⟨-, h⟩ | ⟨-, d, h, hd⟩
    · omega
    · have := (List.getElem?_eq_some_iff.mp hd).1
      rw [List.length_map] at this
      omega
  rcases C08_threads (σ := σ) R b with herr | ⟨labels, warned, hlab, hrange, -, -, -, hT⟩
  · exfalso
    obtain ⟨s, c, -, -, -, hmin⟩ := (C08_raises R b w1).mp (by rw [herr w1])
    have := hmin (-1) (List.mem_of_getElem? hb0)
    omega
  classical
  generalize (List.range b.length).countP (fun i => decide (Spec.ThreadStart b i)) = N at hrange
  have hex : ∀ k, ∃ s e, k < N → ThreadAt b labels k s e := by
    intro k
    by_cases hk : k < N
    · obtain ⟨s, e, h⟩ := exists_threadAt (b := b) ((hrange k).mpr hk)
      exact ⟨s, e, fun _ => h⟩
    · exact ⟨0, 0, fun h => absurd h hk⟩
  choose st en hTA using hex
  have hu : unique labels = List.range N := by rw [unique_eq_range]; exact hrange
  obtain ⟨acc, h1, h2, h3, h4, h5⟩ := threadStepLoop_any (K := K) (logl := S.map (·.logl)) hb0 hbv (by simpa using hSb.symm) hlab st en
    (List.range N) (fun k hk => hTA k (List.mem_range.mp hk)) List.nodup_range
    { tmm := List.replicate (List.range N).length ((0 : K), 0), delta := List.replicate (b.length + 1) 0 } (by simp)
  have htl : acc.tmm.length = N := by simpa using h2
  refine ⟨labels, warned, acc.tmm, (cumsum acc.delta).dropLast, st, en, ?_, hlab, by rw [htl]; exact hrange, ?_, ?_, ?_⟩
  · unfold processSamples
    rw [M.bind_ok hB, M.bind_ok (hT w1)]
    have hud : decide (unique labels = List.range (unique labels).length) = true := by
      rw [decide_eq_true_iff, hu]; simp
    rw [M.bind_ok (a := ()) (w' := { w1 with warns := w1.warns ++ warned }) (by rw [M.assert_apply, hud]; rfl)]
    rw [M.bind_ok (a := acc) (w' := { w1 with warns := w1.warns ++ warned })
      (by rw [M.lift_apply, ← hS, ← hSb, hu, h1])]
    rfl
  · intro k hk
    rw [htl] at hk
    refine ⟨hTA k hk, ?_⟩
    rw [h3, if_pos]
    simpa using hk
  · rw [List.length_dropLast, cumsum, length_cumsumFrom, h4]; simp
  · intro i hi
    have hlen : acc.delta.length = b.length + 1 := by rw [h4]; simp
    rw [List.getElem?_dropLast, cumsum, length_cumsumFrom, if_pos (by omega),
      getElem?_cumsumFrom _ _ _ (by omega), h5 i (by omega), htl]
    have : ((List.replicate (b.length + 1) (0 : Int)).take (i + 1)).sum = 0 := by simp
    simp only [this]
    simp

/-- C115.  Whatever the samples: a run which `process_samples_array` returns, with or without warnings, consists of all the
samples in ascending order, has the documented format, and passes `check_ns_run` with the same options.  A thread starts at
-inf if its first sample was born on the contour of the lowest sample, and otherwise at the birth contour of its first
sample.  There are birth steps (-1, or a sample on the birth contour) so that nlive_array is the number of threads which
have started minus the number of those which have ended. -/
theorem C115_returns {A : Argsort K} {samples : List (Sample K)} {da dw : Bool} {w w' : World σ} {r : Run K}
    (h : processSamples A R samples da dw w = (.ok r, w')) :
    ∃ (rows : List (Sample K)) (birth : Nat → Int) (first last : Nat → Nat) (labels : List Int) (tmm : List (WithBot K × K)),
      rows.Perm samples ∧ r.logl = rows.map (·.logl) ∧ r.theta = rows.map (·.theta) ∧ ValidWith r labels tmm ∧
      (∀ v : World σ, (checkRun A r da dw v).1 = .ok ()) ∧
      (∀ (i : Nat) (s t : Sample K), rows[i]? = some s → rows[0]? = some t →
        (s.birth = t.birth ∧ birth i = -1) ∨
        (s.birth ≠ t.birth ∧ ∃ (d : Nat) (u : Sample K), birth i = d ∧ rows[d]? = some u ∧ u.logl = s.birth)) ∧
      (∀ (k : Nat) (mm : WithBot K × K), tmm[k]? = some mm → FirstOf labels k (first k) ∧ LastOf labels k (last k) ∧
        ∃ s t, rows[first k]? = some s ∧ rows[0]? = some t ∧ mm.1 = if s.birth = t.birth then ⊥ else (s.birth : WithBot K)) ∧
      ∀ i < rows.length, r.nlive[i]? = some ((List.range tmm.length).map (fun k =>
        (if birth (first k) < i then (1 : Int) else 0) - if last k < i then (1 : Int) else 0)).sum := by
  have h' := h
  unfold processSamples at h'
  obtain ⟨b, w1, hB, -⟩ := M.bind_eq_ok.mp h'
  obtain ⟨labels, warned, tmm, nlive, st, en, hrun, hlab, hrange, htm, hnl, hn⟩ := processSamples_any R hB
  obtain ⟨-, hsort, hstrict, hlens, hle, -, -⟩ := birthInds_ok R hB
  obtain ⟨hbl, init, h0, hval⟩ := birthInds_val R hB
  set S := sortBy A (·.logl) samples with hS
  have hSb : b.length = S.length := by rw [hbl, List.length_map]
  rw [hrun] at h
  simp only [Prod.mk.injEq, Except.ok.injEq] at h
  obtain ⟨rfl, -⟩ := h
  have hbirth : ∀ (i : Nat) (s : Sample K), S[i]? = some s → (S.map (·.birth))[i]? = some s.birth := by
    intro i s hs; rw [List.getElem?_map, hs]; rfl
  have hlogl : ∀ (i : Nat) (s : Sample K), S[i]? = some s → (S.map (·.logl))[i]? = some s.logl := by
    intro i s hs; rw [List.getElem?_map, hs]; rfl
  have hinit : ∀ t, S[0]? = some t → t.birth = init := by
    intro t ht
    have := hbirth 0 t ht
    rw [h0] at this; simpa using this.symm
  have hbs : ∀ (i : Nat) (s : Sample K), S[i]? = some s →
      (s.birth = init ∧ bAt b i = -1) ∨ (s.birth ≠ init ∧ ∃ d : Nat, bAt b i = d ∧ (S.map (·.logl))[d]? = some s.birth) := by
    intro i s hs
    exact hval i _ _ (hbirth i s hs) (getElem?_bAt (by rw [hSb]; exact (List.getElem?_eq_some_iff.mp hs).1))
  have hSpos : 0 < S.length := by rw [← hSb, hbl]; exact (List.getElem?_eq_some_iff.mp h0).1
  have hlabels : ∀ (i k : Nat), (labels.map Int.ofNat)[i]? = some (k : Int) ↔ labels[i]? = some k := by
    intro i k
    rw [List.getElem?_map]
    cases labels[i]? <;> simp
  have hfirst : ∀ k < tmm.length, FirstOf (labels.map Int.ofNat) k (st k) := by
    intro k hk
    obtain ⟨a, -⟩ := htm k hk
    refine ⟨(hlabels _ _).mpr a.start_mem, fun j hj hc => ?_⟩
    have := a.start_le j ((hlabels _ _).mp hc)
    omega
  have hlast : ∀ k < tmm.length, LastOf (labels.map Int.ofNat) k (en k) := by
    intro k hk
    obtain ⟨a, -⟩ := htm k hk
    exact ⟨(hlabels _ _).mpr a.ends.1, fun j hj hc => a.ends.2 j hj ((hlabels _ _).mp hc)⟩
  -- the start of a thread
  have hstart : ∀ (k : Nat) (mm : WithBot K × K), tmm[k]? = some mm → ∃ s t, S[st k]? = some s ∧ S[0]? = some t ∧
      mm.1 = if s.birth = t.birth then ⊥ else (s.birth : WithBot K) := by
    intro k mm hmm
    have hk : k < tmm.length := (List.getElem?_eq_some_iff.mp hmm).1
    obtain ⟨a, hr⟩ := htm k hk
    have hsl : st k < S.length := by rw [← hSb, ← hlab]; exact (List.getElem?_eq_some_iff.mp a.start_mem).1
    have h1 := List.getElem?_eq_getElem hsl
    have h2 := List.getElem?_eq_getElem hSpos
    refine ⟨_, _, h1, h2, ?_⟩
    rw [hmm] at hr
    simp only [Option.some.injEq] at hr
    rw [hr, hinit _ h2]
    unfold threadRange
    rcases hbs _ _ h1 with ⟨e1, e2⟩ | ⟨e1, d, e2, e3⟩
    · rw [if_pos e2, if_pos e1]
    · rw [if_neg (by rw [e2]; omega), if_neg e1, e2, Int.toNat_natCast, e3]; rfl
  have hv : ValidWith (⟨S.map (·.logl), nlive, S.map (·.theta), some (labels.map Int.ofNat), some tmm⟩ : Run K)
      (labels.map Int.ofNat) tmm := by
    refine ⟨rfl, rfl, by simp only [List.length_map]; omega, by simp only [List.length_map]; omega, by simp only [List.length_map],
      fun i j x y hij hx hy => pairwise_iff_getElem?.mp hsort i j x y hij hx hy, ?_, ?_, ?_, ?_⟩
    · intro k
      constructor
      · intro hk
        obtain ⟨a, ha, rfl⟩ := List.mem_map.mp hk
        have := (hrange a).mp ha
        simp; exact this
      · rintro ⟨h1, h2⟩
        refine List.mem_map.mpr ⟨k.toNat, (hrange _).mpr (by omega), ?_⟩
        simp; omega
    · have hl0 : 0 < labels.length := by omega
      have hk : labels[0] < tmm.length := (hrange _).mp (List.getElem_mem hl0)
      obtain ⟨a, -⟩ := htm _ hk
      have hs0 : st labels[0] = 0 := by
        have := a.start_le 0 (List.getElem?_eq_getElem hl0)
        omega
      obtain ⟨s, t, h1, h2, h3⟩ := hstart _ _ (List.getElem?_eq_getElem hk)
      rw [hs0, h2] at h1
      cases h1
      exact ⟨_, List.getElem_mem hk, by rw [h3, if_pos rfl]⟩
    · intro k mm i l hmm hf hli
      have hk : k < tmm.length := (List.getElem?_eq_some_iff.mp hmm).1
      obtain ⟨s, t, h1, h2, h3⟩ := hstart k mm hmm
      rw [firstOf_unique hf (hfirst k hk)] at hli
      rw [h3]
      split_ifs
      · exact bot_le
      · exact WithBot.coe_le_coe.mpr (hle _ _ _ (hbirth _ _ h1) hli)
    · intro k mm i l hmm hf hli
      have hk : k < tmm.length := (List.getElem?_eq_some_iff.mp hmm).1
      obtain ⟨a, hr⟩ := htm k hk
      rw [lastOf_unique hf (hlast k hk)] at hli
      rw [hmm] at hr
      simp only [Option.some.injEq] at hr
      rw [hr]
      unfold threadRange
      dsimp only at hli ⊢
      rw [hli]; rfl
  refine ⟨S, bAt b, st, en, labels.map Int.ofNat, tmm, sortBy_perm A _ samples, rfl, rfl, hv, ?_, ?_, ?_, ?_⟩
  · intro v
    rw [checkRun_ok_iff]
    refine ⟨⟨_, _, hv⟩, fun hda i j x y hij hx hy => ?_⟩
    exact ne_of_lt (pairwise_iff_getElem?.mp (hstrict hda) i j x y hij hx hy)
  · intro i s t hs ht
    rw [hinit t ht]
    rcases hbs i s hs with hh | ⟨e1, d, e2, e3⟩
    · exact .inl hh
    · right
      rw [List.getElem?_map] at e3
      cases hd : S[d]? with
      | none => rw [hd] at e3; simp at e3
      | some u => rw [hd] at e3; exact ⟨e1, d, u, e2, hd, by simpa using e3⟩
  · intro k mm hmm
    have hk : k < tmm.length := (List.getElem?_eq_some_iff.mp hmm).1
    exact ⟨hfirst k hk, hlast k hk, hstart k mm hmm⟩
  · intro i hi
    exact hn i (by rw [hSb]; exact hi)

/-- C115.  `process_samples_array` fails exactly when `birth_inds_given_contours` fails for the samples in ascending order,
with the same exception, random state and warnings: the division into threads never fails after that, whatever the
birth indexes are. -/
theorem C115_fails {A : Argsort K} {samples : List (Sample K)} {da dw : Bool} {w w' : World σ} {e : PyErr} :
    processSamples A R samples da dw w = (.error e, w') ↔
      birthInds A R ((sortBy A (·.logl) samples).map (·.birth))
        ((sortBy A (·.logl) samples).map (·.logl)) da dw w = (.error e, w') := by
  rcases hB : birthInds A R ((sortBy A (·.logl) samples).map (·.birth))
    ((sortBy A (·.logl) samples).map (·.logl)) da dw w with ⟨e' | b, w1⟩
  · have : processSamples A R samples da dw w = (.error e', w1) := by
      unfold processSamples
      exact M.bind_error hB
    rw [this, hB]
    simp
  · obtain ⟨labels, warned, tmm, nlive, st, en, hrun, -⟩ := processSamples_any R hB
    rw [hrun, hB]
    simp

/-- C115.  For an array with at least one sample the only exceptions are `AssertionError` and `ValueError`. -/
theorem C115_exceptions {A : Argsort K} {samples : List (Sample K)} {da dw : Bool} {w w' : World σ} {e : PyErr}
    (hne : samples ≠ []) (h : processSamples A R samples da dw w = (.error e, w')) : e = .assertion ∨ e = .value := by
  refine birthInds_error R ?_ (by simp) (C115_fails R |>.mp h)
  intro hn
  have h1 := (sortBy_perm A (·.logl) samples).length_eq
  rw [List.map_eq_nil_iff.mp hn] at h1
  exact hne (List.eq_nil_of_length_eq_zero h1.symm)

/-- C115.  An array without samples raises `IndexError`. -/
theorem C115_empty (A : Argsort K) (da dw : Bool) (w : World σ) :
    (processSamples A R [] da dw w).1 = .error .index := by
  have : birthInds A R ((sortBy A (·.logl) ([] : List (Sample K))).map (·.birth))
      ((sortBy A (·.logl) ([] : List (Sample K))).map (·.logl)) da dw w = (.error .index, ⟨R.seed 0, w.warns⟩) := by
    have hs : sortBy A (·.logl) ([] : List (Sample K)) = [] :=
      List.eq_nil_of_length_eq_zero (by rw [(sortBy_perm A _ _).length_eq]; rfl)
    rw [hs, birthInds_eq]
    simp
  rw [C115_fails R |>.mpr this]

section examples

/-- Three samples are born on the contour 3, but only two die there: both warnings can be given. -/
def crowded : List (Sample ℤ) :=
  [⟨[1], 3, -100⟩, ⟨[2], 3, -100⟩, ⟨[3], 7, 3⟩, ⟨[4], 8, 3⟩, ⟨[5], 9, 3⟩, ⟨[6], 10, 7⟩]

/-- The hypothesis of `C115_returns` for a run with a warning. -/
example : ((processSamples (stableSort ℤ) (counterRng ℤ (by decide)) crowded false false ⟨0, []⟩).1.toOption.map (·.logl)) =
      some [3, 3, 7, 8, 9, 10] ∧
    (processSamples (stableSort ℤ) (counterRng ℤ (by decide)) crowded false false ⟨0, []⟩).2.warns = [.moreBirths] := by decide

/-- `AssertionError` for a birth contour on which no sample died, `ValueError` for samples born and dying on one contour. -/
example : (processSamples (stableSort ℤ) (counterRng ℤ (by decide)) [⟨[1], 3, -100⟩, ⟨[2], 5, 4⟩] false false ⟨0, []⟩).1 =
      .error .assertion ∧
    (processSamples (stableSort ℤ) (counterRng ℤ (by decide)) [⟨[1], 3, -100⟩, ⟨[2], 5, 5⟩, ⟨[3], 5, 5⟩] false false ⟨0, []⟩).1 =
      .error .value := by decide

/-- C115, what fails: with the warning about samples without a thread label, `nlive_array` of a run which passes
`check_ns_run` can be 0 at a sample (for random numbers meeting the contract of `numpy.random`). -/
theorem C115_no_live_points :
    ∃ (R : Rng Nat ℤ) (samples : List (Sample ℤ)) (r : Run ℤ),
      processSamples (stableSort ℤ) R samples true false ⟨0, []⟩ = (.ok r, ⟨0, [.unlabelled]⟩) ∧
      checkRun (stableSort ℤ) r true false (⟨0, []⟩ : World Nat) = (.ok (), ⟨0, []⟩) ∧
      r.logl[3]? = some 7 ∧ r.nlive[3]? = some 0 :=
  ⟨counterRng ℤ (by decide), [⟨[1], 3, -100⟩, ⟨[2], 4, 4⟩, ⟨[3], 6, 3⟩, ⟨[4], 7, 7⟩, ⟨[5], 8, 7⟩],
    ⟨[3, 4, 6, 7, 8], [1, 1, 1, 0, 1], [[1], [2], [3], [4], [5]], some [0, 0, 0, 1, 1], some [(⊥, 6), ((7 : ℤ), 8)]⟩,
    by rfl, by rfl, rfl, rfl⟩

end examples
end Nestcheck
