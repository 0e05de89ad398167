import Verif.Props.AnySamples

/-
C115: the causes of the exceptions of process_samples_array.
-/

set_option linter.unusedSectionVars false

namespace Nestcheck
open Spec
variable {σ K : Type} [CommRing K] [LinearOrder K] (R : Rng σ K)

/-- If no sample was born and died on the contour, the births on it can always be allocated. -/
theorem dupBirthInds_free {births : List K} {bl : K} {dd db : List Nat} (hlen : 1 < dd.length)
    (hfree : ∀ d ∈ dd, births[d]? ≠ some bl) (w : World σ) :
    ∃ inds w', dupBirthInds R births bl dd db w = (.ok inds, w') := by
  have hall : dd.all (fun d => decide (births[d]? ≠ some bl)) = true := by
    rw [List.all_eq_true]; intro d hd; simpa using hfree d hd
  unfold dupBirthInds
  rw [M.bind_ok (a := ()) (w' := w) (by rw [M.assert_apply]; simp [hlen]), if_pos hall]
  obtain ⟨ys, hp, he⟩ := npShuffle_spec R dd w
  rw [M.bind_ok he]
  by_cases hle : db.length ≤ ys.length
  · rw [if_pos hle]; exact ⟨_, _, rfl⟩
  · rw [if_neg hle, M.bind_ok (M.warn_apply _ _)]
    have hne : ys ≠ [] := by rintro rfl; simp [← hp.length_eq] at hlen
    obtain ⟨ex, -, -, hex⟩ := npChoiceN_spec R hne (db.length - ys.length)
      { rng := (R.shuffle dd.length w.rng).2, warns := w.warns ++ [.moreBirths] }
    rw [M.bind_ok hex]
    obtain ⟨zs, -, hz⟩ := npShuffle_spec R (ys ++ ex)
      { rng := (R.randint 0 ys.length (db.length - ys.length) (R.shuffle dd.length w.rng).2).2,
        warns := w.warns ++ [.moreBirths] }
    rw [M.bind_ok hz]
    exact ⟨_, _, rfl⟩

/-- The causes of exceptions in the loop over births. -/
theorem birthLoop_cause {births logls : List K} {init : K} {pairs : List (Nat × K)} {acc : List (Option Int)}
    {w w' : World σ} {e : PyErr}
    (hini : ∀ i : Nat, births[i]? = some init → acc[i]? = some (some (-1)))
    (hpairs : ∀ p ∈ pairs, births[p.1]? = some p.2)
    (h : birthLoop R births logls pairs acc w = (.error e, w')) :
    (e = .assertion ∧ ∃ x ∈ births, x ≠ init ∧ x ∉ logls) ∨
    (e = .value ∧ ∃ (d d' : Nat) (x : K), d ≠ d' ∧ logls[d]? = some x ∧ logls[d']? = some x ∧ births[d]? = some x ∧ x ≠ init) := by
  induction pairs generalizing acc w with
  | nil => simp [birthLoop] at h
  | cons p rest ih =>
    obtain ⟨i, bl⟩ := p
    have hi : births[i]? = some bl := hpairs (i, bl) (by simp)
    rw [birthLoop_cons] at h
    split_ifs at h with h1 h2
    · exact ih hini (fun p hp => hpairs p (by simp [hp])) h
    all_goals
      rw [ne_eq, not_not] at h1
      have hne : bl ≠ init := by
        rintro rfl
        rw [hini i hi] at h1; simp at h1
    · refine ih ?_ (fun p hp => hpairs p (by simp [hp])) h
      intro j hj
      have hji : i ≠ j := by
        rintro rfl
        rw [hi] at hj; exact hne (by simpa using hj)
      rw [List.getElem?_set_ne hji]; exact hini j hj
    · rcases M.bind_eq_error.mp h with h3 | ⟨inds, w1, h3, h4⟩
      · by_cases hlen : 1 < (deathsOn logls bl).length
        · by_cases hfree : ∀ d ∈ deathsOn logls bl, births[d]? ≠ some bl
          · obtain ⟨inds, w1, hok⟩ := dupBirthInds_free R hlen hfree w
              (db := whereIdx (fun x => decide (x = bl)) births)
            rw [hok] at h3; simp at h3
          · right
            push Not at hfree
            obtain ⟨d, hd, hb⟩ := hfree
            obtain ⟨d', hd', hdd⟩ : ∃ d' ∈ deathsOn logls bl, d ≠ d' := by
              by_contra hc
              push Not at hc
              have hnd : (deathsOn logls bl).Nodup := whereIdx_nodup
              rcases hl : deathsOn logls bl with _ | ⟨a, _ | ⟨a', as⟩⟩
              · rw [hl] at hlen; simp at hlen
              · rw [hl] at hlen; simp at hlen
              · rw [hl] at hc hnd
                have e1 := hc a (by simp)
                have e2 := hc a' (by simp)
                simp [← e1, ← e2] at hnd
            refine ⟨?_, d, d', bl, hdd, mem_deathsOn.mp hd, mem_deathsOn.mp hd', hb, hne⟩
            rcases dupBirthInds_spec R births bl (deathsOn logls bl)
                (whereIdx (fun x => decide (x = bl)) births) whereIdx_nodup whereIdx_pairwise w with
              ⟨hc, -⟩ | ⟨s, he⟩ | ⟨inds', s, -, he, -⟩ | ⟨inds', s, -, he, -⟩
            · omega
            · rw [he] at h3; simp at h3; exact h3.1.symm
            · rw [he] at h3; simp at h3
            · rw [he] at h3; simp at h3
        · left
          have hnil : deathsOn logls bl = [] := List.eq_nil_of_length_eq_zero (by omega)
          refine ⟨?_, bl, List.mem_of_getElem? hi, hne, fun hm => ?_⟩
          · rcases dupBirthInds_spec R births bl (deathsOn logls bl)
                (whereIdx (fun x => decide (x = bl)) births) whereIdx_nodup whereIdx_pairwise w with
              ⟨-, he⟩ | ⟨s, he⟩ | ⟨inds', s, hc, -⟩ | ⟨inds', s, hc, -⟩
            · rw [he] at h3; simp at h3; exact h3.1.symm
            · unfold dupBirthInds at he
              rw [M.bind_error (e := .assertion) (w' := w) (by rw [M.assert_apply]; simp [hlen])] at he
              simp at he
            · exact absurd hc hlen
            · exact absurd hc hlen
          · obtain ⟨d, hd⟩ := List.mem_iff_getElem?.mp hm
            have := mem_deathsOn.mpr hd
            rw [hnil] at this; simp at this
      · refine ih ?_ (fun p hp => hpairs p (by simp [hp])) h4
        intro j hj
        have hjm : j ∉ whereIdx (fun x => decide (x = bl)) births := by
          intro hc
          have := mem_whereIdx_eq.mp hc
          rw [hj] at this
          exact hne (by simpa using this.symm)
        rw [getElem?_assignAt_of_not_mem hjm]; exact hini j hj

/-- When the loop over births ends, all samples have got a birth index. -/
theorem birthLoop_all {births logls : List K} {pairs : List (Nat × K)} {acc acc' : List (Option Int)}
    {w w' : World σ} (hla : acc.length = births.length)
    (hpairs : ∀ p ∈ pairs, births[p.1]? = some p.2)
    (h : birthLoop R births logls pairs acc w = (.ok acc', w')) :
    (∀ i : Nat, acc[i]? ≠ some none → acc'[i]? ≠ some none) ∧ ∀ p ∈ pairs, acc'[p.1]? ≠ some none := by
  induction pairs generalizing acc w with
  | nil => simp [birthLoop] at h; rw [← h.1]; simp
  | cons p rest ih =>
    obtain ⟨i, bl⟩ := p
    have hi : births[i]? = some bl := hpairs (i, bl) (by simp)
    have hil : i < acc.length := by rw [hla]; exact (List.getElem?_eq_some_iff.mp hi).1
    rw [birthLoop_cons] at h
    split_ifs at h with h1 h2
    · obtain ⟨a1, a2⟩ := ih hla (fun p hp => hpairs p (by simp [hp])) h
      refine ⟨a1, fun p hp => ?_⟩
      rcases List.mem_cons.mp hp with rfl | hp
      · exact a1 i h1
      · exact a2 p hp
    · obtain ⟨a1, a2⟩ := ih (by simpa using hla) (fun p hp => hpairs p (by simp [hp])) h
      have hset : ∀ j : Nat, (j = i ∨ acc[j]? ≠ some none) →
          (acc.set i (some ((deathsOn logls bl).headD 0 : Int)))[j]? ≠ some none := by
        intro j hj
        by_cases hji : i = j
        · subst hji; rw [List.getElem?_set_self hil]; simp
        · rw [List.getElem?_set_ne hji]; exact hj.resolve_left (Ne.symm hji)
      refine ⟨fun j hj => a1 j (hset j (.inr hj)), fun p hp => ?_⟩
      rcases List.mem_cons.mp hp with rfl | hp
      · exact a1 i (hset i (.inl rfl))
      · exact a2 p hp
    · obtain ⟨inds, w1, h3, h4⟩ := M.bind_eq_ok.mp h
      have hinds : inds.length = (whereIdx (fun x => decide (x = bl)) births).length := by
        rcases dupBirthInds_spec R births bl (deathsOn logls bl)
            (whereIdx (fun x => decide (x = bl)) births) whereIdx_nodup whereIdx_pairwise w with
          ⟨-, he⟩ | ⟨s, he⟩ | ⟨inds', s, -, he, hl, -⟩ | ⟨inds', s, -, he, -, hl, -⟩
        · rw [he] at h3; simp at h3
        · rw [he] at h3; simp at h3
        all_goals
          rw [he] at h3
          simp only [Prod.mk.injEq, Except.ok.injEq] at h3
          obtain ⟨rfl, -⟩ := h3
          exact hl
      obtain ⟨a1, a2⟩ := ih (by rw [length_assignAt]; exact hla) (fun p hp => hpairs p (by simp [hp])) h4
      have hset : ∀ j : Nat, (j = i ∨ acc[j]? ≠ some none) →
          (assignAt acc (whereIdx (fun x => decide (x = bl)) births) (inds.map (fun k : Nat => some (k : Int))))[j]? ≠ some none := by
        intro j hj
        by_cases hjm : j ∈ whereIdx (fun x => decide (x = bl)) births
        · obtain ⟨p, hp⟩ := List.mem_iff_getElem?.mp hjm
          have hpl : p < inds.length := by rw [hinds]; exact (List.getElem?_eq_some_iff.mp hp).1
          have hjl : j < acc.length := by
            rw [hla]; exact (List.getElem?_eq_some_iff.mp (mem_whereIdx_eq.mp hjm)).1
          rw [getElem?_assignAt whereIdx_nodup hp
            (v := some ((inds[p] : Nat) : Int)) (by rw [List.getElem?_map, List.getElem?_eq_getElem hpl]; rfl) hjl]
          simp
        · rw [getElem?_assignAt_of_not_mem hjm]
          rcases hj with rfl | hj
          · exact absurd (mem_whereIdx_eq.mpr hi) hjm
          · exact hj
      refine ⟨fun j hj => a1 j (hset j (.inr hj)), fun p hp => ?_⟩
      rcases List.mem_cons.mp hp with rfl | hp
      · exact a1 i (hset i (.inl rfl))
      · exact a2 p hp

theorem birthInds_cause {A : Argsort K} {births logls : List K} {init : K} {da dw : Bool} {w w' : World σ} {e : PyErr}
    (h0 : births[0]? = some init) (hl : births.length = logls.length) (hs : logls.Pairwise (· ≤ ·))
    (h : birthInds A R births logls da dw w = (.error e, w')) :
    (e = .assertion ∧ ((da = true ∧ ¬ logls.Pairwise (· < ·)) ∨
      (∃ (i : Nat) (x y : K), births[i]? = some x ∧ logls[i]? = some y ∧ y < x) ∨
      ∃ x ∈ births, x ≠ init ∧ x ∉ logls)) ∨
    (e = .value ∧ ∃ (d d' : Nat) (x : K), d ≠ d' ∧ logls[d]? = some x ∧ logls[d']? = some x ∧ births[d]? = some x ∧ x ≠ init) := by
  classical
  rw [birthInds_eq, if_neg (not_not.mpr hs)] at h
  by_cases h2 : da = true ∧ ¬ logls.Pairwise (· < ·)
  · rw [if_pos h2] at h; simp at h; exact .inl ⟨h.1.symm, .inl h2⟩
  rw [if_neg h2] at h
  set ws := if ¬ logls.Pairwise (· < ·) ∧ dw = true then w.warns ++ [.dupLogl] else w.warns with hws
  cases hb : births with
  | nil => rw [hb] at h0; simp at h0
  | cons i0 rest =>
    have : i0 = init := by rw [hb] at h0; simpa using h0
    subst this
    rw [hb] at h
    dsimp only at h
    rw [← hb, if_neg (not_not.mpr hl)] at h
    rw [← hb]
    by_cases h4 : ¬ ∀ (i : Nat) (x y : K), births[i]? = some x → logls[i]? = some y → x ≤ y
    · rw [if_pos h4] at h; simp at h
      push Not at h4
      obtain ⟨i, x, y, e1, e2, e3⟩ := h4
      exact .inl ⟨h.1.symm, .inr (.inl ⟨i, x, y, e1, e2, e3⟩)⟩
    rw [if_neg h4] at h
    rcases hL : birthLoop R births logls ((List.range births.length).zip births)
        (births.map (fun b => if b = i0 then some (-1 : Int) else none)) ⟨R.seed 0, ws⟩ with ⟨e' | acc, w1⟩
    · rw [hL] at h
      simp only [Prod.mk.injEq, Except.error.injEq] at h
      rw [← h.1]
      rcases birthLoop_cause R (init := i0) (fun i hi => by rw [List.getElem?_map, hi]; simp)
        (fun p hp => zip_range_mem hp) hL with ⟨a1, a2⟩ | h5
      · exact .inl ⟨a1, .inr (.inr a2)⟩
      · exact .inr h5
    · exfalso
      rw [hL] at h
      simp only at h
      have hall : acc.all Option.isSome = true := by
        rw [List.all_eq_true]
        intro x hx
        obtain ⟨i, hi⟩ := List.mem_iff_getElem?.mp hx
        have hlen := birthLoop_length R hL
        rw [List.length_map] at hlen
        have hil : i < births.length := by rw [← hlen]; exact (List.getElem?_eq_some_iff.mp hi).1
        have := (birthLoop_all R (by simp) (fun p hp => zip_range_mem hp) hL).2 (i, births[i])
          (List.mem_of_getElem? (i := i) (List.getElem?_zip_eq_some.mpr
            ⟨by rw [List.getElem?_range hil], List.getElem?_eq_getElem hil⟩))
        cases x with
        | none => exact absurd hi this
        | some v => rfl
      rw [if_pos hall] at h
      simp at h

theorem sublist_pair {α : Type} {xs : List α} {i j : Nat} (hi : i < xs.length) (hj : j < xs.length) (h : i < j) :
    List.Sublist [xs[i], xs[j]] xs := by
  have h1 : List.Sublist [xs[j]] (xs.drop (i + 1)) :=
    List.singleton_sublist.mpr (List.mem_iff_getElem?.mpr ⟨j - (i + 1), by
      rw [List.getElem?_drop, List.getElem?_eq_some_iff]; exact ⟨by omega, by congr 1; omega⟩⟩)
  have h2 : List.Sublist [xs[i], xs[j]] (xs.drop i) := by
    rw [List.drop_eq_getElem_cons hi]; exact h1.cons_cons _
  exact h2.trans (List.drop_sublist _ _)

/-- C115, the causes of exceptions.  AssertionError: duplicate loglikelihoods with dup_assert, a birth contour above the
sample's own loglikelihood, or a birth contour on which no sample died and which is not that of the lowest sample.
ValueError: two samples with the same loglikelihood, one of which was also born there. -/
theorem C115_causes {A : Argsort K} {samples : List (Sample K)} {da dw : Bool} {w w' : World σ} {e : PyErr}
    (hne : samples ≠ []) (h : processSamples A R samples da dw w = (.error e, w')) :
    ∃ low ∈ samples, (∀ s ∈ samples, low.logl ≤ s.logl) ∧
      ((e = .assertion ∧ ((da = true ∧ ¬ (samples.map (·.logl)).Nodup) ∨ (∃ s ∈ samples, s.logl < s.birth) ∨
        ∃ s ∈ samples, s.birth ≠ low.birth ∧ ∀ t ∈ samples, t.logl ≠ s.birth)) ∨
      (e = .value ∧ ∃ s t : Sample K, [s, t].Subperm samples ∧ s.logl = t.logl ∧ s.birth = s.logl ∧
        s.birth ≠ low.birth)) := by
  have hB := (C115_fails R).mp h
  set S := sortBy A (·.logl) samples with hS
  have hp : S.Perm samples := sortBy_perm A _ samples
  have hsort : (S.map (·.logl)).Pairwise (· ≤ ·) := List.pairwise_map.mpr (sortBy_sorted A _ samples)
  have hpos : 0 < S.length := by rw [hp.length_eq]; exact List.length_pos_iff.mpr hne
  have h0 : (S.map (·.birth))[0]? = some S[0].birth := by rw [List.getElem?_map, List.getElem?_eq_getElem hpos]; rfl
  refine ⟨S[0], hp.mem_iff.mp (List.getElem_mem hpos), ?_, ?_⟩
  · intro s hs
    obtain ⟨i, hi⟩ := List.mem_iff_getElem?.mp (hp.mem_iff.mpr hs)
    rcases Nat.eq_zero_or_pos i with rfl | hi0
    · rw [List.getElem?_eq_getElem hpos] at hi
      rw [Option.some.inj hi]
    · exact pairwise_iff_getElem?.mp (sortBy_sorted A _ samples) 0 i _ _ hi0 (List.getElem?_eq_getElem hpos) hi
  have hget : ∀ (i : Nat) (x : K), (S.map (·.logl))[i]? = some x → ∃ s, S[i]? = some s ∧ s.logl = x := by
    intro i x hx
    rw [List.getElem?_map] at hx
    cases hi : S[i]? with
    | none => rw [hi] at hx; simp at hx
    | some s => rw [hi] at hx; exact ⟨s, rfl, by simpa using hx⟩
  have hgetb : ∀ (i : Nat) (x : K), (S.map (·.birth))[i]? = some x → ∃ s, S[i]? = some s ∧ s.birth = x := by
    intro i x hx
    rw [List.getElem?_map] at hx
    cases hi : S[i]? with
    | none => rw [hi] at hx; simp at hx
    | some s => rw [hi] at hx; exact ⟨s, rfl, by simpa using hx⟩
  rcases birthInds_cause R h0 (by simp) hsort hB with ⟨he, hc⟩ | ⟨he, d, d', x, hdd, h1, h2, h3, h4⟩
  · left
    refine ⟨he, ?_⟩
    rcases hc with ⟨hda, hd⟩ | ⟨i, x, y, e1, e2, e3⟩ | ⟨x, hx, hx0, hxl⟩
    · left
      refine ⟨hda, fun hn => hd ?_⟩
      have hn' : (S.map (·.logl)).Nodup := (hp.map _).nodup_iff.mpr hn
      exact (hsort.and hn').imp (fun h => lt_of_le_of_ne h.1 h.2)
    · right; left
      obtain ⟨s, hs, rfl⟩ := hgetb i x e1
      obtain ⟨s', hs', rfl⟩ := hget i y e2
      rw [hs] at hs'; cases hs'
      exact ⟨s, hp.mem_iff.mp (List.mem_of_getElem? hs), e3⟩
    · right; right
      obtain ⟨s, hs, rfl⟩ := List.mem_map.mp hx
      refine ⟨s, hp.mem_iff.mp hs, hx0, fun t ht hc => hxl ?_⟩
      exact List.mem_map.mpr ⟨t, hp.mem_iff.mpr ht, hc⟩
  · right
    refine ⟨he, ?_⟩
    obtain ⟨s, hs, rfl⟩ := hget d x h1
    obtain ⟨t, ht, htx⟩ := hget d' _ h2
    obtain ⟨s', hs', hsb⟩ := hgetb d _ h3
    rw [hs] at hs'; cases hs'
    refine ⟨s, t, ?_, htx.symm, hsb, by rw [hsb]; exact h4⟩
    refine List.Subperm.trans ?_ hp.subperm
    obtain ⟨hd, rfl⟩ := List.getElem?_eq_some_iff.mp hs
    obtain ⟨hd', rfl⟩ := List.getElem?_eq_some_iff.mp ht
    rcases Nat.lt_or_gt_of_ne hdd with hlt | hlt
    · exact (sublist_pair hd hd' hlt).subperm
    · exact (List.Perm.swap _ _ _).subperm.trans (sublist_pair hd' hd hlt).subperm

/-- C115.  If every sample was born strictly below its own loglikelihood, as in nested sampling, plateaus and surplus births
on a contour included, then the array is processed exactly if there is a contour (the prior's) so that every other birth
contour is the loglikelihood of a sample, and there are no duplicates if dup_assert is set; otherwise AssertionError is
raised. -/
theorem C115_strict (A : Argsort K) {samples : List (Sample K)} (da dw : Bool) (w : World σ)
    (hne : samples ≠ []) (hlt : ∀ s ∈ samples, s.birth < s.logl) :
    ((∃ r, (processSamples A R samples da dw w).1 = .ok r) ↔
      (∃ init, ∀ s ∈ samples, s.birth = init ∨ ∃ t ∈ samples, t.logl = s.birth) ∧
      (da = true → (samples.map (·.logl)).Nodup)) ∧
    ((∃ r, (processSamples A R samples da dw w).1 = .ok r) ∨ (processSamples A R samples da dw w).1 = .error .assertion) := by
  rcases hP : processSamples A R samples da dw w with ⟨e | r, w'⟩
  · obtain ⟨low, hlow, hmin, hc⟩ := C115_causes R hne hP
    rcases hc with ⟨rfl, hc⟩ | ⟨-, s, t, hsub, h1, h2, -⟩
    · refine ⟨⟨by simp, ?_⟩, .inr rfl⟩
      rintro ⟨⟨init, hi⟩, hd⟩
      exfalso
      rcases hc with ⟨hda, hn⟩ | ⟨s, hs, hsl⟩ | ⟨s, hs, h1, h2⟩
      · exact hn (hd hda)
      · exact absurd hsl (not_lt.mpr (hlt s hs).le)
      · have hl : low.birth = init := by
          rcases hi low hlow with h | ⟨t, ht, h⟩
          · exact h
          · exact absurd (hlt low hlow) (not_lt.mpr (by rw [← h]; exact hmin t ht))
        rcases hi s hs with h | ⟨t, ht, h⟩
        · exact h1 (h.trans hl.symm)
        · exact h2 t ht h
    · exfalso
      have hs : s ∈ samples := hsub.subset (by simp)
      exact absurd (hlt s hs) (by rw [h2]; exact lt_irrefl _)
  · refine ⟨⟨fun _ => ?_, fun _ => ⟨r, rfl⟩⟩, .inl ⟨r, rfl⟩⟩
    obtain ⟨rows, birth, first, last, labels, tmm, hperm, hlogl, -, hv, hcheck, hb, -⟩ := C115_returns R hP
    constructor
    · have hpos : 0 < rows.length := by rw [hperm.length_eq]; exact List.length_pos_iff.mpr hne
      refine ⟨rows[0].birth, fun s hs => ?_⟩
      obtain ⟨i, hi⟩ := List.mem_iff_getElem?.mp (hperm.mem_iff.mpr hs)
      rcases hb i s _ hi (List.getElem?_eq_getElem hpos) with ⟨h, -⟩ | ⟨-, d, u, -, hu, h⟩
      · exact .inl h
      · exact .inr ⟨u, hperm.mem_iff.mp (List.mem_of_getElem? hu), h⟩
    · intro hda
      have hd := ((checkRun_ok_iff A r da dw w).mp (hcheck w)).2 hda
      refine ((hperm.map (·.logl)).nodup_iff).mp ?_
      rw [← hlogl]
      exact pairwise_iff_getElem?.mpr (fun i j x y hij hx hy => hd i j x y hij hx hy)

theorem card_eq_countP {α : Type} {xs : List α} {P : Nat → Prop} [DecidablePred P] {p : α → Prop} [DecidablePred p]
    (h : ∀ (j : Nat) (x : α), xs[j]? = some x → (P j ↔ p x)) :
    ((Finset.range xs.length).filter P).card = xs.countP (fun x => decide (p x)) := by
  induction xs using List.reverseRecOn with
  | nil => simp
  | append_singleton xs x ih =>
    have h1 : ∀ (j : Nat) (y : α), xs[j]? = some y → (P j ↔ p y) := fun j y hy =>
      h j y (by rw [List.getElem?_append_left (List.getElem?_eq_some_iff.mp hy).1, hy])
    have h2 : P xs.length ↔ p x := h _ _ (by simp)
    rw [List.length_append, List.length_singleton, Finset.range_add_one, Finset.filter_insert, List.countP_append,
      ← ih h1]
    by_cases hx : p x
    · rw [if_pos (h2.mpr hx), Finset.card_insert_of_notMem (by simp)]
      simp [hx]
    · rw [if_neg (mt h2.mp hx)]
      simp [hx]

theorem birthLoop_unlabelled {births logls : List K} {pairs : List (Nat × K)} {acc acc' : List (Option Int)} {w w' : World σ}
    (h : birthLoop R births logls pairs acc w = (.ok acc', w')) (hm : .unlabelled ∈ w'.warns) : .unlabelled ∈ w.warns := by
  induction pairs generalizing acc w with
  | nil => simp [birthLoop] at h; rw [h.2]; exact hm
  | cons p rest ih =>
    obtain ⟨i, bl⟩ := p
    rw [birthLoop_cons] at h
    split_ifs at h with h1 h2
    · exact ih h
    · exact ih h
    · obtain ⟨inds, w1, h3, h4⟩ := M.bind_eq_ok.mp h
      have hm1 := ih h4
      rcases dupBirthInds_spec R births bl (deathsOn logls bl)
          (whereIdx (fun x => decide (x = bl)) births) whereIdx_nodup whereIdx_pairwise w with
        ⟨-, he⟩ | ⟨s, he⟩ | ⟨inds', s, -, he, -⟩ | ⟨inds', s, -, he, -⟩
      · rw [he] at h3; simp at h3
      · rw [he] at h3; simp at h3
      · rw [he] at h3
        simp only [Prod.mk.injEq] at h3
        rw [← h3.2] at hm1; exact hm1
      · rw [he] at h3
        simp only [Prod.mk.injEq] at h3
        rw [← h3.2] at hm1; simpa using hm1

theorem birthInds_unlabelled {A : Argsort K} {births logls : List K} {da dw : Bool} {w w' : World σ} {b : List Int}
    (h : birthInds A R births logls da dw w = (.ok b, w')) (hm : .unlabelled ∈ w'.warns) : .unlabelled ∈ w.warns := by
  classical
  rw [birthInds_eq] at h
  by_cases h1 : ¬ logls.Pairwise (· ≤ ·)
  · rw [if_pos h1] at h; simp at h
  rw [if_neg h1] at h
  by_cases h2 : da = true ∧ ¬ logls.Pairwise (· < ·)
  · rw [if_pos h2] at h; simp at h
  rw [if_neg h2] at h
  set ws := if ¬ logls.Pairwise (· < ·) ∧ dw = true then w.warns ++ [.dupLogl] else w.warns with hws
  have hsub : .unlabelled ∈ ws → .unlabelled ∈ w.warns := by rw [hws]; split_ifs <;> simp
  cases hb : births with
  | nil => rw [hb] at h; simp at h
  | cons init rest =>
    rw [hb] at h
    dsimp only at h
    rw [← hb] at h
    by_cases h3 : births.length ≠ logls.length
    · rw [if_pos h3] at h; simp at h
    rw [if_neg h3] at h
    by_cases h4 : ¬ ∀ (i : Nat) (x y : K), births[i]? = some x → logls[i]? = some y → x ≤ y
    · rw [if_pos h4] at h; simp at h
    rw [if_neg h4] at h
    rcases hL : birthLoop R births logls ((List.range births.length).zip births)
        (births.map (fun b => if b = init then some (-1 : Int) else none)) ⟨R.seed 0, ws⟩ with ⟨e | acc, w1⟩
    · rw [hL] at h; simp at h
    · rw [hL] at h
      simp only at h
      by_cases hall : acc.all Option.isSome = true
      swap
      · rw [if_neg hall] at h; simp at h
      rw [if_pos hall] at h
      simp only [Prod.mk.injEq, Except.ok.injEq] at h
      obtain ⟨-, rfl⟩ := h
      exact hsub (birthLoop_unlabelled R hL hm)

/-- C115.  If every sample was born strictly below its own loglikelihood, every returned run - also with the warning that
there are more births than deaths on a contour - has at least one live point at every sample, and where a loglikelihood
first occurs `nlive_array` is the exact number of samples born strictly below it and dying at or above it.  The warning
about samples without thread label is not given. -/
theorem C115_live {A : Argsort K} {samples : List (Sample K)} {da dw : Bool} {w w' : World σ} {r : Run K}
    (hlt : ∀ s ∈ samples, s.birth < s.logl) (h : processSamples A R samples da dw w = (.ok r, w')) :
    (∀ n ∈ r.nlive, 1 ≤ n) ∧
    (∀ (i : Nat) (l : K), r.logl[i]? = some l → (∀ j < i, r.logl[j]? ≠ some l) →
      r.nlive[i]? = some (liveAt samples l : Int)) ∧
    (.unlabelled ∈ w'.warns → .unlabelled ∈ w.warns) := by
  have h' := h
  unfold processSamples at h'
  obtain ⟨b, w1, hB, -⟩ := M.bind_eq_ok.mp h'
  obtain ⟨hbl, init, h0, hval⟩ := birthInds_val R hB
  obtain ⟨-, hsort, -, -, -, -, -⟩ := birthInds_ok R hB
  set S := sortBy A (·.logl) samples with hS
  have hp : S.Perm samples := sortBy_perm A _ samples
  have hSb : S.length = b.length := by rw [hbl, List.length_map]
  have hltS : ∀ (i : Nat) (s : Sample K), S[i]? = some s → s.birth < s.logl := fun i s hs =>
    hlt s (hp.mem_iff.mp (List.mem_of_getElem? hs))
  have hbs : ∀ (i : Nat) (s : Sample K), S[i]? = some s →
      (s.birth = init ∧ bAt b i = -1) ∨ (∃ d : Nat, bAt b i = d ∧ (S.map (·.logl))[d]? = some s.birth) := by
    intro i s hs
    rcases hval i s.birth _ (by rw [List.getElem?_map, hs]; rfl)
      (getElem?_bAt (by rw [← hSb]; exact (List.getElem?_eq_some_iff.mp hs).1)) with h | ⟨-, h⟩
    · exact .inl h
    · exact .inr h
  have hlogl : ∀ (i : Nat) (s : Sample K), S[i]? = some s → (S.map (·.logl))[i]? = some s.logl := by
    intro i s hs; rw [List.getElem?_map, hs]; rfl
  have hmono : ∀ (i j : Nat) (x y : K), (S.map (·.logl))[i]? = some x → (S.map (·.logl))[j]? = some y → x < y → i < j := by
    intro i j x y hx hy hxy
    rcases Nat.lt_trichotomy i j with h | rfl | h
    · exact h
    · rw [hx] at hy; cases hy; exact absurd hxy (lt_irrefl _)
    · exact absurd (pairwise_iff_getElem?.mp hsort j i y x h hy hx) (not_le.mpr hxy)
  have hbv : BirthsValid b := by
    intro i v hv
    have hil : i < S.length := by rw [hSb]; exact (List.getElem?_eq_some_iff.mp hv).1
    have hi := List.getElem?_eq_getElem hil
    rw [← bAt_eq hv]
    rcases hbs i _ hi with ⟨-, h⟩ | ⟨d, h, hd⟩
    · omega
    · have := hmono d i _ _ hd (hlogl i _ hi) (hltS i _ hi)
      omega
  obtain ⟨labels, tmm, nlive, st, en, hth, hrun, -, -, hnl, hn⟩ :=
    processSamples_of R hB (by rw [← hSb, hp.length_eq]) hbv
  rw [hrun] at h
  simp only [Prod.mk.injEq, Except.ok.injEq] at h
  obtain ⟨rfl, rfl⟩ := h
  refine ⟨?_, ?_, ?_⟩
  · intro n hn'
    obtain ⟨i, hi⟩ := List.mem_iff_getElem?.mp hn'
    have hib : i < b.length := by rw [← hnl]; exact (List.getElem?_eq_some_iff.mp hi).1
    have hc := hn i hib
    simp only at hi
    rw [hc] at hi
    rw [← Option.some.inj hi]
    have : 0 < ((Finset.range b.length).filter (fun j => bAt b j < i ∧ i ≤ j)).card :=
      Finset.card_pos.mpr ⟨i, Finset.mem_filter.mpr ⟨Finset.mem_range.mpr hib, (hbv i _ (getElem?_bAt hib)).2, le_rfl⟩⟩
    omega
  · intro i l hi hfirst
    simp only at hi hfirst ⊢
    have hib : i < b.length := by
      have := (List.getElem?_eq_some_iff.mp hi).1
      rw [List.length_map] at this; rw [← hSb]; exact this
    rw [hn i hib]
    congr 2
    have hperm : liveAt samples l = liveAt S l := by
      unfold liveAt
      exact (hp.countP_eq _).symm
    rw [hperm]
    have hlow : ∀ d : Nat, ∀ x : K, (S.map (·.logl))[d]? = some x → (d < i ↔ x < l) := by
      intro d x hd
      refine ⟨fun hdi => ?_, fun hx => hmono d i x l hd hi hx⟩
      refine lt_of_le_of_ne (pairwise_iff_getElem?.mp hsort d i x l hdi hd hi) ?_
      rintro rfl
      exact hfirst d hdi hd
    have hinit : init < l := by
      have hpos : 0 < S.length := by omega
      have h00 := List.getElem?_eq_getElem hpos
      have hb0 : S[0].birth = init := by
        rw [List.getElem?_map, h00] at h0; simpa using h0
      rw [← hb0]
      refine lt_of_lt_of_le (hltS 0 _ h00) ?_
      rcases Nat.eq_zero_or_pos i with rfl | hi0
      · rw [hlogl 0 _ h00] at hi
        exact le_of_eq (Option.some.inj hi)
      · exact pairwise_iff_getElem?.mp hsort 0 i _ _ hi0 (hlogl 0 _ h00) hi
    rw [← hSb]
    exact card_eq_countP (fun j s hs => by
      have h1 : bAt b j < i ↔ s.birth < l := by
        rcases hbs j s hs with ⟨e1, e2⟩ | ⟨d, e1, e2⟩
        · rw [e1, e2]; exact ⟨fun _ => hinit, fun _ => by omega⟩
        · rw [e1, ← hlow d _ e2]; omega
      have h2 : i ≤ j ↔ l ≤ s.logl := by
        rw [← not_lt, hlow j _ (hlogl j s hs), not_lt]
      rw [h1, h2])
  · intro hm
    exact birthInds_unlabelled R hB hm

/-- The hypotheses of `C115_strict` for the samples with more births than deaths on a contour. -/
example : crowded ≠ [] ∧ (∀ s ∈ crowded, s.birth < s.logl) ∧
    ∃ init, ∀ s ∈ crowded, s.birth = init ∨ ∃ t ∈ crowded, t.logl = s.birth :=
  ⟨by decide, by decide, -100, by decide⟩

end Nestcheck
