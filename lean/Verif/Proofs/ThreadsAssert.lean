import Verif.Proofs.ThreadsGeneral

/-! When `threads_given_birth_inds` raises. -/

namespace Nestcheck
variable {σ K : Type} [CommRing K] [LinearOrder K] (R : Rng σ K)

theorem heir_chain_cons {b : List Int} {s j i : Nat} (h : heir b s = some j) (hc : Chain b j i) : Chain b s i :=
  chain_iff.mpr (.inr ⟨j, h, hc⟩)

/-- Following a thread fails at a point which had a label, or at one which closes a cycle. -/
theorem follow_fail {b : List Int} {t fuel cur : Nat} {L : List (Option Nat)} {e : PyErr} (hf : free L ≤ fuel)
    (h : follow b t fuel cur L = .error e) :
    ∃ c nxt, Chain b cur c ∧ heir b c = some nxt ∧ (L[nxt]? ≠ some none ∨ Chain b nxt c) := by
  induction fuel generalizing cur L with
  | zero =>
    rw [follow_eq] at h
    cases hh : heir b cur with
    | none => rw [hh] at h; cases h
    | some nxt =>
      refine ⟨cur, nxt, .refl, hh, .inl ?_⟩
      intro hn
      have := free_set (t := t) hn
      omega
  | succ fuel ih =>
    rw [follow_eq] at h
    cases hh : heir b cur with
    | none => rw [hh] at h; cases h
    | some nxt =>
      rw [hh] at h; simp only at h
      by_cases hn : L[nxt]? ≠ some none
      · exact ⟨cur, nxt, .refl, hh, .inl hn⟩
      · rw [if_neg hn] at h
        rw [ne_eq, not_not] at hn
        have := free_set (t := t) hn
        obtain ⟨c, n2, h1, h2, h3⟩ := ih (by omega) h
        refine ⟨c, n2, heir_chain_cons hh h1, h2, ?_⟩
        by_cases hne : n2 = nxt
        · subst hne; exact .inr h1
        · rw [List.getElem?_set_ne (Ne.symm hne)] at h3
          exact h3

/-- A cycle reached from `s` contains `s`. -/
theorem cycle_start {b : List Int} {s x : Nat} (h : Chain b s x) :
    ∀ c, Chain b x c → heir b c = some x → ∃ p, Chain b s p ∧ heir b p = some s := by
  induction h with
  | refl => intro c h1 h2; exact ⟨c, h1, h2⟩
  | @step d x hd hx ih =>
    intro c h1 h2
    obtain rfl := heir_inj hx h2
    cases h1 with
    | refl => exact ih _ .refl hx
    | @step c1 _ h3 h4 => exact ih c1 (heir_chain_cons hx h3) h4

/-- Threads meet only if one of them starts at a point of the other. -/
theorem chains_meet {b : List Int} {s s' i : Nat} (h : Chain b s i) (h' : Chain b s' i) :
    s = s' ∨ (∃ c, Chain b s c ∧ heir b c = some s') ∨ ∃ c, Chain b s' c ∧ heir b c = some s := by
  induction h with
  | refl =>
    cases h' with
    | refl => exact .inl rfl
    | step hc hj => exact .inr (.inr ⟨_, hc, hj⟩)
  | step hc hj ih =>
    cases h' with
    | refl => exact .inr (.inl ⟨_, hc, hj⟩)
    | step hc' hj' =>
      obtain rfl := heir_inj hj hj'
      exact ih hc'

theorem labelLoop_fail {b : List Int} {ss done : List Nat} {L : List (Option Nat)} {e : PyErr}
    (hL : L.length = b.length) (hnd : (done ++ ss).Nodup) (hlt : ∀ s ∈ done ++ ss, s < b.length)
    (hinv : ∀ i k, L[i]? = some (some k) ↔ ∃ s, done[k]? = some s ∧ Chain b s i)
    (h : labelLoop b ss done.length L = .error e) :
    ∃ s ∈ done ++ ss, ∃ s' ∈ done ++ ss, ∃ c, Chain b s c ∧ heir b c = some s' := by
  induction ss generalizing done L with
  | nil => simp [labelLoop] at h
  | cons s ss ih =>
    have hsm : s ∈ done ++ s :: ss := by simp
    -- a labelled point on the thread of `s` belongs to an earlier thread
    have hmeet : ∀ i, i < b.length → L[i]? ≠ some none → Chain b s i →
        ∃ s₁ ∈ done ++ s :: ss, ∃ s₂ ∈ done ++ s :: ss, ∃ c, Chain b s₁ c ∧ heir b c = some s₂ := by
      intro i hi hn hc
      have hil : i < L.length := by omega
      cases hv : L[i] with
      | none => rw [List.getElem?_eq_getElem hil, hv] at hn; exact absurd rfl hn
      | some k =>
        obtain ⟨s', hs', hc'⟩ := (hinv i k).mp (by rw [List.getElem?_eq_getElem hil, hv])
        have hm : s' ∈ done := List.mem_of_getElem? hs'
        have hm' : s' ∈ done ++ s :: ss := by simp [hm]
        rcases chains_meet hc hc' with rfl | ⟨c, h1, h2⟩ | ⟨c, h1, h2⟩
        · have := List.disjoint_of_nodup_append hnd hm
          simp at this
        · exact ⟨s, hsm, s', hm', c, h1, h2⟩
        · exact ⟨s', hm', s, hsm, c, h1, h2⟩
    simp only [labelLoop] at h
    by_cases hn : L[s]? ≠ some none
    · exact hmeet s (hlt s hsm) hn .refl
    · rw [if_neg hn] at h
      rw [ne_eq, not_not] at hn
      cases hf : follow b done.length b.length s (L.set s (some done.length)) with
      | error e' =>
        obtain ⟨c, nxt, h1, h2, h3⟩ := follow_fail (by
          have := free_le_length (L.set s (some done.length))
          simpa [hL] using this) hf
        have hcyc : Chain b nxt c → ∃ s₁ ∈ done ++ s :: ss, ∃ s₂ ∈ done ++ s :: ss, ∃ c, Chain b s₁ c ∧ heir b c = some s₂ := by
          intro hc
          obtain ⟨p, h4, h5⟩ := cycle_start (h1.step h2) c hc h2
          exact ⟨s, hsm, s, hsm, p, h4, h5⟩
        rcases h3 with h3 | h3
        · by_cases hns : nxt = s
          · subst hns
            exact ⟨nxt, hsm, nxt, hsm, c, h1, h2⟩
          · rw [List.getElem?_set_ne (Ne.symm hns)] at h3
            exact hmeet nxt (heir_lt h2) h3 (h1.step h2)
        · exact hcyc h3
      | ok L1 =>
        rw [hf] at h
        have hsound := follow_sound hf
        have := ih (done := done ++ [s]) (L := L1) (by rw [hsound.1]; simpa using hL)
          (by simpa using hnd) (by simpa using hlt) ?_ (by simpa using h)
        · simpa using this
        · intro i k
          rw [hsound.2, set_label hn, hinv, or_assoc, ← and_or_left, ← chain_iff]
          constructor
          · rintro (⟨s', h1, h2⟩ | ⟨rfl, h2⟩)
            · refine ⟨s', ?_, h2⟩
              rw [List.getElem?_append_left (List.getElem?_eq_some_iff.mp h1).1, h1]
            · exact ⟨s, by simp, h2⟩
          · rintro ⟨s', h1, h2⟩
            rcases Nat.lt_trichotomy k done.length with hk | hk | hk
            · rw [List.getElem?_append_left hk] at h1
              exact .inl ⟨s', h1, h2⟩
            · subst hk
              simp at h1; subst h1
              exact .inr ⟨rfl, h2⟩
            · have := (List.getElem?_eq_some_iff.mp h1).1
              simp at this; omega

/-- If following a thread succeeds, all points on it were free. -/
theorem follow_free {b : List Int} {t fuel cur : Nat} {L L' : List (Option Nat)}
    (h : follow b t fuel cur L = .ok L') {c nxt : Nat} (hc : Chain b cur c) (hn : heir b c = some nxt) :
    L[nxt]? = some none := by
  induction fuel generalizing cur L with
  | zero =>
    rw [follow_eq] at h
    cases hh : heir b cur with
    | none =>
      rcases chain_iff.mp hc with rfl | ⟨j, hj, -⟩
      · rw [hh] at hn; simp at hn
      · rw [hh] at hj; simp at hj
    | some nxt => rw [hh] at h; simp only at h; split_ifs at h
  | succ fuel ih =>
    rw [follow_eq] at h
    cases hh : heir b cur with
    | none =>
      rcases chain_iff.mp hc with rfl | ⟨j, hj, -⟩
      · rw [hh] at hn; simp at hn
      · rw [hh] at hj; simp at hj
    | some n2 =>
      rw [hh] at h; simp only at h
      split_ifs at h with hf
      rw [ne_eq, not_not] at hf
      rcases chain_iff.mp hc with rfl | ⟨j, hj, hc2⟩
      · rw [hh] at hn
        cases hn
        exact hf
      · rw [hh] at hj
        cases hj
        have := ih h hc2
        by_cases hne : nxt = n2
        · subst hne; exact hf
        · rwa [List.getElem?_set_ne (Ne.symm hne)] at this

theorem labelLoop_no_cycle {b : List Int} {ss : List Nat} {t : Nat} {L L' : List (Option Nat)}
    (h : labelLoop b ss t L = .ok L') {s : Nat} (hs : s ∈ ss) {c : Nat} (hc : Chain b s c) : heir b c ≠ some s := by
  induction ss generalizing t L with
  | nil => simp at hs
  | cons a ss ih =>
    simp only [labelLoop] at h
    split_ifs at h with hn
    rw [ne_eq, not_not] at hn
    cases hf : follow b t b.length a (L.set a (some t)) with
    | error e' => rw [hf] at h; simp at h
    | ok L1 =>
      rw [hf] at h
      rcases List.mem_cons.mp hs with rfl | hs
      · intro hh
        have := follow_free hf hc hh
        rw [List.getElem?_set_self (List.getElem?_eq_some_iff.mp hn).1] at this
        simp at this
      · exact ih h hs

/-- The labelling loop fails exactly if a thread leads to a thread start. -/
theorem labelLoop_error_iff (b : List Int) :
    labelLoop b (starters b) 0 (List.replicate b.length none) = .error .assertion ↔
      ∃ s ∈ starters b, ∃ s' ∈ starters b, ∃ c, Chain b s c ∧ heir b c = some s' := by
  constructor
  · intro h
    have hlt : ∀ s ∈ starters b, s < b.length := by
      intro s hs
      obtain ⟨v, hv, -⟩ := mem_starters.mp hs
      exact (List.getElem?_eq_some_iff.mp hv).1
    have := labelLoop_fail (done := []) (ss := starters b) (L := List.replicate b.length none) (b := b) (by simp)
      (by simpa using starters_nodup b) (by simpa using hlt) (by simp [List.getElem?_replicate]) h
    simpa using this
  · rintro ⟨s, hs, s', hs', c, h1, h2⟩
    cases hL : labelLoop b (starters b) 0 (List.replicate b.length none) with
    | error e => rw [labelLoop_error (by simp) hL]
    | ok L =>
      exfalso
      obtain ⟨-, hsound⟩ := labelLoop_sound hL
      obtain ⟨k, hk⟩ := List.mem_iff_getElem?.mp hs
      obtain ⟨k', hk'⟩ := List.mem_iff_getElem?.mp hs'
      have a1 := (hsound s' k).mpr (.inr ⟨k, s, hk, by simp, h1.step h2⟩)
      have a2 := (hsound s' k').mpr (.inr ⟨k', s', hk', by simp, .refl⟩)
      rw [a1] at a2
      have : k = k' := by simpa using a2
      subst this
      rw [hk] at hk'
      have : s = s' := by simpa using hk'
      subst this
      exact labelLoop_no_cycle hL hs h1 h2

theorem heir_starter_iff {b : List Int} {c : Nat} :
    (∃ s' ∈ starters b, heir b c = some s') ↔ (c : Int) ∈ b ∧ ∀ x ∈ b, (c : Int) ≤ x := by
  constructor
  · rintro ⟨s', hs', hh⟩
    have hb := heir_birth hh
    obtain ⟨v, hv, hmin⟩ := mem_starters.mp hs'
    rw [hb] at hv
    cases hv
    refine ⟨List.mem_of_getElem? hb, ?_⟩
    rcases hmin with h | ⟨j, hj, hbj⟩
    · exact h
    · obtain ⟨j', hj', hle⟩ := heir_le hbj
      rw [hh] at hj'
      cases hj'
      omega
  · rintro ⟨hm, hmin⟩
    obtain ⟨i, hi⟩ := List.mem_iff_getElem?.mp hm
    obtain ⟨j, hj, -⟩ := heir_le hi
    exact ⟨j, mem_starters.mpr ⟨c, heir_birth hj, .inl hmin⟩, hj⟩

theorem threadsGivenBirthInds_error_iff (b : List Int) (w : World σ) :
    threadsGivenBirthInds R b w = (.error .assertion, w) ↔
      ∃ s ∈ starters b, ∃ c, Chain b s c ∧ (c : Int) ∈ b ∧ ∀ x ∈ b, (c : Int) ≤ x := by
  have hiff : (∃ s ∈ starters b, ∃ c, Chain b s c ∧ (c : Int) ∈ b ∧ ∀ x ∈ b, (c : Int) ≤ x) ↔
      ∃ s ∈ starters b, ∃ s' ∈ starters b, ∃ c, Chain b s c ∧ heir b c = some s' := by
    constructor
    · rintro ⟨s, hs, c, h1, h2⟩
      obtain ⟨s', h3, h4⟩ := heir_starter_iff.mpr h2
      exact ⟨s, hs, s', h3, c, h1, h4⟩
    · rintro ⟨s, hs, s', h3, c, h1, h4⟩
      exact ⟨s, hs, c, h1, heir_starter_iff.mp ⟨s', h3, h4⟩⟩
  rw [hiff, ← labelLoop_error_iff]
  constructor
  · intro h
    cases hL : labelLoop b (starters b) 0 (List.replicate b.length none) with
    | error e => rw [labelLoop_error (by simp) hL]
    | ok L =>
      exfalso
      rcases threadsGivenBirthInds_outcome (σ := σ) R b with ⟨he, -⟩ | ⟨_, -, hT⟩ | ⟨_, -, -, -, -, hT⟩
      · rw [hL] at he; cases he
      · rw [hT w] at h; simp at h
      · rw [hT w] at h; simp at h
  · intro h
    unfold threadsGivenBirthInds
    rw [h]
    rfl

end Nestcheck
