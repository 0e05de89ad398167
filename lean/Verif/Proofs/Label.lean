import Verif.Model.DataProcessing
import Verif.Proofs.Random

/-
The labelling loops of threads_given_birth_inds, for arbitrary birth indexes.
-/

namespace Nestcheck

/-- The point that replaced `c`: the first one born on it. -/
def heir (b : List Int) (c : Nat) : Option Nat :=
  (whereIdx (fun x => decide (x = (c : Int))) b).head?

/-- `i` is reached from `s` by following heirs. -/
inductive Chain (b : List Int) (s : Nat) : Nat → Prop where
  | refl : Chain b s s
  | step {c j : Nat} : Chain b s c → heir b c = some j → Chain b s j

theorem heir_birth {b : List Int} {c j : Nat} (h : heir b c = some j) : b[j]? = some (c : Int) := by
  have : j ∈ whereIdx (fun x => decide (x = (c : Int))) b := List.mem_of_head? h
  exact mem_whereIdx_eq.mp this

theorem heir_inj {b : List Int} {c c' j : Nat} (h : heir b c = some j) (h' : heir b c' = some j) :
    c = c' := by
  have h1 := heir_birth h
  have h2 := heir_birth h'
  rw [h1] at h2
  simpa using h2

theorem heir_lt {b : List Int} {c j : Nat} (h : heir b c = some j) : j < b.length :=
  (List.getElem?_eq_some_iff.mp (heir_birth h)).1

theorem heir_le {b : List Int} {c i : Nat} (h : b[i]? = some (c : Int)) :
    ∃ j, heir b c = some j ∧ j ≤ i := by
  have hm : i ∈ whereIdx (fun x => decide (x = (c : Int))) b := mem_whereIdx_eq.mpr h
  unfold heir
  cases hw : whereIdx (fun x => decide (x = (c : Int))) b with
  | nil => rw [hw] at hm; simp at hm
  | cons a l => exact ⟨a, rfl, whereIdx_head_le hw hm⟩

theorem heir_eq_none {b : List Int} {c : Nat} (h : heir b c = none) (i : Nat) :
    b[i]? ≠ some (c : Int) := by
  intro hi
  obtain ⟨j, hj, -⟩ := heir_le hi
  rw [h] at hj; simp at hj

theorem chain_iff {b : List Int} {s i : Nat} :
    Chain b s i ↔ i = s ∨ ∃ j, heir b s = some j ∧ Chain b j i := by
  constructor
  · intro h
    induction h with
    | refl => exact .inl rfl
    | @step c j hc hj ih =>
      right
      rcases ih with rfl | ⟨j', hj', hch⟩
      · exact ⟨j, hj, .refl⟩
      · exact ⟨j', hj', hch.step hj⟩
  · rintro (rfl | ⟨j, hj, hch⟩)
    · exact .refl
    · induction hch with
      | refl => exact (Chain.refl).step hj
      | step _ hj' ih => exact ih.step hj'

/-- The model's `follow` in terms of `heir`. -/
theorem follow_eq (b : List Int) (t fuel cur : Nat) (L : List (Option Nat)) :
    follow b t fuel cur L = match heir b cur with
      | none => .ok L
      | some nxt =>
        if L[nxt]? ≠ some none then .error .assertion
        else match fuel with
          | 0 => .error .outOfFuel
          | fuel + 1 => follow b t fuel nxt (L.set nxt (some t)) := by
  rw [follow.eq_def]
  unfold heir
  dsimp only
  cases whereIdx (fun x => decide (x = (cur : Int))) b with
  | nil => rfl
  | cons a l => rfl

theorem set_label {L : List (Option Nat)} {n t : Nat} (h : L[n]? = some none) (i k : Nat) :
    (L.set n (some t))[i]? = some (some k) ↔ L[i]? = some (some k) ∨ (k = t ∧ i = n) := by
  have hlt : n < L.length := (List.getElem?_eq_some_iff.mp h).1
  by_cases hin : i = n
  · subst hin
    rw [List.getElem?_set_self hlt, h]
    simp [eq_comm]
  · rw [List.getElem?_set_ne (Ne.symm hin)]
    simp [hin]

theorem follow_sound {b : List Int} {t fuel cur : Nat} {L L' : List (Option Nat)}
    (h : follow b t fuel cur L = .ok L') :
    L'.length = L.length ∧ ∀ i k, L'[i]? = some (some k) ↔
      L[i]? = some (some k) ∨ (k = t ∧ ∃ j, heir b cur = some j ∧ Chain b j i) := by
  induction fuel generalizing cur L with
  | zero =>
    rw [follow_eq] at h
    cases hh : heir b cur with
    | none => rw [hh] at h; cases h; simp
    | some nxt => rw [hh] at h; simp only at h; split_ifs at h
  | succ fuel ih =>
    rw [follow_eq] at h
    cases hh : heir b cur with
    | none => rw [hh] at h; cases h; simp
    | some nxt =>
      rw [hh] at h; simp only at h
      split_ifs at h with hn
      rw [ne_eq, not_not] at hn
      obtain ⟨h1, h2⟩ := ih h
      refine ⟨by simpa using h1, ?_⟩
      intro i k
      rw [h2, set_label hn]
      simp only [Option.some.injEq, exists_eq_left']
      rw [chain_iff (s := nxt)]
      tauto

/-- The number of points without a label. -/
def free (L : List (Option Nat)) : Nat := L.countP Option.isNone

theorem free_set {L : List (Option Nat)} {n t : Nat} (h : L[n]? = some none) :
    free (L.set n (some t)) + 1 = free L := by
  unfold free
  induction L generalizing n with
  | nil => simp at h
  | cons a as ih =>
    cases n with
    | zero => simp at h; subst h; simp
    | succ n =>
      simp only [List.getElem?_cons_succ] at h
      simp only [List.set_cons_succ, List.countP_cons]
      rw [← ih h]; omega

theorem follow_error {b : List Int} {t fuel cur : Nat} {L : List (Option Nat)} {e : PyErr}
    (hf : free L ≤ fuel) (h : follow b t fuel cur L = .error e) : e = .assertion := by
  induction fuel generalizing cur L with
  | zero =>
    rw [follow_eq] at h
    cases hh : heir b cur with
    | none => rw [hh] at h; cases h
    | some nxt =>
      rw [hh] at h; simp only at h
      split_ifs at h with hn
      swap
      · rw [ne_eq, not_not] at hn
        have := free_set (t := t) hn
        omega
      · simpa using h.symm
  | succ fuel ih =>
    rw [follow_eq] at h
    cases hh : heir b cur with
    | none => rw [hh] at h; cases h
    | some nxt =>
      rw [hh] at h; simp only at h
      split_ifs at h with hn
      swap
      · rw [ne_eq, not_not] at hn
        have := free_set (t := t) hn
        exact ih (by omega) h
      · simpa using h.symm

theorem free_le_length (L : List (Option Nat)) : free L ≤ L.length := List.countP_le_length

theorem labelLoop_error {b : List Int} {ss : List Nat} {t : Nat} {L : List (Option Nat)} {e : PyErr}
    (hL : L.length = b.length) (h : labelLoop b ss t L = .error e) : e = .assertion := by
  induction ss generalizing t L with
  | nil => simp [labelLoop] at h
  | cons s ss ih =>
    simp only [labelLoop] at h
    split_ifs at h with hn
    swap
    · cases hf : follow b t b.length s (L.set s (some t)) with
      | error e' =>
        rw [hf] at h; simp only [Except.error.injEq] at h; subst h
        refine follow_error ?_ hf
        have := free_le_length (L.set s (some t))
        simpa [hL] using this
      | ok L1 =>
        rw [hf] at h
        refine ih ?_ h
        rw [(follow_sound hf).1]; simpa using hL
    · simpa using h.symm

theorem labelLoop_sound {b : List Int} {ss : List Nat} {t : Nat} {L L' : List (Option Nat)}
    (h : labelLoop b ss t L = .ok L') :
    L'.length = L.length ∧ ∀ i k, L'[i]? = some (some k) ↔
      L[i]? = some (some k) ∨ ∃ p s, ss[p]? = some s ∧ k = t + p ∧ Chain b s i := by
  induction ss generalizing t L with
  | nil => simp [labelLoop] at h; subst h; simp
  | cons s ss ih =>
    simp only [labelLoop] at h
    split_ifs at h with hn
    rw [ne_eq, not_not] at hn
    cases hf : follow b t b.length s (L.set s (some t)) with
    | error e' => rw [hf] at h; simp at h
    | ok L1 =>
      rw [hf] at h
      obtain ⟨h1, h2⟩ := follow_sound hf
      obtain ⟨h3, h4⟩ := ih h
      refine ⟨by rw [h3, h1]; simp, ?_⟩
      intro i k
      rw [h4, h2, set_label hn, or_assoc, or_assoc, or_congr_right]
      rw [← or_assoc, ← and_or_left, ← chain_iff]
      constructor
      · rintro (⟨rfl, hc⟩ | ⟨p, s', hp, rfl, hc⟩)
        · exact ⟨0, s, rfl, by omega, hc⟩
        · exact ⟨p + 1, s', by simpa using hp, by omega, hc⟩
      · rintro ⟨p, s', hp, rfl, hc⟩
        cases p with
        | zero => simp at hp; subst hp; exact .inl ⟨by omega, hc⟩
        | succ p => exact .inr ⟨p, s', by simpa using hp, by omega, hc⟩

/-- Following a thread succeeds if every point on it is free and heirs come
later. -/
theorem follow_ok {b : List Int} {t fuel cur : Nat} {L : List (Option Nat)}
    (hinc : ∀ c j, heir b c = some j → c < j)
    (hfree : ∀ i, (∃ j, heir b cur = some j ∧ Chain b j i) → L[i]? = some none)
    (hf : free L ≤ fuel) : ∃ L', follow b t fuel cur L = .ok L' := by
  induction fuel generalizing cur L with
  | zero =>
    rw [follow_eq]
    cases hh : heir b cur with
    | none => exact ⟨L, rfl⟩
    | some nxt =>
      have hn := hfree nxt ⟨nxt, hh, .refl⟩
      have := free_set (t := t) hn
      omega
  | succ fuel ih =>
    rw [follow_eq]
    cases hh : heir b cur with
    | none => exact ⟨L, rfl⟩
    | some nxt =>
      have hn := hfree nxt ⟨nxt, hh, .refl⟩
      simp only [hn, ne_eq, not_true_eq_false, if_false]
      apply ih
      · rintro i ⟨j, hj, hc⟩
        have hlt : nxt < i := by
          have : nxt < j := hinc _ _ hj
          have : j ≤ i := by
            clear * - hc hinc
            induction hc with
            | refl => exact le_rfl
            | step _ h ih => exact le_trans ih (Nat.le_of_lt (hinc _ _ h))
          omega
        rw [List.getElem?_set_ne (by omega)]
        exact hfree i ⟨nxt, hh, chain_iff.mpr (.inr ⟨j, hj, hc⟩)⟩
      · have := free_set (t := t) hn
        omega

theorem chain_le {b : List Int} (hinc : ∀ c j, heir b c = some j → c < j) {s i : Nat}
    (h : Chain b s i) : s ≤ i := by
  induction h with
  | refl => exact le_rfl
  | step _ h ih => exact le_trans ih (Nat.le_of_lt (hinc _ _ h))

/-- Threads with different starts which are not heirs are disjoint. -/
theorem chain_start_unique {b : List Int} {s s' i : Nat} (hs : ∀ c, heir b c ≠ some s)
    (hs' : ∀ c, heir b c ≠ some s') (h : Chain b s i) (h' : Chain b s' i) : s = s' := by
  induction h with
  | refl =>
    cases h' with
    | refl => rfl
    | step _ hj => exact absurd hj (hs _)
  | step hc hj ih =>
    cases h' with
    | refl => exact absurd hj (hs' _)
    | step hc' hj' =>
      obtain rfl := heir_inj hj hj'
      exact ih hc'

/-- The labelling loop succeeds when the remaining starts are distinct points
which are not heirs, and heirs come later than the points they replace. -/
theorem labelLoop_ok {b : List Int} {ss done : List Nat} {L : List (Option Nat)}
    (hinc : ∀ c j, heir b c = some j → c < j) (hL : L.length = b.length)
    (hnd : (done ++ ss).Nodup) (hlt : ∀ s ∈ done ++ ss, s < b.length)
    (hst : ∀ s ∈ done ++ ss, ∀ c, heir b c ≠ some s)
    (hinv : ∀ i k, L[i]? = some (some k) ↔ ∃ s, done[k]? = some s ∧ Chain b s i) :
    ∃ L', labelLoop b ss done.length L = .ok L' := by
  induction ss generalizing done L with
  | nil => exact ⟨L, rfl⟩
  | cons s ss ih =>
    have hfresh : ∀ i, Chain b s i → i < b.length → L[i]? = some none := by
      intro i hi hib
      have hil : i < L.length := by omega
      cases hv : L[i] with
      | none => rw [List.getElem?_eq_getElem hil, hv]
      | some k =>
        exfalso
        obtain ⟨s', hs', hc'⟩ := (hinv i k).mp (by rw [List.getElem?_eq_getElem hil, hv])
        have hm : s' ∈ done := List.mem_of_getElem? hs'
        have := chain_start_unique (hst s' (by simp [hm])) (hst s (by simp)) hc' hi
        subst this
        have := List.disjoint_of_nodup_append hnd hm
        simp at this
    simp only [labelLoop]
    have hs := hfresh s .refl (hlt s (by simp))
    simp only [hs, ne_eq, not_true_eq_false, if_false]
    obtain ⟨L1, hL1⟩ : ∃ L1, follow b done.length b.length s (L.set s (some done.length)) = .ok L1 := by
      apply follow_ok hinc
      · rintro i ⟨j, hj, hc⟩
        have h1 := hinc _ _ hj
        have h2 := chain_le hinc hc
        rw [List.getElem?_set_ne (by omega)]
        apply hfresh i (chain_iff.mpr (.inr ⟨j, hj, hc⟩))
        cases hc with
        | refl => exact heir_lt hj
        | step _ h => exact heir_lt h
      · have := free_le_length (L.set s (some done.length))
        simpa [hL] using this
    rw [hL1]
    simp only
    have hsound := follow_sound hL1
    have := ih (done := done ++ [s]) (L := L1) (by rw [hsound.1]; simpa using hL)
      (by simpa using hnd) (by simpa using hlt) (by simpa using hst) ?_
    · simpa using this
    · intro i k
      rw [hsound.2, set_label hs, hinv, or_assoc, ← and_or_left, ← chain_iff]
      constructor
      · rintro (⟨s', h1, h2⟩ | ⟨rfl, h2⟩)
        · refine ⟨s', ?_, h2⟩
          rw [List.getElem?_append_left (List.getElem?_eq_some_iff.mp h1).1, h1]
        · exact ⟨s, by simp, h2⟩
      · rintro ⟨s', h1, h2⟩
        rcases Nat.lt_trichotomy k done.length with hk | hk | hk
        · rw [List.getElem?_append_left hk] at h1
          exact .inl ⟨s', h1, h2⟩
        · subst hk
          simp at h1; subst h1
          exact .inr ⟨rfl, h2⟩
        · have := (List.getElem?_eq_some_iff.mp h1).1
          simp at this; omega

end Nestcheck
