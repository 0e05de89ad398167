import Verif.Proofs.CheckRun
import Verif.Model.Instances

/-
C24: check_ns_run accepts exactly the documented format.
-/

set_option linter.unusedSectionVars false

namespace Nestcheck
open Spec
variable {K σ : Type} [CommRing K] [LinearOrder K]

/-- `check_ns_run` returns normally iff the run has the documented format and,
with `dup_assert`, no repeated loglikelihoods; otherwise it raises
`AssertionError`.  It never touches the random state. -/
theorem C24_check_ns_run (A : Argsort K) (r : Run K) (da dw : Bool) (w : World σ) :
    ((checkRun A r da dw w).1 = .ok () ↔ Valid r ∧ (da = true → Distinct r.logl)) ∧
    ((checkRun A r da dw w).1 = .ok () ∨ (checkRun A r da dw w).1 = .error .assertion) ∧
    (checkRun A r da dw w).2.rng = w.rng := by
  refine ⟨checkRun_ok_iff A r da dw w, ?_, (checkRun_world A r da dw w).1⟩
  cases h : (checkRun A r da dw w).1 with
  | ok u => exact .inl rfl
  | error e => right; rw [checkRun_error A r da dw w h]

/-- A warning is issued only if asked for with `dup_warn` (and not `dup_assert`),
and then only if loglikelihoods repeat. -/
theorem C24_warning (A : Argsort K) (r : Run K) (da dw : Bool) (w : World σ) :
    (checkRun A r da dw w).2.warns = w.warns ∨
      (da = false ∧ dw = true ∧ ¬ r.logl.Pairwise (· < ·) ∧
        (checkRun A r da dw w).2.warns = w.warns ++ [.dupLogl]) :=
  (checkRun_world A r da dw w).2

/-- With `dup_warn` and without `dup_assert` a valid run gives a warning exactly
if it has repeated loglikelihoods. -/
theorem C24_dup_warn (A : Argsort K) (r : Run K) (w : World σ) (h : Valid r) :
    ((checkRun A r false true w).2.warns = w.warns ↔ Distinct r.logl) ∧
    ((checkRun A r false true w).2.warns = w.warns ++ [.dupLogl] ↔ ¬ Distinct r.logl) := by
  obtain ⟨labels, tmm, h⟩ := h
  have hm : checkMembers r = .ok () :=
    checkMembers_ok.mpr ⟨labels, tmm, h.labels_eq, h.tmm_eq, h.nlive_len, h.labels_len, h.theta_len⟩
  have hs : r.logl.Pairwise (· ≤ ·) := pairwise_iff_getElem?.mpr h.sorted
  have hd : Distinct r.logl ↔ r.logl.Pairwise (· < ·) := by
    constructor
    · intro hd
      rw [pairwise_iff_getElem?]
      intro i j x y hij hx hy
      exact lt_of_le_of_ne (h.sorted i j x y hij hx hy) (hd i j x y hij hx hy)
    · intro hd i j x y hij hx hy
      exact ne_of_lt (pairwise_iff_getElem?.mp hd i j x y hij hx hy)
  unfold checkRun
  rw [M.bind_apply, M.lift_apply, hm, hd]
  simp only
  rw [M.bind_apply, checkLogls_apply]
  by_cases hlt : r.logl.Pairwise (· < ·)
  · simp [hs, hlt]
  · simp [hs, hlt]

/-- The key check accepts exactly dictionaries with the five mandatory keys and
optionally `output`. -/
theorem C24_keys (keys : List String) :
    checkKeys keys = .ok () ↔
      (keys.Perm ["logl", "nlive_array", "theta", "thread_labels", "thread_min_max"] ∨
        keys.Perm ["output", "logl", "nlive_array", "theta", "thread_labels", "thread_min_max"]) := by
  show _ ↔ (keys.Perm mandatoryKeys ∨ keys.Perm ("output" :: mandatoryKeys))
  have hgo : ∀ (ks keys rest : List String), checkKeys.go ks keys = .ok rest →
      keys.Perm (ks ++ rest) := by
    intro ks
    induction ks with
    | nil => intro keys rest h; simp [checkKeys.go] at h; simp [h]
    | cons k ks ih =>
      intro keys rest h
      simp only [checkKeys.go] at h
      split_ifs at h with hk
      exact (List.perm_cons_erase hk).trans (List.Perm.cons k (ih _ _ h))
  have hgo' : ∀ (ks keys rest : List String), keys.Perm (ks ++ rest) →
      ∃ rest', checkKeys.go ks keys = .ok rest' ∧ rest'.Perm rest := by
    intro ks
    induction ks with
    | nil => intro keys rest h; exact ⟨keys, rfl, h⟩
    | cons k ks ih =>
      intro keys rest h
      have hk : k ∈ keys := h.mem_iff.mpr (by simp)
      have hp : (keys.erase k).Perm (ks ++ rest) := by
        have := h.erase k
        simpa using this
      obtain ⟨r', h1, h2⟩ := ih _ _ hp
      exact ⟨r', by simp only [checkKeys.go, hk, if_true, h1], h2⟩
  unfold checkKeys
  constructor
  · intro h
    cases hg : checkKeys.go mandatoryKeys keys with
    | error e => rw [hg] at h; simp at h
    | ok rest =>
      rw [hg] at h
      simp only at h
      have hp := hgo _ _ _ hg
      split_ifs at h with h1
      have h1 : rest.erase "output" = [] := by simpa [removeKey] using h1
      by_cases ho : "output" ∈ rest
      · have := List.perm_cons_erase ho
        rw [h1] at this
        right
        refine hp.trans ((List.Perm.append_left _ this).trans ?_)
        exact List.perm_append_comm
      · left
        rw [List.erase_of_not_mem ho] at h1
        simpa [h1] using hp
  · rintro (h | h)
    · obtain ⟨r', h1, h2⟩ := hgo' mandatoryKeys keys [] (by simpa using h)
      rw [h1]; simp [h2.eq_nil, removeKey]
    · obtain ⟨r', h1, h2⟩ := hgo' mandatoryKeys keys ["output"]
        (h.trans (List.perm_append_comm (l₁ := ["output"])))
      rw [h1]
      have : r' = ["output"] := List.perm_singleton.mp h2
      simp [this, removeKey]

/-- A dictionary with other keys is rejected with `AssertionError`. -/
theorem C24_keys_error (keys : List String) (h1 : ¬ keys.Perm ["logl", "nlive_array", "theta", "thread_labels", "thread_min_max"])
    (h2 : ¬ keys.Perm ["output", "logl", "nlive_array", "theta", "thread_labels", "thread_min_max"]) :
    checkKeys keys = .error .assertion := by
  have hgo : ∀ (ks keys : List String) (e : PyErr), checkKeys.go ks keys = .error e → e = .assertion := by
    intro ks
    induction ks with
    | nil => intro keys e h; simp [checkKeys.go] at h
    | cons k ks ih =>
      intro keys e h
      simp only [checkKeys.go] at h
      split_ifs at h with hk
      · exact ih _ _ h
      · simpa using h.symm
  have hne : checkKeys keys ≠ .ok () := fun h => by
    rcases (C24_keys keys).mp h with h | h
    · exact h1 h
    · exact h2 h
  unfold checkKeys at hne ⊢
  cases hg : checkKeys.go mandatoryKeys keys with
  | error e => simp only [hgo _ _ _ hg]
  | ok rest =>
    rw [hg] at hne
    simp only at hne ⊢
    split_ifs at hne ⊢ with h
    · exact absurd rfl hne
    · rfl

section examples

/-- A valid run of two threads: accepted. -/
def exRun : Run ℤ where
  logl := [3, 5, 7, 8]
  nlive := [2, 2, 2, 1]
  theta := [[1], [2], [3], [4]]
  labels := some [0, 1, 0, 1]
  tmm := some [(⊥, 7), (⊥, 8)]

example : checkRun (stableSort ℤ) exRun true false ⟨(), []⟩ = (.ok (), ⟨(), []⟩) := by rfl
example : Valid exRun :=
  ((C24_check_ns_run (stableSort ℤ) exRun true false ⟨(), []⟩).1.mp rfl).1
/-- A thread that does not end at its last sample: rejected. -/
example : checkRun (stableSort ℤ) { exRun with tmm := some [(⊥, 7), (⊥, 7)] } false false ⟨(), []⟩ =
    (.error .assertion, ⟨(), []⟩) := by rfl
example : ¬ Valid { exRun with tmm := some [(⊥, 7), (⊥, 7)] } := fun h =>
  absurd ((C24_check_ns_run (stableSort ℤ) { exRun with tmm := some [(⊥, 7), (⊥, 7)] }
    false false ⟨(), []⟩).1.mpr ⟨h, by simp⟩) (by decide)
/-- Repeated loglikelihoods: accepted with a warning. -/
example : checkRun (stableSort ℤ) { exRun with logl := [3, 7, 7, 8] } false true ⟨(), []⟩ =
    (.ok (), ⟨(), [.dupLogl]⟩) := by rfl
example : checkKeys ("settings" :: mandatoryKeys) = .error .assertion := by decide
example : checkKeys ["logl", "theta"] = .error .assertion :=
  C24_keys_error _ (fun h => by simpa using h.length_eq) (fun h => by simpa using h.length_eq)
example : checkKeys ("output" :: mandatoryKeys) = .ok () := by decide

end examples
end Nestcheck
