import Mathlib.Tactic.Ring
import Verif.Proofs.NLive

/-
The loop over threads of process_samples_array.
-/

set_option linter.unusedSectionVars false

namespace Nestcheck
variable {σ K : Type} [CommRing K] [LinearOrder K]

theorem sum_take_modify (xs : List Int) (p m : Nat) (c : Int) :
    ((xs.modify p (· + c)).take m).sum =
      (xs.take m).sum + if p < m ∧ p < xs.length then c else 0 := by
  induction xs generalizing p m with
  | nil => simp
  | cons x xs ih =>
    cases m with
    | zero => simp
    | succ m =>
      cases p with
      | zero => simp; ring
      | succ p =>
        simp only [List.modify_succ_cons, List.take_succ_cons, List.sum_cons, ih,
          List.length_cons, Nat.add_lt_add_iff_right]
        ring

/-- The start and end of the thread starting at `s` and ending at `e`. -/
def threadRange (logl : List K) (b : List Int) (s e : Nat) : WithBot K × K :=
  (if bAt b s = -1 then ⊥ else ((logl[(bAt b s).toNat]?.getD 0 : K) : WithBot K), logl[e]?.getD 0)

/-- Facts about the thread with label `k`, which starts at `s` and ends at `e`. -/
structure ThreadAt (b : List Int) (labels : List Nat) (k s e : Nat) : Prop where
  start_mem : labels[s]? = some k
  start_le : ∀ j, labels[j]? = some k → s ≤ j
  ends : EndsAt labels k e

theorem ThreadAt.head {b : List Int} {labels : List Nat} {k s e : Nat} (h : ThreadAt b labels k s e) :
    (whereIdx (fun x => decide (x = k)) labels).head? = some s := by
  have hm : s ∈ whereIdx (fun x => decide (x = k)) labels := mem_whereIdx_eq.mpr h.start_mem
  cases hw : whereIdx (fun x => decide (x = k)) labels with
  | nil => rw [hw] at hm; simp at hm
  | cons a l =>
    have h1 := whereIdx_head_le hw hm
    have h2 := h.start_le a (mem_whereIdx_eq.mp (by rw [hw]; simp))
    simp; omega

theorem ThreadAt.last {b : List Int} {labels : List Nat} {k s e : Nat} (h : ThreadAt b labels k s e) :
    (whereIdx (fun x => decide (x = k)) labels).getLast? = some e := by
  have hm : e ∈ whereIdx (fun x => decide (x = k)) labels := mem_whereIdx_eq.mpr h.ends.1
  cases hw : (whereIdx (fun x => decide (x = k)) labels).getLast? with
  | none => rw [List.getLast?_eq_none_iff] at hw; rw [hw] at hm; simp at hm
  | some a =>
    have h1 := pairwise_lt_le_getLast whereIdx_pairwise hw hm
    have ha := mem_whereIdx_eq.mp (List.mem_of_getLast? hw)
    have : ¬ a > e := fun hgt => h.ends.2 a hgt ha
    simp; omega

theorem threadStep_eq {logl : List K} {b : List Int} {labels : List Nat} (hb : BirthsValid b)
    (hl : logl.length = b.length) (hlab : labels.length = b.length) {k s e : Nat}
    (h : ThreadAt b labels k s e) (acc : ThreadAcc K) :
    threadStep logl b labels acc k = .ok
      { tmm := acc.tmm.set k (threadRange logl b s e)
        delta := (acc.delta.modify (e + 1) (· + -1)).modify (bAt b s + 1).toNat (· + 1) } := by
  have hs : s < b.length := by rw [← hlab]; exact (List.getElem?_eq_some_iff.mp h.start_mem).1
  have he : e < b.length := by rw [← hlab]; exact (List.getElem?_eq_some_iff.mp h.ends.1).1
  have hne : b ≠ [] := by rintro rfl; simp at hs
  have h0 := hb.zero hne
  have hbs := getElem?_bAt hs
  have hle : logl[e]? = some (logl[e]?.getD 0) := by
    rw [List.getElem?_eq_getElem (by omega)]; rfl
  unfold threadStep
  dsimp only
  rw [h.head, h.last, h0]
  dsimp only
  rw [hle, hbs]
  dsimp only
  by_cases hm : bAt b s = -1
  · rw [if_pos hm]
    simp [threadRange, hm, Int.sub_eq_add_neg]
  · have h1 := hb s _ hbs
    have hle2 : logl[(bAt b s).toNat]? = some (logl[(bAt b s).toNat]?.getD 0) := by
      rw [List.getElem?_eq_getElem (by omega)]; rfl
    rw [if_neg hm, if_neg (by omega)]
    rw [hle2]
    dsimp only
    have : (bAt b s + 1).toNat = (bAt b s).toNat + 1 := by omega
    simp [threadRange, hm, this, Int.sub_eq_add_neg]

theorem threadStepLoop_spec {logl : List K} {b : List Int} {labels : List Nat} (hb : BirthsValid b)
    (hl : logl.length = b.length) (hlab : labels.length = b.length) (st en : Nat → Nat)
    (labs : List Nat) (hth : ∀ k ∈ labs, ThreadAt b labels k (st k) (en k)) (hnd : labs.Nodup)
    (acc : ThreadAcc K) (hd : acc.delta.length = b.length + 1) :
    ∃ acc', threadStepLoop logl b labels labs acc = .ok acc' ∧
      acc'.tmm.length = acc.tmm.length ∧
      (∀ k, acc'.tmm[k]? = if k ∈ labs ∧ k < acc.tmm.length then
        some (threadRange logl b (st k) (en k)) else acc.tmm[k]?) ∧
      acc'.delta.length = acc.delta.length ∧
      ∀ m ≤ b.length, (acc'.delta.take (m + 1)).sum = (acc.delta.take (m + 1)).sum +
        (labs.map (fun k => (if bAt b (st k) < m then (1 : Int) else 0) -
          if en k < m then (1 : Int) else 0)).sum := by
  induction labs generalizing acc with
  | nil => exact ⟨acc, rfl, rfl, by simp, rfl, by simp⟩
  | cons k ks ih =>
    obtain ⟨hk, hnd'⟩ := List.nodup_cons.mp hnd
    have h := hth k (by simp)
    simp only [threadStepLoop]
    rw [threadStep_eq hb hl hlab h acc]
    dsimp only
    obtain ⟨acc', h1, h2, h3, h4, h5⟩ := ih (fun k' hk' => hth k' (by simp [hk'])) hnd'
      { tmm := acc.tmm.set k (threadRange logl b (st k) (en k))
        delta := (acc.delta.modify (en k + 1) (· + -1)).modify (bAt b (st k) + 1).toNat (· + 1) }
      (by simpa using hd)
    refine ⟨acc', h1, by simpa using h2, ?_, by simpa using h4, ?_⟩
    · intro j
      rw [h3]
      simp only [List.length_set, List.mem_cons]
      by_cases hj : j ∈ ks
      · by_cases hjl : j < acc.tmm.length
        · simp [hj, hjl]
        · rw [if_neg (by simp [hjl]), if_neg (by simp [hjl])]
          rw [List.getElem?_eq_none (by simpa using hjl), List.getElem?_eq_none (by simpa using hjl)]
      · rw [if_neg (by simp [hj])]
        by_cases hjk : j = k
        · subst hjk
          by_cases hjl : j < acc.tmm.length
          · rw [if_pos ⟨by simp, hjl⟩, List.getElem?_set_self hjl]
          · rw [if_neg (by simp [hjl])]
            rw [List.getElem?_eq_none (by simpa using hjl), List.getElem?_eq_none (by simpa using hjl)]
        · rw [if_neg (by simp [hjk, hj]), List.getElem?_set_ne (Ne.symm hjk)]
    · intro m hm
      rw [h5 m hm]
      dsimp only
      rw [sum_take_modify, sum_take_modify, List.map_cons, List.sum_cons]
      have hs : st k < b.length := by
        rw [← hlab]; exact (List.getElem?_eq_some_iff.mp h.start_mem).1
      have he : en k < b.length := by
        rw [← hlab]; exact (List.getElem?_eq_some_iff.mp h.ends.1).1
      have hv := hb _ _ (getElem?_bAt hs)
      have e1 : (en k + 1 < m + 1 ∧ en k + 1 < acc.delta.length) ↔ en k < m := by omega
      have e2 : ((bAt b (st k) + 1).toNat < m + 1 ∧
          (bAt b (st k) + 1).toNat < (acc.delta.modify (en k + 1) (· + -1)).length) ↔
          bAt b (st k) < m := by
        rw [List.length_modify, hd]; omega
      rw [if_congr e1 rfl rfl, if_congr e2 rfl rfl]
      split_ifs <;> ring

end Nestcheck
