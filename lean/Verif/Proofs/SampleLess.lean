import Verif.Model.DataProcessing
import Verif.Proofs.Random

namespace Nestcheck
variable {σ K : Type} [CommRing K] [LinearOrder K] (R : Rng σ K)

/-- `out` uses elements of `choices`, each at most as often as it occurs, and
meets the condition position by position. -/
def Allocation (choices condition out : List Nat) : Prop :=
  List.Forall₂ (· < ·) out condition ∧ out.Subperm choices

theorem perm_cons_eraseIdx {α : Type} {xs : List α} {k : Nat} {x : α} (h : xs[k]? = some x) :
    xs.Perm (x :: xs.eraseIdx k) := by
  induction xs generalizing k with
  | nil => simp at h
  | cons a as ih =>
    cases k with
    | zero => simp at h; simp [h]
    | succ k =>
      simp only [List.getElem?_cons_succ] at h
      simp only [List.eraseIdx_cons_succ]
      exact ((ih h).cons a).trans (List.Perm.swap x a _)

/-- Exchange argument: any choice below the first (lowest) bound can be used
there without losing solvability. -/
theorem allocation_exchange {choices cs os : List Nat} {c o x : Nat} {rest : List Nat}
    (hsort : ∀ c' ∈ cs, c ≤ c') (hp : choices.Perm (x :: rest))
    (h : Allocation choices (c :: cs) (o :: os)) : ∃ os', Allocation rest cs os' := by
  obtain ⟨h1, h2⟩ := h
  obtain ⟨hoc, hf⟩ := List.forall₂_cons.mp h1
  have h2' : (o :: os).Subperm (x :: rest) := h2.trans hp.subperm
  by_cases hx : x ∈ os
  · obtain ⟨p, hp', hpx⟩ := List.mem_iff_getElem.mp hx
    refine ⟨os.set p o, ?_, ?_⟩
    · rw [List.forall₂_iff_get] at hf ⊢
      refine ⟨by simpa using hf.1, ?_⟩
      intro i hi1 hi2
      have hi1' : i < os.length := by simpa using hi1
      have hfi := hf.2 i hi1' hi2
      simp only [List.get_eq_getElem, List.getElem_set] at hfi ⊢
      split_ifs with hpi
      · exact lt_of_lt_of_le hoc (hsort _ (List.getElem_mem _))
      · exact hfi
    · have hperm : (o :: os).Perm (x :: os.set p o) := by
        have e1 := perm_cons_eraseIdx (xs := os) (k := p) (x := x)
          (by rw [List.getElem?_eq_getElem hp', hpx])
        have e2 := perm_cons_eraseIdx (xs := os.set p o) (k := p) (x := o)
          (by rw [List.getElem?_set_self hp'])
        rw [List.eraseIdx_set_eq] at e2
        exact ((e1.cons o).trans (List.Perm.swap x o _)).trans ((e2.symm).cons x)
      have := hperm.symm.subperm.trans h2'
      exact List.subperm_cons x |>.mp this
  · refine ⟨os, hf, ?_⟩
    by_cases hox : o = x
    · subst hox; exact (List.subperm_cons o).mp h2'
    · have hx' : x ∉ o :: os := by simp [hx, Ne.symm hox]
      have : (o :: os).Subperm rest := by
        have := h2'.erase x
        rwa [List.erase_of_not_mem hx', List.erase_cons_head] at this
      exact (List.sublist_cons_self o os).subperm.trans this

theorem sampleLessLoop_spec (cs choices : List Nat) (hs : cs.Pairwise (· ≤ ·)) (w : World σ) :
    (∃ out s, sampleLessLoop R cs choices w = (.ok out, { w with rng := s }) ∧
      Allocation choices cs out) ∨
    (∃ s, sampleLessLoop R cs choices w = (.error .value, { w with rng := s }) ∧
      ¬ ∃ out, Allocation choices cs out) := by
  induction cs generalizing choices w with
  | nil =>
    left
    exact ⟨[], w.rng, rfl, List.Forall₂.nil, List.nil_subperm⟩
  | cons c cs ih =>
    obtain ⟨hs1, hs2⟩ := List.pairwise_cons.mp hs
    simp only [sampleLessLoop]
    by_cases hav : whereIdx (fun x => decide (x < c)) choices = []
    · right
      rw [hav]
      refine ⟨w.rng, rfl, ?_⟩
      rintro ⟨out, hf, hsub⟩
      cases hf with
      | @cons o _ os _ ho hos =>
        have : o ∈ choices := hsub.subset (by simp)
        obtain ⟨i, hi⟩ := List.mem_iff_getElem?.mp this
        have : i ∈ whereIdx (fun x => decide (x < c)) choices :=
          mem_whereIdx.mpr ⟨o, hi, by simpa using ho⟩
        rw [hav] at this; simp at this
    · obtain ⟨k, hk, hch⟩ := npChoice_spec R hav w
      obtain ⟨x, hx, hxc⟩ := mem_whereIdx.mp hk
      have hp := perm_cons_eraseIdx hx
      rw [M.bind_ok hch]
      rcases ih (choices.eraseIdx k) hs2
        { w with rng := (R.randint 0 (whereIdx (fun x => decide (x < c)) choices).length 1 w.rng).2 }
        with ⟨out, s, h1, h2⟩ | ⟨s, h1, h2⟩
      · left
        refine ⟨x :: out, s, ?_, ?_, ?_⟩
        · rw [M.bind_ok h1, hx]; rfl
        · exact List.Forall₂.cons (by simpa using hxc) h2.1
        · exact ((List.subperm_cons x).mpr h2.2).trans hp.symm.subperm
      · right
        refine ⟨s, ?_, ?_⟩
        · rw [M.bind_error h1]
        · rintro ⟨out, hall⟩
          cases hall.1 with
          | cons ho hos =>
            exact h2 (allocation_exchange hs1 hp hall)

end Nestcheck
