import Verif.Proofs.Frame
import Verif.Props.ErrorAnalysis

/-
The functions of ns_run_utils and error_analysis only append to the list of warnings.
With independence of the random state: outcomes which are the same in every world.
-/

set_option linter.unusedSectionVars false

namespace Nestcheck
open Spec

theorem Frame.of_fixed {σ α : Type} {x : M σ α} (h : Fixed x) : Frame x := by
  obtain ⟨v, hv⟩ := h
  intro s ws
  rw [hv, hv]
  simp

section
variable {σ K α : Type} [CommRing K] [LinearOrder K] (R : Rng σ K)

theorem dictGivenRunArray_frame (rows : List (Row K)) (tmm : List (WithBot K × K)) :
    Frame (dictGivenRunArray rows tmm : M σ (Run K)) := by
  unfold dictGivenRunArray
  dsimp only
  split
  · exact .raise _
  · refine .bind (.assert _) fun _ => .bind (.ite (.bind (.warn _) fun _ => .pure _) (.pure _)) fun _ =>
      .bind (.assert _) fun _ => .bind (.assert _) fun _ => .pure _

theorem getThread_frame (rows : List (Row K)) (tmm : List (WithBot K × K)) (i : Nat) (lab : Int) :
    Frame (getThread rows tmm i lab : M σ (Run K)) := by
  unfold getThread
  dsimp only
  split
  · exact .bind (.assert _) fun _ => dictGivenRunArray_frame _ _
  · exact .raise _

theorem getRunThreads_frame (r : Run K) : Frame (getRunThreads r : M σ (List (Run K))) := by
  have hloop : ∀ (labs : List Int) (rows : List (Row K)) (tmm : List (WithBot K × K)) (i : Nat),
      Frame (getThreadsLoop rows tmm i labs : M σ (List (Run K))) := by
    intro labs rows tmm
    induction labs with
    | nil => intro i; exact .pure _
    | cons l ls ih => intro i; exact .bind (getThread_frame _ _ _ _) fun t => .bind (ih _) fun ts => .pure _
  unfold getRunThreads
  refine .bind (.lift _) fun rows => ?_
  split
  · exact .bind (.assert _) fun _ => hloop _ _ _ _
  · exact .raise _

theorem birthUpdate_warns (abp : Bool) (ss : List K) (rows : List (Row K)) :
    Frame (birthUpdate R abp ss rows) := by
  induction ss generalizing rows with
  | nil => exact .pure _
  | cons s ss ih =>
    unfold birthUpdate
    refine .bind (.ite (.assert _) (.pure _)) fun _ => .bind ?_ fun k => ih _
    split
    · exact .pure _
    · split
      · exact .pure _
      · exact .raise _
    · exact npChoice_frame R _

theorem combineThreads_frame (A : Argsort K) (threads : List (Run K)) (abp : Bool) :
    Frame (combineThreads A R threads abp) := by
  unfold combineThreads
  refine .bind (.lift _) fun tmm => .bind (.assert _) fun _ => .bind (.lift _) fun arrs =>
    .bind (.lift _) fun rows => .bind .getState fun st => .bind (npSeed_frame R 0) fun _ =>
    .bind (birthUpdate_warns R _ _ _) fun rows => .bind (.setState _) fun _ =>
    .bind (dictGivenRunArray_frame _ _) fun run => ?_
  split
  · exact .pure _
  · exact .pure _
  · exact .raise _

theorem npRandint_frame (lo hi : Nat) (n : Int) : Frame (npRandint R lo hi n) := by
  unfold npRandint
  exact .ite (.raise _) (.ite (.pure _) (.ite (.raise _) (.draw _)))

theorem bootstrapInds_frame (tmm : Option (List (WithBot K × K))) (settings : Option Settings) (n : Nat)
    (sep : Bool) : Frame (bootstrapInds R tmm settings n sep) := by
  unfold bootstrapInds
  split
  · split
    · unfold separateInds
      split
      · exact .raise _
      · exact .bind (.assert _) fun _ => .bind (npRandint_frame R _ _ _) fun _ =>
          .bind (npRandint_frame R _ _ _) fun _ => .pure _
    · exact .bind (.warn _) fun _ => npRandint_frame R _ _ _
  · exact npRandint_frame R _ _ _

theorem bootstrapResampleRun_frame (A : Argsort K) (r : Run K) (settings : Option Settings)
    (threads : Option (List (Run K))) (sep : Bool) (seed : Seed) :
    Frame (bootstrapResampleRun A R r settings threads sep seed) := by
  unfold bootstrapResampleRun
  refine .bind .getState fun st => .bind ?_ fun _ => .bind ?_ fun ts => .bind (bootstrapInds_frame R _ _ _ _) fun _ =>
    .bind (.lift _) fun _ => .bind (combineThreads_frame R A _ _) fun _ => .bind ?_ fun _ => .pure _
  · cases seed
    · exact .pure _
    · exact .setState _
    · exact npSeed_frame R _
  · cases threads
    · exact getRunThreads_frame r
    · exact .pure _
  · cases seed
    · exact .pure _
    · exact .setState _
    · exact .setState _

end

noncomputable section
variable {σ : Type} (A : Argsort ℝ) (R : Rng σ ℝ)

theorem runBootstrapValues_frame {fs : List (EstFunc σ)} (hf : ∀ f ∈ fs, Deterministic f) (r : Run ℝ)
    (settings : Option Settings) (n : Nat) (sep flip : Bool) (seeds : Option (List Seed)) :
    Frame (runBootstrapValues A R r settings fs n sep flip seeds) := by
  have hcols : ∀ (ts : List (Run ℝ)) (ss : List Seed), Frame (bootstrapColumns A R r settings ts sep fs ss) := by
    intro ts ss
    induction ss with
    | nil => exact .pure _
    | cons s ss ih =>
      exact .bind (bootstrapResampleRun_frame R A _ _ _ _ _) fun t =>
        .bind (.of_fixed (runEstimators_fixed R hf _)) fun _ => .bind ih fun _ => .pure _
  unfold runBootstrapValues
  exact .bind (.assert _) fun _ => .bind (getRunThreads_frame r) fun ts => .bind (hcols ts _) fun _ => .pure _

/-- A computation that only appends warnings and does not depend on the random state has the
same outcome in every world. -/
theorem outcome_const {α : Type} {x : M σ α} (h1 : Frame x) (h2 : RngIndependent x) (w w' : World σ) :
    (x w).1 = (x w').1 := by
  obtain ⟨s, ws⟩ := w
  obtain ⟨s', ws'⟩ := w'
  have e1 : (x ⟨s, ws⟩).1 = (x ⟨s, []⟩).1 := by rw [h1 s ws]
  have e2 : (x ⟨s', ws'⟩).1 = (x ⟨s', []⟩).1 := by rw [h1 s' ws']
  rw [e1, e2]
  exact (h2 s s' []).1

end
end Nestcheck
