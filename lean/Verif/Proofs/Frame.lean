import Verif.Model.DataProcessing

/-
Warnings are only ever appended: no modelled function reads those issued before.
-/

set_option linter.unusedSectionVars false

namespace Nestcheck

/-- The computation only appends to the list of warnings. -/
def Frame {σ α : Type} (x : M σ α) : Prop :=
  ∀ s ws, x ⟨s, ws⟩ = ((x ⟨s, []⟩).1, ⟨(x ⟨s, []⟩).2.rng, ws ++ (x ⟨s, []⟩).2.warns⟩)

namespace Frame
variable {σ α β : Type}

theorem pure (a : α) : Frame (Pure.pure a : M σ α) := fun s ws => by simp
theorem raise (e : PyErr) : Frame (M.raise e : M σ α) := fun s ws => by simp
theorem lift (x : Py α) : Frame (M.lift x : M σ α) := fun s ws => by simp
theorem warn (k : Warn) : Frame (M.warn k : M σ Unit) := fun s ws => by simp
theorem getState : Frame (M.getState : M σ σ) := fun s ws => by simp
theorem setState (s : σ) : Frame (M.setState s : M σ Unit) := fun s ws => by simp
theorem draw (f : σ → α × σ) : Frame (M.draw f : M σ α) := fun s ws => by simp
theorem assert (c : Bool) : Frame (M.assert c : M σ Unit) := fun s ws => by simp

theorem bind {x : M σ α} {f : α → M σ β} (hx : Frame x) (hf : ∀ a, Frame (f a)) :
    Frame (x >>= f) := by
  intro s ws
  rw [M.bind_apply, M.bind_apply, hx s ws]
  rcases x ⟨s, []⟩ with ⟨e | a, s', ws'⟩
  · simp
  · simp only
    rw [hf a s' (ws ++ ws'), hf a s' ws']
    simp

theorem ite {c : Prop} [Decidable c] {x y : M σ α} (hx : Frame x) (hy : Frame y) :
    Frame (if c then x else y) := by
  split_ifs <;> assumption

/-- If one call returned, so does every call in the same random state. -/
theorem ok {x : M σ α} (hx : Frame x) {s s' : σ} {ws' : List Warn} {a : α}
    (h : x ⟨s, []⟩ = (.ok a, ⟨s', ws'⟩)) (ws : List Warn) :
    x ⟨s, ws⟩ = (.ok a, ⟨s', ws ++ ws'⟩) := by
  rw [hx s ws, h]

end Frame

section
variable {σ K α : Type} [CommRing K] [LinearOrder K] (R : Rng σ K)

theorem npSeed_frame (k : Nat) : Frame (npSeed R k) := Frame.setState _

theorem npChoice_frame (xs : List α) : Frame (npChoice R xs) := by
  unfold npChoice
  refine Frame.ite (Frame.raise _) (Frame.bind (Frame.draw _) fun k => ?_)
  cases gather xs k with
  | nil => exact Frame.raise _
  | cons a as => exact Frame.pure _

theorem npChoiceN_frame (xs : List α) (n : Nat) : Frame (npChoiceN R xs n) := by
  unfold npChoiceN
  exact Frame.ite (Frame.raise _) (Frame.bind (Frame.draw _) fun k => Frame.pure _)

theorem npShuffle_frame (xs : List α) : Frame (npShuffle R xs) := by
  unfold npShuffle
  exact Frame.bind (Frame.draw _) fun k => Frame.pure _

theorem sampleLess_frame (choices cond : List Nat) : Frame (sampleLess R choices cond) := by
  unfold sampleLess
  generalize cond.take (min cond.length choices.length) = cs
  induction cs generalizing choices with
  | nil => exact Frame.pure _
  | cons c cs ih =>
    exact Frame.bind (npChoice_frame R _) fun k => Frame.bind (ih _) fun r => Frame.pure _

theorem dupBirthInds_frame (births : List K) (bl : K) (dd db : List Nat) :
    Frame (dupBirthInds R births bl dd db) := by
  unfold dupBirthInds
  refine Frame.bind (Frame.assert _) fun _ => Frame.bind
    (Frame.ite (npShuffle_frame R _) (sampleLess_frame R _ _)) fun inds =>
      Frame.ite (Frame.pure _) ?_
  exact Frame.bind (Frame.warn _) fun _ => Frame.bind (npChoiceN_frame R _ _) fun _ =>
    Frame.bind (npShuffle_frame R _) fun _ => Frame.pure _

theorem birthLoop_frame (births logls : List K) (pairs : List (Nat × K)) (acc : List (Option Int)) :
    Frame (birthLoop R births logls pairs acc) := by
  induction pairs generalizing acc with
  | nil => exact Frame.pure _
  | cons p rest ih =>
    obtain ⟨i, bl⟩ := p
    simp only [birthLoop]
    refine Frame.ite (ih _) ?_
    rcases whereIdx (fun x => decide (x = bl)) logls with _ | ⟨a, _ | ⟨a', as⟩⟩
    · exact Frame.bind (dupBirthInds_frame R _ _ _ _) fun _ => ih _
    · exact ih _
    · exact Frame.bind (dupBirthInds_frame R _ _ _ _) fun _ => ih _

theorem checkLogls_frame (A : Argsort K) (logl : List K) (da dw : Bool) :
    Frame (checkLogls A logl da dw : M σ Unit) := by
  unfold checkLogls
  refine Frame.bind (Frame.assert _) fun _ => Frame.ite ?_ (Frame.pure _)
  exact Frame.ite (Frame.assert _) (Frame.ite (Frame.ite (Frame.warn _) (Frame.pure _)) (Frame.pure _))

theorem birthInds_frame (A : Argsort K) (births logls : List K) (da dw : Bool) :
    Frame (birthInds A R births logls da dw) := by
  unfold birthInds
  refine Frame.bind (checkLogls_frame A _ _ _) fun _ => Frame.bind Frame.getState fun _ =>
    Frame.bind (npSeed_frame R 0) fun _ => ?_
  cases births with
  | nil => exact Frame.raise _
  | cons init rest =>
    refine Frame.bind (Frame.ite (Frame.raise _) (Frame.pure _)) fun _ =>
      Frame.bind (Frame.assert _) fun _ => ?_
    exact Frame.bind (birthLoop_frame R _ _ _ _) fun _ => Frame.bind (Frame.assert _) fun _ =>
      Frame.bind (Frame.setState _) fun _ => Frame.pure _

theorem leftoverLoop_frame (inds : List Nat) (L : List (Option Nat)) :
    Frame (leftoverLoop R inds L) := by
  induction inds generalizing L with
  | nil => exact Frame.pure _
  | cons i is ih => exact Frame.bind (npChoice_frame R _) fun _ => ih _

theorem threadsGivenBirthInds_frame (b : List Int) : Frame (threadsGivenBirthInds R b) := by
  unfold threadsGivenBirthInds
  refine Frame.bind (Frame.lift _) fun L => Frame.bind (Frame.ite (Frame.pure _) ?_) fun _ =>
    Frame.bind (Frame.assert _) fun _ => Frame.bind (Frame.assert _) fun _ => Frame.pure _
  exact Frame.bind (Frame.warn _) fun _ => Frame.bind Frame.getState fun _ =>
    Frame.bind (npSeed_frame R 0) fun _ => Frame.bind (leftoverLoop_frame R _ _) fun _ =>
      Frame.bind (Frame.setState _) fun _ => Frame.pure _

theorem processSamples_frame (A : Argsort K) (samples : List (Sample K)) (da dw : Bool) :
    Frame (processSamples A R samples da dw) := by
  unfold processSamples
  exact Frame.bind (birthInds_frame R A _ _ _ _) fun _ =>
    Frame.bind (threadsGivenBirthInds_frame R _) fun _ => Frame.bind (Frame.assert _) fun _ =>
      Frame.bind (Frame.lift _) fun _ => Frame.pure _

end
end Nestcheck
