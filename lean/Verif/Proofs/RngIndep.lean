import Verif.Spec.Rng

/-! Composition rules for `RngIndependent` and `RngRestored`. -/

namespace Nestcheck

variable {σ α β : Type}

namespace Spec

theorem RngIndependent.pure (a : α) : RngIndependent (Pure.pure a : M σ α) :=
  fun _ _ _ => ⟨rfl, rfl⟩
theorem RngIndependent.raise (e : PyErr) : RngIndependent (M.raise e : M σ α) :=
  fun _ _ _ => ⟨rfl, rfl⟩
theorem RngIndependent.lift (x : Py α) : RngIndependent (M.lift x : M σ α) :=
  fun _ _ _ => ⟨rfl, rfl⟩
theorem RngIndependent.warn (x : Warn) : RngIndependent (M.warn x : M σ Unit) :=
  fun _ _ _ => ⟨rfl, rfl⟩
theorem RngIndependent.assert (b : Bool) : RngIndependent (M.assert b : M σ Unit) := by
  intro s s' ws; cases b <;> exact ⟨rfl, rfl⟩

theorem RngIndependent.bind {x : M σ α} {f : α → M σ β} (hx : RngIndependent x)
    (hf : ∀ a, RngIndependent (f a)) : RngIndependent (x >>= f) := by
  intro s s' ws
  have h := hx s s' ws
  rw [M.bind_apply, M.bind_apply]
  rcases e1 : x ⟨s, ws⟩ with ⟨x1, s1, ws1⟩
  rcases e2 : x ⟨s', ws⟩ with ⟨x2, s2, ws2⟩
  rw [e1, e2] at h
  obtain ⟨h1, h2⟩ := h
  dsimp only at h1 h2
  subst h1 h2
  cases x1 with
  | error e => exact ⟨rfl, rfl⟩
  | ok b => exact hf b s1 s2 ws1

theorem RngIndependent.ite {c : Prop} [Decidable c] {x y : M σ α} (hx : RngIndependent x)
    (hy : RngIndependent y) : RngIndependent (if c then x else y) := by
  split <;> assumption

theorem RngRestored.pure (a : α) : RngRestored (Pure.pure a : M σ α) := by
  intro w a' w' h; rw [← show _ = w' from congrArg Prod.snd h]; rfl
theorem RngRestored.raise (e : PyErr) : RngRestored (M.raise e : M σ α) := by
  intro w a' w' h; simp at h
theorem RngRestored.lift (x : Py α) : RngRestored (M.lift x : M σ α) := by
  intro w a' w' h; rw [← show _ = w' from congrArg Prod.snd h, M.lift_apply]
theorem RngRestored.warn (x : Warn) : RngRestored (M.warn x : M σ Unit) := by
  intro w a' w' h; rw [← show _ = w' from congrArg Prod.snd h, M.warn_apply]
theorem RngRestored.assert (b : Bool) : RngRestored (M.assert b : M σ Unit) := by
  intro w a' w' h; rw [← show _ = w' from congrArg Prod.snd h, M.assert_apply]

theorem RngRestored.bind {x : M σ α} {f : α → M σ β} (hx : RngRestored x)
    (hf : ∀ a, RngRestored (f a)) : RngRestored (x >>= f) := by
  intro w b w' h
  obtain ⟨a, w1, h1, h2⟩ := M.bind_eq_ok.mp h
  rw [hf a _ _ _ h2, hx _ _ _ h1]

theorem RngRestored.ite {c : Prop} [Decidable c] {x y : M σ α} (hx : RngRestored x)
    (hy : RngRestored y) : RngRestored (if c then x else y) := by
  split <;> assumption

end Spec
end Nestcheck
