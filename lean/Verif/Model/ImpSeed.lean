import Verif.Model.Kwargs

/-
nestcheck/error_analysis.py: `implementation_std` with random_seed=None.  `np.random.seed(None)` takes a new seed from the
operating system for each element; the seeds are a parameter.
-/

namespace Nestcheck
variable {σ : Type}

/-- `implementation_std` with random_seed=None (error_analysis.py:322-331), from element `i` on. -/
noncomputable def implementationStdOS (R : Rng σ ℝ) (N : NormalRng σ) (nsim : Nat) (entropy : Nat → Nat) :
    Nat → List (ℝ × ℝ × ℝ × ℝ) → M σ (List ImpRow)
  | _, [] => pure []
  | i, (v, vu, b, bu) :: xs => do
    let y ← implementationElt R N nsim (.os (entropy i)) v vu b bu
    let ys ← implementationStdOS R N nsim entropy (i + 1) xs
    pure (y :: ys)

/-- `implementation_std` (error_analysis.py:267-332) with keyword arguments, random_seed=None among them. -/
noncomputable def implementationStdKwOS (R : Rng σ ℝ) (N : NormalRng σ) (entropy : Nat → Nat) (rows : List (ℝ × ℝ × ℝ × ℝ))
    (kw : Kwargs) : M σ (List ImpRow) := do
  let nsim := kw.get "nsim" (.nat 1000000)                            -- 307
  let kw := kw.without "nsim"
  let seed := kw.get "random_seed" (.nat 0)                           -- 308
  let kw := kw.without "random_seed"
  M.lift (noneLeft kw)                                                -- 309
  let nsim ← M.lift nsim.toNat
  match seed with
  | .none => implementationStdOS R N nsim entropy 0 rows
  | seed => do
    let seed ← M.lift seed.toNat
    implementationStd R N nsim (.num seed) rows

end Nestcheck
