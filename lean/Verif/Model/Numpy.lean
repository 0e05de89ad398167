import Mathlib.Order.WithBot
import Mathlib.Algebra.Order.Ring.Defs
import Mathlib.Algebra.Order.Group.Abs
import Mathlib.Data.List.Sort
import Mathlib.Data.List.Dedup
import Verif.Model.Py

/-
The numpy operations used by nestcheck, on lists.  Operations whose result
numpy leaves open (the order of ties in `argsort`, random draws) are parameters
with a contract.
-/

namespace Nestcheck

/-- Contract of `np.argsort` (default kind, so ties may come out in any order):
the indexes of the array, permuted so that the array becomes ascending. -/
structure Argsort (K : Type) [LinearOrder K] where
  idx : List K → List Nat
  perm : ∀ l, (idx l).Perm (List.range l.length)
  sorted : ∀ l, ((idx l).filterMap (l[·]?)).Pairwise (· ≤ ·)

/-- `a[inds]` for an array `a` and an array of indexes. -/
def gather {α : Type} (xs : List α) (inds : List Nat) : List α :=
  inds.filterMap (xs[·]?)

/-- `rows[np.argsort(rows[:, col])]` -/
def sortBy {K α : Type} [LinearOrder K] (A : Argsort K) (key : α → K) (rows : List α) : List α :=
  gather rows (A.idx (rows.map key))

/-- `np.where(mask)[0]` where the mask is `p` applied elementwise. -/
def whereIdx {α : Type} (p : α → Bool) (xs : List α) : List Nat :=
  (List.range xs.length).filter (fun i => (xs[i]?).any p)

/-- `np.unique(a)`: the distinct values in ascending order. -/
def unique {α : Type} [LinearOrder α] (xs : List α) : List α :=
  (xs.insertionSort (· ≤ ·)).dedup

/-- `np.cumsum(a)` -/
def cumsumFrom {α : Type} [Add α] (acc : α) : List α → List α
  | [] => []
  | x :: xs => (acc + x) :: cumsumFrom (acc + x) xs

def cumsum {α : Type} [Add α] [Zero α] (xs : List α) : List α := cumsumFrom 0 xs

/-- `np.diff(a)` -/
def diff {α : Type} [Sub α] (xs : List α) : List α :=
  List.zipWith (fun a b => b - a) xs xs.tail

/-- `a.min()`; `none` for an empty array, on which numpy raises `ValueError`. -/
def amin {α : Type} [LinearOrder α] : List α → Option α
  | [] => none
  | x :: xs => some (xs.foldl min x)

/-- `a.max()`; `none` for an empty array, on which numpy raises `ValueError`. -/
def amax {α : Type} [LinearOrder α] : List α → Option α
  | [] => none
  | x :: xs => some (xs.foldl max x)

/-- `np.argmin(a)`: index of the first occurrence of the minimum. -/
def argmin {α : Type} [LinearOrder α] (xs : List α) : Option Nat :=
  (amin xs).map (fun m => xs.findIdx (· = m))

/-- `a[inds] = vals` (index assignment in order, equal lengths). -/
def assignAt {α : Type} (xs : List α) (inds : List Nat) (vals : List α) : List α :=
  (inds.zip vals).foldl (fun acc iv => acc.set iv.1 iv.2) xs

/-- Contract of the `numpy.random` functions used by nestcheck.  `σ` is the type
of random states; every draw is a function of the state, returns values in the
documented range and yields the next state. -/
structure Rng (σ K : Type) [LinearOrder K] [Zero K] [One K] where
  /-- `np.random.seed(n)` -/
  seed : Nat → σ
  /-- `np.random.seed(None)`: the state depends on entropy from the OS -/
  seedOS : Nat → σ
  /-- `np.random.randint(lo, hi, size)` -/
  randint : Nat → Nat → Nat → σ → List Nat × σ
  randint_length : ∀ lo hi n s, (randint lo hi n s).1.length = n
  randint_range : ∀ lo hi n s, lo < hi → ∀ x ∈ (randint lo hi n s).1, lo ≤ x ∧ x < hi
  /-- the permutation applied by `np.random.shuffle` to an array of length `n` -/
  shuffle : Nat → σ → List Nat × σ
  shuffle_perm : ∀ n s, (shuffle n s).1.Perm (List.range n)
  /-- `np.random.random(n)`: uniform draws from `[0, 1)` -/
  uniform : Nat → σ → List K × σ
  uniform_length : ∀ n s, (uniform n s).1.length = n
  uniform_range : ∀ n s, ∀ x ∈ (uniform n s).1, 0 ≤ x ∧ x < 1

section random
variable {σ K α : Type} [LinearOrder K] [Zero K] [One K]

/-- `np.random.seed(n)` -/
def npSeed (R : Rng σ K) (n : Nat) : M σ Unit := M.setState (R.seed n)

/-- `np.random.choice(a)`: one element; `ValueError` when `a` is empty. -/
def npChoice (R : Rng σ K) (xs : List α) : M σ α :=
  if xs.isEmpty then M.raise .value else do
    let k ← M.draw (R.randint 0 xs.length 1)
    match gather xs k with
    | x :: _ => pure x
    | [] => M.raise .value

/-- `np.random.choice(a, size=n)`: with replacement. -/
def npChoiceN (R : Rng σ K) (xs : List α) (n : Nat) : M σ (List α) :=
  if xs.isEmpty then M.raise .value else do
    let k ← M.draw (R.randint 0 xs.length n)
    pure (gather xs k)

/-- `np.random.shuffle(a)`, returning the shuffled array. -/
def npShuffle (R : Rng σ K) (xs : List α) : M σ (List α) := do
  let p ← M.draw (R.shuffle xs.length)
  pure (gather xs p)

end random
end Nestcheck
