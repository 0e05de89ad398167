import Mathlib.Data.List.Rotate
import Verif.Model.Numpy

/-
Concrete implementations of the numpy contracts, showing that the contracts can
be met; used in the examples next to the theorems.
-/

namespace Nestcheck

/-- Comparison of two positions of an array. -/
def leAt {K : Type} [LinearOrder K] (l : List K) (i j : Nat) : Bool :=
  match l[i]?, l[j]? with
  | none, _ => true
  | some _, none => false
  | some a, some b => decide (a ≤ b)

/-- Insertion sort of positions by the values of an array. -/
def sortIdx {K : Type} [LinearOrder K] (l : List K) (inds : List Nat) : List Nat :=
  inds.insertionSort (fun i j => leAt l i j = true)

theorem sortIdx_sorted {K : Type} [LinearOrder K] (l : List K) (inds : List Nat) :
    ((sortIdx l inds).filterMap (l[·]?)).Pairwise (· ≤ ·) := by
  rw [List.pairwise_filterMap]
  have : (sortIdx l inds).Pairwise (fun i j => leAt l i j = true) := by
    have : Std.Total (fun i j : Nat => leAt l i j = true) := by
      refine ⟨fun a b => ?_⟩
      unfold leAt
      rcases l[a]? with _ | x <;> rcases l[b]? with _ | y <;> simp [le_total]
    have : IsTrans Nat (fun i j : Nat => leAt l i j = true) := by
      refine ⟨fun a b c => ?_⟩
      unfold leAt
      rcases l[a]? with _ | x <;> rcases l[b]? with _ | y <;> rcases l[c]? with _ | z <;>
        simp
      exact le_trans
    exact List.pairwise_insertionSort _ _
  refine this.imp ?_
  intro i j h a ha b hb
  simpa [leAt, Option.mem_def.mp ha, Option.mem_def.mp hb] using h

/-- A stable sort as an `argsort`. -/
def stableSort (K : Type) [LinearOrder K] : Argsort K where
  idx l := sortIdx l (List.range l.length)
  perm _ := List.perm_insertionSort _ _
  sorted _ := sortIdx_sorted _ _

/-- A sort which reverses ties as an `argsort`. -/
def antistableSort (K : Type) [LinearOrder K] : Argsort K where
  idx l := sortIdx l (List.range l.length).reverse
  perm _ := (List.perm_insertionSort _ _).trans (List.reverse_perm _)
  sorted _ := sortIdx_sorted _ _

/-- A counter as a random number generator. -/
def counterRng (K : Type) [LinearOrder K] [Zero K] [One K] (h : (0 : K) < 1) : Rng Nat K where
  seed n := n
  seedOS n := n
  randint lo hi n s := ((List.range n).map (fun i => lo + (s + i) % (hi - lo)), s + n)
  randint_length := by simp
  randint_range := by
    intro lo hi n s h x hx
    simp only [List.mem_map] at hx
    obtain ⟨i, -, rfl⟩ := hx
    have := Nat.mod_lt (s + i) (y := hi - lo) (by omega)
    omega
  shuffle n s := ((List.range n).rotate s, s + 1)
  shuffle_perm := fun n s => List.rotate_perm _ _
  uniform n s := (List.replicate n 0, s + n)
  uniform_length := by simp
  uniform_range := by
    intro n s x hx
    rw [List.eq_of_mem_replicate hx]
    exact ⟨le_rfl, h⟩

end Nestcheck
