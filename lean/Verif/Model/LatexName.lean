import Mathlib.Data.Real.Basic
import Mathlib.Data.List.DropRight
import Verif.Model.Py

/-
Model of `get_latex_name` (estimators.py:265-316).  Strings are built as lists of
characters.
-/

namespace Nestcheck

/-- The list of the characters of a string literal. -/
macro:max "chars!" s:str : term => do
  let cs := s.getString.toList.map (fun c => Lean.Syntax.mkCharLit c)
  `([$(cs.toArray),*])

noncomputable section

/-- The keyword arguments of `get_latex_name`, or those of a `functools.partial`: the three that are
known (for `handle_indexerror` only its presence matters) and the names of the others. -/
structure NameKwargs where
  paramInd : Option Int := none
  probability : Option ℝ := none
  handle : Bool := false
  other : List String := []

/-- `func_in`: the `__name__` of the function and, for a `functools.partial`, its keywords. -/
structure NamedFunc where
  name : String
  partial_ : Option NameKwargs := none

/-- `set(func_in.keywords) & set(kwargs)` is not empty (estimators.py:283). -/
def NameKwargs.overlap (a b : NameKwargs) : Bool :=
  (a.paramInd.isSome && b.paramInd.isSome) || (a.probability.isSome && b.probability.isSome) ||
    (a.handle && b.handle) || a.other.any (fun s => decide (s ∈ b.other))

/-- `kwargs.update(func_in.keywords)` (estimators.py:286). -/
def NameKwargs.update (a b : NameKwargs) : NameKwargs :=
  { paramInd := b.paramInd.or a.paramInd, probability := b.probability.or a.probability,
    handle := b.handle || a.handle, other := a.other ++ b.other }

/-- `str(i)` -/
def intChars : Int → List Char
  | .ofNat n => Nat.toDigits 10 n
  | .negSucc n => '-' :: Nat.toDigits 10 (n + 1)

/-- The six decimals of `'%f'`. -/
def sixDigits (k : Nat) : List Char :=
  [k / 100000 % 10, k / 10000 % 10, k / 1000 % 10, k / 100 % 10, k / 10 % 10, k % 10].map Nat.digitChar

/-- `'%f' % x` for a number that is printed as `m` millionths. -/
def formatF (m : Nat) : List Char :=
  Nat.toDigits 10 (m / 1000000) ++ '.' :: sixDigits (m % 1000000)

/-- `s.rstrip(c)` -/
def rstrip (c : Char) (s : List Char) : List Char := s.rdropWhile (fun x => x == c)

/-- `('%f' % (probability * 100)).rstrip('0').rstrip('.')` (estimators.py:307) -/
def percentStr (m : Nat) : List Char := rstrip '.' (rstrip '0' (formatF m))

/-- `ind_str` (estimators.py:294) -/
def indStr (ind : Int) : List Char := chars!"{\\hat{" ++ intChars (ind + 1) ++ chars!"}}"

/-- `cred_str` (estimators.py:303-308).  `millionths x` is the number of millionths printed by
`'%f' % x` (for `x ≥ 0`). -/
def credStr (millionths : ℝ → Nat) (p : ℝ) : List Char :=
  if p = 1 / 2 then chars!"$\\mathrm{median}("
  else chars!"$\\mathrm{C.I.}_{" ++ percentStr (millionths (p * 100)) ++ chars!"\\%}("

/-- `latex_name_dict` (estimators.py:295-310); `none` for a function that is not in it. -/
def latexNameDict (millionths : ℝ → Nat) (ind : Int) (p : ℝ) (name : String) : Option (List Char) :=
  if name = "count_samples" then some chars!"samples"
  else if name = "logz" then some chars!"$\\mathrm{log} \\mathcal{Z}$"
  else if name = "evidence" then some chars!"$\\mathcal{Z}$"
  else if name = "r_mean" then some chars!"$\\overline{|\\theta|}$"
  else if name = "param_mean" then some (chars!"$\\overline{\\theta_" ++ indStr ind ++ chars!"}$")
  else if name = "param_squared_mean" then some (chars!"$\\overline{\\theta^2_" ++ indStr ind ++ chars!"}$")
  else if name = "param_cred" then some (credStr millionths p ++ chars!"\\theta_" ++ indStr ind ++ chars!")$")
  else if name = "r_cred" then some (credStr millionths p ++ chars!"|\\theta|)$")
  else none

/-- The keyword arguments after `estimators.py:281-288`. -/
def mergeKwargs (func : NamedFunc) (kwargs : NameKwargs) : Py NameKwargs :=
  match func.partial_ with
  | some kw => if kw.overlap kwargs then .error .assertion else .ok (kwargs.update kw)
  | none => .ok kwargs

/-- `get_latex_name` (estimators.py:265-316). -/
def getLatexName (millionths : ℝ → Nat) (func : NamedFunc) (kwargs : NameKwargs) : Py String := do
  let kw ← mergeKwargs func kwargs                                    -- 281-288
  if kw.other ≠ [] then .error .type                                  -- 292
  else match latexNameDict millionths (kw.paramInd.getD 0) (kw.probability.getD (1 / 2)) func.name with
    | some s => .ok (String.ofList s)                                 -- 312
    | none => .error .key                                             -- 316

end
end Nestcheck
