import Verif.Model.LatexName
import Verif.Props.Distances

/-!
# C59: estimator names distinguish estimators
-/

namespace Nestcheck
open Spec

noncomputable section

/-! ### Specification -/

/-- What a built-in estimator estimates, as far as it is to be seen from its name: a quantile other than
the median is given in percent, to `m` millionths. -/
inductive Spec.Quantity where
  | samples | logEvidence | evidence | meanRadius
  | mean (ind : Int) | meanSquare (ind : Int)
  | median (ind : Int) | quantile (m : Nat) (ind : Int)
  | medianRadius | quantileRadius (m : Nat)

/-- The quantity estimated by the function of the given name with the given parameter index and
probability. -/
def Spec.quantity (millionths : ℝ → Nat) (name : String) (ind : Int) (p : ℝ) : Option Quantity :=
  if name = "count_samples" then some .samples
  else if name = "logz" then some .logEvidence
  else if name = "evidence" then some .evidence
  else if name = "r_mean" then some .meanRadius
  else if name = "param_mean" then some (.mean ind)
  else if name = "param_squared_mean" then some (.meanSquare ind)
  else if name = "param_cred" then
    some (if p = 1 / 2 then .median ind else .quantile (millionths (p * 100)) ind)
  else if name = "r_cred" then some (if p = 1 / 2 then .medianRadius else .quantileRadius (millionths (p * 100)))
  else none

/-- The names of the functions that have a latex name. -/
def Spec.namedEstimators : List String :=
  ["count_samples", "logz", "evidence", "r_mean", "param_mean", "param_squared_mean", "param_cred", "r_cred"]

/-- The value of a keyword argument given in the call or in the `functools.partial`, with its default. -/
def Spec.argument {α : Type} (get : NameKwargs → Option α) (default : α) (func : NamedFunc) (kwargs : NameKwargs) : α :=
  (((func.partial_.bind get).or (get kwargs))).getD default

/-- A keyword is given both in the call and in the `functools.partial`. -/
def Spec.Repeated (func : NamedFunc) (kwargs : NameKwargs) : Prop :=
  ∃ kw, func.partial_ = some kw ∧
    ((kw.paramInd ≠ none ∧ kwargs.paramInd ≠ none) ∨ (kw.probability ≠ none ∧ kwargs.probability ≠ none) ∨
     (kw.handle = true ∧ kwargs.handle = true) ∨ ∃ s ∈ kw.other, s ∈ kwargs.other)

/-- An unknown keyword is given. -/
def Spec.Unexpected (func : NamedFunc) (kwargs : NameKwargs) : Prop :=
  kwargs.other ≠ [] ∨ ∃ kw, func.partial_ = some kw ∧ kw.other ≠ []

/-! ### Numbers in names -/

theorem digit_of_mem {n : Nat} {c : Char} (h : c ∈ Nat.toDigits 10 n) : c.isDigit = true :=
  Nat.isDigit_of_mem_toDigits (by decide) (by decide) h

theorem toDigits_ne_nil (n : Nat) : Nat.toDigits 10 n ≠ [] := by
  intro h
  have : 0 < (Nat.toDigits 10 n).length := Nat.length_toDigits_pos
  rw [h] at this
  simp at this

theorem intChars_inj {i j : Int} (h : intChars i = intChars j) : i = j := by
  have hm : ∀ n : Nat, ∀ m : Nat, Nat.toDigits 10 n ≠ '-' :: Nat.toDigits 10 m := by
    intro n m h
    have : ('-' : Char) ∈ Nat.toDigits 10 n := by rw [h]; exact List.mem_cons_self
    exact absurd (digit_of_mem this) (by decide)
  cases i with
  | ofNat n =>
    cases j with
    | ofNat m => rw [toDigits_inj h]
    | negSucc m => exact absurd h (hm _ _)
  | negSucc n =>
    cases j with
    | ofNat m => exact absurd h.symm (hm _ _)
    | negSucc m =>
      simp only [intChars, List.cons.injEq, true_and] at h
      have := toDigits_inj h
      congr 1; omega

theorem intChars_mem {i : Int} {c : Char} (h : c ∈ intChars i) : c.isDigit = true ∨ c = '-' := by
  cases i with
  | ofNat n => exact Or.inl (digit_of_mem h)
  | negSucc n =>
    rcases List.mem_cons.mp h with h | h
    · exact Or.inr h
    · exact Or.inl (digit_of_mem h)

theorem digitChar_inj {a b : Nat} (ha : a < 10) (hb : b < 10) (h : Nat.digitChar a = Nat.digitChar b) : a = b := by
  interval_cases a <;> interval_cases b <;> first | rfl | (revert h; decide)

theorem digitChar_digit {a : Nat} (ha : a < 10) : (Nat.digitChar a).isDigit = true := by
  interval_cases a <;> decide

theorem sixDigits_inj {a b : Nat} (ha : a < 1000000) (hb : b < 1000000) (h : sixDigits a = sixDigits b) : a = b := by
  unfold sixDigits at h
  simp only [List.map_cons, List.map_nil, List.cons.injEq, and_true] at h
  obtain ⟨h1, h2, h3, h4, h5, h6⟩ := h
  have e1 := digitChar_inj (by omega) (by omega) h1
  have e2 := digitChar_inj (by omega) (by omega) h2
  have e3 := digitChar_inj (by omega) (by omega) h3
  have e4 := digitChar_inj (by omega) (by omega) h4
  have e5 := digitChar_inj (by omega) (by omega) h5
  have e6 := digitChar_inj (by omega) (by omega) h6
  omega

theorem sixDigits_mem {a : Nat} {c : Char} (h : c ∈ sixDigits a) : c.isDigit = true := by
  unfold sixDigits at h
  obtain ⟨d, hd, rfl⟩ := List.mem_map.mp h
  apply digitChar_digit
  simp only [List.mem_cons, List.not_mem_nil, or_false] at hd
  omega

/-! ### `rstrip` -/

theorem rstrip_append_of_ne {c : Char} {a b : List Char} (h : rstrip c b ≠ []) : rstrip c (a ++ b) = a ++ rstrip c b := by
  induction b using List.reverseRecOn with
  | nil => exact absurd rfl h
  | append_singleton b x ih =>
    unfold rstrip at *
    rw [← List.append_assoc, List.rdropWhile_concat, List.rdropWhile_concat]
    split
    · rename_i hx
      rw [List.rdropWhile_concat, if_pos hx] at h
      exact ih h
    · rw [List.append_assoc]

theorem rstrip_append_of_nil {c : Char} {a b : List Char} (h : rstrip c b = []) : rstrip c (a ++ b) = rstrip c a := by
  induction b using List.reverseRecOn with
  | nil => simp
  | append_singleton b x ih =>
    unfold rstrip at *
    rw [List.rdropWhile_concat] at h
    split at h
    · rename_i hx
      rw [← List.append_assoc, List.rdropWhile_concat, if_pos hx]
      exact ih h
    · simp at h

/-- `rstrip` only removes copies of the character. -/
theorem rstrip_spec (c : Char) (s : List Char) : ∃ k, s = rstrip c s ++ List.replicate k c := by
  induction s using List.reverseRecOn with
  | nil => exact ⟨0, rfl⟩
  | append_singleton s x ih =>
    unfold rstrip at *
    rw [List.rdropWhile_concat]
    split
    · rename_i hx
      obtain ⟨k, hk⟩ := ih
      refine ⟨k + 1, ?_⟩
      rw [List.replicate_succ', ← List.append_assoc, ← hk]
      simpa using hx
    · exact ⟨0, by simp⟩

theorem rstrip_none {c : Char} {s : List Char} (h : c ∉ s) : rstrip c s = s := by
  obtain ⟨k, hk⟩ := rstrip_spec c s
  cases k with
  | zero => simpa using hk.symm
  | succ k => exact absurd (by rw [hk, List.replicate_succ']; simp) h

/-- The percentage without trailing zeros. -/
theorem percentStr_eq (m : Nat) : percentStr m =
    if rstrip '0' (sixDigits (m % 1000000)) = [] then Nat.toDigits 10 (m / 1000000)
    else Nat.toDigits 10 (m / 1000000) ++ '.' :: rstrip '0' (sixDigits (m % 1000000)) := by
  unfold percentStr formatF
  have hd : '.' ∉ Nat.toDigits 10 (m / 1000000) := fun h => absurd (digit_of_mem h) (by decide)
  have e1 : ∀ f : List Char, rstrip '0' ('.' :: f) = '.' :: rstrip '0' f := by
    intro f
    by_cases h : rstrip '0' f = []
    · rw [h]
      have := rstrip_append_of_nil (a := ['.']) h
      rw [List.singleton_append] at this
      rw [this]; decide
    · exact rstrip_append_of_ne (a := ['.']) h
  rw [rstrip_append_of_ne (by rw [e1]; simp), e1]
  split
  · rename_i h
    rw [h, rstrip_append_of_nil (by decide), rstrip_none hd]
  · rename_i h
    have hno : '.' ∉ rstrip '0' (sixDigits (m % 1000000)) := by
      intro h'
      obtain ⟨k, hk⟩ := rstrip_spec '0' (sixDigits (m % 1000000))
      have : '.' ∈ sixDigits (m % 1000000) := by rw [hk]; exact List.mem_append_left _ h'
      exact absurd (sixDigits_mem this) (by decide)
    have e2 : rstrip '.' ('.' :: rstrip '0' (sixDigits (m % 1000000))) = '.' :: rstrip '0' (sixDigits (m % 1000000)) := by
      have := rstrip_append_of_ne (a := ['.']) (c := '.') (b := rstrip '0' (sixDigits (m % 1000000)))
        (by rw [rstrip_none hno]; exact h)
      rwa [rstrip_none hno] at this
    rw [rstrip_append_of_ne (by rw [e2]; simp), e2]

/-- Removing trailing zeros (and the point) loses nothing. -/
theorem percentStr_inj {m n : Nat} (h : percentStr m = percentStr n) : m = n := by
  have hd : ∀ k, '.' ∉ Nat.toDigits 10 k := fun k h => absurd (digit_of_mem h) (by decide)
  have hsix : ∀ a b : Nat, rstrip '0' (sixDigits (a % 1000000)) = rstrip '0' (sixDigits (b % 1000000)) →
      a % 1000000 = b % 1000000 := by
    intro a b hab
    apply sixDigits_inj (by omega) (by omega)
    obtain ⟨k, hk⟩ := rstrip_spec '0' (sixDigits (a % 1000000))
    obtain ⟨l, hl⟩ := rstrip_spec '0' (sixDigits (b % 1000000))
    have e1 := congrArg List.length hk
    have e2 := congrArg List.length hl
    rw [hab] at e1
    simp only [sixDigits, List.length_map, List.length_cons, List.length_nil, List.length_append,
      List.length_replicate] at e1 e2
    have : k = l := by omega
    rw [hk, hl, hab, this]
  rw [percentStr_eq, percentStr_eq] at h
  split at h
  · rename_i h1
    split at h
    · rename_i h2
      have e1 := toDigits_inj h
      have e2 := hsix m n (by rw [h1, h2])
      omega
    · exact absurd (by rw [h]; simp) (hd (m / 1000000))
  · split at h
    · exact absurd (by rw [← h]; simp) (hd (n / 1000000))
    · obtain ⟨h1, h2⟩ := append_sep_inj (hd _) (hd _) h
      have e1 := toDigits_inj h1
      have e2 := hsix m n h2
      omega

theorem percentStr_mem {m : Nat} {c : Char} (h : c ∈ percentStr m) : c.isDigit = true ∨ c = '.' := by
  rw [percentStr_eq] at h
  split at h
  · exact Or.inl (digit_of_mem h)
  · rcases List.mem_append.mp h with h | h
    · exact Or.inl (digit_of_mem h)
    · rcases List.mem_cons.mp h with h | h
      · exact Or.inr h
      · obtain ⟨k, hk⟩ := rstrip_spec '0' (sixDigits (m % 1000000))
        exact Or.inl (sixDigits_mem (by rw [hk]; exact List.mem_append_left _ h))

/-! ### Names -/

/-- The name of a quantity. -/
def quantityName : Quantity → List Char
  | .samples => chars!"samples"
  | .logEvidence => chars!"$\\mathrm{log} \\mathcal{Z}$"
  | .evidence => chars!"$\\mathcal{Z}$"
  | .meanRadius => chars!"$\\overline{|\\theta|}$"
  | .mean ind => chars!"$\\overline{\\theta_" ++ indStr ind ++ chars!"}$"
  | .meanSquare ind => chars!"$\\overline{\\theta^2_" ++ indStr ind ++ chars!"}$"
  | .median ind => chars!"$\\mathrm{median}(" ++ chars!"\\theta_" ++ indStr ind ++ chars!")$"
  | .quantile m ind => chars!"$\\mathrm{C.I.}_{" ++ percentStr m ++ chars!"\\%}(" ++ chars!"\\theta_" ++ indStr ind ++
      chars!")$"
  | .medianRadius => chars!"$\\mathrm{median}(" ++ chars!"|\\theta|)$"
  | .quantileRadius m => chars!"$\\mathrm{C.I.}_{" ++ percentStr m ++ chars!"\\%}(" ++ chars!"|\\theta|)$"

theorem latexNameDict_eq (millionths : ℝ → Nat) (ind : Int) (p : ℝ) (name : String) :
    latexNameDict millionths ind p name = (quantity millionths name ind p).map quantityName := by
  unfold latexNameDict quantity
  by_cases h : name = "count_samples"
  · rw [if_pos h, if_pos h]; rfl
  rw [if_neg h, if_neg h]
  by_cases h : name = "logz"
  · rw [if_pos h, if_pos h]; rfl
  rw [if_neg h, if_neg h]
  by_cases h : name = "evidence"
  · rw [if_pos h, if_pos h]; rfl
  rw [if_neg h, if_neg h]
  by_cases h : name = "r_mean"
  · rw [if_pos h, if_pos h]; rfl
  rw [if_neg h, if_neg h]
  by_cases h : name = "param_mean"
  · rw [if_pos h, if_pos h]; rfl
  rw [if_neg h, if_neg h]
  by_cases h : name = "param_squared_mean"
  · rw [if_pos h, if_pos h]; rfl
  rw [if_neg h, if_neg h]
  by_cases h : name = "param_cred"
  · rw [if_pos h, if_pos h, credStr]
    by_cases hp : p = 1 / 2
    · rw [if_pos hp, if_pos hp]; rfl
    · rw [if_neg hp, if_neg hp]; rfl
  rw [if_neg h, if_neg h]
  by_cases h : name = "r_cred"
  · rw [if_pos h, if_pos h, credStr]
    by_cases hp : p = 1 / 2
    · rw [if_pos hp, if_pos hp]; rfl
    · rw [if_neg hp, if_neg hp]; rfl
  rw [if_neg h, if_neg h]; rfl

theorem ind_tail {i j : Int} {a b : List Char} (h : intChars (i + 1) ++ '}' :: a = intChars (j + 1) ++ '}' :: b) :
    i = j ∧ a = b := by
  have hn : ∀ k : Int, '}' ∉ intChars k := fun k hk => by
    rcases intChars_mem hk with h | h
    · exact absurd h (by decide)
    · exact absurd h (by decide)
  obtain ⟨h1, h2⟩ := append_sep_inj (hn _) (hn _) h
  have := intChars_inj h1
  exact ⟨by omega, h2⟩

theorem percent_tail {m n : Nat} {a b : List Char} (h : percentStr m ++ '\\' :: a = percentStr n ++ '\\' :: b) :
    m = n ∧ a = b := by
  have hn : ∀ k : Nat, '\\' ∉ percentStr k := fun k hk => by
    rcases percentStr_mem hk with h | h
    · exact absurd h (by decide)
    · exact absurd h (by decide)
  obtain ⟨h1, h2⟩ := append_sep_inj (hn _) (hn _) h
  exact ⟨percentStr_inj h1, h2⟩

/-- Three characters of a name that tell the kinds of quantities apart. -/
def nameTag (l : List Char) : Option Char × Option Char × Option Char := (l[2]?, l[9]?, l[11]?)

def quantityTag : Quantity → Option Char × Option Char × Option Char
  | .samples => (some 'm', none, none)
  | .logEvidence => (some 'm', some 'l', some 'g')
  | .evidence => (some 'm', some '{', some '}')
  | .meanRadius => (some 'o', some 'e', some '|')
  | .mean _ => (some 'o', some 'e', some '\\')
  | .meanSquare _ => (some 'o', some 'e', some '\\')
  | .median _ => (some 'm', some 'm', some 'd')
  | .quantile _ _ => (some 'm', some 'C', some 'I')
  | .medianRadius => (some 'm', some 'm', some 'd')
  | .quantileRadius _ => (some 'm', some 'C', some 'I')

theorem nameTag_eq (q : Quantity) : nameTag (quantityName q) = quantityTag q := by
  cases q <;> rfl

theorem indStr_append (i : Int) (a : List Char) :
    indStr i ++ a = chars!"{\\hat{" ++ (intChars (i + 1) ++ '}' :: ('}' :: a)) := by
  simp [indStr]

theorem ind_inj {p : List Char} {i j : Int} {a b : List Char} (h : p ++ indStr i ++ a = p ++ indStr j ++ b) : i = j := by
  rw [List.append_assoc, List.append_assoc, List.append_cancel_left_eq, indStr_append, indStr_append,
    List.append_cancel_left_eq] at h
  exact (ind_tail h).1

theorem percent_append (m : Nat) (a : List Char) :
    percentStr m ++ chars!"\\%}(" ++ a = percentStr m ++ '\\' :: (chars!"%}(" ++ a) := by
  have : chars!"\\%}(" = '\\' :: chars!"%}(" := by decide
  rw [this]; simp

theorem percent_inj {p : List Char} {m n : Nat} {a b : List Char}
    (h : p ++ percentStr m ++ chars!"\\%}(" ++ a = p ++ percentStr n ++ chars!"\\%}(" ++ b) : m = n ∧ a = b := by
  rw [List.append_assoc p, List.append_assoc p, List.append_assoc p, List.append_assoc p, List.append_cancel_left_eq,
    percent_append, percent_append] at h
  obtain ⟨h1, h2⟩ := percent_tail h
  exact ⟨h1, List.append_cancel_left h2⟩

theorem head_ne {c d : Char} {p a b : List Char} (hcd : c ≠ d) : p ++ c :: a ≠ p ++ d :: b := by
  intro h
  rw [List.append_cancel_left_eq, List.cons.injEq] at h
  exact hcd h.1

theorem mean_ne_meanSquare (i j : Int) : quantityName (.mean i) ≠ quantityName (.meanSquare j) := by
  intro h
  have e1 : chars!"$\\overline{\\theta_" = chars!"$\\overline{\\theta" ++ ['_'] := by rfl
  have e2 : chars!"$\\overline{\\theta^2_" = chars!"$\\overline{\\theta" ++ chars!"^2_" := by rfl
  simp only [quantityName] at h
  rw [e1, e2] at h
  rw [List.append_assoc, List.append_assoc, List.append_assoc, List.append_assoc] at h
  exact head_ne (by decide) h

theorem median_ne_medianRadius (i : Int) : quantityName (.median i) ≠ quantityName .medianRadius := by
  intro h
  have e1 : chars!"\\theta_" = '\\' :: chars!"theta_" := by rfl
  have e2 : chars!"|\\theta|)$" = '|' :: chars!"\\theta|)$" := by rfl
  simp only [quantityName] at h
  rw [e1, e2, List.append_assoc, List.append_assoc] at h
  exact head_ne (by decide) h

theorem quantile_ne_quantileRadius (m : Nat) (i : Int) (n : Nat) :
    quantityName (.quantile m i) ≠ quantityName (.quantileRadius n) := by
  intro h
  have e1 : chars!"\\theta_" = '\\' :: chars!"theta_" := by rfl
  have e2 : chars!"|\\theta|)$" = '|' :: chars!"\\theta|)$" := by rfl
  simp only [quantityName] at h
  rw [List.append_assoc _ (indStr i), List.append_assoc _ chars!"\\theta_"] at h
  have := (percent_inj h).2
  rw [e1, e2] at this
  exact head_ne (p := []) (by decide) this

/-- Different quantities have different names. -/
theorem quantityName_inj {q q' : Quantity} (h : quantityName q = quantityName q') : q = q' := by
  have ht : quantityTag q = quantityTag q' := by rw [← nameTag_eq, ← nameTag_eq, h]
  cases q <;> cases q' <;> first | rfl | (exfalso; simp [quantityTag] at ht; done) | skip
  case mean.mean i j => rw [ind_inj h]
  case mean.meanSquare i j => exact absurd h (mean_ne_meanSquare _ _)
  case meanSquare.mean i j => exact absurd h.symm (mean_ne_meanSquare _ _)
  case meanSquare.meanSquare i j => rw [ind_inj h]
  case median.median i j => rw [ind_inj h]
  case median.medianRadius i => exact absurd h (median_ne_medianRadius _)
  case medianRadius.median i => exact absurd h.symm (median_ne_medianRadius _)
  case quantile.quantile m i n j =>
    simp only [quantityName] at h
    rw [List.append_assoc _ (indStr i), List.append_assoc _ chars!"\\theta_", List.append_assoc _ (indStr j),
      List.append_assoc _ chars!"\\theta_"] at h
    obtain ⟨h1, h2⟩ := percent_inj h
    rw [← List.append_assoc, ← List.append_assoc] at h2
    rw [h1, ind_inj h2]
  case quantile.quantileRadius m i n => exact absurd h (quantile_ne_quantileRadius _ _ _)
  case quantileRadius.quantile m n j => exact absurd h.symm (quantile_ne_quantileRadius _ _ _)
  case quantileRadius.quantileRadius m n =>
    rw [(percent_inj h).1]

/-! ### The property -/

theorem mergeKwargs_ok {func : NamedFunc} {kwargs : NameKwargs} (h : ¬ Repeated func kwargs) :
    ∃ kw, mergeKwargs func kwargs = .ok kw ∧ (kw.other ≠ [] ↔ Unexpected func kwargs) ∧
      kw.paramInd.getD 0 = argument NameKwargs.paramInd 0 func kwargs ∧
      kw.probability.getD (1 / 2) = argument NameKwargs.probability (1 / 2) func kwargs := by
  unfold mergeKwargs argument Unexpected
  rcases hp : func.partial_ with _ | kw
  · refine ⟨kwargs, rfl, ?_, by simp, by simp⟩
    simp
  · have : kw.overlap kwargs = false := by
      rw [Bool.eq_false_iff]
      intro ho
      apply h
      refine ⟨kw, hp, ?_⟩
      unfold NameKwargs.overlap at ho
      simp only [Bool.or_eq_true, Bool.and_eq_true, List.any_eq_true, decide_eq_true_eq, or_assoc] at ho
      simpa [Option.isSome_iff_ne_none] using ho
    refine ⟨kwargs.update kw, by simp [this], ?_, by simp [NameKwargs.update], by simp [NameKwargs.update]⟩
    simp only [NameKwargs.update, Option.some.injEq, exists_eq_left', ne_eq, List.append_eq_nil_iff]
    tauto

/-- C59.  `get_latex_name` raises `AssertionError` if a keyword is given twice, otherwise `TypeError` if a
keyword is unknown, otherwise `KeyError` if the function is not one of the estimators; otherwise it
returns a name. -/
theorem C59_returns (millionths : ℝ → Nat) (func : NamedFunc) (kwargs : NameKwargs) :
    (Repeated func kwargs → getLatexName millionths func kwargs = .error .assertion) ∧
    (¬ Repeated func kwargs → Unexpected func kwargs → getLatexName millionths func kwargs = .error .type) ∧
    (¬ Repeated func kwargs → ¬ Unexpected func kwargs → func.name ∉ namedEstimators →
      getLatexName millionths func kwargs = .error .key) ∧
    (¬ Repeated func kwargs → ¬ Unexpected func kwargs → func.name ∈ namedEstimators →
      ∃ s, getLatexName millionths func kwargs = .ok s) := by
  have hq : ∀ ind p, func.name ∈ namedEstimators ↔ quantity millionths func.name ind p ≠ none := by
    intro ind p
    unfold quantity namedEstimators
    simp only [List.mem_cons, List.not_mem_nil, or_false]
    split_ifs <;> simp [*]
  refine ⟨?_, ?_, ?_, ?_⟩
  · rintro ⟨kw, hp, h⟩
    unfold getLatexName mergeKwargs
    rw [hp]
    have : kw.overlap kwargs = true := by
      unfold NameKwargs.overlap
      simp only [Bool.or_eq_true, Bool.and_eq_true, List.any_eq_true, decide_eq_true_eq, or_assoc]
      simpa [Option.isSome_iff_ne_none] using h
    simp [this]
    rfl
  · intro h hu
    obtain ⟨kw, h1, h2, -, -⟩ := mergeKwargs_ok h
    unfold getLatexName
    rw [h1, show ∀ f : NameKwargs → Py String, (Except.ok kw >>= f) = f kw from fun f => rfl, if_pos (h2.mpr hu)]
  · intro h hu hn
    obtain ⟨kw, h1, h2, h3, h4⟩ := mergeKwargs_ok h
    unfold getLatexName
    rw [h1, show ∀ f : NameKwargs → Py String, (Except.ok kw >>= f) = f kw from fun f => rfl,
      if_neg (fun h => hu (h2.mp h)), latexNameDict_eq]
    rw [hq (kw.paramInd.getD 0) (kw.probability.getD (1 / 2)), not_not] at hn
    rw [hn]; rfl
  · intro h hu hn
    obtain ⟨kw, h1, h2, h3, h4⟩ := mergeKwargs_ok h
    unfold getLatexName
    rw [h1, show ∀ f : NameKwargs → Py String, (Except.ok kw >>= f) = f kw from fun f => rfl,
      if_neg (fun h => hu (h2.mp h)), latexNameDict_eq]
    obtain ⟨q, hq'⟩ := Option.ne_none_iff_exists'.mp ((hq (kw.paramInd.getD 0) (kw.probability.getD (1 / 2))).mp hn)
    rw [hq']
    exact ⟨_, rfl⟩

theorem getLatexName_inv {millionths : ℝ → Nat} {func : NamedFunc} {kwargs : NameKwargs} {s : String}
    (h : getLatexName millionths func kwargs = .ok s) :
    ∃ q, quantity millionths func.name (argument NameKwargs.paramInd 0 func kwargs)
        (argument NameKwargs.probability (1 / 2) func kwargs) = some q ∧ s = String.ofList (quantityName q) := by
  have hr : ¬ Repeated func kwargs := by
    intro hr
    rw [(C59_returns millionths func kwargs).1 hr] at h
    cases h
  obtain ⟨kw, h1, h2, h3, h4⟩ := mergeKwargs_ok hr
  unfold getLatexName at h
  rw [h1, show ∀ f : NameKwargs → Py String, (Except.ok kw >>= f) = f kw from fun f => rfl] at h
  split at h
  · cases h
  · rw [latexNameDict_eq, h3, h4] at h
    rcases hq : quantity millionths func.name (argument NameKwargs.paramInd 0 func kwargs)
        (argument NameKwargs.probability (1 / 2) func kwargs) with _ | q
    · rw [hq] at h; cases h
    · rw [hq] at h
      exact ⟨q, rfl, (Except.ok.inj h).symm⟩

/-- C59.  Two estimators have the same name exactly if they estimate the same quantity: the same kind
of quantity of the same parameter and, for credible intervals, with the same percentage (to the millionth) where
the median has a name of its own. -/
theorem C59_names {millionths : ℝ → Nat} {func func' : NamedFunc} {kwargs kwargs' : NameKwargs} {s s' : String}
    (h : getLatexName millionths func kwargs = .ok s) (h' : getLatexName millionths func' kwargs' = .ok s') :
    s = s' ↔ quantity millionths func.name (argument NameKwargs.paramInd 0 func kwargs)
        (argument NameKwargs.probability (1 / 2) func kwargs) =
      quantity millionths func'.name (argument NameKwargs.paramInd 0 func' kwargs')
        (argument NameKwargs.probability (1 / 2) func' kwargs') := by
  obtain ⟨q, e1, rfl⟩ := getLatexName_inv h
  obtain ⟨q', e2, rfl⟩ := getLatexName_inv h'
  rw [e1, e2]
  constructor
  · intro he
    have := congrArg String.toList he
    rw [String.toList_ofList, String.toList_ofList] at this
    rw [quantityName_inj this]
  · intro he
    rw [Option.some.inj he]

/-- C59.  A name does not depend on where the keywords are given. -/
theorem C59_keywords (millionths : ℝ → Nat) (name : String) (kw : NameKwargs) :
    getLatexName millionths ⟨name, some kw⟩ {} = getLatexName millionths ⟨name, none⟩ kw := by
  unfold getLatexName mergeKwargs
  have : kw.overlap {} = false := by simp [NameKwargs.overlap]
  have h2 : NameKwargs.update {} kw = kw := by simp [NameKwargs.update]
  simp only [this, h2]
  rfl

/-- C59.  The names of estimators of different quantities can be used as the column titles of the diagnostic
tables: no title is repeated, and none is the name of an index level. -/
theorem C59_titles {millionths : ℝ → Nat} {funcs : List NamedFunc} {names : List String}
    (h : List.Forall₂ (fun f s => getLatexName millionths f {} = .ok s) funcs names)
    (hd : funcs.Pairwise (fun f f' =>
      quantity millionths f.name (argument NameKwargs.paramInd 0 f {}) (argument NameKwargs.probability (1 / 2) f {}) ≠
      quantity millionths f'.name (argument NameKwargs.paramInd 0 f' {}) (argument NameKwargs.probability (1 / 2) f' {}))) :
    names.Nodup ∧ "calculation type" ∉ names ∧ "result type" ∉ names := by
  have hne : ∀ t : String, t.toList[2]? ≠ some 'm' → t.toList[2]? ≠ some 'o' → t ∉ names := by
    intro t h1 h2 ht
    obtain ⟨i, hi⟩ := List.mem_iff_getElem?.mp ht
    obtain ⟨hil, hit⟩ := List.getElem?_eq_some_iff.mp hi
    have := (List.forall₂_iff_get.mp h).2 i (by rw [h.length_eq]; exact hil) hil
    simp only [List.get_eq_getElem, hit] at this
    obtain ⟨q, -, rfl⟩ := getLatexName_inv this
    rw [String.toList_ofList] at h1 h2
    have ht := congrArg Prod.fst (nameTag_eq q)
    simp only [nameTag] at ht
    rw [ht] at h1 h2
    cases q <;> simp [quantityTag] at h1 h2
  refine ⟨?_, hne _ (by decide) (by decide), hne _ (by decide) (by decide)⟩
  induction h with
  | nil => exact List.nodup_nil
  | @cons f s fs ss hf hfs ih =>
    rw [List.pairwise_cons] at hd
    refine List.nodup_cons.mpr ⟨?_, ih hd.2 ?_⟩
    · intro hs
      obtain ⟨i, hi⟩ := List.mem_iff_getElem?.mp hs
      obtain ⟨hil, hit⟩ := List.getElem?_eq_some_iff.mp hi
      have := (List.forall₂_iff_get.mp hfs).2 i (by rw [hfs.length_eq]; exact hil) hil
      simp only [List.get_eq_getElem, hit] at this
      exact hd.1 _ (List.getElem_mem _) ((C59_names hf this).mp rfl)
    · intro t h1 h2 ht
      exact hne t h1 h2 (List.mem_cons_of_mem _ ht)

/-! ### The text of the names -/

/-- The number written as decimal digits, with or without decimals. -/
def Spec.decimal (s : List Char) : ℚ :=
  (Nat.ofDigitChars 10 (s.takeWhile (fun c => c ≠ '.')) 0 : ℚ) +
    (Nat.ofDigitChars 10 ((s.dropWhile (fun c => c ≠ '.')).drop 1) 0 : ℚ) /
      10 ^ ((s.dropWhile (fun c => c ≠ '.')).drop 1).length

/-- The integer written as digits with or without sign. -/
def Spec.integer : List Char → Int
  | '-' :: s => -(Nat.ofDigitChars 10 s 0 : Int)
  | s => Nat.ofDigitChars 10 s 0

/-- The name of an estimator given the text `i` of the parameter number and the text `q` of the percentage. -/
def Spec.nameText (name : String) (median : Prop) [Decidable median] (i q : List Char) : Option (List Char) :=
  let cred := if median then chars!"$\\mathrm{median}(" else chars!"$\\mathrm{C.I.}_{" ++ q ++ chars!"\\%}("
  [("count_samples", chars!"samples"),
   ("logz", chars!"$\\mathrm{log} \\mathcal{Z}$"),
   ("evidence", chars!"$\\mathcal{Z}$"),
   ("r_mean", chars!"$\\overline{|\\theta|}$"),
   ("param_mean", chars!"$\\overline{\\theta_{\\hat{" ++ i ++ chars!"}}}$"),
   ("param_squared_mean", chars!"$\\overline{\\theta^2_{\\hat{" ++ i ++ chars!"}}}$"),
   ("param_cred", cred ++ chars!"\\theta_{\\hat{" ++ i ++ chars!"}})$"),
   ("r_cred", cred ++ chars!"|\\theta|)$")].lookup name

theorem integer_intChars (i : Int) : integer (intChars i) = i := by
  cases i with
  | ofNat n =>
    have hn : ∀ t, Nat.toDigits 10 n ≠ '-' :: t := fun t h => by
      have : ('-' : Char) ∈ Nat.toDigits 10 n := by rw [h]; exact List.mem_cons_self
      exact absurd (digit_of_mem this) (by decide)
    unfold integer intChars
    split
    · rename_i t h; exact absurd h (hn t)
    · rw [Nat.ofDigitChars_ten_toDigits]; rfl
  | negSucc n =>
    simp only [integer, intChars, Nat.ofDigitChars_ten_toDigits]
    rfl

theorem sixDigits_value {k : Nat} (h : k < 1000000) : Nat.ofDigitChars 10 (sixDigits k) 0 = k := by
  unfold sixDigits
  simp only [List.map_cons, List.map_nil]
  rw [Nat.ofDigitChars_cons_digitChar_of_lt_ten (by omega), Nat.ofDigitChars_cons_digitChar_of_lt_ten (by omega),
    Nat.ofDigitChars_cons_digitChar_of_lt_ten (by omega), Nat.ofDigitChars_cons_digitChar_of_lt_ten (by omega),
    Nat.ofDigitChars_cons_digitChar_of_lt_ten (by omega), Nat.ofDigitChars_cons_digitChar_of_lt_ten (by omega),
    Nat.ofDigitChars_nil]
  omega

theorem rstrip_getLast (c : Char) (s : List Char) : (rstrip c s).getLast? ≠ some c := by
  unfold rstrip
  induction s using List.reverseRecOn with
  | nil => simp
  | append_singleton s x ih =>
    rw [List.rdropWhile_concat]
    split
    · exact ih
    · rename_i hx
      rw [List.getLast?_concat]
      simpa using hx

theorem decimal_percentStr (m : Nat) : decimal (percentStr m) = (m : ℚ) / 10 ^ 6 := by
  have hd : ∀ c ∈ Nat.toDigits 10 (m / 1000000), c ≠ '.' := fun c h e => by
    subst e; exact absurd (digit_of_mem h) (by decide)
  obtain ⟨k, hk⟩ := rstrip_spec '0' (sixDigits (m % 1000000))
  have hv := sixDigits_value (k := m % 1000000) (by omega)
  have hl := congrArg List.length hk
  have h6 : (sixDigits (m % 1000000)).length = 6 := rfl
  rw [h6, List.length_append, List.length_replicate] at hl
  have hm : (m : ℚ) = 10 ^ 6 * ((m / 1000000 : ℕ) : ℚ) + ((m % 1000000 : ℕ) : ℚ) := by
    have := Nat.div_add_mod m 1000000
    exact_mod_cast this.symm
  generalize hr : rstrip '0' (sixDigits (m % 1000000)) = r at hk hl
  rw [hk, Nat.ofDigitChars_append, Nat.ofDigitChars_replicate_zero] at hv
  rw [percentStr_eq, hr]
  unfold decimal
  split
  · rename_i h0
    have e1 : (Nat.toDigits 10 (m / 1000000)).takeWhile (fun c => decide (c ≠ '.')) = Nat.toDigits 10 (m / 1000000) :=
      List.takeWhile_eq_self_iff.mpr (by simpa using hd)
    have e2 : (Nat.toDigits 10 (m / 1000000)).dropWhile (fun c => decide (c ≠ '.')) = [] :=
      List.dropWhile_eq_nil_iff.mpr (by simpa using hd)
    rw [e1, e2, Nat.ofDigitChars_ten_toDigits, hm]
    subst h0
    rw [Nat.ofDigitChars_nil] at hv
    rw [← hv]
    simp
  · have e1 : (Nat.toDigits 10 (m / 1000000) ++ '.' :: r).takeWhile (fun c => decide (c ≠ '.')) =
        Nat.toDigits 10 (m / 1000000) := by
      rw [List.takeWhile_append_of_pos (by simpa using hd)]; simp
    have e2 : (Nat.toDigits 10 (m / 1000000) ++ '.' :: r).dropWhile (fun c => decide (c ≠ '.')) = '.' :: r := by
      rw [List.dropWhile_append_of_pos (by simpa using hd)]; simp
    rw [e1, e2, Nat.ofDigitChars_ten_toDigits, hm, ← hv]
    simp only [List.drop_succ_cons, List.drop_zero]
    have : (10 : ℚ) ^ 6 = 10 ^ r.length * 10 ^ k := by rw [← pow_add, ← hl]
    push_cast
    rw [this]
    field_simp

/-- C59.  The text of the names: they hold the number of the parameter (counted from one) and the percentage, as
decimal numbers, the latter to the millionth and without trailing zeros. -/
theorem C59_text {millionths : ℝ → Nat} {func : NamedFunc} {kwargs : NameKwargs} {s : String}
    (h : getLatexName millionths func kwargs = .ok s) :
    ∃ i q, nameText func.name (argument NameKwargs.probability (1 / 2) func kwargs = 1 / 2) i q = some s.toList ∧
      integer i = argument NameKwargs.paramInd 0 func kwargs + 1 ∧
      decimal q = (millionths (argument NameKwargs.probability (1 / 2) func kwargs * 100) : ℚ) / 10 ^ 6 ∧
      (∀ t, q ≠ t ++ ['.']) ∧ ('.' ∈ q → ∀ t, q ≠ t ++ ['0']) := by
  obtain ⟨qu, e1, rfl⟩ := getLatexName_inv h
  refine ⟨_, _, ?_, integer_intChars _, decimal_percentStr _, ?_, ?_⟩
  · rw [String.toList_ofList]
    rw [← Option.map_some (f := quantityName), ← e1, ← latexNameDict_eq]
    unfold latexNameDict nameText credStr indStr
    generalize (argument NameKwargs.probability (1 / 2) func kwargs) = p
    generalize (argument NameKwargs.paramInd 0 func kwargs) = j
    have hl : ∀ (n : String) (c : List Char) (l : List (String × List Char)),
        ((n, c) :: l).lookup func.name = if func.name = n then some c else l.lookup func.name := by
      intro n c l
      rw [List.lookup_cons]
      by_cases h : func.name = n
      · rw [if_pos h, h]; simp
      · rw [if_neg h, beq_false_of_ne h]
    simp only [hl, List.lookup_nil]
    by_cases hp : p = 1 / 2 <;> simp [hp]
  · intro t ht
    have := rstrip_getLast '.' (rstrip '0' (formatF (millionths (argument NameKwargs.probability (1 / 2) func kwargs * 100))))
    apply this
    show (percentStr _).getLast? = _
    rw [ht, List.getLast?_concat]
  · intro hdot t ht
    rw [percentStr_eq] at hdot ht
    split at hdot
    · exact absurd (digit_of_mem hdot) (by decide)
    · rename_i hne
      rw [if_neg hne] at ht
      have := rstrip_getLast '0' (sixDigits (millionths (argument NameKwargs.probability (1 / 2) func kwargs * 100) % 1000000))
      apply this
      have h2 := congrArg List.getLast? ht
      rw [List.getLast?_concat, List.getLast?_append] at h2
      rw [List.getLast?_cons] at h2
      generalize rstrip '0' (sixDigits (millionths (argument NameKwargs.probability (1 / 2) func kwargs * 100) % 1000000)) = r at *
      cases hr : r.getLast? with
      | none => exact absurd (List.getLast?_eq_none_iff.mp hr) hne
      | some c => rw [hr] at h2; simpa using h2

/-! ### Concrete cases -/

/-- The millionths of a percentage with at most three decimals, for the examples. -/
def exMillionths (x : ℝ) : Nat := ⌊x * 1000000⌋₊

example : getLatexName exMillionths ⟨"param_mean", some { paramInd := some 1 }⟩ {} =
    .ok "$\\overline{\\theta_{\\hat{2}}}$" := by rfl

example : getLatexName exMillionths ⟨"logz", none⟩ { paramInd := some 1, other := ["simulate"] } = .error .type :=
  (C59_returns _ _ _).2.1 (by rintro ⟨_, h, _⟩; cases h) (Or.inl (by simp))

example : getLatexName exMillionths ⟨"r_mean", some { handle := true }⟩ { handle := true } = .error .assertion :=
  (C59_returns _ _ _).1 ⟨_, rfl, by simp⟩

example : getLatexName exMillionths ⟨"weighted_quantile", none⟩ {} = .error .key :=
  (C59_returns _ _ _).2.2.1 (by rintro ⟨_, h, _⟩; cases h) (by rintro (h | ⟨_, h, _⟩) <;> simp at h) (by decide)

example : ["samples", "$\\mathrm{log} \\mathcal{Z}$", "$\\overline{\\theta_{\\hat{1}}}$", "$\\overline{\\theta_{\\hat{2}}}$"].Nodup := by
  refine (C59_titles (millionths := exMillionths) (funcs := [⟨"count_samples", none⟩, ⟨"logz", none⟩, ⟨"param_mean", none⟩,
    ⟨"param_mean", some { paramInd := some 1 }⟩]) (.cons rfl (.cons rfl (.cons rfl (.cons rfl .nil)))) ?_).1
  simp [quantity, argument]

example : decimal chars!"84.134" = 84134000 / 10 ^ 6 := decimal_percentStr 84134000
example : nameText "param_cred" False chars!"2" chars!"84.134" =
    some chars!"$\\mathrm{C.I.}_{84.134\\%}(\\theta_{\\hat{2}})$" := by rfl
example : percentStr 84000000 = chars!"84" := by decide
example : percentStr 84134000 = chars!"84.134" := by decide
example : percentStr 100000000 = chars!"100" := by decide
example : percentStr 0 = ['0'] := by decide

/-- The median and a quantile that is printed as 50 percent have different names. -/
example {p : ℝ} (hp : p ≠ 1 / 2) {s s' : String}
    (h : getLatexName exMillionths ⟨"r_cred", none⟩ {} = .ok s)
    (h' : getLatexName exMillionths ⟨"r_cred", none⟩ { probability := some p } = .ok s') : s ≠ s' := by
  rw [ne_eq, C59_names h h']
  simp [quantity, argument] at hp ⊢
  simp [hp]

end
end Nestcheck
