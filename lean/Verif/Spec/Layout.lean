import Verif.Model.Stats

/-
Specification of texts which differ only in their spacing.  Only the type of texts is taken from the model.
-/

namespace Nestcheck.Spec

/-- The characters which Python counts as white space. -/
def pythonSpaces : List Char :=
  ['\t', '\n', '\x0b', '\x0c', '\r', '\x1c', '\x1d', '\x1e', '\x1f', ' ', '\x85', '\xa0', '\u1680', '\u2000', '\u2001', '\u2002',
   '\u2003', '\u2004', '\u2005', '\u2006', '\u2007', '\u2008', '\u2009', '\u200a', '\u2028', '\u2029', '\u202f', '\u205f', '\u3000']

/-- A text made of these tokens with white space between them. -/
inductive Spells : List Text → Text → Prop
  | nil {s : Text} : (∀ c ∈ s, c ∈ pythonSpaces) → Spells [] s
  | cons {t : Text} {ts : List Text} {gap rest : Text} : (∀ c ∈ gap, c ∈ pythonSpaces) → t ≠ [] → (∀ c ∈ t, c ∉ pythonSpaces) →
      (∀ c, rest.head? = some c → c ∈ pythonSpaces) → Spells ts rest → Spells (t :: ts) (gap ++ t ++ rest)

/-- Lines which are equal, or have the same tokens and are not the evidence of a cluster. -/
def SameLine (l l' : Text) : Prop :=
  l = l' ∨ (∃ ts, Spells ts l ∧ Spells ts l') ∧ ¬ "log(Z".toList <+: l ∧ ¬ "log(Z".toList <+: l'

/-- A text with these lines, the last one with or without a newline. -/
def HasLines (ls : List Text) (text : Text) : Prop :=
  text = ls.flatMap (· ++ ['\n']) ∨ text ++ ['\n'] = ls.flatMap (· ++ ['\n']) ∧ ∃ l ∈ ls.getLast?, l ≠ []

end Nestcheck.Spec
