import Mathlib.Data.List.Chain
import Mathlib.Data.List.Infix
import Verif.Model.Stats

/-! Reading back what was printed. -/

namespace Nestcheck
variable {F α : Type}

/-- No white space in the text. -/
def Solid (t : Text) : Prop := ∀ c ∈ t, isSpace c = false

theorem splitFrom_solid {t : Text} (h : Solid t) (cur rest : Text) :
    splitFrom cur (t ++ rest) = splitFrom (t.reverse ++ cur) rest := by
  induction t generalizing cur with
  | nil => rfl
  | cons c t ih =>
    rw [List.cons_append, splitFrom, if_neg (by simp [h c (by simp)]),
      ih (fun x hx => h x (by simp [hx]))]
    simp

theorem splitWs_space {c : Char} (hc : isSpace c = true) (rest : Text) :
    splitWs (c :: rest) = splitWs rest := by
  simp [splitWs, splitFrom, hc]

theorem splitWs_token {t : Text} (h : Solid t) (h0 : t ≠ []) {c : Char} (hc : isSpace c = true)
    (rest : Text) : splitWs (t ++ c :: rest) = t :: splitWs rest := by
  rw [splitWs, splitFrom_solid h, splitFrom, if_pos hc, if_neg (by simp [h0])]
  simp [splitWs]

theorem splitWs_str (C : Codec α) (x : α) {c : Char} (hc : isSpace c = true) (rest : Text) :
    splitWs (C.str x ++ c :: rest) = C.str x :: splitWs rest :=
  splitWs_token (C.solid x) (C.nonempty x) hc rest

theorem splitWs_items (C : Codec α) (xs : List α) {c : Char} (hc : isSpace c = true) (rest : Text) :
    splitWs (strItems C xs ++ c :: rest) = xs.map C.str ++ splitWs rest := by
  induction xs with
  | nil => rw [strItems, List.nil_append, splitWs_space hc]; rfl
  | cons x xs ih =>
    cases xs with
    | nil => rw [strItems, splitWs_str C x hc]; rfl
    | cons y ys =>
      rw [strItems, List.append_assoc, List.append_assoc,
        show " ".toList ++ (strItems C (y :: ys) ++ c :: rest) =
          ' ' :: (strItems C (y :: ys) ++ c :: rest) from rfl, splitWs_str C x rfl, ih]
      rfl

/-- The items of a value which may be a list. -/
def OneOrMany.items : OneOrMany α → List α
  | .one x => [x]
  | .many xs => xs

theorem splitWs_many (C : Codec α) (v : OneOrMany α) {c : Char} (hc : isSpace c = true) (rest : Text) :
    splitWs (strMany C v ++ c :: rest) = v.items.map C.str ++ splitWs rest := by
  cases v with
  | one x => exact splitWs_str C x hc rest
  | many xs => exact splitWs_items C xs hc rest

theorem readNums_str (C : Codec α) (xs : List α) : readNums C (xs.map C.str) = .ok xs := by
  induction xs with
  | nil => rfl
  | cons x xs ih =>
    simp only [List.map_cons, readNums, readNum, C.parse_str, ih]
    rfl

/-! ### Lines -/

theorem readLinesFrom_line {l : Text} (h : '\n' ∉ l) (cur rest : Text) :
    readLinesFrom cur (l ++ '\n' :: rest) = (cur.reverse ++ l ++ ['\n']) :: readLinesFrom [] rest := by
  induction l generalizing cur with
  | nil => simp [readLinesFrom]
  | cons c l ih =>
    simp only [List.mem_cons, not_or] at h
    rw [List.cons_append, readLinesFrom, if_neg (fun e => h.1 e.symm), ih h.2]
    simp

theorem readLines_lines {ls : List Text} (h : ∀ l ∈ ls, '\n' ∉ l) :
    readLines (ls.flatMap (· ++ ['\n'])) = ls.map (· ++ ['\n']) := by
  induction ls with
  | nil => rfl
  | cons l ls ih =>
    have := readLinesFrom_line (h l (by simp)) [] (ls.flatMap (· ++ ['\n']))
    rw [List.flatMap_cons, List.append_assoc, readLines]
    rw [show l ++ (['\n'] ++ ls.flatMap (· ++ ['\n'])) = l ++ '\n' :: ls.flatMap (· ++ ['\n']) from rfl, this]
    rw [show readLinesFrom [] (ls.flatMap (· ++ ['\n'])) = readLines (ls.flatMap (· ++ ['\n'])) from rfl,
      ih (fun x hx => h x (by simp [hx]))]
    simp

theorem str_no_newline (C : Codec α) (x : α) : '\n' ∉ C.str x := by
  intro h
  have := C.solid x _ h
  exact absurd this (by decide)

theorem digits_isDigit {n : Nat} {c : Char} (h : c ∈ natStr n) : c.isDigit = true :=
  Nat.isDigit_of_mem_toDigits (by decide) (by decide) h

theorem natStr_solid (n : Nat) : Solid (natStr n) := by
  intro c hc
  have := digits_isDigit hc
  rw [Char.isDigit] at this
  simp only [ge_iff_le, Bool.and_eq_true, decide_eq_true_eq] at this
  have h1 : 48 ≤ c.toNat := this.1
  have h2 : c.toNat ≤ 57 := this.2
  simp only [isSpace, Bool.or_eq_false_iff, Bool.and_eq_false_iff, decide_eq_false_iff_not]
  omega

theorem natStr_ne {n : Nat} {d : Char} (hd : d.isDigit = false) : d ∉ natStr n := by
  intro h
  rw [digits_isDigit h] at hd
  cases hd

/-! ### Dashes -/

theorem containsText_iff {sub s : Text} : containsText sub s = true ↔ sub <:+: s := by
  unfold containsText
  simp only [List.any_eq_true, List.mem_tails, List.isPrefixOf_iff_prefix]
  constructor
  · rintro ⟨t, h1, h2⟩; exact h2.isInfix.trans h1.isInfix
  · intro h
    obtain ⟨a, b, rfl⟩ := h
    exact ⟨sub ++ b, ⟨a, by simp⟩, ⟨b, rfl⟩⟩

/-- No two consecutive dashes. -/
def NoDD (s : Text) : Prop := s.IsChain (fun a b => ¬ (a = '-' ∧ b = '-'))

theorem noDD_iff {s : Text} : NoDD s ↔ ¬ ['-', '-'] <:+: s := by
  constructor
  · rintro h ⟨a, b, rfl⟩
    unfold NoDD at h
    rw [List.append_assoc] at h
    exact (List.isChain_append_cons_cons.mp h).2.1 ⟨rfl, rfl⟩
  · intro h
    unfold NoDD
    rw [List.isChain_iff_getElem]
    rintro i hi ⟨h1, h2⟩
    apply h
    refine ⟨s.take i, s.drop (i + 2), ?_⟩
    conv_rhs => rw [← List.take_append_drop i s, List.drop_eq_getElem_cons (by omega),
      List.drop_eq_getElem_cons (by omega), h1, h2]
    simp

theorem noDD_sep {a b : Text} (ha : NoDD a) (hb : NoDD b) {c : Char} (hc : c ≠ '-') :
    NoDD (a ++ c :: b) := by
  unfold NoDD at *
  rw [List.isChain_append]
  refine ⟨ha, ?_, ?_⟩
  · rw [List.isChain_cons]
    exact ⟨fun y _ h => hc h.1, hb⟩
  · intro x _ y hy h
    simp only [List.head?_cons, Option.mem_def, Option.some.injEq] at hy
    exact hc (hy.trans h.2)

theorem noDD_str (C : Codec α) (x : α) : NoDD (C.str x) :=
  noDD_iff.mpr (C.dashes _ _ (C.parse_str x))

theorem noDD_of_not_mem {s : Text} (h : '-' ∉ s) : NoDD s := by
  rw [noDD_iff]
  rintro ⟨a, b, rfl⟩
  exact h (by simp)

/-! ### The lines of a file -/

theorem noNl_append {a b : Text} (ha : '\n' ∉ a) (hb : '\n' ∉ b) : '\n' ∉ a ++ b := by
  rw [List.mem_append]; rintro (h | h)
  · exact ha h
  · exact hb h

theorem strItems_no_newline (C : Codec α) (xs : List α) : '\n' ∉ strItems C xs := by
  induction xs with
  | nil => simp [strItems]
  | cons x xs ih =>
    cases xs with
    | nil => exact str_no_newline C x
    | cons y ys =>
      rw [strItems]
      exact noNl_append (noNl_append (str_no_newline C x) (by decide)) ih

theorem strMany_no_newline (C : Codec α) (v : OneOrMany α) : '\n' ∉ strMany C v := by
  cases v with
  | one x => exact str_no_newline C x
  | many xs => exact strItems_no_newline C xs

theorem strLike_no_newline (C : Codec Int) (v : Option (OneOrMany Int)) : '\n' ∉ strLike C v := by
  cases v with
  | none => show '\n' ∉ "nan".toList; decide
  | some v => exact strMany_no_newline C v

theorem clusterLines_no_newline (CF : Codec F) (ps : List (F × F)) (i : Nat) :
    ∀ l ∈ clusterLines CF i ps, '\n' ∉ l := by
  induction ps generalizing i with
  | nil => simp [clusterLines]
  | cons p ps ih =>
    intro l hl
    rw [clusterLines, List.mem_cons] at hl
    rcases hl with rfl | hl
    · refine noNl_append (noNl_append (noNl_append (noNl_append (noNl_append (by decide) ?_) (by decide))
        (str_no_newline _ _)) (by decide)) (str_no_newline _ _)
      exact noNl_append (by simp) (natStr_ne (by decide))
    · exact ih _ l hl

theorem paramLines_no_newline (CF : Codec F) (ps : List (F × F)) (i : Nat) :
    ∀ l ∈ paramLines CF i ps, '\n' ∉ l := by
  induction ps generalizing i with
  | nil => simp [paramLines]
  | cons p ps ih =>
    intro l hl
    rw [paramLines, List.mem_cons] at hl
    rcases hl with rfl | hl
    · refine noNl_append (noNl_append (noNl_append (noNl_append ?_ (by decide))
        (str_no_newline _ _)) (by decide)) (str_no_newline _ _)
      exact noNl_append (natStr_ne (by decide)) (by simp)
    · exact ih _ l hl

theorem statsLines_no_newline (CF : Codec F) (CI : Codec Int) (s : Stats F) :
    ∀ l ∈ statsLines CF CI s, '\n' ∉ l := by
  intro l hl
  unfold statsLines at hl
  simp only [List.mem_append] at hl
  rcases hl with (((hl | hl) | hl) | hl) | hl
  · simp only [headLines, List.mem_cons, List.not_mem_nil, or_false] at hl
    rcases hl with rfl | rfl | rfl | rfl | rfl | rfl | rfl | rfl | rfl | rfl | rfl | rfl | rfl | rfl
    all_goals first
      | decide
      | exact noNl_append (noNl_append (noNl_append (by decide) (str_no_newline _ _)) (by decide))
          (str_no_newline _ _)
  · exact clusterLines_no_newline CF _ _ l hl
  · simp only [midLines, List.mem_cons, List.not_mem_nil, or_false] at hl
    rcases hl with rfl | rfl | rfl | rfl | rfl | rfl | rfl | rfl | rfl | rfl | rfl | rfl | rfl | rfl | rfl
    all_goals first
      | decide
      | exact noNl_append (by decide) (str_no_newline _ _)
      | exact noNl_append (by decide) (strLike_no_newline _ _)
      | exact noNl_append (noNl_append (noNl_append (noNl_append (by decide) (strMany_no_newline _ _))
          (by decide)) (strMany_no_newline _ _)) (by decide)
  · exact paramLines_no_newline CF _ _ l hl
  · simp only [List.mem_cons, List.not_mem_nil, or_false] at hl
    subst hl
    decide

/-! ### Reading the lines -/

theorem numAt_of {C : Codec α} {line : Text} {toks : List Text} {j : Nat} {x : α}
    (h : splitWs line = toks) (ht : toks[j]? = some (C.str x)) : numAt C line j = .ok x := by
  unfold numAt nth readNum
  rw [h, ht]
  simp only [bind, Except.bind, C.parse_str]

theorem split_pm (C : Codec α) (x y : α) {c : Char} (hc : isSpace c = true) :
    splitWs (C.str x ++ (" +/-   ".toList ++ (C.str y ++ [c]))) =
      [C.str x, "+/-".toList, C.str y] := by
  rw [show " +/-   ".toList ++ (C.str y ++ [c]) = ' ' :: ("+/-".toList ++ ' ' :: ' ' :: ' ' :: (C.str y ++ [c]))
    from rfl, splitWs_str C x rfl, splitWs_token (by unfold Solid; decide) (by decide) rfl,
    splitWs_space rfl, splitWs_space rfl, splitWs_str C y hc]
  rfl

/-- The line with the global evidence. -/
theorem split_logZ (C : Codec F) (x y : F) :
    splitWs ("log(Z)       =  ".toList ++ C.str x ++ " +/-   ".toList ++ C.str y ++ ['\n']) =
      ["log(Z)".toList, "=".toList, C.str x, "+/-".toList, C.str y] := by
  simp only [List.append_assoc]
  rw [show ∀ rest, splitWs ("log(Z)       =  ".toList ++ rest) = "log(Z)".toList :: "=".toList :: splitWs rest
    from fun rest => rfl, split_pm C x y rfl]

theorem afterEq_skip {a : Text} (h : '=' ∉ a) (rest : Text) : afterEq (a ++ rest) = afterEq rest := by
  induction a with
  | nil => rfl
  | cons c a ih =>
    simp only [List.mem_cons, not_or] at h
    rw [List.cons_append, afterEq, if_neg (fun e => h.1 e.symm), ih h.2]

theorem splitFrom_trailing {c : Char} (hc : isSpace c = true) (s cur : Text) :
    splitFrom cur (s ++ [c]) = splitFrom cur s := by
  induction s generalizing cur with
  | nil =>
    cases cur with
    | nil => simp [splitFrom, hc]
    | cons d cur => simp [splitFrom, hc]
  | cons d s ih =>
    rw [List.cons_append, splitFrom, splitFrom, ih, ih]

theorem takeWhile_line {l : Text} (h : '\n' ∉ l) :
    (l ++ ['\n']).takeWhile (fun c => decide (c ≠ '\n')) = l := by
  rw [List.takeWhile_append_of_pos]
  · simp
  · intro a ha
    rw [decide_eq_true_eq]
    rintro rfl
    exact h ha

theorem afterEq_cluster (C : Codec F) (i : Nat) (z e : F) :
    afterEq ("log(Z_ ".toList ++ rjust 2 (natStr (i + 1)) ++ ")  =  ".toList ++ C.str z ++
      " +/-   ".toList ++ C.str e ++ ['\n']) =
      .ok ("  ".toList ++ (C.str z ++ (" +/-   ".toList ++ C.str e))) := by
  simp only [List.append_assoc]
  rw [afterEq_skip (by decide), afterEq_skip]
  · rw [show ∀ rest, afterEq (")  =  ".toList ++ rest) =
      .ok (("  ".toList ++ rest).takeWhile (fun c => decide (c ≠ '\n'))) from fun rest => rfl]
    rw [show "  ".toList ++ (C.str z ++ (" +/-   ".toList ++ (C.str e ++ ['\n']))) =
      ("  ".toList ++ (C.str z ++ (" +/-   ".toList ++ C.str e))) ++ ['\n'] by simp only [List.append_assoc]]
    rw [takeWhile_line]
    exact noNl_append (by decide) (noNl_append (str_no_newline _ _) (noNl_append (by decide) (str_no_newline _ _)))
  · unfold rjust
    rw [List.mem_append]
    rintro (h | h)
    · exact absurd (List.eq_of_mem_replicate h) (by decide)
    · exact natStr_ne (by decide) h

theorem split_cluster (C : Codec F) (z e : F) :
    splitWs ("  ".toList ++ (C.str z ++ (" +/-   ".toList ++ C.str e))) =
      [C.str z, "+/-".toList, C.str e] := by
  rw [show ∀ rest, splitWs ("  ".toList ++ rest) = splitWs rest from fun rest => rfl]
  have := splitFrom_trailing (c := '\n') rfl (C.str z ++ (" +/-   ".toList ++ C.str e)) []
  rw [splitWs, ← this]
  rw [← split_pm C z e (c := '\n') rfl]
  simp only [List.append_assoc, splitWs]

theorem readClusters_lines (C : Codec F) (ps : List (F × F)) (i : Nat) {l : Text} (rest : List Text)
    (hl : l.take 5 ≠ "log(Z".toList) :
    readClusters C ((clusterLines C i ps).map (· ++ ['\n']) ++ l :: rest) = .ok ps := by
  induction ps generalizing i with
  | nil => rw [clusterLines, List.map_nil, List.nil_append, readClusters, if_pos hl]
  | cons p ps ih =>
    obtain ⟨z, e⟩ := p
    rw [clusterLines, List.map_cons, List.cons_append, readClusters, if_neg, afterEq_cluster]
    · have h1 := numAt_of (C := C) (split_cluster C z e) (j := 0) (x := z) rfl
      have h2 := numAt_of (C := C) (split_cluster C z e) (j := 2) (x := e) rfl
      simp only [bind, Except.bind, h1, h2, ih]
    · simp only [List.append_assoc, not_not]
      rfl

theorem split_param (C : Codec F) (i : Nat) (m e : F) :
    splitWs (ljust 3 (natStr (i + 1)) ++ "  ".toList ++ C.str m ++ " +/-   ".toList ++ C.str e ++ ['\n']) =
      [natStr (i + 1), C.str m, "+/-".toList, C.str e] := by
  simp only [ljust, List.append_assoc]
  have hsp : ∀ (k : Nat) (rest : Text), splitWs (List.replicate k ' ' ++ rest) = splitWs rest := by
    intro k rest
    induction k with
    | zero => rfl
    | succ k ih => rw [List.replicate_succ, List.cons_append, splitWs_space rfl, ih]
  have hne : natStr (i + 1) ≠ [] := Nat.toDigits_ne_nil
  cases hk : 3 - (natStr (i + 1)).length with
  | zero =>
    rw [List.replicate_zero, List.nil_append]
    rw [show ∀ rest, "  ".toList ++ rest = ' ' :: ' ' :: rest from fun rest => rfl,
      splitWs_token (natStr_solid _) hne rfl, splitWs_space rfl, split_pm C m e rfl]
  | succ k =>
    rw [List.replicate_succ, List.cons_append, splitWs_token (natStr_solid _) hne rfl, hsp]
    rw [show ∀ rest, splitWs ("  ".toList ++ rest) = splitWs rest from fun rest => rfl, split_pm C m e rfl]

theorem param_no_dashes (C : Codec F) (i : Nat) (m e : F) :
    containsText "------------------".toList
      (ljust 3 (natStr (i + 1)) ++ "  ".toList ++ C.str m ++ " +/-   ".toList ++ C.str e ++ ['\n']) = false := by
  rw [Bool.eq_false_iff]
  intro h
  rw [containsText_iff] at h
  have h2 : ['-', '-'] <:+: "------------------".toList := ⟨[], "----------------".toList, rfl⟩
  refine noDD_iff.mp ?_ (h2.trans h)
  simp only [List.append_assoc, ljust]
  rw [show ∀ rest, "  ".toList ++ rest = ' ' :: ([] ++ ' ' :: rest) from fun rest => rfl]
  rw [← List.append_assoc]
  refine noDD_sep (noDD_of_not_mem ?_) (noDD_sep (noDD_of_not_mem (by simp)) ?_ (by decide)) (by decide)
  · rw [List.mem_append]
    rintro (h | h)
    · exact natStr_ne (by decide) h
    · exact absurd (List.eq_of_mem_replicate h) (by decide)
  · rw [show ∀ rest, " +/-   ".toList ++ rest = ' ' :: ("+/-".toList ++ ' ' :: ([] ++ ' ' :: ([] ++ ' ' :: rest)))
      from fun rest => rfl]
    refine noDD_sep (noDD_str C m) (noDD_sep (noDD_iff.mpr ?_) (noDD_sep (noDD_of_not_mem (by simp))
      (noDD_sep (noDD_of_not_mem (by simp)) ?_ (by decide)) (by decide)) (by decide)) (by decide)
    · decide
    · exact noDD_sep (noDD_str C e) (noDD_of_not_mem (by simp)) (by decide)

theorem readParams_lines (C : Codec F) (ps : List (F × F)) (i : Nat) :
    readParams C ((paramLines C i ps).map (· ++ ['\n']) ++ ["-------------------------------\n".toList]) = .ok ps := by
  induction ps generalizing i with
  | nil =>
    rw [paramLines, List.map_nil, List.nil_append, readParams, if_pos]
    · rfl
    · rw [containsText_iff]; exact ⟨[], "-------------\n".toList, rfl⟩
  | cons p ps ih =>
    obtain ⟨m, e⟩ := p
    rw [paramLines, List.map_cons, List.cons_append, readParams, if_neg (by rw [param_no_dashes]; simp)]
    have h1 := numAt_of (C := C) (split_param C i m e) (j := 1) (x := m) rfl
    have h2 := numAt_of (C := C) (split_param C i m e) (j := 3) (x := e) rfl
    simp only [bind, Except.bind, h1, h2, ih]

end Nestcheck
