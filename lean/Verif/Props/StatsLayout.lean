import Verif.Spec.Layout
import Verif.Props.Stats

/-! C62: how a .stats file is laid out does not matter. -/

namespace Nestcheck
open Spec

theorem isSpace_iff (c : Char) : isSpace c = true ↔ c ∈ pythonSpaces := by
  have hc : ∀ d : Char, c = d ↔ c.toNat = d.toNat := fun d =>
    ⟨fun h => by rw [h], fun h => Char.toNat_inj.mp h⟩
  simp only [pythonSpaces, List.mem_cons, List.not_mem_nil, or_false, hc]
  simp only [isSpace, Bool.or_eq_true, Bool.and_eq_true, decide_eq_true_eq, show '\t'.toNat = 9 from rfl, show '\n'.toNat = 10 from rfl,
    show '\x0b'.toNat = 11 from rfl, show '\x0c'.toNat = 12 from rfl, show '\r'.toNat = 13 from rfl, show '\x1c'.toNat = 28 from rfl,
    show '\x1d'.toNat = 29 from rfl, show '\x1e'.toNat = 30 from rfl, show '\x1f'.toNat = 31 from rfl, show ' '.toNat = 32 from rfl,
    show '\x85'.toNat = 0x85 from rfl, show '\xa0'.toNat = 0xa0 from rfl, show '\u1680'.toNat = 0x1680 from rfl,
    show '\u2000'.toNat = 0x2000 from rfl, show '\u2001'.toNat = 0x2001 from rfl, show '\u2002'.toNat = 0x2002 from rfl,
    show '\u2003'.toNat = 0x2003 from rfl, show '\u2004'.toNat = 0x2004 from rfl, show '\u2005'.toNat = 0x2005 from rfl,
    show '\u2006'.toNat = 0x2006 from rfl, show '\u2007'.toNat = 0x2007 from rfl, show '\u2008'.toNat = 0x2008 from rfl,
    show '\u2009'.toNat = 0x2009 from rfl, show '\u200a'.toNat = 0x200a from rfl, show '\u2028'.toNat = 0x2028 from rfl,
    show '\u2029'.toNat = 0x2029 from rfl, show '\u202f'.toNat = 0x202f from rfl, show '\u205f'.toNat = 0x205f from rfl,
    show '\u3000'.toNat = 0x3000 from rfl]
  omega

theorem isSpace_false_iff (c : Char) : isSpace c = false ↔ c ∉ pythonSpaces := by
  rw [← isSpace_iff, Bool.not_eq_true]

theorem splitWs_gap : ∀ {gap : Text}, (∀ c ∈ gap, c ∈ pythonSpaces) → ∀ rest, splitWs (gap ++ rest) = splitWs rest
  | [], _, _ => rfl
  | c :: gap, h, rest => by
    rw [List.cons_append, splitWs_space ((isSpace_iff c).mpr (h c (by simp)))]
    exact splitWs_gap (fun d hd => h d (List.mem_cons_of_mem _ hd)) rest

/-- `str.split()` gives the tokens of a text. -/
theorem splitWs_spells {ts : List Text} {s : Text} (h : Spells ts s) : splitWs s = ts := by
  induction h with
  | nil h =>
    have := splitWs_gap h []
    rw [List.append_nil] at this
    rw [this]
    rfl
  | @cons t ts gap rest hg h0 hs hr _ ih =>
    rw [List.append_assoc, splitWs_gap hg]
    have hsol : Solid t := fun c hc => (isSpace_false_iff c).mpr (hs c hc)
    cases rest with
    | nil =>
      rw [List.append_nil]
      have : splitWs t = [t] := by
        have := splitFrom_solid hsol [] []
        rw [List.append_nil] at this
        unfold splitWs
        rw [this]
        cases t with
        | nil => exact absurd rfl h0
        | cons c t => 
          obtain ⟨d, e, he⟩ : ∃ d e, (c :: t).reverse ++ [] = d :: e := by
            cases h : (c :: t).reverse ++ [] with
            | nil => simp at h
            | cons d e => exact ⟨d, e, rfl⟩
          rw [he, splitFrom, ← he]
          · simp
          · simp
      rw [this, ← ih]
      rfl
    | cons c rest =>
      have hc := (isSpace_iff c).mpr (hr c rfl)
      rw [splitWs_token hsol h0 hc, ← ih, splitWs_space hc]

/-! ### Dashes -/

theorem prefix_before {p a b : Text} {c : Char} (hc : c ∉ p) (h : p <+: a ++ c :: b) : p <+: a := by
  rcases List.prefix_or_prefix_of_prefix h (List.prefix_append a (c :: b)) with h1 | ⟨r, rfl⟩
  · exact h1
  · have h2 : r <+: c :: b := (List.prefix_append_right_inj a).mp h
    cases r with
    | nil => simp
    | cons d r =>
      have : d = c := (List.cons_prefix_cons.mp h2).1
      subst this
      exact absurd (by simp) hc

theorem infix_split {p : Text} {c : Char} (hc : c ∉ p) (h0 : p ≠ []) (b : Text) : ∀ a : Text, p <:+: a ++ c :: b ↔ p <:+: a ∨ p <:+: b
  | [] => by
    rw [List.nil_append, List.infix_cons_iff]
    constructor
    · rintro (h | h)
      · exact absurd (List.prefix_nil.mp (prefix_before (a := []) hc h)) h0
      · exact .inr h
    · rintro (h | h)
      · exact absurd (List.infix_nil.mp h) h0
      · exact .inr h
  | x :: a => by
    rw [List.cons_append, List.infix_cons_iff, List.infix_cons_iff, infix_split hc h0 b a, or_assoc]
    constructor
    · rintro (h | h)
      · exact .inl (prefix_before (a := x :: a) hc h)
      · exact .inr h
    · rintro (h | h)
      · exact .inl (h.trans (by simp))
      · exact .inr h

theorem infix_gap {p : Text} (hp : ∀ c ∈ p, c ∉ pythonSpaces) (h0 : p ≠ []) (rest : Text) : ∀ {gap : Text}, (∀ c ∈ gap, c ∈ pythonSpaces) →
    (p <:+: gap ++ rest ↔ p <:+: rest)
  | [], _ => Iff.rfl
  | c :: gap, h => by
    rw [List.cons_append, show c :: (gap ++ rest) = [] ++ c :: (gap ++ rest) from rfl,
      infix_split (fun hc => hp c hc (h c (by simp))) h0, infix_gap hp h0 rest (fun d hd => h d (List.mem_cons_of_mem _ hd))]
    simp [h0]

/-- White space does not matter for finding a text without any. -/
theorem infix_spells {p : Text} (hp : ∀ c ∈ p, c ∉ pythonSpaces) (h0 : p ≠ []) {ts : List Text} {s : Text} (h : Spells ts s) :
    p <:+: s ↔ ∃ t ∈ ts, p <:+: t := by
  induction h with
  | nil h =>
    have := infix_gap hp h0 [] h
    rw [List.append_nil] at this
    rw [this]
    simp [h0]
  | @cons t ts gap rest hg _ _ hr _ ih =>
    rw [List.append_assoc, infix_gap hp h0 _ hg]
    cases rest with
    | nil =>
      rw [List.append_nil]
      have : ¬ ∃ t ∈ ts, p <:+: t := by
        rw [← ih]
        simp [h0]
      simp [this]
    | cons c rest =>
      have hc := hr c rfl
      have hcp : c ∉ p := fun h => hp c h hc
      have e : p <:+: c :: rest ↔ p <:+: rest := by
        have := infix_split hcp h0 rest []
        simpa [h0] using this
      rw [infix_split hcp h0, ← e, ih]
      simp

/-! ### Lines -/

def dashes : Text := "------------------".toList

/-- What `parseStats` can see of a line. -/
structure SeenAlike (l l' : Text) : Prop where
  tokens : splitWs l = splitWs l'
  marked : l.take 5 = "log(Z".toList ↔ l'.take 5 = "log(Z".toList
  after : l.take 5 = "log(Z".toList → afterEq l = afterEq l'
  ruled : containsText dashes l = containsText dashes l'

theorem SeenAlike.trans {a b c : Text} (h : SeenAlike a b) (h' : SeenAlike b c) : SeenAlike a c :=
  ⟨h.tokens.trans h'.tokens, h.marked.trans h'.marked, fun e => (h.after e).trans (h'.after (h.marked.mp e)), h.ruled.trans h'.ruled⟩

theorem SeenAlike.symm {a b : Text} (h : SeenAlike a b) : SeenAlike b a :=
  ⟨h.tokens.symm, h.marked.symm, fun e => (h.after (h.marked.mpr e)).symm, h.ruled.symm⟩

theorem afterEq_newline : ∀ {l : Text}, '\n' ∉ l → afterEq (l ++ ['\n']) = afterEq l
  | [], _ => rfl
  | c :: l, h => by
    rw [List.cons_append, afterEq, afterEq]
    split
    · rename_i hc
      congr 1
      have : '\n' ∉ l := fun h' => h (List.mem_cons_of_mem _ h')
      rw [takeWhile_line this]
      have h2 : ∀ {m : Text}, '\n' ∉ m → m.takeWhile (fun c => decide (c ≠ '\n')) = m := by
        intro m
        induction m with
        | nil => intro _; rfl
        | cons d m ih =>
          intro hm
          have hd : d ≠ '\n' := fun e => hm (by simp [e])
          rw [List.takeWhile_cons, if_pos (by simpa using hd), ih fun h' => hm (List.mem_cons_of_mem _ h')]
      exact (h2 this).symm
    · exact afterEq_newline fun h' => h (List.mem_cons_of_mem _ h')

theorem take_newline {l p : Text} (hp : '\n' ∉ p) : (l ++ ['\n']).take p.length = p ↔ l.take p.length = p := by
  rw [← List.prefix_iff_eq_take.trans eq_comm, ← List.prefix_iff_eq_take.trans eq_comm]
  constructor
  · exact prefix_before hp
  · exact fun h => h.trans (by simp)

theorem alike_newline {l : Text} (h : '\n' ∉ l) : SeenAlike (l ++ ['\n']) l where
  tokens := by
    exact splitFrom_trailing (c := '\n') ((isSpace_iff _).mpr (by decide)) l []
  marked := by
    have := take_newline (l := l) (p := "log(Z".toList) (by decide)
    rwa [show ("log(Z".toList).length = 5 from rfl] at this
  after := fun _ => afterEq_newline h
  ruled := by
    have h1 : '\n' ∉ dashes := by decide
    have h2 : dashes ≠ [] := by decide
    have h3 := infix_split h1 h2 [] l
    generalize dashes = d at h2 h3 ⊢
    rw [Bool.eq_iff_iff, containsText_iff, containsText_iff, h3]
    simp [h2]

theorem alike_same {l l' : Text} (h : SameLine l l') : SeenAlike l l' := by
  rcases h with rfl | ⟨⟨ts, h1, h2⟩, h3, h4⟩
  · exact ⟨rfl, Iff.rfl, fun _ => rfl, rfl⟩
  · have e : ∀ {m : Text}, ¬ "log(Z".toList <+: m → ¬ m.take 5 = "log(Z".toList := by
      intro m hm e
      exact hm (List.prefix_iff_eq_take.mpr e.symm)
    refine ⟨(splitWs_spells h1).trans (splitWs_spells h2).symm, iff_of_false (e h3) (e h4), fun h => absurd h (e h3), ?_⟩
    have d1 : ∀ c ∈ dashes, c ∉ pythonSpaces := by decide
    have d2 : dashes ≠ [] := by decide
    have h5 := infix_spells d1 d2 h1
    have h6 := infix_spells d1 d2 h2
    generalize dashes = d at h5 h6 ⊢
    rw [Bool.eq_iff_iff, containsText_iff, containsText_iff, h5, h6]

theorem numAt_alike {C : Codec α} {l l' : Text} (h : SeenAlike l l') (j : Nat) : numAt C l j = numAt C l' j := by
  unfold numAt
  rw [h.tokens]

theorem readClusters_alike {CF : Codec F} {ls ls' : List Text} (h : List.Forall₂ SeenAlike ls ls') : readClusters CF ls = readClusters CF ls' := by
  induction h with
  | nil => rfl
  | @cons l l' ls ls' h _ ih =>
    rw [readClusters, readClusters]
    by_cases hm : l.take 5 = "log(Z".toList
    · rw [if_neg (by simp [hm]), if_neg (by simp [h.marked.mp hm]), h.after hm, ih]
    · rw [if_pos hm, if_pos (fun e => hm (h.marked.mpr e))]

theorem readParams_alike {CF : Codec F} {ls ls' : List Text} (h : List.Forall₂ SeenAlike ls ls') : readParams CF ls = readParams CF ls' := by
  induction h with
  | nil => rfl
  | @cons l l' ls ls' h _ ih =>
    rw [readParams, readParams, numAt_alike h, numAt_alike h, ih]
    have := h.ruled
    unfold dashes at this
    rw [this]

theorem forall₂_drop {R : Text → Text → Prop} : ∀ (n : Nat) {ls ls' : List Text}, List.Forall₂ R ls ls' → List.Forall₂ R (ls.drop n) (ls'.drop n)
  | 0, _, _, h => h
  | _ + 1, _, _, .nil => .nil
  | n + 1, _, _, .cons _ h => forall₂_drop n h

theorem nth_alike {β : Type} {f f' : Text → Py β} {ls ls' : List Text} (h : List.Forall₂ SeenAlike ls ls') (i : Nat)
    (hf : ∀ {l l'}, SeenAlike l l' → f l = f' l') : (nth ls i >>= f) = (nth ls' i >>= f') := by
  induction h generalizing i with
  | nil => rfl
  | cons h _ ih =>
    cases i with
    | zero => exact hf h
    | succ i => exact ih i

theorem py_bind_congr {α β : Type} {x : Py α} {f f' : α → Py β} (h : ∀ a, f a = f' a) : (x >>= f) = (x >>= f') := by
  rw [funext h]

theorem parseStats_alike {CF : Codec F} {CI : Codec Int} {root dir : String} {ls ls' : List Text} (h : List.Forall₂ SeenAlike ls ls') :
    parseStats CF CI root dir ls = parseStats CF CI root dir ls' := by
  unfold parseStats readParamsAfter
  rw [readClusters_alike (forall₂_drop 14 h)]
  refine nth_alike h _ fun hl => ?_
  rw [numAt_alike hl]
  refine py_bind_congr fun logZ => nth_alike h _ fun hl => ?_
  rw [numAt_alike hl]
  refine py_bind_congr fun _ => py_bind_congr fun cl => ?_
  dsimp only
  refine nth_alike h _ fun hl => ?_
  rw [numAt_alike hl]
  refine py_bind_congr fun _ => nth_alike h _ fun hl => ?_
  rw [numAt_alike hl]
  refine py_bind_congr fun _ => nth_alike h _ fun hl => ?_
  rw [numAt_alike hl]
  refine py_bind_congr fun _ => nth_alike h _ fun hl => ?_
  rw [numAt_alike hl]
  refine py_bind_congr fun _ => nth_alike h _ fun hl => nth_alike h _ fun hl' => ?_
  rw [hl.tokens, hl'.tokens, readParams_alike (forall₂_drop _ h), h.length_eq]

/-! ### Files -/

theorem readLines_last : ∀ {l : Text}, '\n' ∉ l → ∀ cur, cur ≠ [] ∨ l ≠ [] → readLinesFrom cur l = [cur.reverse ++ l]
  | [], _, cur, h => by
    cases cur with
    | nil => simp at h
    | cons c cur =>
      rw [readLinesFrom]
      · simp
      · simp
  | c :: l, h, cur, _ => by
    rw [readLinesFrom, if_neg (fun e => h (by simp [e])), readLines_last (fun h' => h (List.mem_cons_of_mem _ h')) _ (.inl (by simp))]
    simp

theorem readLines_append : ∀ {ls : List Text}, (∀ l ∈ ls, '\n' ∉ l) → ∀ rest,
    readLines (ls.flatMap (· ++ ['\n']) ++ rest) = ls.map (· ++ ['\n']) ++ readLines rest
  | [], _, _ => rfl
  | l :: ls, h, rest => by
    have e : (l :: ls).flatMap (· ++ ['\n']) ++ rest = l ++ '\n' :: (ls.flatMap (· ++ ['\n']) ++ rest) := by simp
    rw [e, readLines, readLinesFrom_line (h l (by simp))]
    show _ :: readLines _ = _
    rw [readLines_append (fun m hm => h m (List.mem_cons_of_mem _ hm)) rest]
    simp

theorem readLines_hasLines {ls : List Text} (h : ∀ l ∈ ls, '\n' ∉ l) {text : Text} (ht : HasLines ls text) :
    List.Forall₂ SeenAlike (readLines text) ls := by
  have hall : ∀ {ms : List Text}, (∀ l ∈ ms, '\n' ∉ l) → List.Forall₂ SeenAlike (ms.map (· ++ ['\n'])) ms := by
    intro ms
    induction ms with
    | nil => intro _; exact .nil
    | cons m ms ih => intro hm; exact .cons (alike_newline (hm m (by simp))) (ih fun l hl => hm l (List.mem_cons_of_mem _ hl))
  rcases ht with rfl | ⟨ht, l, hl, h0⟩
  · rw [readLines_lines h]
    exact hall h
  · obtain ⟨ms, rfl⟩ := List.getLast?_eq_some_iff.mp hl
    have e : text = ms.flatMap (· ++ ['\n']) ++ l := by
      rw [List.flatMap_append, List.flatMap_singleton, ← List.append_assoc] at ht
      exact List.append_cancel_right ht
    have hms : ∀ m ∈ ms, '\n' ∉ m := fun m hm => h m (by simp [hm])
    have hl' : '\n' ∉ l := h l (by simp)
    rw [e, readLines_append hms, readLines, readLines_last hl' [] (.inr h0)]
    refine List.rel_append (hall hms) (.cons ?_ .nil)
    rw [List.reverse_nil, List.nil_append]
    exact alike_same (.inl rfl)

/-- C62.  Only the tokens of a .stats file matter, separated by whatever Python counts as white space, and not whether the last line
ends with a newline.  (The lines with the evidences of the clusters are taken as they are: their tokens are looked for behind the first
equals sign.) -/
theorem C62_layout (CF : Codec F) (CI : Codec Int) {files files' : Texts} {root dir : String} {ls ls' : List Text} {text text' : Text}
    (hf : files (pathJoin dir root ++ ".stats") = some text) (hf' : files' (pathJoin dir root ++ ".stats") = some text')
    (hl : ∀ l ∈ ls, '\n' ∉ l) (hl' : ∀ l ∈ ls', '\n' ∉ l) (ht : HasLines ls text) (ht' : HasLines ls' text')
    (hsame : List.Forall₂ SameLine ls ls') : processStats CF CI files root dir = processStats CF CI files' root dir := by
  unfold processStats
  rw [hf, hf']
  refine (parseStats_alike (readLines_hasLines hl ht)).trans ((parseStats_alike ?_).trans (parseStats_alike (readLines_hasLines hl' ht')).symm)
  exact hsame.imp fun _ _ h => alike_same h

/-- Two spellings of a line. -/
example : SameLine "nlike:  1000 200".toList "nlike:\t1000\x0c 200 \r".toList := by
  have sp : ∀ {t : String} {ts : List Text} {gap rest : String}, (∀ c ∈ gap.toList, c ∈ pythonSpaces) → t.toList ≠ [] →
      (∀ c ∈ t.toList, c ∉ pythonSpaces) → (∀ c, rest.toList.head? = some c → c ∈ pythonSpaces) → Spells ts rest.toList →
      Spells (t.toList :: ts) (gap.toList ++ t.toList ++ rest.toList) := fun h1 h2 h3 h4 h5 => .cons h1 h2 h3 h4 h5
  refine .inr ⟨⟨["nlike:".toList, "1000".toList, "200".toList], ?_, ?_⟩, by decide, by decide⟩
  · exact sp (gap := "") (t := "nlike:") (rest := "  1000 200") (by decide) (by decide) (by decide) (by simp; decide)
      (sp (gap := "  ") (t := "1000") (rest := " 200") (by decide) (by decide) (by decide) (by simp; decide)
        (sp (gap := " ") (t := "200") (rest := "") (by decide) (by decide) (by decide) (by simp) (.nil (by simp))))
  · exact sp (gap := "") (t := "nlike:") (rest := "\t1000\x0c 200 \r") (by decide) (by decide) (by decide) (by simp; decide)
      (sp (gap := "\t") (t := "1000") (rest := "\x0c 200 \r") (by decide) (by decide) (by decide) (by simp; decide)
        (sp (gap := "\x0c ") (t := "200") (rest := " \r") (by decide) (by decide) (by decide) (by simp; decide) (.nil (by decide))))

/-- A file of which the last newline is missing and one line is spelt differently. -/
example : exRead (readLines ((exLines.set 27 " nlike:\t1000\x0c 200 \r\n".toList).flatten.dropLast)) = exRead exLines ∧
    (exLines.getD 27 []) = " nlike:         1000 200\n".toList := by
  decide +kernel

end Nestcheck
