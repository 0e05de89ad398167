import Verif.Proofs.Stats
import Verif.Model.Instances
import Verif.Spec.Run

/-
C14: .stats files; C62: process_polychord_run does not depend on them.
-/

namespace Nestcheck
open Spec
variable {F α : Type}

/-- A list with one item is indistinguishable from a number. -/
def Spec.collapse : OneOrMany α → OneOrMany α
  | .one x => .one x
  | .many [x] => .one x
  | .many xs => .many xs

/-- What a .stats file says about the data written to it: lists which belong together are
cut to the shorter one, the number of clusters is that of the cluster evidences, and a
list with one item is a number. -/
def Spec.readBack (s : Stats F) : Stats F :=
  { s with
    logZs := s.logZs.take s.logZerrs.length
    logZerrs := s.logZerrs.take s.logZs.length
    ncluster := min s.logZs.length s.logZerrs.length
    nlike := s.nlike.map collapse
    avnlike := collapse s.avnlike
    avnlikeslice := collapse s.avnlikeslice
    params := s.params.map (fun p => (p.1.take p.2.length, p.2.take p.1.length)) }

theorem unwrap_items (v : OneOrMany α) : unwrap v.items = collapse v := by
  rcases v with x | xs
  · rfl
  · rcases xs with _ | ⟨x, _ | ⟨y, ys⟩⟩ <;> rfl

theorem map_fst_zip_take {β : Type} (xs : List α) (ys : List β) :
    (xs.zip ys).map Prod.fst = xs.take ys.length := by
  induction xs generalizing ys with
  | nil => simp
  | cons x xs ih => cases ys <;> simp [ih]

theorem map_snd_zip_take {β : Type} (xs : List α) (ys : List β) :
    (xs.zip ys).map Prod.snd = ys.take xs.length := by
  induction xs generalizing ys with
  | nil => simp
  | cons x xs ih => cases ys <;> simp [ih]

theorem clusterLines_length (C : Codec F) (ps : List (F × F)) (i : Nat) :
    (clusterLines C i ps).length = ps.length := by
  induction ps generalizing i with
  | nil => rfl
  | cons p ps ih => obtain ⟨z, e⟩ := p; rw [clusterLines, List.length_cons, ih]; rfl

theorem parse_lines (CF : Codec F) (CI : Codec Int) (s : Stats F) (hp : s.params.isSome) (hn : s.nlike.isSome) :
    parseStats CF CI s.fileRoot s.baseDir ((statsLines CF CI s).map (· ++ ['\n'])) = .ok (readBack s) := by
  obtain ⟨⟨pm, pe⟩, hp⟩ := Option.isSome_iff_exists.mp hp
  obtain ⟨lk, hn⟩ := Option.isSome_iff_exists.mp hn
  generalize hcl : s.logZs.zip s.logZerrs = cl
  set L := (statsLines CF CI s).map (· ++ ['\n']) with hL
  have hLeq : L = (headLines CF s).map (· ++ ['\n']) ++ ((clusterLines CF 0 cl).map (· ++ ['\n']) ++
      ((midLines CF CI s).map (· ++ ['\n']) ++ ((paramLines CF 0 (pm.zip pe)).map (· ++ ['\n']) ++
        ["-------------------------------\n".toList]))) := by
    rw [hL, statsLines, hcl, hp]
    simp only [List.map_append, List.append_assoc]
    rfl
  have hh : (headLines CF s).length = 14 := rfl
  have hm : (midLines CF CI s).length = 15 := rfl
  have h8 : L[8]? = some ("log(Z)       =  ".toList ++ CF.str s.logZ ++ " +/-   ".toList ++
      CF.str s.logZerr ++ ['\n']) := by rw [hLeq]; rfl
  have hmid : ∀ k < 15, L[14 + cl.length + k]? = ((midLines CF CI s).map (· ++ ['\n']))[k]? := by
    intro k hk
    rw [hLeq, List.getElem?_append_right (by simp [hh]; omega),
      List.getElem?_append_right (by simp [hh, clusterLines_length]; omega),
      List.getElem?_append_left (by simp [hh, hm, clusterLines_length]; omega)]
    congr 1
    simp [hh, clusterLines_length]
    omega
  have hdrop14 : L.drop 14 = (clusterLines CF 0 cl).map (· ++ ['\n']) ++
      ((midLines CF CI s).map (· ++ ['\n']) ++ ((paramLines CF 0 (pm.zip pe)).map (· ++ ['\n']) ++
        ["-------------------------------\n".toList])) := by rw [hLeq]; rfl
  have hcls : readClusters CF (L.drop 14) = .ok cl := by
    rw [hdrop14]
    exact readClusters_lines CF cl 0 _ (by decide)
  have hlast : L.drop (29 + cl.length) = (paramLines CF 0 (pm.zip pe)).map (· ++ ['\n']) ++
        ["-------------------------------\n".toList] := by
    rw [show 29 + cl.length = 14 + (cl.length + 15) by omega, ← List.drop_drop, hdrop14,
      ← List.append_assoc]
    apply List.drop_left'
    simp [clusterLines_length, hm]
  have hlen : L.length > 29 + cl.length := by
    have := congrArg List.length hlast
    simp only [List.length_drop, List.length_append, List.length_cons, List.length_nil] at this
    omega
  have e20 : L[20 + cl.length]? = some (" nposterior:        ".toList ++ CI.str s.nposterior ++ ['\n']) := by
    rw [show 20 + cl.length = 14 + cl.length + 6 by omega, hmid 6 (by decide)]; rfl
  have e21 : L[21 + cl.length]? = some (" nequals:           ".toList ++ CI.str s.nequals ++ ['\n']) := by
    rw [show 21 + cl.length = 14 + cl.length + 7 by omega, hmid 7 (by decide)]; rfl
  have e22 : L[22 + cl.length]? = some (" ndead:          ".toList ++ CI.str s.ndead ++ ['\n']) := by
    rw [show 22 + cl.length = 14 + cl.length + 8 by omega, hmid 8 (by decide)]; rfl
  have e23 : L[23 + cl.length]? = some (" nlive:             ".toList ++ CI.str s.nlive ++ ['\n']) := by
    rw [show 23 + cl.length = 14 + cl.length + 9 by omega, hmid 9 (by decide)]; rfl
  have e24 : L[24 + cl.length]? = some (" nlike:         ".toList ++ strMany CI lk ++ ['\n']) := by
    rw [show 24 + cl.length = 14 + cl.length + 10 by omega, hmid 10 (by decide)]
    simp only [midLines, hn]; rfl
  have e25 : L[25 + cl.length]? = some (" <nlike>:       ".toList ++ strMany CF s.avnlike ++ "   (    ".toList ++
     strMany CF s.avnlikeslice ++ " per slice )".toList ++ ['\n']) := by
    rw [show 25 + cl.length = 14 + cl.length + 11 by omega, hmid 11 (by decide)]; rfl
  have s20 : splitWs (" nposterior:        ".toList ++ CI.str s.nposterior ++ ['\n']) =
      ["nposterior:".toList, CI.str s.nposterior] := by
    rw [List.append_assoc, show ∀ rest, splitWs (" nposterior:        ".toList ++ rest) =
      "nposterior:".toList :: splitWs rest from fun _ => rfl, splitWs_str CI _ rfl]; rfl
  have s21 : splitWs (" nequals:           ".toList ++ CI.str s.nequals ++ ['\n']) =
      ["nequals:".toList, CI.str s.nequals] := by
    rw [List.append_assoc, show ∀ rest, splitWs (" nequals:           ".toList ++ rest) =
      "nequals:".toList :: splitWs rest from fun _ => rfl, splitWs_str CI _ rfl]; rfl
  have s22 : splitWs (" ndead:          ".toList ++ CI.str s.ndead ++ ['\n']) =
      ["ndead:".toList, CI.str s.ndead] := by
    rw [List.append_assoc, show ∀ rest, splitWs (" ndead:          ".toList ++ rest) =
      "ndead:".toList :: splitWs rest from fun _ => rfl, splitWs_str CI _ rfl]; rfl
  have s23 : splitWs (" nlive:             ".toList ++ CI.str s.nlive ++ ['\n']) =
      ["nlive:".toList, CI.str s.nlive] := by
    rw [List.append_assoc, show ∀ rest, splitWs (" nlive:             ".toList ++ rest) =
      "nlive:".toList :: splitWs rest from fun _ => rfl, splitWs_str CI _ rfl]; rfl
  have s24 : splitWs (" nlike:         ".toList ++ strMany CI lk ++ ['\n']) =
      "nlike:".toList :: lk.items.map CI.str := by
    rw [List.append_assoc, show ∀ rest, splitWs (" nlike:         ".toList ++ rest) =
      "nlike:".toList :: splitWs rest from fun _ => rfl, splitWs_many CI _ rfl,
      show splitWs [] = [] from rfl, List.append_nil]
  have s25 : splitWs (" <nlike>:       ".toList ++ strMany CF s.avnlike ++ "   (    ".toList ++
      strMany CF s.avnlikeslice ++ " per slice )".toList ++ ['\n']) =
      "<nlike>:".toList :: (s.avnlike.items.map CF.str ++ ['('] :: (s.avnlikeslice.items.map CF.str ++
        ["per".toList, "slice".toList, ")".toList])) := by
    simp only [List.append_assoc]
    rw [show ∀ rest, splitWs (" <nlike>:       ".toList ++ rest) = "<nlike>:".toList :: splitWs rest
      from fun _ => rfl]
    rw [show ∀ rest, "   (    ".toList ++ rest = ' ' :: ("  (    ".toList ++ rest) from fun _ => rfl,
      splitWs_many CF _ rfl]
    rw [show ∀ rest, splitWs ("  (    ".toList ++ rest) = ['('] :: splitWs rest from fun _ => rfl]
    rw [show " per slice )".toList ++ ['\n'] = ' ' :: "per slice )\n".toList from rfl, splitWs_many CF _ rfl]
    rfl
  have n20 := numAt_of (C := CI) s20 (j := 1) (x := s.nposterior) rfl
  have n21 := numAt_of (C := CI) s21 (j := 1) (x := s.nequals) rfl
  have n22 := numAt_of (C := CI) s22 (j := 1) (x := s.ndead) rfl
  have n23 := numAt_of (C := CI) s23 (j := 1) (x := s.nlive) rfl
  have nz := numAt_of (C := CF) (split_logZ CF s.logZ s.logZerr) (j := 2) (x := s.logZ) rfl
  have ne := numAt_of (C := CF) (split_logZ CF s.logZ s.logZerr) (j := 4) (x := s.logZerr) rfl
  have hpi : parenIndex ("<nlike>:".toList :: (s.avnlike.items.map CF.str ++ ['('] ::
      (s.avnlikeslice.items.map CF.str ++ ["per".toList, "slice".toList, ")".toList]))) =
      .ok (s.avnlike.items.length + 1) := by
    have hf : ∀ xs : List F, (xs.map CF.str ++ ['('] :: (s.avnlikeslice.items.map CF.str ++
        ["per".toList, "slice".toList, ")".toList])).findIdx? (fun t => decide (t = ['('])) = some xs.length := by
      intro xs
      induction xs with
      | nil => rw [List.map_nil, List.nil_append, List.findIdx?_cons, if_pos (by simp)]; rfl
      | cons x xs ih =>
        have hx : CF.str x ≠ ['('] := by
          intro hc
          have h1 := CF.parse_str x
          rw [hc, CF.paren] at h1
          cases h1
        rw [List.map_cons, List.cons_append, List.findIdx?_cons, if_neg (by simpa using hx), ih]
        rfl
    unfold parenIndex
    rw [List.findIdx?_cons, if_neg (by decide), hf]
    rfl
  have hav : readNums CF ((("<nlike>:".toList :: (s.avnlike.items.map CF.str ++ ['('] ::
      (s.avnlikeslice.items.map CF.str ++ ["per".toList, "slice".toList, ")".toList]))).take
        (s.avnlike.items.length + 1)).drop 1) = .ok s.avnlike.items := by
    rw [List.take_succ_cons, List.drop_one, List.tail_cons, List.take_left' (by simp), readNums_str]
  have havs : readNums CF ((("<nlike>:".toList :: (s.avnlike.items.map CF.str ++ ['('] ::
      (s.avnlikeslice.items.map CF.str ++ ["per".toList, "slice".toList, ")".toList]))).take
        (("<nlike>:".toList :: (s.avnlike.items.map CF.str ++ ['('] ::
      (s.avnlikeslice.items.map CF.str ++ ["per".toList, "slice".toList, ")".toList]))).length - 3)).drop
        (s.avnlike.items.length + 1 + 1)) = .ok s.avnlikeslice.items := by
    have hsh : "<nlike>:".toList :: (s.avnlike.items.map CF.str ++ ['('] ::
      (s.avnlikeslice.items.map CF.str ++ ["per".toList, "slice".toList, ")".toList])) =
      (("<nlike>:".toList :: s.avnlike.items.map CF.str ++ [['(']]) ++ s.avnlikeslice.items.map CF.str) ++
        ["per".toList, "slice".toList, ")".toList] := by simp
    rw [hsh, List.take_left' (by simp; omega), List.drop_left' (by simp), readNums_str]
  have hpar : readParamsAfter CF L (29 + cl.length) = .ok (some (pm.take pe.length, pe.take pm.length)) := by
    unfold readParamsAfter
    rw [if_pos hlen, hlast, readParams_lines]
    simp only [bind, Except.bind, map_fst_zip_take, map_snd_zip_take]
  have hlk : readLike CI (lk.items.map CI.str) = some (collapse lk) := by
    unfold readLike
    rw [readNums_str]
    simp only [unwrap_items]
  have hclf : cl.map Prod.fst = s.logZs.take s.logZerrs.length := by rw [← hcl, map_fst_zip_take]
  have hcls' : cl.map Prod.snd = s.logZerrs.take s.logZs.length := by rw [← hcl, map_snd_zip_take]
  have hcll : (cl.length : Int) = ((min s.logZs.length s.logZerrs.length : Nat) : Int) := by
    rw [← hcl, List.length_zip]
  rw [List.drop_one] at hav
  unfold parseStats
  simp only [nth, h8, bind, Except.bind, nz, ne, hcls, e20, e21, e22, e23, e24, e25, n20, n21, n22, n23, s24, s25,
    hpi, hav, havs, hpar, hclf, hcls', hcll, List.drop_one, List.tail_cons, hlk, unwrap_items]
  congr 1
  simp only [readBack, hp, hn, Option.map_some]
  simp
  omega

theorem pathJoin_ext (dir root : String) : pathJoin dir (root ++ ".stats") = pathJoin dir root ++ ".stats" := by
  have h : (root ++ ".stats").toList.head? = some '/' ↔ root.toList.head? = some '/' := by
    rw [String.toList_append]
    cases root.toList with
    | nil => decide
    | cons c l => simp
  unfold pathJoin
  by_cases h1 : root.toList.head? = some '/'
  · rw [if_pos h1, if_pos (h.mpr h1)]
  · rw [if_neg h1, if_neg (fun hc => h1 (h.mp hc))]
    by_cases h2 : dir.toList = [] ∨ dir.toList.getLast? = some '/'
    · rw [if_pos h2, if_pos h2, String.append_assoc]
    · rw [if_neg h2, if_neg h2, String.append_assoc, String.append_assoc, String.append_assoc]

/-- When `write_stats_file` accepts its argument. -/
def Spec.StatsKeys (d : StatsIn F) (root dir : String) : Prop :=
  d.fileRoot = some root ∧ d.baseDir = some dir ∧ d.others = []

/-- C14, `write_stats_file` itself: it accepts dictionaries with both mandatory keys and no
unknown ones; the result has the given values where there are any and the documented
defaults elsewhere; no file other than the .stats file is touched. -/
theorem C14_written (CF : Codec F) (CI : Codec Int) (zero : F) (files : Texts) (d : StatsIn F) :
    (∀ root dir, StatsKeys d root dir → ∃ (s : Stats F) (files' : Texts),
      writeStats CF CI zero files d = .ok (s, files') ∧ s.fileRoot = root ∧ s.baseDir = dir ∧
      (∀ name, name ≠ pathJoin dir root ++ ".stats" → files' name = files name) ∧
      s.logZ = d.logZ.getD zero ∧ s.logZerr = d.logZerr.getD zero ∧
      s.logZs = d.logZs.getD [zero] ∧ s.logZerrs = d.logZerrs.getD [zero] ∧
      s.ncluster = d.ncluster.getD 1 ∧ s.nposterior = d.nposterior.getD 0 ∧ s.nequals = d.nequals.getD 0 ∧
      s.ndead = d.ndead.getD 0 ∧ s.nlive = d.nlive.getD 0 ∧ s.nlike = some (d.nlike.getD (.one 0)) ∧
      s.avnlike = d.avnlike.getD (.one zero) ∧ s.avnlikeslice = d.avnlikeslice.getD (.one zero) ∧
      s.params = some (d.paramMeans.getD [zero, zero, zero], d.paramMeanErrs.getD [zero, zero, zero])) ∧
    ((¬ ∃ root dir, StatsKeys d root dir) → writeStats CF CI zero files d = .error .assertion) := by
  constructor
  · rintro root dir ⟨h1, h2, h3⟩
    unfold writeStats
    rw [h1, h2]
    simp only [h3, ne_eq, not_true_eq_false, if_false]
    refine ⟨_, _, rfl, rfl, rfl, ?_, rfl, rfl, rfl, rfl, rfl, rfl, rfl, rfl, rfl, rfl, rfl, rfl, rfl⟩
    intro name hn
    rw [if_neg (by rw [pathJoin_ext]; exact hn)]
  · intro h
    unfold writeStats
    cases h1 : d.fileRoot with
    | none => rfl
    | some root =>
      cases h2 : d.baseDir with
      | none => rfl
      | some dir =>
        simp only
        rw [if_pos]
        intro h3
        exact h ⟨root, dir, h1, h2, h3⟩

/-- C14, reading the file: for any numbers of clusters and parameters the file reads back
as described by `readBack`. -/
theorem C14_read_back (CF : Codec F) (CI : Codec Int) (zero : F) {files files' : Texts} {d : StatsIn F}
    {s : Stats F} (h : writeStats CF CI zero files d = .ok (s, files')) :
    processStats CF CI files' s.fileRoot s.baseDir = .ok (readBack s) := by
  unfold writeStats at h
  cases h1 : d.fileRoot with
  | none => rw [h1] at h; cases h
  | some root =>
    cases h2 : d.baseDir with
    | none => rw [h1, h2] at h; cases h
    | some dir =>
      rw [h1, h2] at h
      simp only at h
      by_cases h3 : d.others ≠ []
      · rw [if_pos h3] at h; cases h
      · rw [if_neg h3] at h
        simp only [Except.ok.injEq, Prod.mk.injEq] at h
        obtain ⟨rfl, rfl⟩ := h
        unfold processStats
        have hp : pathJoin (withDefaults zero d dir root).baseDir (withDefaults zero d dir root).fileRoot ++ ".stats"
            = pathJoin dir (root ++ ".stats") := (pathJoin_ext dir root).symm
        rw [hp]
        simp only [↓reduceIte]
        rw [readLines_lines (statsLines_no_newline CF CI _)]
        exact parse_lines CF CI _ rfl rfl

/-- A list with one item, which cannot be told from a number. -/
def Spec.Singleton : OneOrMany α → Prop
  | .one _ => False
  | .many xs => xs.length = 1

theorem collapse_eq_iff (v : OneOrMany α) : collapse v = v ↔ ¬ Spec.Singleton v := by
  rcases v with x | xs
  · simp [collapse, Spec.Singleton]
  · rcases xs with _ | ⟨x, _ | ⟨y, ys⟩⟩ <;> simp [collapse, Spec.Singleton]

theorem take_both_iff {β : Type} (xs : List α) (ys : List β) :
    (xs.take ys.length = xs ∧ ys.take xs.length = ys) ↔ xs.length = ys.length := by
  rw [List.take_eq_self_iff, List.take_eq_self_iff]
  omega

/-- C14.  The file reads back as exactly the dictionary which `write_stats_file` returned
if and only if the lists which belong together have the same length, `ncluster` is the
number of cluster evidences, and none of nlike, avnlike and avnlikeslice is a list with
one item. -/
theorem C14_round_trip (CF : Codec F) (CI : Codec Int) (zero : F) {files files' : Texts} {d : StatsIn F}
    {s : Stats F} (h : writeStats CF CI zero files d = .ok (s, files')) :
    processStats CF CI files' s.fileRoot s.baseDir = .ok s ↔
      s.logZs.length = s.logZerrs.length ∧ s.ncluster = s.logZs.length ∧
      (∀ p ∈ s.params, p.1.length = p.2.length) ∧ (∀ v ∈ s.nlike, ¬ Spec.Singleton v) ∧
      ¬ Spec.Singleton s.avnlike ∧ ¬ Spec.Singleton s.avnlikeslice := by
  rw [C14_read_back CF CI zero h, Except.ok.injEq]
  obtain ⟨dir, root, z, ze, zs, zes, nc, np, ne, nd, nl, nk, av, avs, ps⟩ := s
  have hnk : nk.map collapse = nk ↔ ∀ v ∈ nk, ¬ Spec.Singleton v := by
    cases nk with
    | none => simp
    | some v => simp [collapse_eq_iff]
  have hps : ps.map (fun p => (p.1.take p.2.length, p.2.take p.1.length)) = ps ↔
      ∀ p ∈ ps, p.1.length = p.2.length := by
    cases ps with
    | none => simp
    | some p =>
      obtain ⟨a, b⟩ := p
      simp only [Option.map_some, Option.some.injEq, Prod.mk.injEq, Option.mem_def, forall_eq', take_both_iff]
  simp only [readBack, Stats.mk.injEq, true_and, hnk, hps, collapse_eq_iff]
  constructor
  · rintro ⟨h1, h2, h3, h4, h5, h6, h7⟩
    have := (take_both_iff zs zes).mp ⟨h1, h2⟩
    exact ⟨this, by omega, h7, h4, h5, h6⟩
  · rintro ⟨h1, h3, h7, h4, h5, h6⟩
    obtain ⟨a, b⟩ := (take_both_iff zs zes).mpr h1
    exact ⟨a, b, by omega, h4, h5, h6, h7⟩

/-! ### C62 -/

section
variable {σ K : Type} [CommRing K] [LinearOrder K]

theorem bind_py_error {β : Type} {p : PyErr → Prop} {x : Py α} {f : α → Py β}
    (hx : ∀ e, x = .error e → p e) (hf : ∀ a e, f a = .error e → p e) (e : PyErr)
    (h : x >>= f = .error e) : p e := by
  cases x with
  | error e' => simp only [bind, Except.bind, Except.error.injEq] at h; exact hx e (by rw [h])
  | ok a => exact hf a e h

/-- An `IndexError` or a `ValueError`. -/
def Spec.Malformed (e : PyErr) : Prop := e = .index ∨ e = .value

theorem nth_error {xs : List α} {i : Nat} (e : PyErr) (h : nth xs i = .error e) : Malformed e := by
  unfold nth at h
  cases hx : xs[i]? with
  | none => rw [hx] at h; cases h; exact .inl rfl
  | some x => rw [hx] at h; cases h

theorem readNum_error {C : Codec α} {s : Text} (e : PyErr) (h : readNum C s = .error e) : Malformed e := by
  unfold readNum at h
  cases hx : C.parse s with
  | none => rw [hx] at h; cases h; exact .inr rfl
  | some x => rw [hx] at h; cases h

theorem numAt_error {C : Codec α} {s : Text} {j : Nat} (e : PyErr) (h : numAt C s j = .error e) : Malformed e :=
  bind_py_error (fun e h => nth_error e h) (fun _ e h => readNum_error e h) e h

theorem afterEq_error {s : Text} (e : PyErr) (h : afterEq s = .error e) : Malformed e := by
  induction s with
  | nil => rw [afterEq] at h; cases h; exact .inl rfl
  | cons c s ih =>
    rw [afterEq] at h
    by_cases hc : c = '='
    · rw [if_pos hc] at h; cases h
    · rw [if_neg hc] at h; exact ih h

theorem readClusters_error {C : Codec F} {ls : List Text} (e : PyErr) (h : readClusters C ls = .error e) :
    Malformed e := by
  induction ls generalizing e with
  | nil => cases h
  | cons l ls ih =>
    rw [readClusters] at h
    by_cases hc : l.take 5 ≠ "log(Z".toList
    · rw [if_pos hc] at h; cases h
    · rw [if_neg hc] at h
      exact bind_py_error (fun e h => afterEq_error e h) (fun _ e h =>
        bind_py_error (fun e h => numAt_error e h) (fun _ e h =>
        bind_py_error (fun e h => afterEq_error e h) (fun _ e h =>
        bind_py_error (fun e h => numAt_error e h) (fun _ e h =>
        bind_py_error (fun e h => ih e h) (fun _ e h => by cases h) e h) e h) e h) e h) e h

theorem readParams_error {C : Codec F} {ls : List Text} (e : PyErr) (h : readParams C ls = .error e) :
    Malformed e := by
  induction ls generalizing e with
  | nil => cases h
  | cons l ls ih =>
    rw [readParams] at h
    by_cases hc : containsText "------------------".toList l = true
    · rw [if_pos hc] at h; exact ih e h
    · rw [if_neg hc] at h
      exact bind_py_error (fun e h => numAt_error e h) (fun _ e h =>
        bind_py_error (fun e h => numAt_error e h) (fun _ e h =>
        bind_py_error (fun e h => ih e h) (fun _ e h => by cases h) e h) e h) e h

theorem readNums_error {C : Codec α} {ls : List Text} (e : PyErr) (h : readNums C ls = .error e) :
    Malformed e := by
  induction ls generalizing e with
  | nil => cases h
  | cons l ls ih =>
    rw [readNums] at h
    exact bind_py_error (fun e h => readNum_error e h) (fun _ e h =>
      bind_py_error (fun e h => ih e h) (fun _ e h => by cases h) e h) e h

theorem parenIndex_error {items : List Text} (e : PyErr) (h : parenIndex items = .error e) : Malformed e := by
  unfold parenIndex at h
  cases hx : items.findIdx? (fun t => decide (t = ['('])) with
  | none => rw [hx] at h; cases h; exact .inr rfl
  | some x => rw [hx] at h; cases h

theorem readParamsAfter_error {C : Codec F} {ls : List Text} {n : Nat} (e : PyErr)
    (h : readParamsAfter C ls n = .error e) : Malformed e := by
  unfold readParamsAfter at h
  by_cases hc : ls.length > n
  · rw [if_pos hc] at h
    exact bind_py_error (fun e h => readParams_error e h) (fun _ e h => by cases h) e h
  · rw [if_neg hc] at h; cases h

/-- Whatever the lines are, reading them fails with `IndexError` or `ValueError` if at all. -/
theorem parseStats_error {CF : Codec F} {CI : Codec Int} {root dir : String} {ls : List Text} (e : PyErr)
    (h : parseStats CF CI root dir ls = .error e) : Malformed e := by
  unfold parseStats at h
  refine bind_py_error (fun e h => nth_error e h) (fun _ e h => ?_) e h
  refine bind_py_error (fun e h => numAt_error e h) (fun _ e h => ?_) e h
  refine bind_py_error (fun e h => nth_error e h) (fun _ e h => ?_) e h
  refine bind_py_error (fun e h => numAt_error e h) (fun _ e h => ?_) e h
  refine bind_py_error (fun e h => readClusters_error e h) (fun _ e h => ?_) e h
  refine bind_py_error (fun e h => nth_error e h) (fun _ e h => ?_) e h
  refine bind_py_error (fun e h => numAt_error e h) (fun _ e h => ?_) e h
  refine bind_py_error (fun e h => nth_error e h) (fun _ e h => ?_) e h
  refine bind_py_error (fun e h => numAt_error e h) (fun _ e h => ?_) e h
  refine bind_py_error (fun e h => nth_error e h) (fun _ e h => ?_) e h
  refine bind_py_error (fun e h => numAt_error e h) (fun _ e h => ?_) e h
  refine bind_py_error (fun e h => nth_error e h) (fun _ e h => ?_) e h
  refine bind_py_error (fun e h => numAt_error e h) (fun _ e h => ?_) e h
  refine bind_py_error (fun e h => nth_error e h) (fun _ e h => ?_) e h
  refine bind_py_error (fun e h => nth_error e h) (fun _ e h => ?_) e h
  refine bind_py_error (fun e h => parenIndex_error e h) (fun _ e h => ?_) e h
  refine bind_py_error (fun e h => readNums_error e h) (fun _ e h => ?_) e h
  refine bind_py_error (fun e h => readNums_error e h) (fun _ e h => ?_) e h
  refine bind_py_error (fun e h => readParamsAfter_error e h) (fun _ e h => ?_) e h
  cases h

theorem M.tryExcept_ok {x : M σ α} {p : PyErr → Bool} {h : PyErr → M σ α} {w w' : World σ} {a : α}
    (hx : x w = (.ok a, w')) : M.tryExcept x p h w = (.ok a, w') := by
  unfold M.tryExcept
  simp only [hx]

theorem M.tryExcept_handled {x : M σ α} {p : PyErr → Bool} {h : PyErr → M σ α} {w w' : World σ} {e : PyErr}
    (hx : x w = (.error e, w')) (hp : p e = true) : M.tryExcept x p h w = h e w' := by
  unfold M.tryExcept
  simp only [hx, hp, if_true]

/-- C62, `process_polychord_stats`: it returns, or raises `OSError`, `IndexError` or
`ValueError`; the first exactly if there is no such file. -/
theorem C62_errors (CF : Codec F) (CI : Codec Int) (texts : Texts) (root dir : String) (e : PyErr)
    (h : processStats CF CI texts root dir = .error e) :
    (e = .os ∧ texts (pathJoin dir root ++ ".stats") = none) ∨
    (Malformed e ∧ texts (pathJoin dir root ++ ".stats") ≠ none) := by
  unfold processStats at h
  cases ht : texts (pathJoin dir root ++ ".stats") with
  | none => rw [ht] at h; cases h; exact .inl ⟨rfl, rfl⟩
  | some t => rw [ht] at h; exact .inr ⟨parseStats_error e h, by simp⟩

theorem py_bind_eq_ok {α β : Type} {x : Py α} {f : α → Py β} {b : β} (h : (x >>= f) = .ok b) :
    ∃ a, x = .ok a ∧ f a = .ok b := by
  cases x with
  | error e => cases h
  | ok a => exact ⟨a, rfl, h⟩

theorem stats_ok_bind {α β : Type} (a : α) (f : α → Py β) : (Except.ok a >>= f : Py β) = f a := rfl

theorem readNums_error_iff {C : Codec α} (ts : List Text) :
    (∃ e, readNums C ts = .error e) ↔ ∃ t ∈ ts, C.parse t = none := by
  induction ts with
  | nil => simp [readNums]
  | cons t ts ih =>
    rw [readNums]
    unfold readNum
    cases ht : C.parse t with
    | none => simp [ht]; exact ⟨_, rfl⟩
    | some x =>
      simp only [stats_ok_bind, List.mem_cons, exists_eq_or_imp, ht, reduceCtorEq, false_or]
      rw [← ih]
      cases hr : readNums C ts with
      | error e => exact ⟨fun _ => ⟨e, rfl⟩, fun _ => ⟨e, rfl⟩⟩
      | ok xs => simp [stats_ok_bind]

theorem readNums_map {C : Codec α} {ts : List Text} {xs : List α} (h : ts.map C.parse = xs.map some) :
    readNums C ts = .ok xs := by
  induction ts generalizing xs with
  | nil => cases xs with
    | nil => rfl
    | cons x xs => simp at h
  | cons t ts ih => cases xs with
    | nil => simp at h
    | cons x xs =>
      simp only [List.map_cons, List.cons.injEq] at h
      rw [readNums, readNum, h.1, ih h.2]
      rfl

theorem nth_set_ne {ls : List Text} {i k : Nat} {l : Text} (h : k ≠ i) : nth (ls.set k l) i = nth ls i := by
  unfold nth
  rw [List.getElem?_set_ne h]

theorem readClusters_set {C : Codec F} {ls : List Text} {cl : List (F × F)} (h : readClusters C ls = .ok cl) {k : Nat}
    (hk : cl.length < k) (l : Text) : readClusters C (ls.set k l) = .ok cl := by
  induction ls generalizing cl k with
  | nil => exact h
  | cons x xs ih =>
    cases k with
    | zero => simp at hk
    | succ k =>
      rw [List.set_cons_succ]
      rw [readClusters] at h ⊢
      by_cases hx : x.take 5 ≠ "log(Z".toList
      · rw [if_pos hx] at h ⊢; exact h
      · rw [if_neg hx] at h ⊢
        obtain ⟨a1, h1, h⟩ := py_bind_eq_ok h
        obtain ⟨z, h2, h⟩ := py_bind_eq_ok h
        obtain ⟨a3, h3, h⟩ := py_bind_eq_ok h
        obtain ⟨e, h4, h⟩ := py_bind_eq_ok h
        obtain ⟨more, h5, h⟩ := py_bind_eq_ok h
        cases h
        cases h1.symm.trans h3
        rw [List.length_cons] at hk
        rw [h1, stats_ok_bind, h2, stats_ok_bind, stats_ok_bind, h4, stats_ok_bind, ih h5 (by omega), stats_ok_bind]

/-- C62, `nlike`: if `process_polychord_stats` returns, `nlike` comes from the line after the one
with `nlive`; it is nan exactly if one of the items of that line is not an integer (PolyChord
writes stars for large numbers), otherwise the integer or the list of the integers.  The other
entries do not depend on that line. -/
theorem C62_nlike {CF : Codec F} {CI : Codec Int} {root dir : String} {lines : List Text} {s : Stats F}
    (h : parseStats CF CI root dir lines = .ok s) :
    ∃ line, lines[24 + s.logZs.length]? = some line ∧
      (s.nlike = none ↔ ∃ t ∈ (splitWs line).drop 1, CI.parse t = none) ∧
      (∀ x, ((splitWs line).drop 1).map CI.parse = [some x] → s.nlike = some (.one x)) ∧
      (∀ xs, ((splitWs line).drop 1).map CI.parse = xs.map some → xs.length ≠ 1 → s.nlike = some (.many xs)) ∧
      ∀ line', ∃ v, parseStats CF CI root dir (lines.set (24 + s.logZs.length) line') = .ok { s with nlike := v } := by
  unfold parseStats at h
  obtain ⟨l8, e1, h⟩ := py_bind_eq_ok h
  obtain ⟨logZ, e2, h⟩ := py_bind_eq_ok h
  obtain ⟨l8', e3, h⟩ := py_bind_eq_ok h
  obtain ⟨logZerr, e4, h⟩ := py_bind_eq_ok h
  obtain ⟨cl, e5, h⟩ := py_bind_eq_ok h
  simp only at h
  obtain ⟨l20, e6, h⟩ := py_bind_eq_ok h
  obtain ⟨npost, e7, h⟩ := py_bind_eq_ok h
  obtain ⟨l21, e8, h⟩ := py_bind_eq_ok h
  obtain ⟨neq, e9, h⟩ := py_bind_eq_ok h
  obtain ⟨l22, e10, h⟩ := py_bind_eq_ok h
  obtain ⟨ndead, e11, h⟩ := py_bind_eq_ok h
  obtain ⟨l23, e12, h⟩ := py_bind_eq_ok h
  obtain ⟨nlive, e13, h⟩ := py_bind_eq_ok h
  obtain ⟨line, e14, h⟩ := py_bind_eq_ok h
  obtain ⟨l25, e15, h⟩ := py_bind_eq_ok h
  obtain ⟨i, e16, h⟩ := py_bind_eq_ok h
  obtain ⟨av, e17, h⟩ := py_bind_eq_ok h
  obtain ⟨avs, e18, h⟩ := py_bind_eq_ok h
  obtain ⟨params, e19, h⟩ := py_bind_eq_ok h
  have hs : s.logZs.length = cl.length := by cases h; simp
  have hlike : s.nlike = readLike CI ((splitWs line).drop 1) := by cases h; rfl
  rw [hs]
  have hline : lines[24 + cl.length]? = some line := by
    unfold nth at e14
    cases hl : lines[24 + cl.length]? with
    | none => rw [hl] at e14; cases e14
    | some x => rw [hl] at e14; cases e14; rfl
  refine ⟨line, hline, ?_, ?_, ?_, ?_⟩
  · rw [hlike, ← readNums_error_iff]
    unfold readLike
    cases hr : readNums CI ((splitWs line).drop 1) with
    | error e => simp
    | ok xs => simp
  · intro x hx
    rw [hlike]
    unfold readLike
    rw [readNums_map (xs := [x]) hx]
    rfl
  · intro xs hx hl
    rw [hlike]
    unfold readLike
    rw [readNums_map hx]
    match xs, hl with
    | [], _ => rfl
    | a :: b :: l, _ => rfl
  · intro line'
    have hset : nth (lines.set (24 + cl.length) line') (24 + cl.length) = .ok line' := by
      unfold nth
      rw [List.getElem?_set_self (List.getElem?_eq_some_iff.mp hline).1]
    have hclus : readClusters CF ((lines.set (24 + cl.length) line').drop 14) = .ok cl := by
      rw [List.drop_set, if_neg (by omega)]
      exact readClusters_set e5 (by omega) line'
    have hpar : readParamsAfter CF (lines.set (24 + cl.length) line') (29 + cl.length) = .ok params := by
      unfold readParamsAfter at e19 ⊢
      rw [List.length_set, List.drop_set, if_pos (show 24 + cl.length < 29 + cl.length by omega)]
      exact e19
    have e88 : l8 = l8' := Except.ok.inj (e1.symm.trans e3)
    rw [← e88] at e4
    refine ⟨readLike CI ((splitWs line').drop 1), ?_⟩
    unfold parseStats
    rw [nth_set_ne (by omega), e1, stats_ok_bind, e2, stats_ok_bind, stats_ok_bind, e4, stats_ok_bind, hclus, stats_ok_bind]
    simp only
    rw [nth_set_ne (by omega), e6, stats_ok_bind, e7, stats_ok_bind, nth_set_ne (by omega), e8, stats_ok_bind, e9, stats_ok_bind,
      nth_set_ne (by omega), e10, stats_ok_bind, e11, stats_ok_bind, nth_set_ne (by omega), e12, stats_ok_bind, e13, stats_ok_bind,
      hset, stats_ok_bind, nth_set_ne (by omega), e15, stats_ok_bind, e16, stats_ok_bind, e17, stats_ok_bind, e18, stats_ok_bind,
      hpar, stats_ok_bind]
    cases h
    rfl

/-- C62.  Whatever the .stats file holds, and whether or not it exists, the run returned by
`process_polychord_run` and its failures are those of `process_samples_array` on the dead
points file.  The `output` member is what `process_polychord_stats` returns; if that fails
there is exactly one more warning, and `output` holds the file root and the directory. -/
theorem C62_stats_never_fail (A : Argsort K) (R : Rng σ K) (CF : Codec F) (CI : Codec Int) (tables : Tables K)
    (texts : Texts) (root dir : String) (ps da dw : Bool) {samples : List (Sample K)}
    (hs : (loadTable tables (pathJoin dir root ++ "_dead-birth.txt") >>= tableSamples) = .ok samples)
    (w : World σ) :
    (∀ e w', processSamples A R samples da dw w = (.error e, w') →
      processPolychord A R CF CI tables texts root dir ps da dw w = (.error e, w')) ∧
    (∀ run w', processSamples A R samples da dw w = (.ok run, w') →
      (ps = false → processPolychord A R CF CI tables texts root dir ps da dw w =
        (.ok (run, .source ⟨root, dir⟩), w')) ∧
      (∀ s, ps = true → processStats CF CI texts root dir = .ok s →
        processPolychord A R CF CI tables texts root dir ps da dw w = (.ok (run, .stats s), w')) ∧
      (∀ e, ps = true → processStats CF CI texts root dir = .error e →
        processPolychord A R CF CI tables texts root dir ps da dw w =
          (.ok (run, .source ⟨root, dir⟩), { w' with warns := w'.warns ++ [.noStats] }))) := by
  obtain ⟨rows, h1, h2⟩ : ∃ rows, loadTable tables (pathJoin dir root ++ "_dead-birth.txt") = .ok rows ∧
      tableSamples rows = .ok samples := by
    cases hl : loadTable tables (pathJoin dir root ++ "_dead-birth.txt") with
    | error e => rw [hl] at hs; cases hs
    | ok rows => rw [hl] at hs; exact ⟨rows, rfl, hs⟩
  have hstart : processPolychord A R CF CI tables texts root dir ps da dw w =
      (processSamples A R samples da dw >>= fun run =>
        polychordOutput CF CI texts root dir ps >>= fun out => pure (run, out)) w := by
    unfold processPolychord
    rw [M.bind_ok (by rw [M.lift_apply, h1]), M.bind_ok (by rw [M.lift_apply, h2])]
  rw [hstart]
  constructor
  · intro e w' h
    rw [M.bind_error h]
  · intro run w' h
    rw [M.bind_ok h]
    refine ⟨?_, ?_, ?_⟩
    · rintro rfl
      rfl
    · rintro s rfl hst
      rw [M.bind_ok (a := .stats s) (w' := w')]
      · rfl
      · unfold polychordOutput
        rw [if_pos rfl]
        exact M.tryExcept_ok (by rw [M.bind_ok (a := s) (w' := w') (by rw [M.lift_apply, hst])]; rfl)
    · rintro e rfl hst
      rw [M.bind_ok (a := .source ⟨root, dir⟩) (w' := { w' with warns := w'.warns ++ [.noStats] })]
      · rfl
      · unfold polychordOutput
        have he : statsErrors e = true := by
          rcases C62_errors CF CI texts root dir e hst with ⟨rfl, -⟩ | ⟨rfl | rfl, -⟩ <;> rfl
        rw [if_pos rfl]
        rw [M.tryExcept_handled (e := e) (w' := w') (by rw [M.bind_error (e := e) (w' := w') (by rw [M.lift_apply, hst])]) he]
        rfl

end

/-! ### Examples -/

section examples

/-- `str` of an integer. -/
def intStr : Int → Text
  | .ofNat n => natStr n
  | .negSucc n => '-' :: natStr (n + 1)

/-- The digits of a natural number. -/
def natParse (s : Text) : Option Nat :=
  if s ≠ [] ∧ s.all (·.isDigit) then some (Nat.ofDigitChars 10 s 0) else none

/-- `int` of digits with an optional minus sign. -/
def intParse : Text → Option Int
  | '-' :: s => (natParse s).map (fun n : Nat => - (n : Int))
  | s => (natParse s).map (fun n : Nat => (n : Int))

theorem natParse_str (n : Nat) : natParse (natStr n) = some n := by
  unfold natParse
  rw [if_pos]
  · rw [natStr, Nat.ofDigitChars_ten_toDigits]
  · exact ⟨Nat.toDigits_ne_nil, by simp only [List.all_eq_true]; exact fun c hc => digits_isDigit hc⟩

theorem intParse_of {s : Text} (h : s.head? ≠ some '-') :
    intParse s = (natParse s).map (fun n : Nat => (n : Int)) := by
  unfold intParse
  split
  · simp at h
  · rfl

theorem natParse_dash {s : Text} {n : Nat} (h : natParse s = some n) : '-' ∉ s := by
  unfold natParse at h
  by_cases hc : s ≠ [] ∧ s.all (·.isDigit)
  · intro hm
    have := List.all_eq_true.mp hc.2 _ hm
    exact absurd this (by decide)
  · rw [if_neg hc] at h; cases h

/-- The usual way of writing integers has the assumed properties. -/
def intCodec : Codec Int where
  str := intStr
  parse := intParse
  parse_str := by
    rintro (n | n)
    · show intParse (natStr n) = _
      rw [intParse_of, natParse_str]
      · rfl
      · intro h
        exact natStr_ne (by decide) (List.mem_of_mem_head? h)
    · show (natParse (natStr (n + 1))).map (fun n : Nat => - (n : Int)) = _
      rw [natParse_str]
      rfl
  nonempty := by
    rintro (n | n)
    · exact Nat.toDigits_ne_nil
    · simp [intStr]
  solid := by
    rintro (n | n)
    · exact natStr_solid n
    · intro c hc
      rcases List.mem_cons.mp hc with rfl | hc
      · decide
      · exact natStr_solid _ c hc
  paren := by decide
  dashes := by
    intro s x h
    rw [← noDD_iff]
    by_cases hd : s.head? = some '-'
    · obtain ⟨t, rfl⟩ : ∃ t, s = '-' :: t := by
        cases s with
        | nil => simp at hd
        | cons c t => simp at hd; exact ⟨t, by rw [hd]⟩
      have h' : (natParse t).map (fun n : Nat => - (n : Int)) = some x := h
      rw [Option.map_eq_some_iff] at h'
      obtain ⟨n, hn, -⟩ := h'
      unfold NoDD
      rw [List.isChain_cons]
      refine ⟨fun y hy hh => natParse_dash hn ?_, noDD_of_not_mem (natParse_dash hn)⟩
      rw [← hh.2]; exact List.mem_of_mem_head? hy
    · rw [intParse_of hd, Option.map_eq_some_iff] at h
      obtain ⟨n, hn, -⟩ := h
      exact noDD_of_not_mem (natParse_dash hn)

/-- Three clusters, two parameters, two speeds. -/
def exStats : StatsIn Int :=
  { baseDir := some "chains"
    fileRoot := some "run_1"
    logZ := some (-20)
    logZs := some [-21, -25, 7]
    logZerrs := some [1, 0, 3]
    ncluster := some 3
    ndead := some 100
    nlike := some (.many [1000, 200])
    avnlikeslice := some (.many [])
    paramMeans := some [-4, 17]
    paramMeanErrs := some [2, 1] }

/-- The first and the ninth line of the file, and those of the second cluster and of the second parameter. -/
example : (match writeStats intCodec intCodec 0 (fun _ => none) exStats with
    | .ok (_, files) => (files "chains/run_1.stats").map (fun t =>
        [0, 8, 15, 33].map (fun i => String.ofList ((readLines t)[i]?.getD [])))
    | .error _ => none) = some ["Evidence estimates:\n", "log(Z)       =  -20 +/-   0\n",
      "log(Z_  2)  =  -25 +/-   0\n", "2    17 +/-   1\n"] := by decide +kernel

/-- It meets the conditions of C14_round_trip. -/
example : ∃ s files, writeStats intCodec intCodec 0 (fun _ => none) exStats = .ok (s, files) ∧
    s.logZs.length = 3 ∧ processStats intCodec intCodec files "run_1" "chains" = .ok s := by
  obtain ⟨s, files, h, h1, h2, -, -, -, h3, h4, h5, -, -, -, -, h6, h7, h8, h9⟩ :=
    (C14_written intCodec intCodec 0 (fun _ => none) exStats).1 "run_1" "chains" ⟨rfl, rfl, rfl⟩
  refine ⟨s, files, h, by rw [h3]; rfl, ?_⟩
  rw [← h1, ← h2]
  refine (C14_round_trip intCodec intCodec 0 h).mpr ?_
  rw [h3, h4, h5, h6, h7, h8, h9]
  simp [exStats, Spec.Singleton]

/-- What fails: a list with one item comes back as a number. -/
example : ∃ s files, writeStats intCodec intCodec 0 (fun _ => none)
      { exStats with nlike := some (.many [1000]) } = .ok (s, files) ∧
    s.nlike = some (.many [1000]) ∧ processStats intCodec intCodec files "run_1" "chains" ≠ .ok s ∧
    ∃ s', processStats intCodec intCodec files "run_1" "chains" = .ok s' ∧ s'.nlike = some (.one 1000) := by
  obtain ⟨s, files, h, h1, h2, -, -, -, h3, h4, h5, -, -, -, -, h6, h7, h8, h9⟩ :=
    (C14_written intCodec intCodec 0 (fun _ => none) { exStats with nlike := some (.many [1000]) }).1
      "run_1" "chains" ⟨rfl, rfl, rfl⟩
  have hb := C14_read_back intCodec intCodec 0 h
  rw [h1, h2] at hb
  refine ⟨s, files, h, by rw [h6]; rfl, ?_, _, hb, ?_⟩
  · intro hc
    rw [← h1, ← h2, C14_round_trip intCodec intCodec 0 h] at hc
    exact hc.2.2.2.1 (.many [1000]) (by rw [h6]; rfl) (show [(1000 : Int)].length = 1 from rfl)
  · rw [readBack, h6]; rfl

/-- What is read from the lines of a file: `logZs`, `nlike` and `ndead`. -/
def exRead (ls : List Text) : Option (List Int × Option (List Int) × Int) :=
  match parseStats intCodec intCodec "run_1" "chains" ls with
  | .ok s => some (s.logZs, s.nlike.map (fun | .one x => [x] | .many l => l), s.ndead)
  | .error _ => none

def exLines : List Text :=
  match writeStats intCodec intCodec 0 (fun _ => none) exStats with
  | .ok (_, files) => readLines ((files "chains/run_1.stats").getD [])
  | .error _ => []

/-- C62_nlike: the same file, and the file with stars in the line with the number of likelihood calls. -/
example : exRead exLines = some ([-21, -25, 7], some [1000, 200], 100) ∧
    exRead (exLines.set 27 " nlike:  ******* 200\n".toList) = some ([-21, -25, 7], none, 100) := by
  decide +kernel

/-- C62: a run with an unreadable .stats file. -/
def exPolyTables : Tables ℤ := fun name =>
  if name = "chains/a_dead-birth.txt" then some [[1, 5, -100], [2, 3, -100], [3, 7, 3]] else none

example : ∃ run, processPolychord (stableSort ℤ) (counterRng ℤ (by decide)) intCodec intCodec exPolyTables
    (fun _ => some "log(Z) = 1".toList) "a" "chains" true true false ⟨0, []⟩ =
      (.ok (run, .source ⟨"a", "chains"⟩), ⟨0, [.noStats]⟩) ∧ run.logl = [3, 5, 7] := ⟨_, rfl, rfl⟩

end examples
end Nestcheck
