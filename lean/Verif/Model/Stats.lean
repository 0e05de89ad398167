import Verif.Model.Packages

/-
PolyChord's <root>.stats files: `write_stats_file`
(write_polychord_output.py:164-262), `process_polychord_stats`
(data_processing.py:373-445) and `process_polychord_run`
(data_processing.py:212-255).

Texts are lists of characters.  How Python prints and reads numbers is left open:
`Codec` lists what is assumed of it.  Newlines are '\n' (Python's translation of
'\r' is not modelled).
-/

namespace Nestcheck

abbrev Text := List Char

/-- `str.isspace` for a single character, the separators of `str.split()`. -/
def isSpace (c : Char) : Bool :=
  let n := c.toNat
  (9 ≤ n && n ≤ 13) || (28 ≤ n && n ≤ 32) || n = 0x85 || n = 0xa0 || n = 0x1680 ||
  (0x2000 ≤ n && n ≤ 0x200a) || n = 0x2028 || n = 0x2029 || n = 0x202f || n = 0x205f || n = 0x3000

/-- `str.split()`, with the token being read (reversed) as an accumulator. -/
def splitFrom : Text → Text → List Text
  | [], [] => []
  | cur, [] => [cur.reverse]
  | cur, c :: cs =>
    if isSpace c then
      if cur = [] then splitFrom [] cs else cur.reverse :: splitFrom [] cs
    else splitFrom (c :: cur) cs

/-- `str.split()` -/
def splitWs (s : Text) : List Text := splitFrom [] s

/-- `file.readlines()`: the lines with their newlines. -/
def readLinesFrom : Text → Text → List Text
  | [], [] => []
  | cur, [] => [cur.reverse]
  | cur, c :: cs => if c = '\n' then ('\n' :: cur).reverse :: readLinesFrom [] cs
    else readLinesFrom (c :: cur) cs

def readLines (s : Text) : List Text := readLinesFrom [] s

/-- What is assumed of `str`/`format` and `float` (or `int`) for a type of numbers: what
is printed is a single token which reads back as the same number; "(" is not a number; no
number has two consecutive dashes in it. -/
structure Codec (α : Type) where
  str : α → Text
  parse : Text → Option α
  parse_str : ∀ x, parse (str x) = some x
  nonempty : ∀ x, str x ≠ []
  solid : ∀ x, ∀ c ∈ str x, isSpace c = false
  paren : parse ['('] = none
  dashes : ∀ s x, parse s = some x → ¬ ['-', '-'] <:+: s

/-- `str(n)` for natural numbers. -/
def natStr (n : Nat) : Text := Nat.toDigits 10 n

/-- `s.rjust(k)` -/
def rjust (k : Nat) (s : Text) : Text := List.replicate (k - s.length) ' ' ++ s
/-- `s.ljust(k)` -/
def ljust (k : Nat) (s : Text) : Text := s ++ List.replicate (k - s.length) ' '

/-- A number, or a list of numbers (one per parameter speed). -/
inductive OneOrMany (α : Type) where
  | one (x : α)
  | many (xs : List α)
  deriving DecidableEq

/-- The dictionary returned by `write_stats_file` and by `process_polychord_stats`.
`nlike = none` is nan; `params = none` means that the keys param_means and
param_mean_errs are missing. -/
structure Stats (F : Type) where
  baseDir : String
  fileRoot : String
  logZ : F
  logZerr : F
  logZs : List F
  logZerrs : List F
  ncluster : Int
  nposterior : Int
  nequals : Int
  ndead : Int
  nlive : Int
  nlike : Option (OneOrMany Int)
  avnlike : OneOrMany F
  avnlikeslice : OneOrMany F
  params : Option (List F × List F)
  deriving DecidableEq

/-- The argument of `write_stats_file`: a dictionary in which any key may be missing
(`none`); `others` are the keys which are not among the ones below. -/
structure StatsIn (F : Type) where
  baseDir : Option String := none
  fileRoot : Option String := none
  logZ : Option F := none
  logZerr : Option F := none
  logZs : Option (List F) := none
  logZerrs : Option (List F) := none
  ncluster : Option Int := none
  nposterior : Option Int := none
  nequals : Option Int := none
  ndead : Option Int := none
  nlive : Option Int := none
  nlike : Option (OneOrMany Int) := none
  avnlike : Option (OneOrMany F) := none
  avnlikeslice : Option (OneOrMany F) := none
  paramMeans : Option (List F) := none
  paramMeanErrs : Option (List F) := none
  others : List String := []

/-- Text files by name. -/
abbrev Texts := String → Option Text

section
variable {F : Type}

/-- `'{}'.format(x)`, or the items of a list separated by spaces
(write_polychord_output.py:241-249). -/
def strItems (C : Codec α) : List α → Text
  | [] => []
  | [x] => C.str x
  | x :: y :: xs => C.str x ++ " ".toList ++ strItems C (y :: xs)

def strMany (C : Codec α) : OneOrMany α → Text
  | .one x => C.str x
  | .many xs => strItems C xs

/-- The lines for the clusters, numbered from `i + 1`
(write_polychord_output.py:227-229). -/
def clusterLines (CF : Codec F) : Nat → List (F × F) → List Text
  | _, [] => []
  | i, (z, e) :: rest =>
    ("log(Z_ ".toList ++ rjust 2 (natStr (i + 1)) ++ ")  =  ".toList ++ CF.str z ++
      " +/-   ".toList ++ CF.str e) :: clusterLines CF (i + 1) rest

/-- The lines for the parameters (write_polychord_output.py:253-256). -/
def paramLines (CF : Codec F) : Nat → List (F × F) → List Text
  | _, [] => []
  | i, (m, e) :: rest =>
    (ljust 3 (natStr (i + 1)) ++ "  ".toList ++ CF.str m ++ " +/-   ".toList ++ CF.str e) ::
      paramLines CF (i + 1) rest

/-- The lines before the clusters (write_polychord_output.py:210-226). -/
def headLines (CF : Codec F) (s : Stats F) : List Text :=
  ["Evidence estimates:".toList,
   "===================".toList,
   ("  - The evidence Z is a log-normally distributed, with location and " ++
     "scale parameters mu and sigma.").toList,
   "  - We denote this as log(Z) = mu +/- sigma.".toList,
   [],
   "Global evidence:".toList,
   "----------------".toList,
   [],
   "log(Z)       =  ".toList ++ CF.str s.logZ ++ " +/-   ".toList ++ CF.str s.logZerr,
   [],
   [],
   "Local evidences:".toList,
   "----------------".toList,
   []]

/-- `str` of nlike; nan does not occur in the argument of `write_stats_file`. -/
def strLike (CI : Codec Int) : Option (OneOrMany Int) → Text
  | none => "nan".toList
  | some x => strMany CI x

/-- The lines between clusters and parameters (write_polychord_output.py:230-252). -/
def midLines (CF : Codec F) (CI : Codec Int) (s : Stats F) : List Text :=
  [[],
   [],
   "Run-time information:".toList,
   "---------------------".toList,
   [],
   " ncluster:          0 /       1".toList,
   " nposterior:        ".toList ++ CI.str s.nposterior,
   " nequals:           ".toList ++ CI.str s.nequals,
   " ndead:          ".toList ++ CI.str s.ndead,
   " nlive:             ".toList ++ CI.str s.nlive,
   " nlike:         ".toList ++ strLike CI s.nlike,
   " <nlike>:       ".toList ++ strMany CF s.avnlike ++ "   (    ".toList ++
     strMany CF s.avnlikeslice ++ " per slice )".toList,
   [],
   [],
   "Dim No.       Mean        Sigma".toList]

/-- The lines of the file (write_polychord_output.py:210-257). -/
def statsLines (CF : Codec F) (CI : Codec Int) (s : Stats F) : List Text :=
  headLines CF s ++ clusterLines CF 0 (s.logZs.zip s.logZerrs) ++ midLines CF CI s ++
  paramLines CF 0 ((s.params.getD ([], [])).1.zip (s.params.getD ([], [])).2) ++
  ["-------------------------------".toList]

/-- The dictionary with its defaults (write_polychord_output.py:187-208); `zero` is the
float 0.0. -/
def withDefaults (zero : F) (d : StatsIn F) (baseDir fileRoot : String) : Stats F :=
  { baseDir := baseDir
    fileRoot := fileRoot
    logZ := d.logZ.getD zero
    logZerr := d.logZerr.getD zero
    logZs := d.logZs.getD [zero]
    logZerrs := d.logZerrs.getD [zero]
    ncluster := d.ncluster.getD 1
    nposterior := d.nposterior.getD 0
    nequals := d.nequals.getD 0
    ndead := d.ndead.getD 0
    nlive := d.nlive.getD 0
    nlike := some (d.nlike.getD (.one 0))
    avnlike := d.avnlike.getD (.one zero)
    avnlikeslice := d.avnlikeslice.getD (.one zero)
    params := some (d.paramMeans.getD [zero, zero, zero], d.paramMeanErrs.getD [zero, zero, zero]) }

/-- `write_stats_file` (write_polychord_output.py:164-262).  Failures of the file system
are not modelled. -/
def writeStats (CF : Codec F) (CI : Codec Int) (zero : F) (files : Texts) (d : StatsIn F) :
    Py (Stats F × Texts) :=
  match d.fileRoot, d.baseDir with
  | some root, some dir =>
    if d.others ≠ [] then .error .assertion                           -- 202
    else
      let s := withDefaults zero d dir root
      let path := pathJoin dir (root ++ ".stats")                     -- 258
      let text := (statsLines CF CI s).flatMap (· ++ ['\n'])          -- 261
      .ok (s, fun name => if name = path then some text else files name)
  | _, _ => .error .assertion                                         -- 186

/-- `xs[i]` for a list. -/
def nth (xs : List α) (i : Nat) : Py α :=
  match xs[i]? with
  | some x => .ok x
  | none => .error .index

/-- `float(s)` or `int(s)` -/
def readNum (C : Codec α) (s : Text) : Py α :=
  match C.parse s with
  | some x => .ok x
  | none => .error .value

/-- `float(line.split()[j])` -/
def numAt (C : Codec α) (line : Text) (j : Nat) : Py α := do
  readNum C (← nth (splitWs line) j)

/-- `re.findall(r'=(.*)', line)[0]`: what follows the first "=" up to the end of the
line. -/
def afterEq : Text → Py Text
  | [] => .error .index
  | c :: cs => if c = '=' then .ok (cs.takeWhile (fun c => decide (c ≠ '\n'))) else afterEq cs

/-- The loop over the cluster lines (data_processing.py:399-405). -/
def readClusters (CF : Codec F) : List Text → Py (List (F × F))
  | [] => .ok []
  | line :: rest =>
    if line.take 5 ≠ "log(Z".toList then .ok []
    else do
      let z ← numAt CF (← afterEq line) 0
      let e ← numAt CF (← afterEq line) 2
      let more ← readClusters CF rest
      .ok ((z, e) :: more)

/-- `sub in s` -/
def containsText (sub s : Text) : Bool := s.tails.any (fun t => sub.isPrefixOf t)

/-- The loop over the parameter lines (data_processing.py:437-444). -/
def readParams (CF : Codec F) : List Text → Py (List (F × F))
  | [] => .ok []
  | line :: rest =>
    if containsText "------------------".toList line then readParams CF rest
    else do
      let m ← numAt CF line 1
      let e ← numAt CF line 3
      let more ← readParams CF rest
      .ok ((m, e) :: more)

/-- `[float(x) for x in xs]` -/
def readNums (C : Codec α) : List Text → Py (List α)
  | [] => .ok []
  | s :: ss => do
    let x ← readNum C s
    let xs ← readNums C ss
    .ok (x :: xs)

/-- A list with one item is replaced by the item (data_processing.py:415, 427, 431). -/
def unwrap : List α → OneOrMany α
  | [x] => .one x
  | xs => .many xs

/-- nlike, which is nan if one of the items is not an integer
(data_processing.py:413-420). -/
def readLike (CI : Codec Int) (items : List Text) : Option (OneOrMany Int) :=
  match readNums CI items with
  | .ok xs => some (unwrap xs)
  | .error _ => none

/-- `line.index('(')`: `ValueError` if there is none. -/
def parenIndex (items : List Text) : Py Nat :=
  match items.findIdx? (· = ['(']) with
  | some i => .ok i
  | none => .error .value

/-- The parameters, absent in files of old versions (data_processing.py:434-444). -/
def readParamsAfter (CF : Codec F) (lines : List Text) (n : Nat) : Py (Option (List F × List F)) :=
  if lines.length > n then do
    let ps ← readParams CF (lines.drop n)
    .ok (some (ps.map Prod.fst, ps.map Prod.snd))
  else .ok none

/-- `process_polychord_stats` after the file has been read
(data_processing.py:394-445). -/
def parseStats (CF : Codec F) (CI : Codec Int) (fileRoot baseDir : String) (lines : List Text) :
    Py (Stats F) := do
  let logZ ← numAt CF (← nth lines 8) 2
  let logZerr ← numAt CF (← nth lines 8) 4
  let cl ← readClusters CF (lines.drop 14)
  let n := cl.length
  let nposterior ← numAt CI (← nth lines (20 + n)) 1
  let nequals ← numAt CI (← nth lines (21 + n)) 1
  let ndead ← numAt CI (← nth lines (22 + n)) 1
  let nlive ← numAt CI (← nth lines (23 + n)) 1
  let likeLine ← nth lines (24 + n)
  let items := splitWs (← nth lines (25 + n))
  let i ← parenIndex items
  let av ← readNums CF ((items.take i).drop 1)
  let avs ← readNums CF ((items.take (items.length - 3)).drop (i + 1))
  let params ← readParamsAfter CF lines (29 + n)
  .ok { baseDir := baseDir, fileRoot := fileRoot, logZ := logZ, logZerr := logZerr,
        logZs := cl.map Prod.fst, logZerrs := cl.map Prod.snd, ncluster := n,
        nposterior := nposterior, nequals := nequals, ndead := ndead, nlive := nlive,
        nlike := readLike CI ((splitWs likeLine).drop 1), avnlike := unwrap av,
        avnlikeslice := unwrap avs, params := params }

/-- `process_polychord_stats` (data_processing.py:373-445): `OSError` for a missing
file. -/
def processStats (CF : Codec F) (CI : Codec Int) (files : Texts) (fileRoot baseDir : String) :
    Py (Stats F) :=
  match files (pathJoin baseDir fileRoot ++ ".stats") with
  | none => .error .os
  | some text => parseStats CF CI fileRoot baseDir (readLines text)

/-- `run['output']` as left by `process_polychord_run`. -/
inductive RunOutput (F : Type) where
  | source (s : Source)
  | stats (s : Stats F)

/-- The errors of process_polychord_stats which are handled (data_processing.py:248);
`NameError` does not occur in the model. -/
def statsErrors (e : PyErr) : Bool := e = .os || e = .value || e = .index || e = .type

/-- Lines 245-255 of data_processing.py. -/
def polychordOutput {σ : Type} (CF : Codec F) (CI : Codec Int) (texts : Texts) (fileRoot baseDir : String)
    (processStatsFile : Bool) : M σ (RunOutput F) :=
  if processStatsFile then
    M.tryExcept (do
        let s ← M.lift (processStats CF CI texts fileRoot baseDir)
        pure (.stats s))
      statsErrors
      (fun _ => do
        M.warn .noStats
        pure (.source ⟨fileRoot, baseDir⟩))
  else pure (.source ⟨fileRoot, baseDir⟩)

/-- `process_polychord_run` (data_processing.py:212-255). -/
def processPolychord {σ K : Type} [CommRing K] [LinearOrder K] (A : Argsort K) (R : Rng σ K) (CF : Codec F)
    (CI : Codec Int) (tables : Tables K) (texts : Texts) (fileRoot baseDir : String)
    (processStatsFile dupAssert dupWarn : Bool) : M σ (Run K × RunOutput F) := do
  let rows ← M.lift (loadTable tables (pathJoin baseDir fileRoot ++ "_dead-birth.txt"))   -- 242
  let samples ← M.lift (tableSamples rows)
  let run ← processSamples A R samples dupAssert dupWarn              -- 243
  let out ← polychordOutput CF CI texts fileRoot baseDir processStatsFile
  pure (run, out)

end
end Nestcheck
