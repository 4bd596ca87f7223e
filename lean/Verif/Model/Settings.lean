import Verif.Model.Text
import Verif.Model.KLFM

/-
Model of the settings of the main program (tools/PMondriaan.cpp:16-101). The options are read by the library CLI11, which
is not part of the code; assumed is what its documentation says: an option is taken from the command line, otherwise
from the file with settings, which are here lists of names (without dashes) and texts; every option is required
(`option_defaults()->required()`); a name on the command line that is not known, or two values for an option there, is an
error; names in the file that are not known are skipped and of several values the first counts; `CheckedTransformer`
accepts the texts of its map in any case and the numbers they stand for, and puts the number in the place of the text;
`config_to_str` writes the texts after that. Where the library ends the program with a message the model has `none`.
-/

namespace PMondriaan

/-- PMondriaan.cpp:37-97: the options, in the order in which they are added. -/
inductive Opt
  | file | procs | parts | eps | eta | weights | bisect | sampling | metric | sampleSize | maxCluster | lpIter | nrVertices
  | maxRounds | passes | noGain | sendMoves
deriving DecidableEq, Repr

def Opt.all : List Opt := [.file, .procs, .parts, .eps, .eta, .weights, .bisect, .sampling, .metric, .sampleSize,
  .maxCluster, .lpIter, .nrVertices, .maxRounds, .passes, .noGain, .sendMoves]

/-- PMondriaan.cpp:37-97: the name under which `config_to_str` writes an option. -/
def Opt.longName : Opt → String
  | .file => "file"
  | .procs => "processors"
  | .parts => "parts"
  | .eps => "eps"
  | .eta => "eta"
  | .weights => "weights"
  | .bisect => "bisect"
  | .sampling => "sampling"
  | .metric => "metric"
  | .sampleSize => "sample_size"
  | .maxCluster => "max_cluster_size"
  | .lpIter => "lp_max_iter"
  | .nrVertices => "coarsening_nrvertices"
  | .maxRounds => "coarsening_max_rounds"
  | .passes => "KLFM_max_passes"
  | .noGain => "KLFM_max_no_gain_moves"
  | .sendMoves => "KLFM_par_send_moves"

/-- PMondriaan.cpp:37-50: all names of an option. -/
def Opt.names (o : Opt) : List String :=
  o.longName :: match o with
    | .file => ["f"]
    | .procs => ["p"]
    | .parts => ["k"]
    | .eps => ["epsilon"]
    | _ => []

/-- Names and texts, from the command line or the file with settings. -/
abbrev Given := List (String × List Char)

/-- The first text given for an option. -/
def givenFor (o : Opt) (l : Given) : Option (List Char) := (l.find? (fun x => x.1 ∈ o.names)).map (·.2)

/-- PMondriaan.cpp:20-22 and 99: the command line overrules the file. -/
def chosenFor (args conf : Given) (o : Opt) : Option (List Char) := (givenFor o args).or (givenFor o conf)

/-- PMondriaan.cpp:56-58, 64-66 and 72-74: the maps; the numbers are those of include/options.hpp:5-7. -/
def Opt.values : Opt → List (List Char × List Char)
  | .bisect => [("random".toList, "0".toList), ("multilevel".toList, "1".toList)]
  | .sampling => [("random".toList, "0".toList), ("label_propagation".toList, "1".toList)]
  | .metric => [("cutnet".toList, "0".toList), ("lambda_minus_one".toList, "1".toList)]
  | _ => []

/-- `CLI::CheckedTransformer(map, CLI::ignore_case)`. -/
def transformed (m : List (List Char × List Char)) (t : List Char) : Option (List Char) :=
  match m.find? (fun x => x.1 = t.map Char.toLower) with
  | some x => some x.2
  | none => if t ∈ m.map (·.2) then some t else none

/-- The text of an option after the checks: PMondriaan.cpp:40 (`isFile` is `CLI::ExistingFile`), 60-62, 68-70, 75-76 and 78. -/
def checkedText (isFile : List Char → Bool) (o : Opt) (t : List Char) : Option (List Char) :=
  match o with
  | .file => if isFile t then some t else none
  | .weights => if t = "one".toList ∨ t = "degree".toList then some t else none
  | .bisect => transformed (Opt.values .bisect) t
  | .sampling => transformed (Opt.values .sampling) t
  | .metric => transformed (Opt.values .metric) t
  | _ => some t

/-- A number without sign, of 64 bits. -/
def natText (t : List Char) : Option Nat :=
  if t ≠ [] ∧ t.all Char.isDigit ∧ digitsValue t < 2 ^ 64 then some (digitsValue t) else none

/-- A number that fits in `b` bits with sign. -/
def intText (b : Nat) (t : List Char) : Option Int :=
  match t with
  | '-' :: d => if d ≠ [] ∧ d.all Char.isDigit ∧ digitsValue d ≤ 2 ^ (b - 1) then some (-(digitsValue d : Int)) else none
  | d => if d ≠ [] ∧ d.all Char.isDigit ∧ digitsValue d < 2 ^ (b - 1) then some (digitsValue d : Int) else none

/-- PMondriaan.cpp:24-35: `cli_settings` and `options`. -/
structure Settings where
  file : List Char
  p : Int
  k : Int
  eps : ℚ
  eta : ℚ
  weights : List Char
  opts : Options

/-- The text from which the value of an option is taken. -/
def textFor (isFile : List Char → Bool) (args conf : Given) (o : Opt) : Option (List Char) :=
  (chosenFor args conf o).bind (checkedText isFile o)

/-- Every name on the command line is that of an option, and no option is given twice. -/
def argsKnown (args : Given) : Bool :=
  args.all (fun x => Opt.all.any (fun o => x.1 ∈ o.names)) &&
    Opt.all.all (fun o => (args.filter (fun x => x.1 ∈ o.names)).length ≤ 1)

/-- PMondriaan.cpp:16-99: the settings; `dbl` reads a floating-point number. -/
def settingsOf (dbl : List Char → Option ℚ) (isFile : List Char → Bool) (args conf : Given) : Option Settings := do
  let t := textFor isFile args conf
  if !argsKnown args then none
  else
    let file ← t .file
    let p ← (t .procs).bind (intText 32)
    let k ← (t .parts).bind (intText 64)
    let eps ← (t .eps).bind dbl
    let eta ← (t .eta).bind dbl
    let weights ← t .weights
    let bisect ← t .bisect
    let sampling ← t .sampling
    let metric ← t .metric
    let sampleSize ← (t .sampleSize).bind natText
    let maxCluster ← (t .maxCluster).bind natText
    let lpIter ← (t .lpIter).bind natText
    let nrVertices ← (t .nrVertices).bind natText
    let maxRounds ← (t .maxRounds).bind natText
    let passes ← (t .passes).bind natText
    let noGain ← (t .noGain).bind natText
    let sendMoves ← (t .sendMoves).bind natText
    some { file, p, k, eps, eta, weights,
           opts := { sampleSize, maxClustersize := maxCluster, lpMaxIterations := lpIter,
                     coarseningNrvertices := nrVertices, coarseningMaxrounds := maxRounds, klfmMaxPasses := passes,
                     klfmMaxNoGainMoves := noGain, klfmParSendMoves := sendMoves,
                     metric := if metric = "0".toList then .cutNet else .lambdaMinusOne,
                     samplingLp := decide (sampling = "1".toList), bisectionRandom := decide (bisect = "0".toList) } }

/-- PMondriaan.cpp:106-112: what is written to settings_run.toml. -/
def writtenSettings (isFile : List Char → Bool) (args conf : Given) : Option Given :=
  Opt.all.mapM (fun o => (textFor isFile args conf o).map (fun t => (o.longName, t)))

/-- tools/defaults.toml. -/
def defaultsFile : Given :=
  [("p", "32".toList), ("k", "2".toList), ("file", "../test/data/matrices/marine1/marine1.mtx".toList),
   ("eps", "0.03".toList), ("eta", "0.03".toList), ("weights", "degree".toList), ("bisect", "multilevel".toList),
   ("metric", "lambda_minus_one".toList), ("sampling", "random".toList), ("sample_size", "5000".toList),
   ("max_cluster_size", "50".toList), ("lp_max_iter", "25".toList), ("coarsening_nrvertices", "200".toList),
   ("coarsening_max_rounds", "128".toList), ("KLFM_max_passes", "25".toList),
   ("KLFM_max_no_gain_moves", "200".toList), ("KLFM_par_send_moves", "20".toList)]

/-- tools/settings_run.toml. -/
def runFile : Given :=
  [("file", "../test/data/matrices/marine1/marine1.mtx".toList), ("processors", "32".toList), ("parts", "2".toList),
   ("eps", "0.03".toList), ("eta", "0.03".toList), ("weights", "degree".toList), ("bisect", "1".toList),
   ("sampling", "0".toList), ("metric", "1".toList), ("sample_size", "5000".toList), ("max_cluster_size", "50".toList),
   ("lp_max_iter", "25".toList), ("coarsening_nrvertices", "200".toList), ("coarsening_max_rounds", "128".toList),
   ("KLFM_max_passes", "25".toList), ("KLFM_max_no_gain_moves", "200".toList), ("KLFM_par_send_moves", "20".toList)]

end PMondriaan
