import Verif.Model.Report
import Verif.Spec.WritePar

/-
Specification of printed hypergraphs, of file names and of the log.
-/

namespace PMondriaan.Spec

open PMondriaan

/-- The lines of a printed hypergraph: for every vertex its id, a colon, and the ids of its nets, each between blanks. -/
def PrintLine (l : List Char) (x : Nat × List Nat) : Prop :=
  ∃ d ds, Decimal d x.1 ∧ List.Forall₂ Decimal ds x.2 ∧ l = d ++ ':' :: ' ' :: ds.flatMap (fun e => e ++ [' '])

/-- `text` consists of one line for every element of `xs`. -/
def PrintedAs (text : List Char) (xs : List (Nat × List Nat)) : Prop :=
  ∃ ls, List.Forall₂ PrintLine ls xs ∧ text = ls.flatMap (fun l => l ++ ['\n'])

/-- A line of printed buckets: a gain, a colon, and the ids of the vertices with this gain, each followed by a blank. -/
def GainLine (l : List Char) (x : Int × List Nat) : Prop :=
  ∃ d ds, SignedDecimal d x.1 ∧ List.Forall₂ Decimal ds x.2 ∧ l = d ++ ':' :: ' ' :: ds.flatMap (fun e => e ++ [' '])

/-- `text` consists of a heading and one line for every element of `xs`. -/
def GainsAs (text : List Char) (xs : List (Int × List Nat)) : Prop :=
  ∃ ls, List.Forall₂ GainLine ls xs ∧ text = "Buckets: \n".toList ++ ls.flatMap (fun l => l ++ ['\n'])

/-- `dir` is the directory in the name `file` (with the slash, or empty), `base` is what follows. -/
def SplitName (file dir base : List Char) : Prop :=
  file = dir ++ base ∧ '/' ∉ base ∧ (dir = [] ∨ ∃ d, dir = d ++ ['/'])

/-- The log names the numbers `V` of vertices, `k` of parts, `p` of processors, the cut size and the weights. -/
def LogSays (lines : List (List Char)) (V k p : Nat) (lb time : List Char) (cut : Int) (w : Nat → Int) : Prop :=
  ∃ dV dk dp dc ds, SignedDecimal dV V ∧ SignedDecimal dk k ∧ SignedDecimal dp p ∧ SignedDecimal dc cut ∧
    List.Forall₂ (fun l (i : Nat) => ∃ di dw, SignedDecimal di (i : Int) ∧ SignedDecimal dw (w i) ∧
      l = "Weight part ".toList ++ di ++ ": ".toList ++ dw) ds (List.range k) ∧
    lines = ["Partitioned hypergraph with ".toList ++ dV ++ " vertices into ".toList ++ dk ++ " parts using ".toList ++
        dp ++ " processors".toList, "Load balance of partitioning found: ".toList ++ lb,
      "Cutsize of partitioning found: ".toList ++ dc, "Time used: ".toList ++ time ++ " milliseconds".toList] ++ ds

end PMondriaan.Spec
