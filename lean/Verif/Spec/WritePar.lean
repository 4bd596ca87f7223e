import Verif.Model.WritePar
import Verif.Spec.Writer
import Verif.Spec.Text

/-
Specification of a run of several processors that write one file and synchronize.
-/

namespace PMondriaan.Spec

open PMondriaan

/-- The number of synchronizations. -/
def syncsOf : List Event → Nat
  | [] => 0
  | .sync :: l => syncsOf l + 1
  | .file _ :: l => syncsOf l

/-- The file operations before the first synchronization, between the first and the second, and so on. -/
def segments : List Event → List (List FileOp)
  | [] => [[]]
  | .sync :: l => [] :: segments l
  | .file o :: l =>
    match segments l with
    | [] => [[o]]
    | a :: r => (o :: a) :: r

/-- `L` is a possible order of the operations of `p` processors: the operations between two synchronizations are
executed in some interleaving, and each is marked with the processor. -/
structure Interleaved (p : Nat) (runs : Nat → List Event) (L : List (List (Nat × FileOp))) : Prop where
  procs : ∀ l ∈ L, ∀ x ∈ l, x.1 < p
  each : ∀ s < p, ∀ j, ((L.getD j []).filter (fun x => x.1 = s)).map (·.2) = (segments (runs s)).getD j []

/-- The characters of the file after an operation. -/
def afterOp (text : List Char) : FileOp → List Char
  | .create t => t
  | .append t => text ++ t

/-- The characters of the file after all operations; `old` was in the file before. -/
def fileAfter (old : List Char) (L : List (List (Nat × FileOp))) : List Char :=
  (L.flatten.map (·.2)).foldl afterOp old

/-- No two processors use the file between the same synchronizations. -/
def OneAtATime (p : Nat) (runs : Nat → List Event) : Prop :=
  ∀ j, ∀ s < p, ∀ t < p, s ≠ t → (segments (runs s)).getD j [] = [] ∨ (segments (runs t)).getD j [] = []

/-- The stored entries in the order of the parts, then of the processors. -/
def entriesByPart (Hs : List Hypergraph) (k : Nat) : List (Nat × Nat) :=
  (List.range k).flatMap (fun i => allEntries (Hs.map (fun H =>
    { H with vertices := H.vertices.filter (fun v => v.part = (i : Int)) })))

/-- `d` is the decimal notation of the integer `i`. -/
def SignedDecimal (d : List Char) (i : Int) : Prop :=
  (0 ≤ i ∧ Decimal d i.natAbs) ∨ (i < 0 ∧ ∃ d', Decimal d' i.natAbs ∧ d = '-' :: d')

/-- A line with two numbers and nothing else. -/
def PairLine (l : List Char) (x : Nat × Nat) : Prop :=
  ∃ d1 d2, Decimal d1 x.1 ∧ Decimal d2 x.2 ∧ l = d1 ++ ' ' :: d2

/-- The characters of a distributed matrix in Matrix Market format: a header, a line with the four sizes, one line for every
offset, and one line for every entry. -/
def DistributedText (text : List Char) (E V Z k : Nat) (starts : List Int) (es : List (Nat × Nat)) : Prop :=
  ∃ dE dV dZ dk offs ls, Decimal dE E ∧ Decimal dV V ∧ Decimal dZ Z ∧ Decimal dk k ∧
    List.Forall₂ SignedDecimal offs starts ∧ List.Forall₂ PairLine ls es ∧
    text = ("%%MatrixMarket distributed-matrix coordinate pattern general".toList ::
      (dE ++ ' ' :: (dV ++ ' ' :: (dZ ++ ' ' :: dk))) :: (offs ++ ls)).flatMap (fun l => l ++ ['\n'])

end PMondriaan.Spec
