import Verif.Model.Text

/-
Model of `partitioning_to_file` (src/util/write_partitioning.cpp:18-55) as a program of each processor that writes
characters and synchronizes, with files that may fail to open. The offsets `starts` (line 19) are given: computing them
is modelled in Model/Writer.lean. Writing to an open file does not fail; `close` makes the characters visible to the
other processors.
-/

namespace PMondriaan

/-- An open file is replaced by a new one (`std::ofstream out(file)`) or extended (`std::ios::app`). -/
inductive FileOp where
  | create (text : List Char)
  | append (text : List Char)

/-- What a processor does: write a file, or `world.sync()`. -/
inductive Event where
  | file (op : FileOp)
  | sync

/-- A processor: what it has done, and whether it has not yet returned `false`. -/
structure WProc where
  events : List Event
  running : Bool

/-- `out << i` for a `long`. -/
def decimalInt (n : Int) : List Char := if n < 0 then '-' :: decimal n.natAbs else decimal n.natAbs

/-- write_partitioning.cpp:26-31. -/
def headText (H : Hypergraph) (k : Nat) (starts : List Int) : List Char :=
  "%%MatrixMarket distributed-matrix coordinate pattern general\n".toList ++ decimal H.globalNumberNets ++
    ' ' :: (decimal H.globalSize ++ ' ' :: (decimal H.nrNz ++ ' ' :: (decimal k ++ '\n' ::
      starts.flatMap (fun i => decimalInt i ++ ['\n']))))

/-- write_partitioning.cpp:20-33: the processor with rank `s`; `ok` tells whether the file opens. -/
def headStep (ok : Bool) (s : Nat) (text : List Char) : WProc :=
  if s = 0 then
    if ok then ⟨[.file (.create text)], true⟩ else ⟨[], false⟩
  else ⟨[], true⟩

/-- write_partitioning.cpp:36-51: one turn; `opens i` tells whether the file opens in round `i`, `x` is `(i, turn)`. -/
def turnStep (opens : Nat → Bool) (s : Nat) (H : Hypergraph) (w : WProc) (x : Nat × Nat) : WProc :=
  if w.running then
    if x.2 = s then
      if opens x.1 then ⟨w.events ++ [.file (.append ((partLines H x.1).flatMap entryText)), .sync], true⟩
      else ⟨w.events, false⟩
    else ⟨w.events ++ [.sync], true⟩
  else w

/-- write_partitioning.cpp:34-35: the turns, in order. -/
def turns (k p : Nat) : List (Nat × Nat) := (List.range k).flatMap (fun i => (List.range p).map (fun t => (i, t)))

/-- write_partitioning.cpp:18-55 `partitioning_to_file` on the processor with rank `s` of `p`. -/
def writeProc (headOk : Bool) (opens : Nat → Bool) (k p : Nat) (starts : List Int) (s : Nat) (H : Hypergraph) : WProc :=
  (turns k p).foldl (turnStep opens s H) (headStep headOk s (headText H k starts))

end PMondriaan
