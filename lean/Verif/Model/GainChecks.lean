import Verif.Model.GainBuckets
import Verif.Model.WritePar

/-
Model of the two functions of gain_buckets.cpp that only show something: `gain_buckets::print` and
`gain_structure::check_gains`.
-/

namespace PMondriaan

/-- gain_buckets.cpp:56-60: the line of bucket `i`. The elements of the set come in the order of the list. -/
def bucketLine (b : Buckets) (x : List Nat × Nat) : List Char :=
  decimalInt (b.indexToGain x.2) ++ ": ".toList ++ x.1.flatMap (fun j => decimal j ++ " ".toList) ++ "\n".toList

/-- gain_buckets.cpp:53-62 `print`: the characters written to `std::cout`. (The counter `0u` of 32 bits is that of C97.) -/
def bucketsText (b : Buckets) : List Char := "Buckets: \n".toList ++ b.buckets.zipIdx.flatMap (bucketLine b)

/-- A message of `check_gains`: the vertex, its stored gain and the gain it should have. -/
abbrev GainMsg := Nat × Int × Int

namespace GainStructure

/-- gain_buckets.cpp:297-314: the check of the vertex at position `i`. A locked vertex (`none`) is skipped. -/
def checkGain (s : GainStructure) (x : Vertex × Nat) : Res (List GainMsg) := do
  let g ← vget s.gains x.2
  match g with
  | none => pure []
  | some g => do
    let gain ← gainOf s.H s.C x.1
    pure (if gain ≠ g then [(x.1.id, g, gain)] else [])

/-- gain_buckets.cpp:295-316 `check_gains`: the messages in order. -/
def checkGains (s : GainStructure) : Res (List GainMsg) := do
  let l ← s.H.vertices.zipIdx.mapM s.checkGain
  pure l.flatten

end GainStructure

end PMondriaan
