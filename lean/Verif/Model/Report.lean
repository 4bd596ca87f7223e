import Verif.Model.WritePar
import Verif.Model.Reduce

/-
Model of the texts that are shown: `hypergraph::print` (src/hypergraph/hypergraph.cpp:238-246), the name of the file with
the result and the lines that tools/PMondriaan.cpp logs at the end. `world.log` is taken to write the formatted text on
a line of its own; what the library puts in front of it is left out. `%d` with a 64-bit argument is undefined in the C
standard; it is modelled as on the usual 64-bit platforms, where the low 32 bits are printed as a signed number. The texts
for `%lf` are parameters.
-/

namespace PMondriaan

/-! ### print -/

/-- hypergraph.cpp:240-244: the line of a vertex. -/
def vertexText (v : Vertex) : List Char :=
  decimal v.id ++ ": ".toList ++ v.nets.flatMap (fun n => decimal n ++ " ".toList) ++ "\n".toList

/-- hypergraph.cpp:238-246 `print`: the characters written to `std::cout`. -/
def printText (H : Hypergraph) : List Char := H.vertices.flatMap vertexText

/-! ### The name of the file with the result -/

/-- `std::string::npos`. -/
def npos : Nat := 2 ^ 64 - 1

/-- `s.find_last_of(c)`. -/
def findLastOf (s : List Char) (c : Char) : Nat :=
  match (List.range s.length).reverse.find? (fun i => s[i]? = some c) with
  | some i => i
  | none => npos

/-- PMondriaan.cpp:131-132: `substr(find_last_of('/') + 1)`, the sum is a `size_t`. -/
def baseName (file : List Char) : List Char := file.drop ((findLastOf file '/' + 1) % 2 ^ 64)

/-- PMondriaan.cpp:130-134. -/
def resultName (file : List Char) (k p : Int) : List Char :=
  "../tools/results/".toList ++ baseName file ++ "-k".toList ++ decimalInt k ++ "-p".toList ++ decimalInt p

/-! ### The log -/

/-- `%d` with an argument of 64 bits. -/
def percentD (x : Int) : List Char := decimalInt (wrap32 x)

/-- PMondriaan.cpp:150-152: the lines with the weights of the parts. -/
def weightLines (k : Nat) (ws : List Int) : Res (List (List Char)) :=
  (List.range k).mapM (fun i => do
    let w ← vget ws i
    pure ("Weight part ".toList ++ decimalInt i ++ ": ".toList ++ decimalInt w))

/-- PMondriaan.cpp:141-152: the lines logged by processor 0; `lb` and `time` are the texts of the load balance and the
time (lines 145, 147). -/
def logLines (H : Hypergraph) (k p : Nat) (lb time : List Char) (cut : Int) (ws : List Int) : Res (List (List Char)) := do
  let parts ← weightLines k ws
  pure (["Partitioned hypergraph with ".toList ++ percentD H.globalSize ++ " vertices into ".toList ++ percentD k ++
      " parts using ".toList ++ decimalInt p ++ " processors".toList,
    "Load balance of partitioning found: ".toList ++ lb,
    "Cutsize of partitioning found: ".toList ++ percentD cut,
    "Time used: ".toList ++ time ++ " milliseconds".toList] ++ parts)

end PMondriaan
