import Verif.Model.Reduce

/-
Model of src/hypergraph/readhypergraph.cpp.

The text of the file enters as the values extracted from it: the symmetry word of the header, the
three numbers of the size line, and for every following line the two numbers read from it.
-/

namespace PMondriaan

/-- What is extracted from a file. `symmetry = none`: the header line does not have five words.
A data line is `none` when the extraction of two numbers from it fails. -/
structure MtxFile where
  symmetry : Option String
  E : Nat
  V : Nat
  L : Nat
  lines : List (Option (Nat × Nat))
deriving DecidableEq, Repr

/-- `nets_list` and `vertex_list` (readhypergraph.cpp:47-48). -/
structure Lists where
  nets : List (List Nat)
  vtx : List (List Nat)

/-- `l[i - 1].push_back(x - 1)`; `i = 0` wraps around to an index beyond the end. -/
def push1 (l : List (List Nat)) (i x : Nat) : Res (List (List Nat)) :=
  if i = 0 then .error .ub
  else match l[i - 1]? with
    | none => .error .ub
    | some y => .ok (l.set (i - 1) (y ++ [x - 1]))

/-- readhypergraph.cpp:61-62 and 73-74. -/
def addEntry (s : Lists) (e v : Nat) : Res Lists := do
  let nets ← push1 s.nets v e
  let vtx ← push1 s.vtx e v
  pure ⟨nets, vtx⟩

/-- readhypergraph.cpp:61-62 as a step on a list with the number of nonzeros (not changed). -/
def generalStep (s : Lists × Nat) (e v : Nat) : Res (Lists × Nat) := do
  let l ← addEntry s.1 e v
  pure (l, s.2)

/-- readhypergraph.cpp:67-79. -/
def symmetricStep (s : Lists × Nat) (e v : Nat) : Res (Lists × Nat) := do
  let l ← addEntry s.1 e v
  if v ≠ e then do
    let l ← addEntry l v e
    pure (l, s.2 + 2)
  else pure (l, s.2 + 1)

/-- readhypergraph.cpp:55-63 and 66-80: the loop over the lines; `none` is `std::nullopt`. -/
def readLines {S : Type} (step : S → Nat → Nat → Res S) :
    List (Option (Nat × Nat)) → S → Res (Option S)
  | [], s => .ok (some s)
  | none :: _, _ => .ok none
  | some (e, v) :: r, s => do
    let s' ← step s e v
    readLines step r s'

/-- readhypergraph.cpp:53-85: the two symmetries. -/
def readData (f : MtxFile) : Res (Option (Lists × Nat)) :=
  let s : Lists := ⟨List.replicate f.V [], List.replicate f.E []⟩
  match f.symmetry with
  | none => .ok none
  | some sym =>
    if sym = "general" then readLines generalStep f.lines (s, f.L)
    else if sym = "symmetric" then readLines symmetricStep f.lines (s, 0)
    else .ok none

/-- readhypergraph.cpp:89-100: the weight of a vertex with net list `l`; `none` for an unknown
mode. -/
def modeWeight (mode : String) : Option (List Nat → Int) :=
  if mode = "one" then some (fun _ => 1)
  else if mode = "degree" then some (fun l => (l.length : Int))
  else none

/-- readhypergraph.cpp:102-106: the nets with at least one vertex. -/
def readNets (vtx : List (List Nat)) : List Net :=
  ((vtx.zipIdx).filter (fun x => !x.1.isEmpty)).map (fun x => Net.mk' x.2 x.1)

/-- readhypergraph.cpp:25-111 `read_hypergraph_istream(fin, mode_weight)`. -/
def readSeq (order : List Nat → List Nat) (f : MtxFile) (mode : String) :
    Res (Option Hypergraph) := do
  let r ← readData f
  match r with
  | none => pure none
  | some s =>
    match modeWeight mode with
    | none => pure none
    | some wt => do
      let vertices := (s.1.nets.zipIdx).map (fun x => Vertex.mk' x.2 x.1 (wt x.1))
      let H ← removeFreeNets order
        (Hypergraph.create f.V f.E vertices (readNets s.1.vtx) s.2) 0
      pure (some H)

/-! ### Parallel reading -/

/-- `v - 1` in `size_t`. -/
def idx0 (v : Nat) : Nat := if v = 0 then 18446744073709551615 else v - 1

/-- readhypergraph.cpp:159-163: the entry is stored by the owner of its column. -/
def addOwned (np : NetPart) (r : Nat) (s : Lists) (e v : Nat) : Res Lists :=
  if np.owner (idx0 v) = r then do
    let nets ← push1 s.nets (np.loc (idx0 v) + 1) e
    let vtx ← push1 s.vtx e v
    pure ⟨nets, vtx⟩
  else pure s

/-- readhypergraph.cpp:151-164 as a step. -/
def generalStepPar (np : NetPart) (r : Nat) (s : Lists × Nat) (e v : Nat) : Res (Lists × Nat) := do
  let l ← addOwned np r s.1 e v
  pure (l, s.2)

/-- readhypergraph.cpp:168-187 as a step. -/
def symmetricStepPar (np : NetPart) (r : Nat) (s : Lists × Nat) (e v : Nat) : Res (Lists × Nat) := do
  let l ← addOwned np r s.1 e v
  if v ≠ e then do
    let l ← addOwned np r l v e
    pure (l, s.2 + 2)
  else pure (l, s.2 + 1)

/-- The first `L` lines; a line that is missing cannot be extracted from. -/
def firstLines (f : MtxFile) : List (Option (Nat × Nat)) :=
  f.lines.take f.L ++ List.replicate (f.L - f.lines.length) none

/-- readhypergraph.cpp:117-194 on processor `r`. -/
def readDataPar (np : NetPart) (f : MtxFile) (r : Nat) : Res (Option (Lists × Nat)) :=
  let s : Lists := ⟨List.replicate (np.count r) [], List.replicate f.E []⟩
  match f.symmetry with
  | none => .ok none
  | some sym =>
    if sym = "general" then readLines (generalStepPar np r) (firstLines f) (s, f.L)
    else if sym = "symmetric" then readLines (symmetricStepPar np r) (firstLines f) (s, 0)
    else .ok none

/-- readhypergraph.cpp:196-218 on processor `r`. -/
def readLocal (np : NetPart) (f : MtxFile) (mode : String) (r : Nat) : Res (Option Hypergraph) := do
  let d ← readDataPar np f r
  match d with
  | none => pure none
  | some s =>
    match modeWeight mode with
    | none => pure none
    | some wt =>
      let vertices := (s.1.nets.zipIdx).map (fun x => Vertex.mk' (np.glob x.2 r) x.1 (wt x.1))
      pure (some (Hypergraph.create f.V f.E vertices (readNets s.1.vtx) s.2))

/-- readhypergraph.cpp:116-222 `read_hypergraph_istream(fin, world, mode_weight)` on `p` processors
that read the same file; `np` is the partitioning of the columns, `npE` that of the nets used by
`remove_free_nets`. All processors take the same exits, since these depend on the file only. -/
def readPar (order : List Nat → List Nat) (d1 d2 : Delivery (Nat × Int)) (np npE : NetPart) (p : Nat)
    (f : MtxFile) (mode : String) : Res (Option (List Hypergraph)) := do
  let rs ← (List.range p).mapM (readLocal np f mode)
  match rs.mapM id with
  | none => pure none
  | some Hs => do
    let Rs ← removeFreeNetsPar order d1 d2 npE Hs 0
    pure (some Rs)

end PMondriaan
