import Verif.Model.Reader
import Verif.Spec.Dist

/-
Specification of the hypergraph of a sparse matrix. Entries are pairs (row, column), counted from 1 as
in the file; rows are nets and columns are vertices, counted from 0.
-/

namespace PMondriaan.Spec

open PMondriaan

/-- The rows listed for column `v`, in file order. -/
def columnOf (es : List (Nat × Nat)) (v : Nat) : List Nat :=
  (es.filter (fun x => x.2 = v + 1)).map (fun x => x.1 - 1)

/-- The columns listed for row `e`, in file order. -/
def rowOf (es : List (Nat × Nat)) (e : Nat) : List Nat :=
  (es.filter (fun x => x.1 = e + 1)).map (fun x => x.2 - 1)

/-- All entries lie inside an `E` by `V` matrix. -/
def EntriesIn (E V : Nat) (es : List (Nat × Nat)) : Prop :=
  ∀ x ∈ es, 1 ≤ x.1 ∧ x.1 ≤ E ∧ 1 ≤ x.2 ∧ x.2 ≤ V

/-- The entries of a symmetric matrix: off-diagonal entries count for both triangles. -/
def mirror (es : List (Nat × Nat)) : List (Nat × Nat) :=
  es.flatMap (fun x => if x.1 = x.2 then [x] else [x, (x.2, x.1)])

/-- `H` is the hypergraph of the `E` by `V` matrix with entries `es`: one vertex per column, one net
per non-empty row, `wt` gives the weight of a column from its rows. -/
structure IsMatrix (E V : Nat) (es : List (Nat × Nat)) (wt : List Nat → Int) (H : Hypergraph) :
    Prop where
  globalSize : H.globalSize = V
  globalNumberNets : H.globalNumberNets = E
  vids : H.vertices.map (·.id) = List.range V
  columns : ∀ v ∈ H.vertices, v.nets = columnOf es v.id ∧ v.weight = wt (columnOf es v.id) ∧
    v.part = -1
  netIds : H.nets.map (·.id) = (List.range E).filter (fun e => ∃ x ∈ es, x.1 = e + 1)
  rows : ∀ n ∈ H.nets, n.vertices = rowOf es n.id ∧ n.cost = 1 ∧
    n.globalSize = (rowOf es n.id).length
  vmap : H.vmap = buildMap (H.vertices.map (·.id))
  nmap : H.nmap = buildMap (H.nets.map (·.id))
  dups : H.dups = []

/-- `R` is the part on processor `r` of the hypergraph `H`, whose vertices are distributed by
`owner`. -/
structure IsLocalPart (owner : Nat → Nat) (r : Nat) (H R : Hypergraph) : Prop where
  wf : WF R
  vids : (R.vertices.map (·.id)).Perm ((H.vertices.map (·.id)).filter (fun u => owner u = r))
  vertices : ∀ v ∈ R.vertices, ∃ u ∈ H.vertices, u.id = v.id ∧ u.weight = v.weight ∧
    u.part = v.part ∧ v.nets.Perm u.nets
  netIds : ∀ e, IsNet R e ↔ ∃ m ∈ H.nets, m.id = e ∧ ∃ u ∈ m.vertices, owner u = r
  nets : ∀ n ∈ R.nets, ∀ m ∈ H.nets, m.id = n.id →
    n.vertices = m.vertices.filter (fun u => owner u = r) ∧ n.cost = m.cost ∧
    n.globalSize = m.vertices.length
  globalSize : R.globalSize = H.globalSize
  globalNumberNets : R.globalNumberNets = H.globalNumberNets
  nrNz : R.nrNz = H.nrNz

end PMondriaan.Spec
