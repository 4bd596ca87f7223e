import Verif.Model.CoarsenPar
import Verif.Spec.Coarsen

/-
Vocabulary for coarsening on several processors.
-/

namespace PMondriaan.Spec

open PMondriaan

/-- The vertices, with their processors, that the processors together have matched to `u`. -/
def matchesIn (Cs : List Contraction) (u : Nat) : List (Nat × Nat) :=
  Cs.flatMap (fun C => (C.samples.zip C.matched).flatMap (fun x => if x.1 = u then x.2 else []))

/-- The ids that are matched to some sample on some processor. -/
def goneIds (Cs : List Contraction) : List Nat := Cs.flatMap (fun C => C.matched.flatten.map (·.1))

/-- The clusters of all processors together: every vertex that was not matched to another is the
centre of a cluster. -/
def wholeContraction (Hs : List Hypergraph) (Cs : List Contraction) : Contraction :=
  { samples := ((Hs.flatMap (·.vertices)).map (·.id)).filter (fun u => u ∉ goneIds Cs),
    matched := (((Hs.flatMap (·.vertices)).map (·.id)).filter (fun u => u ∉ goneIds Cs)).map
      (matchesIn Cs),
    free := Cs.flatMap (·.free) }

/-- The hypergraph with only the nets that have pins. -/
def dropEmpty (H : Hypergraph) : Hypergraph :=
  Hypergraph.create H.globalSize H.globalNumberNets H.vertices
    (H.nets.filter (fun n => n.vertices ≠ []))

/-- What the processors hold after the parallel coarsening of `Hs` with the local samples `S`: `R`
lists, per processor, the record of the contraction and the coarse local hypergraph. -/
structure CoarsenedPar (N : Nat) (Hs : List Hypergraph) (S : List (List Nat)) (maxC : Nat)
    (R : List CProc) : Prop where
  len : R.length = Hs.length
  slen : S.length = Hs.length
  dist : Distributed N (R.map (·.2))
  star : StarClustering (unionH N Hs) (wholeContraction Hs (R.map (·.1))) maxC
  contraction : IsContraction (unionH N Hs) (wholeContraction Hs (R.map (·.1)))
    (dropEmpty (unionH N (R.map (·.2))))
  localNets : ∀ c ∈ R, ∀ n ∈ c.2.nets, n.vertices ≠ [] ∧
    n.globalSize = (unionPins (R.map (·.2)) n.id).length
  fresh : ∀ c ∈ R, ∀ v ∈ c.2.vertices, v.part = -1 ∧ v.nets ≠ []
  stays : ∀ (t : Nat) H c, Hs[t]? = some H → R[t]? = some c →
    (c.2.vertices.map (·.id) ++ c.1.free.map (·.1)).Perm
      ((H.vertices.map (·.id)).filter (fun u => u ∉ goneIds (R.map (·.1))))
  samples : ∀ (t : Nat) H l c, Hs[t]? = some H → S[t]? = some l → R[t]? = some c →
    c.1.samples.map some = l.map (fun x => (H.vertices[x]?).map (·.id)) ∧
    c.1.matched.length = c.1.samples.length
  once : (goneIds (R.map (·.1))).Nodup
  kept : ∀ c ∈ R, ∀ u ∈ c.1.samples, u ∉ goneIds (R.map (·.1))
  few : ∀ c ∈ R, ∀ l ∈ c.1.matched, l.length ≤ maxC
  owner : ∀ c ∈ R, ∀ l ∈ c.1.matched, ∀ y ∈ l, ∃ H, Hs[y.2]? = some H ∧ IsVertex H y.1
  free : ∀ c ∈ R, c.1.localFree = (c.1.free.map (·.2)).sum ∧ c.1.globalFree = totalFree R
  size : ∀ c ∈ R, c.2.globalSize = (R.map (fun c => c.2.vertices.length)).sum
  gnn : ∀ (t : Nat) H c, Hs[t]? = some H → R[t]? = some c → c.2.globalNumberNets = H.globalNumberNets

end PMondriaan.Spec
