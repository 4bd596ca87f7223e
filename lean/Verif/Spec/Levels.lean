import Verif.Model.Multilevel
import Verif.Spec.Coarsen
import Verif.Spec.Recursive

/-
Vocabulary for the levels of the multilevel method: connected components, the cut of a range, the way down.
-/

namespace PMondriaan.Spec

open PMondriaan

/-- No net joins a vertex of `vs` in `S` to a vertex of `vs` outside `S`. -/
def ClosedIn (nets : List Net) (vs : List Vertex) (S : Nat → Bool) : Prop :=
  ∀ n ∈ nets, ∀ u ∈ vs, ∀ w ∈ vs, u.id ∈ n.vertices → w.id ∈ n.vertices → S u.id = S w.id

/-- `S` is a connected component of the vertices `vs` under the nets: it is not empty, no net leads out of it, and a set
that no net leads out of contains all of it or nothing of it. -/
structure Component (nets : List Net) (vs : List Vertex) (S : Nat → Bool) : Prop where
  nonempty : ∃ v ∈ vs, S v.id = true
  closed : ClosedIn nets vs S
  linked : ∀ T : Nat → Bool, ClosedIn nets vs T → ∀ u ∈ vs, ∀ w ∈ vs, S u.id = true → S w.id = true →
    T u.id = T w.id

/-- The weight of the vertices in `S`. -/
def setWeight (vs : List Vertex) (S : Nat → Bool) : Int := ((vs.filter (fun v => S v.id)).map (·.weight)).sum

/-- The number of vertices in `S`. -/
def setSize (vs : List Vertex) (S : Nat → Bool) : Nat := (vs.filter (fun v => S v.id)).length

/-- The number of nets with two vertices of different parts at positions `s`, …, `e - 1`. -/
def rangeCut (H : Hypergraph) (s e : Nat) : Nat :=
  (H.nets.filter (fun n => ∃ u ∈ slice H.vertices s e, ∃ w ∈ slice H.vertices s e,
    u.id ∈ n.vertices ∧ w.id ∈ n.vertices ∧ u.part ≠ w.part)).length

/-- The way down from `H`: `G` is the hypergraph after `j` rounds of coarsening, each begun because the hypergraph was
still larger than `coarsening_nrvertices`. -/
inductive Descends {F : Type} (E : Env F) (rank : Nat) (opts : Options) :
    Nat → Hypergraph → Rng → Hypergraph → Rng → Prop
  | stay (H : Hypergraph) (rng : Rng) : Descends E rank opts 0 H rng H rng
  | down {j : Nat} {H H1 HC G : Hypergraph} {C : Contraction} {rng rng1 rng2 : Rng} :
    opts.coarseningNrvertices < H.globalSize → simplifyDuplicateNets H = .ok H1 →
    coarsenSeq E.scores E.shuf E.order rank H1 {} opts rng = .ok (HC, C, rng1) →
    Descends E rank opts j HC rng1 G rng2 → Descends E rank opts (j + 1) H rng G rng2

end PMondriaan.Spec
