import Verif.Spec.Matching
import Verif.Model.CoarsenPar

/-
Vocabulary for the quality of the parallel matching: favourite samples and accepted requests.
-/

namespace PMondriaan.Spec

open PMondriaan

/-- Sample number `j` of processor `t`. -/
def SampleAt (Hs : List Hypergraph) (S : List (List Nat)) (t j : Nat) (u : Vertex) : Prop :=
  ∃ (H : Hypergraph) (l : List Nat) (x : Nat), Hs[t]? = some H ∧ S[t]? = some l ∧ l[j]? = some x ∧
    H.vertices[x]? = some u

/-- Vertex number `i` of processor `s`. -/
def VertexAt (Hs : List Hypergraph) (s i : Nat) (H : Hypergraph) (v : Vertex) : Prop :=
  Hs[s]? = some H ∧ H.vertices[i]? = some v

/-- `fav s i` is the sample, as a processor and a number, that vertex number `i` of processor `s` wants to
join. A sample wants to join nothing. Any other vertex wants to join a sample with the
largest positive score among the samples that share a net with it, if there is one. -/
def Favourites {F : Type} (O : ScoreOps F) (Hs : List Hypergraph) (S : List (List Nat))
    (fav : Nat → Nat → Option (Nat × Nat)) : Prop :=
  ∀ s i H v l, VertexAt Hs s i H v → S[s]? = some l →
    match fav s i with
    | none => i ∈ l ∨ ∀ t j u, SampleAt Hs S t j u → sharedNets H u v ≠ [] →
        O.gt (score O H u v) O.zero = false
    | some g => i ∉ l ∧ ∃ u, SampleAt Hs S g.1 g.2 u ∧ sharedNets H u v ≠ [] ∧
        O.gt (score O H u v) O.zero = true ∧
        ∀ t j u', SampleAt Hs S t j u' → sharedNets H u' v ≠ [] →
          O.gt (score O H u' v) (score O H u v) = false

/-- The matches `L` of sample number `j` of processor `t`, which is `u`: only vertices that want to join
it, and when one of these is left out, then `L` is full and holds no vertex with a smaller score. -/
structure BestAccepted {F : Type} (O : ScoreOps F) (Hs : List Hypergraph)
    (fav : Nat → Nat → Option (Nat × Nat)) (maxC : Nat) (t j : Nat) (u : Vertex)
    (L : List (Nat × Nat)) : Prop where
  wanted : ∀ y ∈ L, ∃ i H v, VertexAt Hs y.2 i H v ∧ v.id = y.1 ∧ fav y.2 i = some (t, j)
  best : ∀ s i H v, VertexAt Hs s i H v → fav s i = some (t, j) → (v.id, s) ∉ L →
    L.length = maxC ∧ ∀ y ∈ L, ∀ i' H' v', VertexAt Hs y.2 i' H' v' → v'.id = y.1 →
      O.gt (score O H u v) (score O H' u v') = false

/-- What `std::nth_element(begin, begin + k, end)` promises for the order in which larger keys come
first: the elements before position `k` are not smaller than those from `k` on. -/
def NthLargest {F α : Type} (O : ScoreOps F) (key : α → F) (nth : Nat → List α → List α) : Prop :=
  ∀ k l, k < l.length → ∀ a ∈ (nth k l).take k, ∀ b ∈ (nth k l).drop k, O.gt (key b) (key a) = false

end PMondriaan.Spec
