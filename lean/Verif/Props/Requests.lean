import Verif.Proofs.Requests
import Verif.Props.CoarsenPar
import Verif.Props.Matching

/-
C73: the parallel coarsening matches every vertex with its best sample, and every sample with its best
vertices.
-/

namespace PMondriaan

open Spec

/-- C73: for every number of processors, distribution, choice of local samples, iteration and message
orders, and every selection by `nth_element`, the matches recorded by `coarsen_hypergraph_par` are these.
Every vertex that is no sample has a favourite: a sample with the largest positive scaled inner product
among all samples of all processors that share a net with it, as far as its processor knows this net. A sample is
matched with vertices that have it as favourite only. When such a vertex is left out, the sample has
`coarsening_max_clustersize` matches and none of these has a smaller inner product. -/
theorem C73_best {F : Type} (E : CoarseEnv F) {p N : Nat} (hE : CoarseEnvOk E p N)
    (hg : StrictWeak E.scores) (hN : NthLargest E.scores (·.2) E.nthLocal)
    (hN2 : NthLargest E.scores (·.score) E.nthOwner) (opts : Options)
    {Hs : List Hypergraph} (hp : Hs.length = p) (hD : Distributed N Hs) {S : List (List Nat)}
    (hS : S.length = p) (hnd : ∀ l ∈ S, l.Nodup ∧ l.length ≤ opts.sampleSize)
    (hin : ∀ (t : Nat) H l, Hs[t]? = some H → S[t]? = some l → ∀ x ∈ l, x < H.vertices.length) :
    ∃ R fav, coarsenFrom E opts Hs S = .ok R ∧ Favourites E.scores Hs S fav ∧
      ∀ t j u, SampleAt Hs S t j u → ∃ c L, R[t]? = some c ∧ c.1.matched[j]? = some L ∧
        BestAccepted E.scores Hs fav opts.maxClustersize t j u L := by
  have e1 : Hs = (List.range p).map (hAt Hs) := by
    apply List.ext_getElem?
    intro i
    by_cases hi : i < p
    · rw [rangeMap_get hi, hAt_get (by omega)]
    · rw [List.getElem?_eq_none (by omega), List.getElem?_eq_none (by simp; omega)]
  have e2 : S = (List.range p).map (fun t => S.getD t []) := by
    apply List.ext_getElem?
    intro i
    by_cases hi : i < p
    · rw [rangeMap_get hi, List.getD_eq_getElem?_getD, List.getElem?_eq_getElem (by omega)]
      rfl
    · rw [List.getElem?_eq_none (by omega), List.getElem?_eq_none (by simp; omega)]
  have hσ : SamplesOk opts.sampleSize p (hAt Hs) (fun t => S.getD t []) := by
    intro t ht
    have hg : S[t]? = some (S.getD t []) := by
      rw [List.getD_eq_getElem?_getD, List.getElem?_eq_getElem (by omega)]
      rfl
    have hgH : Hs[t]? = some (hAt Hs t) := hAt_get (by omega)
    exact ⟨(hnd _ (List.mem_of_getElem? hg)).1, hin t _ _ hgH hg, (hnd _ (List.mem_of_getElem? hg)).2⟩
  have hw : ∀ t, t < p → WF (hAt Hs t) := fun t ht => hD.wf _ (List.mem_of_getElem? (hAt_get (by omega)))
  rw [e1] at hD
  obtain ⟨R, h1, -, outs, reqs, m, out2, g1, g2, g3, g4⟩ := coarsenFrom_ok E hE.order hE.nthLocal
    hE.nthOwner hE.dSample hE.dReq hE.dAcc hE.dInfo hE.d1 hE.d2 opts hD hE.np hσ
  obtain ⟨fav, f1, f2⟩ := matching_best E hg hE.order hE.nthLocal hE.nthOwner hN hN2 hE.dSample hE.dReq
    opts hw hσ g1 g2 g3
  rw [← e1, ← e2] at h1 f1 f2
  refine ⟨R, fav, h1, f1, ?_⟩
  intro t j u hu
  obtain ⟨L, q1, q2⟩ := f2 t j u hu
  have ht : t < p := by
    obtain ⟨H, -, -, hH, -⟩ := hu
    have := (List.getElem?_eq_some_iff.1 hH).1
    omega
  obtain ⟨c, q3, q4⟩ := g4 t ht
  exact ⟨c, L, q3, by rw [q4]; exact q1, q2⟩

/-- Insert by falling key. -/
def insertBy {F α : Type} (O : ScoreOps F) (key : α → F) (a : α) : List α → List α
  | [] => [a]
  | b :: l => if O.gt (key b) (key a) then b :: insertBy O key a l else a :: b :: l

/-- `nth_element` by sorting. -/
def sortNth {F α : Type} (O : ScoreOps F) (key : α → F) (_ : Nat) (l : List α) : List α :=
  l.foldr (insertBy O key) []

theorem insertBy_perm {F α : Type} (O : ScoreOps F) (key : α → F) (a : α) (l : List α) :
    (insertBy O key a l).Perm (a :: l) := by
  induction l with
  | nil => exact .refl _
  | cons b l ih =>
    unfold insertBy
    split
    · exact (ih.cons b).trans (.swap a b l)
    · exact .refl _

theorem sortNth_perm {F α : Type} (O : ScoreOps F) (key : α → F) (k : Nat) (l : List α) :
    (sortNth O key k l).Perm l := by
  induction l with
  | nil => exact .refl _
  | cons a l ih => exact (insertBy_perm O key a _).trans (ih.cons a)

theorem insertBy_sorted {F α : Type} {O : ScoreOps F} (hg : StrictWeak O) (key : α → F) (a : α)
    {l : List α} (h : l.Pairwise (fun a b => O.gt (key b) (key a) = false)) :
    (insertBy O key a l).Pairwise (fun a b => O.gt (key b) (key a) = false) := by
  induction l with
  | nil => simp [insertBy]
  | cons b l ih =>
    rw [List.pairwise_cons] at h
    unfold insertBy
    split
    · rename_i hb
      refine List.pairwise_cons.2 ⟨?_, ih h.2⟩
      intro x hx
      rcases List.mem_cons.1 ((insertBy_perm O key a l).mem_iff.1 hx) with rfl | hx
      · exact hg.asymm _ _ hb
      · exact h.1 x hx
    · rename_i hb
      have hb : O.gt (key b) (key a) = false := by simpa using hb
      refine List.pairwise_cons.2 ⟨?_, List.pairwise_cons.2 h⟩
      intro x hx
      rcases List.mem_cons.1 hx with rfl | hx
      · exact hb
      · exact hg.trans _ _ _ (h.1 x hx) hb

/-- The assumption on `nth_element` can be met, for example by sorting. -/
theorem sortNth_largest {F α : Type} {O : ScoreOps F} (hg : StrictWeak O) (key : α → F) :
    NthLargest O key (sortNth O key) := by
  intro k l hk a ha b hb
  have hp : (sortNth O key k l).Pairwise (fun a b => O.gt (key b) (key a) = false) := by
    clear hk ha hb
    induction l with
    | nil => exact .nil
    | cons a l ih => exact insertBy_sorted hg key a ih
  rw [← List.take_append_drop k (sortNth O key k l), List.pairwise_append] at hp
  exact hp.2.2 a ha b hb

/-- Three processors: the samples will be vertices 0 and 1 of processor 0; the other vertices share with them
nets of different cost. -/
def exampleStars : List Hypergraph :=
  [ Hypergraph.create 5 3
      [ { id := 0, nets := [0, 1], weight := 1, part := -1 }, { id := 1, nets := [2], weight := 1, part := -1 },
        { id := 2, nets := [0], weight := 1, part := -1 } ]
      [ { id := 0, vertices := [0, 2], cost := 1, globalSize := 2 },
        { id := 1, vertices := [0], cost := 4, globalSize := 3 },
        { id := 2, vertices := [1], cost := 3, globalSize := 2 } ],
    Hypergraph.create 5 3
      [ { id := 3, nets := [1, 2], weight := 1, part := -1 } ]
      [ { id := 1, vertices := [3], cost := 4, globalSize := 3 },
        { id := 2, vertices := [3], cost := 3, globalSize := 2 } ],
    Hypergraph.create 5 3
      [ { id := 4, nets := [1], weight := 1, part := -1 } ]
      [ { id := 1, vertices := [4], cost := 4, globalSize := 3 } ] ]

theorem exampleStars_dist : Distributed 3 exampleStars := by
  refine ⟨?_, by decide, by decide, by decide⟩
  intro H hH
  simp only [exampleStars, List.mem_cons, List.not_mem_nil, or_false] at hH
  rcases hH with rfl | rfl | rfl <;>
    exact WF_create (by decide) (by decide) (by decide) (by decide) (by decide) (by decide)

/-- Exact scores; `nth_element` sorts; messages in reverse order. -/
def exampleStarsEnv : CoarseEnv Rat where
  scores := exactScores
  shuf := fun r l => (l, r)
  accRandom := fun d left size => decide (d * size ≤ left * 10)
  accLp := fun _ _ => true
  order := id
  nthLocal := sortNth exactScores (·.2)
  nthOwner := sortNth exactScores (·.score)
  dSample := revDelivery _
  dReq := revDelivery _
  dAcc := revDelivery _
  dInfo := revDelivery _
  d1 := revDelivery _
  d2 := revDelivery _
  np := blockPart 3 3

theorem exampleStarsEnv_ok : CoarseEnvOk exampleStarsEnv 3 3 :=
  ⟨fun _ _ => .refl _, fun _ => .refl _, sortNth_perm _ _, sortNth_perm _ _,
    revDelivery_fair _, revDelivery_fair _, revDelivery_fair _, revDelivery_fair _,
    revDelivery_fair _, revDelivery_fair _, blockPart_valid 3 3 (by decide)⟩

/-- Vertex 3 prefers vertex 1 (score 3) to vertex 0 (score 1); vertices 2 and 4 want to join vertex 0, with
scores 1 and 2. With one match per sample vertex 4 is accepted and vertex 2 is not. -/
example :
    (coarsenFrom exampleStarsEnv { exampleOpts with maxClustersize := 1 } exampleStars [[0, 1], [], []]).toOption.map
      (fun R => R.map (fun c => (c.1.samples, c.1.matched))) =
    some [([0, 1], [[(4, 2)], [(3, 1)]]), ([], []), ([], [])] := by
  decide +kernel

/-- With two matches per sample both are accepted. -/
example :
    (coarsenFrom exampleStarsEnv { exampleOpts with maxClustersize := 2 } exampleStars [[0, 1], [], []]).toOption.map
      (fun R => R.map (fun c => (c.1.samples, c.1.matched))) =
    some [([0, 1], [[(4, 2), (2, 0)], [(3, 1)]]), ([], []), ([], [])] := by
  decide +kernel

/-- The assumptions of C73 hold for it. -/
example :
    ∃ R fav, coarsenFrom exampleStarsEnv exampleOpts exampleStars [[0, 1], [], []] = .ok R ∧
      Favourites exactScores exampleStars [[0, 1], [], []] fav ∧
      ∀ t j u, SampleAt exampleStars [[0, 1], [], []] t j u → ∃ c L, R[t]? = some c ∧
        c.1.matched[j]? = some L ∧ BestAccepted exactScores exampleStars fav 3 t j u L :=
  C73_best exampleStarsEnv exampleStarsEnv_ok exactScores_weak (sortNth_largest exactScores_weak _)
    (sortNth_largest exactScores_weak _) exampleOpts rfl exampleStars_dist rfl (by decide) (by
      intro t H l h1 h2
      match t with
      | 0 => injection h1 with h1; injection h2 with h2; subst h1 h2; decide
      | 1 => injection h1 with h1; injection h2 with h2; subst h1 h2; decide
      | 2 => injection h1 with h1; injection h2 with h2; subst h1 h2; decide)

end PMondriaan
