import Verif.Proofs.CoarsenPar
import Verif.Props.Coarsen
import Verif.Props.Dist

/-
C47: coarsening on several processors.
-/

namespace PMondriaan

open Spec

variable {F : Type}

/-- What is assumed of the undetermined parts: shuffles, orders of unordered sets and
`nth_element` permute, no message is lost or invented, and every net has a processor. -/
structure CoarseEnvOk (E : CoarseEnv F) (p N : Nat) : Prop where
  shuf : ∀ r l, (E.shuf r l).1.Perm l
  order : ∀ l, (E.order l).Perm l
  nthLocal : ∀ k l, (E.nthLocal k l).Perm l
  nthOwner : ∀ k l, (E.nthOwner k l).Perm l
  dSample : Fair E.dSample
  dReq : Fair E.dReq
  dAcc : Fair E.dAcc
  dInfo : Fair E.dInfo
  d1 : Fair E.d1
  d2 : Fair E.d2
  np : E.np.Valid p N

/-- When a processor can draw its samples: with label propagation the sample size is positive, and
otherwise it holds a vertex and the draws are as `rand()` produces them. -/
def SamplingOk (E : CoarseEnv F) (opts : Options) (H : Hypergraph) (rng : Rng) : Prop :=
  (opts.samplingLp = true ∧ 1 ≤ opts.sampleSize) ∨
  (opts.samplingLp = false ∧ H.vertices ≠ [] ∧ ∀ i s, 0 < s → E.accRandom (rng i) s s = true)

theorem drawSamples_ok (E : CoarseEnv F) (hsh : ∀ r l, (E.shuf r l).1.Perm l) {opts : Options}
    {H : Hypergraph} (w : WF H) {rng : Rng} (h : SamplingOk E opts H rng) :
    ∃ l r, drawSamples E opts H rng = .ok (l, r) ∧ l.Nodup ∧ (∀ x ∈ l, x < H.vertices.length) ∧
      l.length ≤ opts.sampleSize := by
  unfold drawSamples
  rcases h with ⟨h1, h2⟩ | ⟨h1, h2, h3⟩
  · obtain ⟨-, -, l, r, -, -, g1, g2, g3, -, g4, -⟩ := C25_sample_lp hsh E.accLp w h2 rng
    rw [h1, if_pos rfl]
    exact ⟨l, r, g1, g2.imp (fun h => Nat.ne_of_lt h), g3, g4⟩
  · obtain ⟨l, r, g1, g2, g3, g4⟩ := C24_sample_random h2 opts.sampleSize h3
    rw [h1]
    exact ⟨l, r, g1, g3.imp (fun h => Nat.ne_of_lt h), g4, by omega⟩

/-- C47, after the sampling: for every number of processors, distribution, choice of local samples,
scores (floating-point ties and rounding included), iteration and message orders,
`coarsen_hypergraph_par` succeeds. Every vertex is matched at most once, samples never, and at most
`coarsening_max_clustersize` vertices to a sample; the matches of all processors are a star
clustering of the whole hypergraph, and what the processors hold together with the free vertices is
its contraction along that clustering. -/
theorem C47_coarsen_from (E : CoarseEnv F) {p N : Nat} (hE : CoarseEnvOk E p N) (opts : Options)
    {Hs : List Hypergraph} (hp : Hs.length = p) (hD : Distributed N Hs) {S : List (List Nat)}
    (hS : S.length = p) (hnd : ∀ l ∈ S, l.Nodup ∧ l.length ≤ opts.sampleSize)
    (hin : ∀ (t : Nat) H l, Hs[t]? = some H → S[t]? = some l → ∀ x ∈ l, x < H.vertices.length) :
    ∃ R, coarsenFrom E opts Hs S = .ok R ∧ CoarsenedPar N Hs S opts.maxClustersize R := by
  have e1 : Hs = (List.range p).map (hAt Hs) := by
    apply List.ext_getElem?
    intro i
    by_cases hi : i < p
    · rw [rangeMap_get hi, hAt_get (by omega)]
    · rw [List.getElem?_eq_none (by omega), List.getElem?_eq_none (by simp; omega)]
  have e2 : S = (List.range p).map (fun t => S.getD t []) := by
    apply List.ext_getElem?
    intro i
    by_cases hi : i < p
    · rw [rangeMap_get hi, List.getD_eq_getElem?_getD, List.getElem?_eq_getElem (by omega)]
      rfl
    · rw [List.getElem?_eq_none (by omega), List.getElem?_eq_none (by simp; omega)]
  have hσ : SamplesOk opts.sampleSize p (hAt Hs) (fun t => S.getD t []) := by
    intro t ht
    have hg : S[t]? = some (S.getD t []) := by
      rw [List.getD_eq_getElem?_getD, List.getElem?_eq_getElem (by omega)]
      rfl
    have hgH : Hs[t]? = some (hAt Hs t) := hAt_get (by omega)
    exact ⟨(hnd _ (List.mem_of_getElem? hg)).1, hin t _ _ hgH hg, (hnd _ (List.mem_of_getElem? hg)).2⟩
  rw [e1] at hD
  have := coarsenFrom_ok E hE.order hE.nthLocal hE.nthOwner hE.dSample hE.dReq hE.dAcc hE.dInfo
    hE.d1 hE.d2 opts hD hE.np hσ
  rw [← e1, ← e2] at this
  obtain ⟨R, h1, h2, -⟩ := this
  exact ⟨R, h1, h2⟩

/-- The weight of all vertices of all processors. -/
theorem unionH_weight (N : Nat) (Hs : List Hypergraph) :
    allWeight (unionH N Hs) = (Hs.map allWeight).sum := by
  show ((Hs.flatMap (·.vertices)).map (·.weight)).sum = _
  induction Hs with
  | nil => rfl
  | cons H Hs ih =>
    rw [List.flatMap_cons, List.map_append, List.sum_append, ih]
    rfl

/-- No weight is lost in the parallel coarsening. -/
theorem CoarsenedPar_weight {N : Nat} {Hs : List Hypergraph} {S : List (List Nat)} {maxC : Nat}
    {R : List CProc} (hD : Distributed N Hs) (h : CoarsenedPar N Hs S maxC R) :
    (R.map (fun c => allWeight c.2)).sum + totalFree R = (Hs.map allWeight).sum := by
  rw [← unionH_weight N Hs, ← clusterWeights_total (unionH_wf hD) h.star]
  have h1 := (h.contraction.vertices.map (·.2)).sum_eq
  rw [List.map_append, List.sum_append, List.map_map] at h1
  rw [← h1]
  have e1 : (R.map (fun c => allWeight c.2)).sum = ((R.map (·.2)).map allWeight).sum := by
    rw [List.map_map]; rfl
  rw [e1, ← unionH_weight N]
  congr 1
  show totalFree R = (((R.map (·.1)).flatMap (·.free)).map (·.2)).sum
  unfold totalFree
  clear h h1 e1
  induction R with
  | nil => rfl
  | cons c R ih =>
    rw [List.map_cons, List.sum_cons, ih, List.map_cons, List.flatMap_cons, List.map_append,
      List.sum_append]

theorem mapM_choose {α β : Type} {f : α → Res β} {P : α → β → Prop} {l : List α}
    (h : ∀ a ∈ l, ∃ b, f a = .ok b ∧ P a b) : ∃ r, l.mapM f = .ok r ∧ List.Forall₂ P l r := by
  induction l with
  | nil => exact ⟨[], rfl, .nil⟩
  | cons a l ih =>
    obtain ⟨b, h1, h2⟩ := h a (by simp)
    obtain ⟨r, h3, h4⟩ := ih (fun x hx => h x (by simp [hx]))
    refine ⟨b :: r, ?_, .cons h2 h4⟩
    rw [List.mapM_cons, h1, ok_bind, h3, ok_bind]
    rfl

/-- C47: the whole of `coarsen_hypergraph_par`, sampling included. -/
theorem C47_coarsen_par (E : CoarseEnv F) {p N : Nat} (hE : CoarseEnvOk E p N) (opts : Options)
    {Hs : List Hypergraph} (hp : Hs.length = p) (hD : Distributed N Hs) {rngs : List Rng}
    (hr : rngs.length = p)
    (hs : ∀ (t : Nat) H r, Hs[t]? = some H → rngs[t]? = some r → SamplingOk E opts H r) :
    ∃ S R rngs', coarsenPar E opts Hs rngs = .ok (R, rngs') ∧ rngs'.length = p ∧
      (∀ l ∈ S, l.Nodup ∧ l.length ≤ opts.sampleSize) ∧
      CoarsenedPar N Hs S opts.maxClustersize R ∧
      (R.map (fun c => allWeight c.2)).sum + totalFree R = (Hs.map allWeight).sum := by
  have hz : ∀ x ∈ Hs.zip rngs, ∃ b, (fun x => drawSamples E opts x.1 x.2) x = .ok b ∧
      (fun (x : Hypergraph × Rng) (b : List Nat × Rng) => b.1.Nodup ∧
        (∀ y ∈ b.1, y < x.1.vertices.length) ∧ b.1.length ≤ opts.sampleSize) x b := by
    intro x hx
    obtain ⟨i, hi⟩ := List.getElem?_of_mem hx
    obtain ⟨h1, h2⟩ := List.getElem?_zip_eq_some.1 hi
    obtain ⟨l, r, g1, g2, g3, g4⟩ := drawSamples_ok E hE.shuf
      (hD.wf _ (List.mem_of_getElem? h1)) (hs i _ _ h1 h2)
    exact ⟨(l, r), g1, g2, g3, g4⟩
  obtain ⟨ss, e1, hF⟩ := mapM_choose hz
  have hlen : ss.length = p := by
    rw [← hF.length_eq, List.length_zip]; omega
  have hnd : ∀ l ∈ ss.map (·.1), l.Nodup ∧ l.length ≤ opts.sampleSize := by
    intro l hl
    obtain ⟨b, hb, rfl⟩ := List.mem_map.1 hl
    obtain ⟨a, -, hab⟩ := forall2_mem_right hF hb
    exact ⟨hab.1, hab.2.2⟩
  obtain ⟨R, e2, hR⟩ := C47_coarsen_from E hE opts hp hD (S := ss.map (·.1)) (by simpa using hlen) hnd (by
    intro t H l hH hl
    rw [List.getElem?_map] at hl
    obtain ⟨b, hb, rfl⟩ := Option.map_eq_some_iff.1 hl
    have htp : t < p := by
      have := (List.getElem?_eq_some_iff.1 hb).1; omega
    have hzt : (Hs.zip rngs)[t]? = some (H, rngs[t]'(by omega)) := by
      rw [List.getElem?_zip_eq_some]
      exact ⟨hH, List.getElem?_eq_getElem _⟩
    have hg := (List.forall₂_iff_get.1 hF).2 t (by rw [List.length_zip]; omega) (by omega)
    simp only [List.get_eq_getElem] at hg
    have h1 := (List.getElem?_eq_some_iff.1 hzt).2
    have h2 := (List.getElem?_eq_some_iff.1 hb).2
    rw [h1, h2] at hg
    exact hg.2.1)
  refine ⟨_, R, ss.map (·.2), ?_, by simpa using hlen, hnd, hR, CoarsenedPar_weight hD hR⟩
  unfold coarsenPar
  rw [e1, ok_bind, e2, ok_bind]
  rfl

/-- With `sampling_mode` random a processor that holds no vertices makes the program stop:
`sample_random` aborts there, and with it the whole coarsening. -/
theorem C47_empty_processor (E : CoarseEnv F) {opts : Options} (ho : opts.samplingLp = false)
    {H : Hypergraph} (hH : H.vertices = []) (Hs : List Hypergraph) (r : Rng) (rngs : List Rng) :
    coarsenPar E opts (H :: Hs) (r :: rngs) = .error .abort := by
  unfold coarsenPar
  rw [List.zip_cons_cons, List.mapM_cons]
  have : drawSamples E opts H r = .error .abort := by
    unfold drawSamples
    rw [ho]
    exact C24_empty _ hH _ _
  simp only [this, error_bind]

/-- The environment of the examples. -/
def exampleCoarseEnv : CoarseEnv Nat where
  scores := plainScores
  shuf := fun r l => (l, r)
  accRandom := fun d left size => decide (d * size ≤ left * 10)
  accLp := fun _ _ => true
  order := id
  nthLocal := fun _ l => l
  nthOwner := fun _ l => l.reverse
  dSample := revDelivery _
  dReq := revDelivery _
  dAcc := revDelivery _
  dInfo := revDelivery _
  d1 := revDelivery _
  d2 := revDelivery _
  np := blockPart 2 3

example : CoarseEnvOk exampleCoarseEnv 2 3 :=
  ⟨fun _ _ => .refl _, fun _ => .refl _, fun _ _ => .refl _, fun _ l => l.reverse_perm,
    revDelivery_fair _, revDelivery_fair _, revDelivery_fair _, revDelivery_fair _,
    revDelivery_fair _, revDelivery_fair _, blockPart_valid 2 3 (by decide)⟩

/-- Vertex 1 of processor 0 and vertex 0 of processor 1 are the samples; both processors match a
vertex to vertex 1. -/
example :
    (coarsenFrom exampleCoarseEnv exampleOpts exampleD [[0], [0]]).toOption.map
      (fun R => R.map (fun c => (c.1.samples, c.1.matched))) =
    some [([1], [[(3, 1), (4, 0)]]), ([0], [[]])] := by
  decide +kernel

example :
    (coarsenFrom exampleCoarseEnv exampleOpts exampleD [[0], [0]]).toOption.map
      (fun R => R.map (fun c => c.2.vertices.map (fun v => (v.id, v.weight, v.nets)))) =
    some [[(1, 10, [2])], [(0, 1, [2])]] := by
  decide +kernel

example :
    (coarsenFrom exampleCoarseEnv exampleOpts exampleD [[0], [0]]).toOption.map
      (fun R => R.map (fun c => c.2.nets.map (fun n => (n.id, n.vertices, n.cost)))) =
    some [[(2, [1], 1)], [(2, [0], 1)]] := by
  decide +kernel

end PMondriaan
