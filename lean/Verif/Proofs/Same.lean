import Verif.Proofs.WF
import Verif.Spec.Hypergraph

/-
Hypergraphs that differ only in parts and in the order of pins.
-/

namespace PMondriaan.Spec.SameUpToParts

open PMondriaan Spec

variable {A B C : Hypergraph}

theorem trans (h1 : SameUpToParts A B) (h2 : SameUpToParts B C) : SameUpToParts A C where
  globalSize := h2.globalSize.trans h1.globalSize
  globalNumberNets := h2.globalNumberNets.trans h1.globalNumberNets
  nrNz := h2.nrNz.trans h1.nrNz
  dups := h2.dups.trans h1.dups
  vmap := h2.vmap.trans h1.vmap
  nmap := h2.nmap.trans h1.nmap
  vertices := h2.vertices.trans h1.vertices
  nets := by
    have h2 := h2.nets
    have h1 := h1.nets
    generalize A.nets = a at *
    generalize B.nets = b at *
    generalize C.nets = c at *
    induction h1 generalizing c with
    | nil => cases h2; exact List.Forall₂.nil
    | cons hx _ ih =>
      cases h2 with
      | cons hy h =>
        refine List.Forall₂.cons ?_ (ih _ h)
        exact ⟨hy.1.trans hx.1, hy.2.1.trans hx.2.1, hy.2.2.1.trans hx.2.2.1,
          hy.2.2.2.trans hx.2.2.2⟩

theorem symm (h : SameUpToParts A B) : SameUpToParts B A where
  globalSize := h.globalSize.symm
  globalNumberNets := h.globalNumberNets.symm
  nrNz := h.nrNz.symm
  dups := h.dups.symm
  vmap := h.vmap.symm
  nmap := h.nmap.symm
  vertices := h.vertices.symm
  nets := by
    refine (h.nets.imp ?_).flip
    intro a b h
    exact ⟨h.1.symm, h.2.1.symm, h.2.2.1.symm, h.2.2.2.symm⟩

theorem rfl' (A : Hypergraph) : SameUpToParts A A where
  globalSize := rfl
  globalNumberNets := rfl
  nrNz := rfl
  dups := rfl
  vmap := rfl
  nmap := rfl
  vertices := rfl
  nets := List.forall₂_same.2 (fun _ _ => ⟨rfl, rfl, rfl, List.Perm.refl _⟩)

theorem vlen (h : SameUpToParts A B) : B.vertices.length = A.vertices.length := by
  have := congrArg List.length h.vertices
  simpa using this

theorem weights (h : SameUpToParts A B) : B.vertices.map (·.weight) = A.vertices.map (·.weight) := by
  have := congrArg (List.map (fun x : Nat × List Nat × Int => x.2.2)) h.vertices
  rwa [List.map_map, List.map_map] at this

theorem vids (h : SameUpToParts A B) : B.vertices.map (·.id) = A.vertices.map (·.id) := by
  have := congrArg (List.map (fun x : Nat × List Nat × Int => x.1)) h.vertices
  rwa [List.map_map, List.map_map] at this

theorem weightsNonneg (h : SameUpToParts A B) (hw : WeightsNonneg A) : WeightsNonneg B := by
  intro v hv
  have : v.weight ∈ B.vertices.map (·.weight) := List.mem_map.2 ⟨v, hv, rfl⟩
  rw [h.weights] at this
  obtain ⟨u, hu, he⟩ := List.mem_map.1 this
  have he : u.weight = v.weight := he
  rw [← he]; exact hw u hu

theorem costsNonneg (h : SameUpToParts A B) (hc : CostsNonneg A) : CostsNonneg B := by
  have h := h.nets
  unfold CostsNonneg at *
  generalize A.nets = a at *
  generalize B.nets = b at *
  induction h with
  | nil => simp
  | cons hx _ ih =>
    intro n hn
    rcases List.mem_cons.1 hn with rfl | hn
    · rw [hx.2.1]; exact hc _ (by simp)
    · exact ih (fun m hm => hc m (by simp [hm])) n hn

/-- The vertices agree when the parts agree. -/
theorem vertices_eq (h : SameUpToParts A B)
    (hp : B.vertices.map (·.part) = A.vertices.map (·.part)) : B.vertices = A.vertices := by
  have h := h.vertices
  generalize A.vertices = a at *
  generalize B.vertices = b at *
  induction a generalizing b with
  | nil => simpa using h
  | cons x a ih =>
    cases b with
    | nil => simp at h
    | cons y b =>
      simp only [List.map_cons, List.cons.injEq, Prod.mk.injEq] at h hp
      rw [ih b hp.2 h.2]
      congr 1
      cases x; cases y
      simp_all

theorem cutNet_eq (h : SameUpToParts A B) (P : Nat → Int) : cutNet P B.nets = cutNet P A.nets := by
  have h := h.nets
  unfold cutNet
  generalize A.nets = a at *
  generalize B.nets = b at *
  induction h with
  | nil => rfl
  | @cons x y _ _ hx _ ih =>
    simp only [List.map_cons, List.sum_cons, ih]
    congr 1
    have : IsCut P y ↔ IsCut P x := by
      unfold IsCut
      constructor
      · rintro ⟨u, hu, v, hv, hne⟩
        exact ⟨u, hx.2.2.2.mem_iff.1 hu, v, hx.2.2.2.mem_iff.1 hv, hne⟩
      · rintro ⟨u, hu, v, hv, hne⟩
        exact ⟨u, hx.2.2.2.mem_iff.2 hu, v, hx.2.2.2.mem_iff.2 hv, hne⟩
    simp only [this, hx.2.1]

theorem lambda_eq (h : SameUpToParts A B) (P : Nat → Int) :
    lambdaMinusOne P B.nets = lambdaMinusOne P A.nets := by
  have h := h.nets
  unfold lambdaMinusOne
  generalize A.nets = a at *
  generalize B.nets = b at *
  induction h with
  | nil => rfl
  | cons hx _ ih =>
    simp only [List.map_cons, List.sum_cons, ih]
    congr 1
    unfold connectivity
    rw [((hx.2.2.2.map P).dedup).length_eq, hx.2.1]

theorem partOf_eq (hv : B.vertices = A.vertices) : partOf B = partOf A := by
  funext u; unfold partOf; rw [hv]

theorem cutValue_eq (h : SameUpToParts A B) (hv : B.vertices = A.vertices) (m : Metric) :
    cutValue m B = cutValue m A := by
  unfold cutValue
  rw [partOf_eq hv]
  cases m with
  | cutNet => exact h.cutNet_eq _
  | lambdaMinusOne => exact h.lambda_eq _

theorem partWeight_eq (hv : B.vertices = A.vertices) (k : Int) : partWeight B k = partWeight A k := by
  unfold partWeight; rw [hv]

end PMondriaan.Spec.SameUpToParts
