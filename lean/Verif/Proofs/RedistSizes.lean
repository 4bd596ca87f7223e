import Verif.Model.Redistribute
import Verif.Spec.Sizes
import Verif.Basic

/-
The redistribution does not change the sizes stored in the hypergraphs.
-/

namespace PMondriaan

open Spec

theorem foldlM_image {α β γ : Type} {f : β → α → Res β} (g : β → γ) (h : ∀ b a b', f b a = .ok b' → g b' = g b) :
    ∀ (l : List α) (b b' : β), l.foldlM f b = .ok b' → g b' = g b := by
  intro l
  induction l with
  | nil => intro b b' hb; injection hb with hb; rw [hb]
  | cons a l ih =>
    intro b b' hb
    rw [List.foldlM_cons] at hb
    obtain ⟨c, h1, h2⟩ := bind_eq_ok.1 hb
    exact (ih c b' h2).trans (h b a c h1)

theorem mapM_image {α β γ : Type} {f : α → Res β} (g : β → γ) (g' : α → γ) : ∀ (l : List α) (l' : List β),
    (∀ a ∈ l, ∀ b, f a = .ok b → g b = g' a) → l.mapM f = .ok l' → l'.map g = l.map g' := by
  intro l
  induction l with
  | nil => intro l' _ h; injection h with h; subst h; rfl
  | cons a l ih =>
    intro l' hf h
    rw [List.mapM_cons] at h
    obtain ⟨b, h1, h⟩ := bind_eq_ok.1 h
    obtain ⟨bs, h2, h⟩ := bind_eq_ok.1 h
    injection h with h
    subst h
    rw [List.map_cons, List.map_cons, hf a (by simp) b h1, ih bs (fun a ha => hf a (by simp [ha])) h2]

theorem sendUntil_sizes {p t : Nat} {label max : Int} : ∀ (f : Nat) (x y : SendState),
    sendUntil p t label max f x = .ok y → sizes y.H = sizes x.H := by
  intro f
  induction f with
  | zero =>
    intro x y h
    unfold sendUntil at h
    split at h
    · cases h
    · injection h with h; rw [h]
  | succ f ih =>
    intro x y h
    unfold sendUntil at h
    split at h
    · obtain ⟨i, -, h⟩ := bind_eq_ok.1 h
      obtain ⟨v, -, h⟩ := bind_eq_ok.1 h
      obtain ⟨m, -, h⟩ := bind_eq_ok.1 h
      exact (ih _ _ h).trans rfl
    · injection h with h; rw [h]

theorem sendTo_sizes {ord : List Nat → List Nat} {p : Nat} {label : Int} {x y : SurplusState}
    (h : sendTo ord p label x = .ok y) : sizes y.H = sizes x.H := by
  unfold sendTo at h
  obtain ⟨z, h1, h⟩ := bind_eq_ok.1 h
  obtain ⟨cs, -, h⟩ := bind_eq_ok.1 h
  injection h with h
  rw [← h]
  exact sendUntil_sizes _ _ _ h1

theorem surplusLoop_sizes {ord : List Nat → List Nat} {p s : Nat} {label : Int} {surplus : List Int} :
    ∀ (f : Nat) (x : SurplusState) (y : SurplusState × Int),
    surplusLoop ord p s label surplus f x = .ok y → sizes y.1.H = sizes x.H := by
  intro f
  induction f with
  | zero => intro x y h; cases h
  | succ f ih =>
    intro x y h
    unfold surplusLoop at h
    by_cases h0 : x.own < 0
    · rw [if_pos h0] at h
      dsimp only at h
      generalize (if x.t ≥ p then 0 else x.t) = t at h
      by_cases hts : t = s
      · rw [if_pos hts] at h
        injection h with h; rw [← h]
      · rw [if_neg hts] at h
        obtain ⟨st, -, h⟩ := bind_eq_ok.1 h
        obtain ⟨z, h1, h⟩ := bind_eq_ok.1 h
        refine (ih _ _ h).trans ?_
        unfold runIf at h1
        split at h1
        · exact (sendTo_sizes h1 : sizes z.H = _)
        · injection h1 with h1; rw [← h1]
    · rw [if_neg h0] at h
      injection h with h; rw [← h]

theorem reduceSurplus_sizes {ord : List Nat → List Nat} {p s : Nat} {label : Int} {surplus : List Int} {o : Outgoing}
    {y : Outgoing × Int} (h : reduceSurplus ord p s label surplus o = .ok y) : sizes y.1.H = sizes o.H := by
  unfold reduceSurplus at h
  obtain ⟨own, -, h⟩ := bind_eq_ok.1 h
  split at h
  · injection h with h; rw [← h]
  · obtain ⟨z, h1, h⟩ := bind_eq_ok.1 h
    injection h with h
    rw [← h]
    exact surplusLoop_sizes _ _ _ h1

theorem redistSend_sizes {ord : List Nat → List Nat} {p s plow : Nat} {low high : Int} {s0 s1 : List Int}
    {H : Hypergraph} {y : Outgoing × List Vertex} (h : redistSend ord p s plow low high s0 s1 H = .ok y) :
    sizes y.1.H = sizes H := by
  unfold redistSend at h
  obtain ⟨z, h1, h⟩ := bind_eq_ok.1 h
  have hz := reduceSurplus_sizes h1
  obtain ⟨z, r⟩ := z
  dsimp only at h hz
  by_cases hp : plow > 0
  · rw [if_pos hp] at h
    obtain ⟨w, h2, h⟩ := bind_eq_ok.1 h
    injection h with h
    rw [← h]
    exact (reduceSurplus_sizes h2).trans hz
  · rw [if_neg hp] at h
    obtain ⟨w, h2, h⟩ := bind_eq_ok.1 h
    injection h with h
    rw [← h]
    exact hz

theorem redistReceive_sizes {H H' : Hypergraph} {v : Vertex} (h : redistReceive H v = .ok H') :
    sizes H' = sizes H := by
  unfold redistReceive Hypergraph.addToNets at h
  refine (foldlM_image sizes ?_ _ _ _ h).trans rfl
  intro K e K' hK
  obtain ⟨j, -, hK⟩ := bind_eq_ok.1 hK
  obtain ⟨n, -, hK⟩ := bind_eq_ok.1 hK
  injection hK with hK
  rw [← hK]
  rfl

theorem addNets_sizes (cs : List (Nat × Int)) : ∀ H : Hypergraph,
    sizes (cs.foldl (fun H m => H.addNet m.1 [] m.2) H) = sizes H := by
  induction cs with
  | nil => intro H; rfl
  | cons c cs ih =>
    intro H
    rw [List.foldl_cons, ih]
    unfold Hypergraph.addNet
    split <;> rfl

theorem redistFinish_sizes {plow : Nat} {H : Hypergraph} {vs0 : List Vertex} {costs : List (Nat × Int)}
    {verts : List Vertex} {y : Hypergraph × Int} (h : redistFinish plow H vs0 costs verts = .ok y) :
    sizes y.1 = sizes H := by
  unfold redistFinish at h
  obtain ⟨z, h1, h⟩ := bind_eq_ok.1 h
  injection h with h
  rw [← h, ← addNets_sizes costs H, ← foldlM_image sizes (fun _ _ _ => redistReceive_sizes) _ _ _ h1]
  dsimp only
  split <;> rfl

theorem zipIdx_image {α γ : Type} (l : List α) (g : α → γ) : l.zipIdx.map (fun x => g x.1) = l.map g := by
  have : l.zipIdx.map (fun x => g x.1) = (l.zipIdx.map Prod.fst).map g := by rw [List.map_map]; rfl
  rw [this, List.zipIdx_map_fst]

theorem redistribute_sizes {ord : List Nat → List Nat} {dv : Delivery Vertex} {dc : Delivery (Nat × Int)}
    {plow : Nat} {low high : Int} {args : List RedistArgs} {res : List (Hypergraph × Int)}
    (h : redistribute ord dv dc plow low high args = .ok res) :
    (res.map (·.1)).map sizes = (args.map (·.H)).map sizes := by
  unfold redistribute at h
  dsimp only at h
  obtain ⟨outs, h1, h2⟩ := bind_eq_ok.1 h
  have e1 := mapM_image (fun y : Outgoing × List Vertex => sizes y.1.H) (fun x : RedistArgs × Nat => sizes x.1.H) _ _
    (fun a _ b hb => redistSend_sizes hb) h1
  have e2 := mapM_image (fun y : Hypergraph × Int => sizes y.1) (fun x : (Outgoing × List Vertex) × Nat => sizes x.1.1.H)
    _ _ (fun a _ b hb => redistFinish_sizes hb) h2
  rw [List.map_map, List.map_map]
  refine e2.trans ?_
  rw [zipIdx_image outs (fun y => sizes y.1.H), e1, zipIdx_image args (fun a => sizes a.H)]
  rfl

end PMondriaan
