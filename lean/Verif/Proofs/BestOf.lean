import Verif.Proofs.Replicate
import Verif.Proofs.CutNets
import Verif.Proofs.Multilevel

/-
Proofs about the choice of the best bisection.
-/

namespace PMondriaan

open Spec

/-! ### A labelled copy and the labelled original -/

section

variable {N : Nat} {Hs : List Hypergraph} {H G R : Hypergraph}

theorem replica_ids (hG : Replica Hs H G) (hs : SameContent G R) :
    (R.vertices.map (fun v => (v.id, v.weight))).Perm
      ((Hs.flatMap (·.vertices)).map (fun v => (v.id, v.weight))) := by
  rw [hs.vertices]
  have := hG.vertices.map (fun x => (x.1, x.2.1))
  rw [List.map_map, List.map_map] at this
  exact this

theorem replica_isVertex (hG : Replica Hs H G) (hs : SameContent G R) {v : Vertex}
    (hv : v ∈ Hs.flatMap (·.vertices)) : IsVertex R v.id := by
  have := (replica_ids hG hs).symm.subset (List.mem_map.2 ⟨v, hv, rfl⟩)
  obtain ⟨x, hx, he⟩ := List.mem_map.1 this
  exact List.mem_map.2 ⟨x, hx, congrArg Prod.fst he⟩

theorem replica_weight (hG : Replica Hs H G) (w : WF R) (hs : SameContent G R) (q : Int) :
    partWeight (unionH N (Hs.map (fun H => relabel H (partOf R)))) q = partWeight R q := by
  rw [unionH_relabel]
  have h1 : ∀ l : List Vertex, ((l.map (fun v => { v with part := partOf R v.id })).filter
      (fun v => v.part = q)).map (·.weight) =
      ((l.map (fun v => (v.id, v.weight))).filter (fun x => partOf R x.1 = q)).map (·.2) := by
    intro l
    rw [List.filter_map, List.filter_map, List.map_map, List.map_map]
    rfl
  have h2 : R.vertices.filter (fun v => v.part = q) =
      (R.vertices.map (fun v => { v with part := partOf R v.id })).filter (fun v => v.part = q) := by
    congr 1
    conv_lhs => rw [← List.map_id R.vertices]
    apply List.map_congr_left
    intro v hv
    rw [w.partOf_eq hv]
    rfl
  unfold partWeight
  rw [h2, h1]
  have h3 : (relabel (unionH N Hs) (partOf R)).vertices =
      (Hs.flatMap (·.vertices)).map (fun v => { v with part := partOf R v.id }) := rfl
  rw [h3, h1]
  exact (((replica_ids hG hs).symm.filter _).map _).sum_eq

theorem replica_cut (hD : Distributed N Hs) (hG : Replica Hs H G)
    (hc : ∀ n ∈ G.nets, n.cost = unionCost Hs n.id) (hs : SameContent G R) (m : Metric) :
    cutValue m (unionH N (Hs.map (fun H => relabel H (partOf R)))) = cutValue m R := by
  rw [cutValue_content hG.wf m hs, unionH_relabel, cutValue_labels, cutValue_labels]
  set F : Nat → Int := fun e => unionCost Hs e * (labelValue m ((unionPins Hs e).map (partOf R)) : Int) with hF
  have e1 : ∀ n ∈ G.nets, n.cost * (labelValue m (n.vertices.map (partOf { G with vertices := R.vertices })) : Int) =
      F n.id := by
    intro n hn
    have hP : partOf { G with vertices := R.vertices } = partOf R := rfl
    rw [hP, hF]
    simp only
    rw [hc n hn, labelValue_congr m (l' := (unionPins Hs n.id).map (partOf R)) (fun x =>
      ((hG.pins n hn).map (partOf R)).mem_iff)]
  show (((List.range N).map (unionNet Hs)).map _).sum = (G.nets.map _).sum
  rw [List.map_congr_left e1, List.map_map]
  have e2 : ∀ e ∈ List.range N, ((fun n : Net => n.cost * (labelValue m
      (n.vertices.map (partOf (relabel (unionH N Hs) (partOf R)))) : Int)) ∘ unionNet Hs) e = F e := by
    intro e he
    simp only [Function.comp_apply, unionNet, hF]
    congr 3
    apply List.map_congr_left
    intro u hu
    apply relabel_partOf (unionH_wf hD)
    obtain ⟨v, hv, rfl, -⟩ := (mem_unionPins_vertex hD).1 hu
    exact List.mem_map.2 ⟨v, hv, rfl⟩
  rw [List.map_congr_left e2]
  have hids : (G.nets.map (·.id)).Perm ((List.range N).filter (fun e => e ∈ G.nets.map (·.id))) := by
    rw [List.perm_ext_iff_of_nodup hG.wf.nids (List.nodup_range.filter _)]
    intro e
    rw [List.mem_filter, List.mem_range, decide_eq_true_eq]
    constructor
    · intro he
      refine ⟨?_, he⟩
      obtain ⟨H', hH', hn⟩ := (hG.nets e).1 he
      obtain ⟨n, hm, rfl⟩ := List.mem_map.1 hn
      exact hD.ids H' hH' n hm
    · exact fun h => h.2
  have e3 : (G.nets.map (fun n => F n.id)).sum = ((G.nets.map (·.id)).map F).sum := by
    rw [List.map_map]; rfl
  rw [e3, (hids.map F).sum_eq]
  apply sum_filter_zero
  intro e _ he
  have he : ¬ e ∈ G.nets.map (·.id) := by simpa using he
  have : unionPins Hs e = [] := by
    rw [List.eq_nil_iff_forall_not_mem]
    intro u hu
    obtain ⟨H', hH', n, hn, hid, -⟩ := mem_unionPins.1 hu
    exact he ((hG.nets e).2 ⟨H', hH', List.mem_map.2 ⟨n, hn, hid⟩⟩)
  simp only [hF, this, List.map_nil]
  rw [labelValue_small m (by simp)]
  simp

/-- The originals, labelled as the copy. -/
theorem labelledAs (hD : Distributed N Hs) (hG : Replica Hs H G)
    (hc : ∀ n ∈ G.nets, n.cost = unionCost Hs n.id) (w : WF R) (hb : Bipartitioned R) (hs : SameContent G R) :
    LabelledAs N Hs R (Hs.map (fun H => relabel H (partOf R))) := by
  have hlab : ∀ K ∈ Hs.map (fun H => relabel H (partOf R)), ∀ v ∈ K.vertices,
      v.part = partOf R v.id ∧ IsVertex R v.id := by
    intro K hK v hv
    obtain ⟨H', hH', rfl⟩ := List.mem_map.1 hK
    obtain ⟨x, hx, rfl⟩ := List.mem_map.1 hv
    exact ⟨rfl, replica_isVertex (v := x) hG hs (List.mem_flatMap.2 ⟨H', hH', hx⟩)⟩
  refine ⟨?_, relabel_distributed hD _, fun K hK v hv => (hlab K hK v hv).1, ?_,
    replica_cut hD hG hc hs, replica_weight hG w hs⟩
  · rw [List.forall₂_map_right_iff]
    exact List.forall₂_same.2 (fun H' _ => relabel_same H' _)
  · intro K hK v hv
    obtain ⟨h1, h2⟩ := hlab K hK v hv
    obtain ⟨x, hx, he⟩ := List.mem_map.1 h2
    have he : x.id = v.id := he
    rw [h1, ← he, w.partOf_eq hx]
    exact hb x hx

end

/-! ### Receiving the labels -/

theorem labelReceive_relabel {H : Hypergraph} (w : WF H) (P : Nat → Int) (m : Nat × Int) :
    labelReceive (relabel H P) m = .ok (relabel H (setAll P [m])) := by
  unfold labelReceive
  by_cases hm : IsVertex H m.1
  · have : (relabel H P).isLocal m.1 = true := (isLocal_iff w m.1).2 hm
    rw [if_pos this, setPartOf_relabel w P hm]
  · have : ¬ (relabel H P).isLocal m.1 = true := fun h => hm ((isLocal_iff w m.1).1 h)
    rw [if_neg this]
    show Except.ok _ = _
    congr 1
    apply relabel_congr
    intro v hv
    rw [setAll_not_mem]
    intro h
    rw [List.map_cons, List.map_nil, List.mem_singleton] at h
    exact hm (h ▸ List.mem_map.2 ⟨v, hv, rfl⟩)

theorem labelReceives {H : Hypergraph} (w : WF H) : ∀ (ms : List (Nat × Int)) (P : Nat → Int),
    ms.foldlM labelReceive (relabel H P) = .ok (relabel H (setAll P ms)) := by
  intro ms
  induction ms with
  | nil => intro P; rfl
  | cons m ms ih =>
    intro P
    rw [List.foldlM_cons, labelReceive_relabel w, ok_bind, ih, ← setAll_append]
    rfl

theorem inbox_toAll {α M : Type} {d : Delivery M} (hd : Fair d) (msg : α → M) {p b t : Nat} (hb : b < p)
    (ht : t < p) (l : List α) :
    (inbox d ((List.range p).map (fun s => if b = s then
      l.flatMap (fun v => (List.range p).map (fun r => (r, msg v))) else [])) t).Perm (l.map msg) := by
  refine (inbox_perm hd _ t).trans (List.Perm.of_eq ?_)
  have key : ∀ L : List Nat, L.Nodup → ((L.map (fun s => if b = s then
      l.flatMap (fun v => (List.range p).map (fun r => (r, msg v))) else [])).flatten.filter
        (fun x => x.1 = t)).map (·.2) = if b ∈ L then l.map msg else [] := by
    intro L hL
    induction L with
    | nil => rfl
    | cons s L ih =>
      obtain ⟨h1, h2⟩ := List.nodup_cons.1 hL
      rw [List.map_cons, List.flatten_cons, List.filter_append, List.map_append, ih h2]
      by_cases hbs : b = s
      · subst hbs
        rw [if_pos rfl, filter_sends List.nodup_range, if_pos (List.mem_range.2 ht), if_neg h1,
          if_pos (by simp), List.append_nil]
      · rw [if_neg hbs]
        have : b ∈ s :: L ↔ b ∈ L := by simp [hbs]
        simp only [this]
        rfl
  rw [key _ List.nodup_range, if_pos (List.mem_range.2 hb)]

/-- The keys that are compared. -/
def bestKey (max0 max1 : Int) (g : Hypergraph × Option Int) : Int :=
  (cutSize max0 max1 g.1 g.2).getD longMax

theorem chooseBest_fun {N p : Nat} {h : Nat → Hypergraph} {g : Nat → Hypergraph × Option Int}
    (hp : 0 < p) (hD : Distributed N ((List.range p).map h))
    {dL : Delivery (Nat × Int)} {dC : Delivery (Option Int)} (hL : Fair dL) (hC : Fair dC)
    (max0 max1 : Int) (hg : ∀ t, t < p → BisectedCopy ((List.range p).map h) (h t) (g t)) :
    ∃ b, b < p ∧ chooseBest dL dC max0 max1 ((List.range p).map g) ((List.range p).map h) =
      .ok ((List.range p).map (fun t => (relabel (h t) (partOf (g b).1), (g b).2))) ∧
      ∀ t, t < p → bestKey max0 max1 (g b) ≤ bestKey max0 max1 (g t) := by
  set keys := (List.range p).map (fun t => bestKey max0 max1 (g t)) with hkeys
  have hne : keys ≠ [] := by
    intro h0
    have := congrArg List.length h0
    rw [hkeys] at this
    simp at this
    omega
  obtain ⟨b, x, h1, h2, h3, -⟩ := ownerMinLoop_ok hne
  have hbp : b < p := by
    have := (List.getElem?_eq_some_iff.1 h2).1
    rw [hkeys] at this
    simpa using this
  refine ⟨b, hbp, ?_, ?_⟩
  swap
  · intro t ht
    rw [hkeys, rangeMap_get hbp] at h2
    cases h2
    exact h3 _ (List.mem_map.2 ⟨t, List.mem_range.2 ht, rfl⟩)
  have hlen : ((List.range p).map h).length = p := by simp
  have hsz : ((List.range p).map g).map (fun g => cutSize max0 max1 g.1 g.2) =
      (List.range p).map (fun t => cutSize max0 max1 (g t).1 (g t).2) := by rw [List.map_map]; rfl
  have hk2 : ((List.range p).map (fun t => cutSize max0 max1 (g t).1 (g t).2)).map (fun c => c.getD longMax) =
      keys := by rw [List.map_map]; rfl
  have hom : ownerMin keys = .ok ((List.range p).map (fun _ => b)) := by
    have : ownerMin keys = .ok (keys.map (fun _ => b)) := mapM_ok keys (fun _ _ => h1)
    rw [this, hkeys, List.map_map]
    rfl
  have hzip : (((List.range p).map g).zip ((List.range p).map (fun _ => b))).zipIdx =
      (List.range p).map (fun t => ((g t, b), t)) := by
    rw [List.zip_map']
    exact zipIdx_rangeMap ..
  have hzip2 : (((List.range p).map h).zip ((List.range p).map (fun t => cutSize max0 max1 (g t).1 (g t).2))).zipIdx =
      (List.range p).map (fun t => ((h t, cutSize max0 max1 (g t).1 (g t).2), t)) := by
    rw [List.zip_map']
    exact zipIdx_rangeMap ..
  unfold chooseBest
  simp only [hlen, hsz, hk2, hom, ok_bind, hzip, hzip2, List.map_map]
  apply mapM_rangeMap
  intro t ht
  -- the labels
  set louts := (List.range p).map ((fun x : ((Hypergraph × Option Int) × Nat) × Nat =>
    if x.1.2 = x.2 then labelSends p x.1.1.1 else []) ∘ fun t => ((g t, b), t)) with hlo
  set couts := (List.range p).map ((fun x : ((Hypergraph × Option Int) × Nat) × Nat =>
    if x.1.2 = x.2 then (List.range p).map (fun t => (t, x.1.1.2)) else []) ∘ fun t => ((g t, b), t)) with hco
  have e1 : louts = (List.range p).map (fun s => if b = s then
      (g b).1.vertices.flatMap (fun v => (List.range p).map (fun r => (r, (v.id, v.part)))) else []) := by
    rw [hlo]
    apply List.map_congr_left
    intro s _
    simp only [Function.comp_apply]
    by_cases hbs : b = s
    · rw [if_pos hbs, if_pos hbs, hbs]; rfl
    · rw [if_neg hbs, if_neg hbs]
  have e2 : couts = (List.range p).map (fun s => if b = s then
      [(g b).2].flatMap (fun v => (List.range p).map (fun r => (r, v))) else []) := by
    rw [hco]
    apply List.map_congr_left
    intro s _
    simp only [Function.comp_apply]
    by_cases hbs : b = s
    · rw [if_pos hbs, if_pos hbs, hbs]; simp
    · rw [if_neg hbs, if_neg hbs]
  have p1 : (inbox dL louts t).Perm ((g b).1.vertices.map (fun v => (v.id, v.part))) := by
    rw [e1]; exact inbox_toAll hL (fun v : Vertex => (v.id, v.part)) hbp ht _
  have p2 : (inbox dC couts t).Perm [(g b).2] := by
    have := inbox_toAll hC (fun v : Option Int => v) hbp ht [(g b).2]
    rw [e2]
    simpa using this
  have hw : WF (h t) := hD.wf _ (List.mem_map.2 ⟨t, List.mem_range.2 ht, rfl⟩)
  have hin : inbox dC couts t = [(g b).2] := List.perm_singleton.1 p2
  have hB := hg b hbp
  obtain ⟨G, hG, hsc⟩ := hB.copy
  have hset : relabel (h t) (setAll (partOf (h t)) (inbox dL louts t)) = relabel (h t) (partOf (g b).1) := by
    apply relabel_congr
    intro v hv
    have hv' : IsVertex (g b).1 v.id := replica_isVertex hG hsc
      (List.mem_flatMap.2 ⟨h t, List.mem_map.2 ⟨t, List.mem_range.2 ht, rfl⟩, hv⟩)
    obtain ⟨y, hy, he⟩ := List.mem_map.1 hv'
    have he : y.id = v.id := he
    refine setAll_mem _ _ ?_ (p1.symm.subset (List.mem_map.2 ⟨y, hy, ?_⟩))
    · have := p1.map (·.1)
      rw [List.map_map] at this
      exact this.nodup_iff.2 hB.wf.vids
    · rw [← he, hB.wf.partOf_eq hy]
  have hfold := labelReceives hw (inbox dL louts t) (partOf (h t))
  rw [relabel_self hw, hset] at hfold
  simp only [hfold, ok_bind, hin]
  rfl

end PMondriaan
