import Verif.Proofs.Container
import Verif.Proofs.Counts
import Verif.Spec.Container
import Verif.Proofs.Bridge

/-
Properties C05 – C09 and C11 (sequential part): container, weights, cutsize, counts.
-/

namespace PMondriaan

open Spec

/-! ### C05 -/

theorem localId_same {H H' : Hypergraph} (hv : H'.vmap = H.vmap)
    (hl : H'.vertices.length = H.vertices.length) (u : Nat) : H'.localId u = H.localId u := by
  unfold Hypergraph.localId; rw [hv, hl]

/-- What the vertex loop of `remove_net_by_index` cannot change. -/
theorem removeLoop_keeps {e : Nat} (l : List Nat) : ∀ (H H' : Hypergraph),
    l.foldlM (fun (H : Hypergraph) u => do
      let i ← H.localId u
      let v ← vget H.vertices i
      pure (H.setVertex i (v.removeNet e))) H = .ok H' →
    H'.vertices.map (·.id) = H.vertices.map (·.id) ∧ H'.vmap = H.vmap ∧ H'.nmap = H.nmap ∧
      H'.nets = H.nets := by
  induction l with
  | nil => intro H H' h; cases h; exact ⟨rfl, rfl, rfl, rfl⟩
  | cons u l ih =>
    intro H H' h
    rw [List.foldlM_cons, bind_eq_ok] at h
    obtain ⟨H1, h1, h2⟩ := h
    rw [bind_eq_ok] at h1
    obtain ⟨i, -, h1⟩ := h1
    rw [bind_eq_ok] at h1
    obtain ⟨v, hv, h1⟩ := h1
    rw [vget_eq_ok] at hv
    cases h1
    obtain ⟨a, b, c, d⟩ := ih _ _ h2
    refine ⟨?_, b, c, d⟩
    rw [a]
    simp only [Hypergraph.setVertex, List.map_set]
    apply List.ext_getElem?
    intro k
    rw [List.getElem?_set]
    split
    · rename_i hk
      subst hk
      have hlt : i < H.vertices.length := by rw [List.getElem?_eq_some_iff] at hv; exact hv.1
      simp only [List.length_map, hlt, if_true, List.getElem?_map, hv, Option.map_some,
        Vertex.removeNet]
    · rfl

theorem removeNetByIndex_maps {H H' : Hypergraph} (hm : MapsExact H) {j : Nat}
    (h : H.removeNetByIndex j = .ok H') : MapsExact H' := by
  unfold Hypergraph.removeNetByIndex at h
  split at h
  · cases h
  · rename_i n hn
    rw [bind_eq_ok] at h
    obtain ⟨H1, h1, h2⟩ := h
    obtain ⟨a, b, c, d⟩ := removeLoop_keeps _ _ _ h1
    cases h2
    constructor
    · intro u i; simp only; rw [a, b]; exact hm.1 u i
    · intro e i
      simp only
      rw [c, d, swapRemoveAt_map]
      apply swapRemove_map hm.2 (by simp [hn])
      rw [← swapRemoveAt_map, List.getElem?_map]
      cases (swapRemoveAt H.nets j)[j]? <;> rfl

theorem addToNets_keeps {id : Nat} (l : List Nat) : ∀ (H H' : Hypergraph),
    l.foldlM (fun (H : Hypergraph) e => do
      let j ← H.localIdNet e
      let n ← vget H.nets j
      pure (H.setNet j { n with vertices := n.vertices ++ [id] })) H = .ok H' →
    H'.nets.map (·.id) = H.nets.map (·.id) ∧ H'.vmap = H.vmap ∧ H'.nmap = H.nmap ∧
      H'.vertices = H.vertices := by
  induction l with
  | nil => intro H H' h; cases h; exact ⟨rfl, rfl, rfl, rfl⟩
  | cons u l ih =>
    intro H H' h
    rw [List.foldlM_cons, bind_eq_ok] at h
    obtain ⟨H1, h1, h2⟩ := h
    rw [bind_eq_ok] at h1
    obtain ⟨i, -, h1⟩ := h1
    rw [bind_eq_ok] at h1
    obtain ⟨v, hv, h1⟩ := h1
    rw [vget_eq_ok] at hv
    cases h1
    obtain ⟨a, b, c, d⟩ := ih _ _ h2
    refine ⟨?_, b, c, d⟩
    rw [a]
    simp only [Hypergraph.setNet, List.map_set]
    apply List.ext_getElem?
    intro k
    rw [List.getElem?_set]
    split
    · rename_i hk
      subst hk
      have hlt : i < H.nets.length := by rw [List.getElem?_eq_some_iff] at hv; exact hv.1
      simp only [List.length_map, hlt, if_true, List.getElem?_map, hv, Option.map_some]
    · rfl

theorem mapsExact_nodup {ids : List Nat} {m : Nat → Option Nat}
    (hm : ∀ u i, m u = some i ↔ ids[i]? = some u) : ids.Nodup := by
  rw [List.nodup_iff_injective_getElem]
  intro a b hab
  have ha := (hm ids[a] a).2 (List.getElem?_eq_getElem a.2)
  have hb := (hm ids[b] b).2 (List.getElem?_eq_getElem b.2)
  have hab' : ids[a] = ids[b] := hab
  rw [hab', hb] at ha
  exact Fin.ext (Option.some.inj ha).symm

/-- C05, one operation. -/
theorem C05_step {H H' : Hypergraph} {o : COp} (hm : MapsExact H) (hl : o.legal H)
    (h : runCOp H o = .ok H') : MapsExact H' := by
  cases o with
  | addVertex id nets wt =>
    cases h
    refine ⟨?_, hm.2⟩
    intro u i
    simp only [Hypergraph.addVertex, List.map_append, List.map_cons, List.map_nil, Vertex.mk']
    have := push_map hm.1 hl u i
    simpa using this
  | addNet id vs c =>
    cases h
    unfold Hypergraph.addNet
    split
    · exact hm
    · rename_i hnone
      refine ⟨hm.1, ?_⟩
      intro e j
      simp only [List.map_append, List.map_cons, List.map_nil, Net.mk']
      have hni : id ∉ H.nets.map (·.id) := by
        intro hmem
        obtain ⟨j, hj⟩ := List.mem_iff_getElem?.1 hmem
        rw [(hm.2 id j).2 hj] at hnone
        exact hnone rfl
      have := push_map hm.2 hni e j
      simpa using this
  | addToNets i =>
    simp only [runCOp] at h
    rw [bind_eq_ok] at h
    obtain ⟨v, -, h⟩ := h
    obtain ⟨a, b, c, d⟩ := addToNets_keeps _ _ _ h
    exact ⟨by intro u i; rw [b, d]; exact hm.1 u i, by intro u i; rw [a, c]; exact hm.2 u i⟩
  | removeNet id =>
    simp only [runCOp, Hypergraph.removeNet] at h
    rw [bind_eq_ok] at h
    obtain ⟨j, -, h⟩ := h
    exact removeNetByIndex_maps hm h
  | removeNetByIndex j => exact removeNetByIndex_maps hm h
  | removeFreeVertex id =>
    simp only [runCOp, Hypergraph.removeFreeVertex] at h
    obtain ⟨i, hi⟩ := List.mem_iff_getElem?.1 (show id ∈ H.vertices.map (·.id) from hl)
    have hvi := (hm.1 id i).2 hi
    rw [hvi] at h
    simp only [Option.getD_some] at h
    split at h
    · cases h
    · rename_i v hv
      cases h
      have hvid : v.id = id := by
        rw [List.getElem?_map, hv] at hi; exact Option.some.inj hi
      refine ⟨?_, hm.2⟩
      intro u k
      simp only
      rw [swapRemoveAt_map]
      apply swapRemove_map hm.1 hi
      rw [← swapRemoveAt_map, List.getElem?_map]
      cases (swapRemoveAt H.vertices i)[i]? <;> simp [hvid]
  | removeDuplicateNet id dup =>
    simp only [runCOp, Hypergraph.removeDuplicateNet, Hypergraph.removeNet] at h
    rw [bind_eq_ok] at h
    obtain ⟨n, -, h⟩ := h
    rw [bind_eq_ok] at h
    obtain ⟨j, -, h⟩ := h
    exact removeNetByIndex_maps (H := { H with dups := H.dups ++ [(n, dup)] }) hm h
  | updateMaps =>
    cases h
    exact ⟨fun u i => buildMap_spec (mapsExact_nodup hm.1) u i,
      fun u i => buildMap_spec (mapsExact_nodup hm.2) u i⟩

/-- C05: after any history of legal operations, both maps are exact. -/
theorem C05_maps_exact {H H' : Hypergraph} (hm : MapsExact H) (h : History H H') :
    MapsExact H' := by
  induction h with
  | nil => exact hm
  | cons _ hl hr ih => exact C05_step ih hl hr

/-- C05 in terms of the lookups: a present id gives the position that holds it, an absent id is
reported as not local. -/
theorem C05_lookup {H H' : Hypergraph} (hm : MapsExact H) (h : History H H') :
    (∀ (i : Nat) (v : Vertex), H'.vertices[i]? = some v →
      H'.localId v.id = .ok i ∧ H'.isLocal v.id = true) ∧
    (∀ (j : Nat) (n : Net), H'.nets[j]? = some n →
      H'.localIdNet n.id = .ok j ∧ H'.isLocalNet n.id = true) ∧
    (∀ u, ¬ IsVertex H' u → H'.isLocal u = false) ∧
    (∀ e, ¬ IsNet H' e → H'.isLocalNet e = false) := by
  have hm' := C05_maps_exact hm h
  refine ⟨?_, ?_, ?_, ?_⟩
  · intro i v hi
    have h1 := (hm'.1 v.id i).2 (by simp [hi])
    have hlt : i < H'.vertices.length := by rw [List.getElem?_eq_some_iff] at hi; exact hi.1
    simp [Hypergraph.localId, Hypergraph.isLocal, h1, hlt]
  · intro j n hj
    have h1 := (hm'.2 n.id j).2 (by simp [hj])
    simp [Hypergraph.localIdNet, Hypergraph.isLocalNet, h1]
  · intro u hu
    unfold Hypergraph.isLocal
    cases hv : H'.vmap u with
    | none => rfl
    | some i => exact absurd (List.mem_of_getElem? ((hm'.1 u i).1 hv)) hu
  · intro u hu
    unfold Hypergraph.isLocalNet
    cases hv : H'.nmap u with
    | none => rfl
    | some i => exact absurd (List.mem_of_getElem? ((hm'.2 u i).1 hv)) hu

/-- C05 for the lookups of vertices and nets themselves: a present id gives the vertex or net that has it.
An absent id, or a position past the end, stops the program at an assertion (`local_id_net` throws); it never
gives another vertex or net, and nothing outside the lists is read. -/
theorem C05_objects {H H' : Hypergraph} (hm : MapsExact H) (h : History H H') :
    (∀ v ∈ H'.vertices, H'.vertexOf v.id = .ok v) ∧ (∀ n ∈ H'.nets, H'.netOf n.id = .ok n) ∧
    (∀ u, ¬ IsVertex H' u → H'.localId u = .error .abort ∧ H'.vertexOf u = .error .abort) ∧
    (∀ e, ¬ IsNet H' e → H'.localIdNet e = .error .throw ∧ H'.netOf e = .error .abort) ∧
    (∀ i, H'.vertices.length ≤ i → H'.vertexAt i = .error .abort) := by
  have hm' := C05_maps_exact hm h
  have hl := C05_lookup hm h
  refine ⟨?_, ?_, ?_, ?_, ?_⟩
  · intro v hv
    obtain ⟨i, hi, hget⟩ := List.mem_iff_getElem.1 hv
    have hget' : H'.vertices[i]? = some v := by rw [List.getElem?_eq_getElem hi, hget]
    unfold Hypergraph.vertexOf Hypergraph.vertexAt
    rw [(hl.1 i v hget').1, ok_bind, hget']
  · intro n hn
    obtain ⟨i, hi, hget⟩ := List.mem_iff_getElem.1 hn
    have hget' : H'.nets[i]? = some n := by rw [List.getElem?_eq_getElem hi, hget]
    have h1 : H'.nmap n.id = some i := (hm'.2 n.id i).2 (by simp [hget'])
    unfold Hypergraph.netOf
    rw [h1]
    dsimp only
    rw [hget']
  · intro u hu
    have h1 : H'.vmap u = none := by
      cases hv : H'.vmap u with
      | none => rfl
      | some i => exact absurd (List.mem_of_getElem? ((hm'.1 u i).1 hv)) hu
    have h2 : H'.localId u = .error .abort := by unfold Hypergraph.localId; rw [h1]
    refine ⟨h2, ?_⟩
    unfold Hypergraph.vertexOf
    rw [h2]
    rfl
  · intro e he
    have h1 : H'.nmap e = none := by
      cases hv : H'.nmap e with
      | none => rfl
      | some i => exact absurd (List.mem_of_getElem? ((hm'.2 e i).1 hv)) he
    unfold Hypergraph.localIdNet Hypergraph.netOf
    rw [h1]
    exact ⟨rfl, rfl⟩
  · intro i hi
    unfold Hypergraph.vertexAt
    rw [List.getElem?_eq_none hi]

/-- The constructor starts with exact maps when ids are distinct. -/
theorem C05_constructor (gs gn : Nat) (vs : List Vertex) (ns : List Net) (nz : Nat)
    (hv : (vs.map (·.id)).Nodup) (hn : (ns.map (·.id)).Nodup) :
    MapsExact (Hypergraph.create gs gn vs ns nz) :=
  ⟨fun u i => buildMap_spec hv u i, fun u i => buildMap_spec hn u i⟩

theorem WF_maps {H : Hypergraph} (w : WF H) : MapsExact H := ⟨w.vmap, w.nmap⟩

example : MapsExact exampleH ∧ ∃ H', History exampleH H' ∧ H'.nets.length = 2 ∧
    H'.vertices.length = 5 := by
  refine ⟨WF_maps exampleH_wf, ?_⟩
  have h : ∃ H', runCOp (exampleH.addVertex 9 [] 4) (.removeNetByIndex 0) = .ok H' ∧
      H'.nets.length = 2 ∧ H'.vertices.length = 5 := ⟨_, rfl, rfl, rfl⟩
  obtain ⟨H', h1, h2⟩ := h
  exact ⟨H', History.cons (History.cons History.nil (o := .addVertex 9 [] 4)
      (by unfold COp.legal IsVertex; decide) rfl) (o := .removeNetByIndex 0) trivial h1, h2⟩

/-- Adding a vertex whose id is already present does break the map: the old position is lost. -/
theorem C05_duplicate_id_breaks (H : Hypergraph) (u : Nat) (nets : List Nat) (wt : Int)
    (hu : IsVertex H u) : ¬ MapsExact (H.addVertex u nets wt) := by
  intro hm
  have := mapsExact_nodup hm.1
  simp only [Hypergraph.addVertex, List.map_append, List.map_cons, List.map_nil, Vertex.mk',
    List.nodup_append] at this
  exact this.2.2 u hu u (by simp) rfl

/-! ### C06 -/

/-- C06 is false: under the C++ standard `remove_net_by_index` reads past the end of the list
exactly when the net is the last one, for every consistent hypergraph. -/
theorem C06_remove_net_ub_iff_last {H : Hypergraph} (w : WF H) {j : Nat}
    (hj : j < H.nets.length) :
    (H.removeNetByIndexStrict j = .error .ub ↔ j + 1 = H.nets.length) ∧
    (j + 1 < H.nets.length → H.removeNetByIndexStrict j = H.removeNetByIndex j) := by
  obtain ⟨n, hn⟩ : ∃ n, H.nets[j]? = some n := ⟨_, List.getElem?_eq_getElem hj⟩
  have hdef : H.removeNetByIndexStrict j =
      (vget (swapRemoveAt H.nets j) j >>= fun m => pure { H with
        vertices := dropNet H.vertices n.id,
        nets := swapRemoveAt H.nets j,
        nmap := mapErase (mapSet H.nmap m.id j) n.id }) := by
    unfold Hypergraph.removeNetByIndexStrict
    rw [vget_ok hn]
    simp only [ok_bind]
    rw [removeNetLoop_ok w (List.mem_of_getElem? hn)]
    rfl
  have hget := swapRemoveAt_get hj j
  have hok : j + 1 < H.nets.length → H.removeNetByIndexStrict j = H.removeNetByIndex j := by
    intro hlt
    rw [if_pos (by omega), if_pos rfl,
      List.getElem?_eq_getElem (show H.nets.length - 1 < H.nets.length by omega)] at hget
    rw [hdef, vget_ok hget, removeNetByIndex_ok w hn]
    simp only [ok_bind, pure_eq_ok, netRemoved, hget, Option.map_some, Option.getD_some]
  refine ⟨⟨?_, ?_⟩, hok⟩
  · intro h
    by_contra hne
    rw [hok (by omega), removeNetByIndex_ok w hn] at h
    cases h
  · intro hlast
    rw [if_neg (by omega)] at hget
    rw [hdef]
    simp [vget, hget]

/-- C06 is false: the same for `remove_free_vertex` and the last vertex. -/
theorem C06_remove_vertex_ub_iff_last {H : Hypergraph} (hm : MapsExact H) {i : Nat} {v : Vertex}
    (hi : H.vertices[i]? = some v) :
    (H.removeFreeVertexStrict v.id = .error .ub ↔ i + 1 = H.vertices.length) ∧
    (i + 1 < H.vertices.length → H.removeFreeVertexStrict v.id = H.removeFreeVertex v.id) := by
  have hlt : i < H.vertices.length := by rw [List.getElem?_eq_some_iff] at hi; exact hi.1
  have hvm := (hm.1 v.id i).2 (by simp [hi])
  have hget := swapRemoveAt_get hlt i
  have hok : i + 1 < H.vertices.length →
      ∃ H', H.removeFreeVertexStrict v.id = .ok H' ∧ H.removeFreeVertex v.id = .ok H' := by
    intro h
    rw [if_pos (by omega), if_pos rfl,
      List.getElem?_eq_getElem (show H.vertices.length - 1 < H.vertices.length by omega)] at hget
    have h1 : ∃ H', H.removeFreeVertexStrict v.id = .ok H' := by
      unfold Hypergraph.removeFreeVertexStrict
      simp only [hvm, Option.getD_some, vget_ok hi, ok_bind, vget_ok hget, pure_eq_ok]
      exact ⟨_, rfl⟩
    obtain ⟨H', h1⟩ := h1
    refine ⟨H', h1, ?_⟩
    rw [← h1]
    unfold Hypergraph.removeFreeVertex Hypergraph.removeFreeVertexStrict
    simp only [hvm, Option.getD_some, hi, vget_ok hi, ok_bind, vget_ok hget, pure_eq_ok, hget]
  refine ⟨⟨?_, ?_⟩, ?_⟩
  · intro h
    by_contra hne
    obtain ⟨H', h1, -⟩ := hok (by omega)
    rw [h1] at h; cases h
  · intro hlast
    rw [if_neg (by omega)] at hget
    unfold Hypergraph.removeFreeVertexStrict
    simp only [hvm, Option.getD_some]
    rw [vget_ok hi]
    simp [vget, hget]
  · intro h
    obtain ⟨H', h1, h2⟩ := hok h
    rw [h1, h2]

/-- The witness for the negation of C06. -/
theorem C06_false : ¬ ∀ (H : Hypergraph) (j : Nat), WF H → j < H.nets.length →
    ∃ H', H.removeNetByIndexStrict j = .ok H' := by
  intro h
  obtain ⟨H', hH'⟩ := h exampleH 2 exampleH_wf (by decide)
  have := (C06_remove_net_ub_iff_last exampleH_wf (j := 2) (by decide)).1.2 (by decide)
  rw [this] at hH'
  cases hH'

/-- C06, the part that holds: for every valid index but the last one, all reads are in range. -/
theorem C06_partial {H : Hypergraph} (w : WF H) {j : Nat} (hj : j + 1 < H.nets.length) :
    ∃ H', H.removeNetByIndexStrict j = .ok H' := by
  obtain ⟨n, hn⟩ : ∃ n, H.nets[j]? = some n := ⟨_, List.getElem?_eq_getElem (by omega)⟩
  rw [(C06_remove_net_ub_iff_last w (j := j) (by omega)).2 hj, removeNetByIndex_ok w hn]
  exact ⟨_, rfl⟩

example : WF exampleH ∧ 0 + 1 < exampleH.nets.length := ⟨exampleH_wf, by decide⟩

/-! ### C07 -/

/-- C07: `remove_free_nets(H, s)` succeeds in every iteration order of the hash set; the nets left
are exactly those with more than `s` pins, unchanged but for the recorded global size, which is
their number of pins; every vertex keeps its position, id, weight and part and loses exactly the
removed nets from its list; the result is consistent. -/
theorem C07_remove_free_nets {H : Hypergraph} (w : WF H) (s : Nat) (order : List Nat → List Nat)
    (hord : ∀ l, (order l).Perm l) :
    ∃ H', removeFreeNets order H s = .ok H' ∧ WF H' ∧
      H'.nets.Perm ((H.nets.filter (fun n => s < n.vertices.length)).map
        (fun n => { n with globalSize := n.vertices.length })) ∧
      List.Forall₂ (fun v v' => v'.id = v.id ∧ v'.weight = v.weight ∧ v'.part = v.part ∧
        ∀ e, e ∈ v'.nets ↔ e ∈ v.nets ∧ ∃ n ∈ H.nets, n.id = e ∧ s < n.vertices.length)
        H.vertices H'.vertices ∧
      H'.globalSize = H.globalSize ∧ H'.globalNumberNets = H.globalNumberNets ∧
      H'.nrNz = H.nrNz ∧ H'.dups = H.dups := by
  unfold removeFreeNets
  simp only
  have hp := hord ((H.nets.filter (fun n => n.vertices.length ≤ s)).map (·.id))
  generalize order _ = ids at hp
  have hfun : (fun (n : Net) => if n.vertices.length ≤ s then n
      else { n with globalSize := n.vertices.length }) =
      fun n => { n with globalSize := if n.vertices.length ≤ s then n.globalSize
        else n.vertices.length } := by
    funext n; split <;> rfl
  rw [hfun]
  have w1 := setSizes_wf w (fun n => if n.vertices.length ≤ s then n.globalSize
        else n.vertices.length)
  have hmem : ∀ e, e ∈ ids ↔ ∃ n ∈ H.nets, n.vertices.length ≤ s ∧ n.id = e := by
    intro e; rw [hp.mem_iff]; simp [and_assoc]
  obtain ⟨H', h1, h2, h3, h4, h5, h6, h7, h8, -⟩ := removeNets_ok ids w1
    (hp.nodup_iff.2 (((List.filter_sublist).map _).nodup w.nids)) (by
      intro e he
      obtain ⟨n, hn, -, hne⟩ := (hmem e).1 he
      simp only [IsNet, List.map_map, Function.comp_def]
      exact hne ▸ List.mem_map_of_mem (f := fun n : Net => n.id) hn)
  have hnot : ∀ n ∈ H.nets, (n.id ∉ ids ↔ s < n.vertices.length) := by
    intro n hn
    rw [hmem]
    constructor
    · intro h
      by_contra hle
      exact h ⟨n, hn, by omega, rfl⟩
    · rintro h ⟨m, hm, hle, hid⟩
      have : m = n := List.inj_on_of_nodup_map w.nids hm hn hid
      subst this; omega
  refine ⟨H', h1, h2, ?_, ?_, h5, h6, h7, h8⟩
  · refine h3.trans (List.Perm.of_eq ?_)
    simp only [List.filter_map]
    have : H.nets.filter ((fun n => decide (n.id ∉ ids)) ∘ fun n => ({ n with globalSize :=
        if n.vertices.length ≤ s then n.globalSize else n.vertices.length } : Net)) =
        H.nets.filter (fun n => decide (s < n.vertices.length)) := by
      apply List.filter_congr
      intro n hn
      exact decide_eq_decide.2 (hnot n hn)
    rw [this]
    apply List.map_congr_left
    intro n hn
    have := (List.mem_filter.1 hn).2
    simp only [decide_eq_true_eq] at this
    rw [if_neg (by omega)]
  · have hin : ∀ v ∈ H.vertices, ∀ e ∈ v.nets, ∃ n ∈ H.nets, n.id = e :=
      fun v hv e he => by
        obtain ⟨n, hn, h, -⟩ := w.inc_net v hv e he
        exact ⟨n, hn, h⟩
    have h4' : List.Forall₂ (LostNets (· ∈ ids)) H.vertices H'.vertices := h4
    revert h4' hin
    generalize H.vertices = vs
    generalize H'.vertices = vs'
    intro hin h4
    induction h4 with
    | nil => exact List.Forall₂.nil
    | cons hx _ ih =>
      refine List.Forall₂.cons ?_ (ih (fun v hv => hin v (List.mem_cons_of_mem _ hv)))
      obtain ⟨a, b, c, d⟩ := hx
      refine ⟨a, b, c, fun e => ?_⟩
      rw [d e]
      constructor
      · rintro ⟨he, hni⟩
        obtain ⟨n, hn, hne⟩ := hin _ (by simp) e he
        exact ⟨he, n, hn, hne, (hnot n hn).1 (hne ▸ hni)⟩
      · rintro ⟨he, n, hn, hne, hlt⟩
        exact ⟨he, hne ▸ (hnot n hn).2 hlt⟩

example : ∃ H, WF H ∧ (∃ n ∈ H.nets, n.vertices.length ≤ 3) ∧ ∀ l : List Nat, (l.reverse).Perm l :=
  ⟨exampleH, exampleH_wf, by decide, fun l => l.reverse_perm⟩

/-! ### C08 -/

/-- C08: the total weight. -/
theorem C08_total_weight (H : Hypergraph) : H.totalWeight = (H.vertices.map (·.weight)).sum :=
  totalWeight_eq H

/-- C08: the weight of one part. -/
theorem C08_weight_part (H : Hypergraph) (p : Int) : H.weightPart p = partWeight H p :=
  weightPart_eq H p

theorem sum_partWeights (vs : List Vertex) (k : Nat) (hp : ∀ v ∈ vs, 0 ≤ v.part ∧ v.part < k) :
    ((List.range k).map (fun (p : Nat) =>
      ((vs.filter (fun v => v.part = (p : Int))).map (·.weight)).sum)).sum =
      (vs.map (·.weight)).sum := by
  induction vs with
  | nil => simp
  | cons v vs ih =>
    have ih := ih (fun v hv => hp v (List.mem_cons_of_mem _ hv))
    have hv := hp v (by simp)
    obtain ⟨q, hq⟩ := Int.eq_ofNat_of_zero_le hv.1
    have hqk : q < k := by omega
    rw [List.map_cons, List.sum_cons, ← ih]
    have hsplit : ∀ p : Nat, (((v :: vs).filter (fun v => v.part = (p : Int))).map (·.weight)).sum =
        (if p = q then v.weight else 0) +
          ((vs.filter (fun v => v.part = (p : Int))).map (·.weight)).sum := by
      intro p
      by_cases h : p = q
      · subst h; rw [List.filter_cons_of_pos (by simp [hq])]; simp
      · have : ¬ v.part = (p : Int) := by rw [hq]; intro h'; exact h (by exact_mod_cast h'.symm)
        rw [List.filter_cons_of_neg (by simp [this])]; simp [h]
    rw [List.map_congr_left (fun p _ => hsplit p), List.sum_map_add]
    congr 1
    clear * - hqk
    induction k with
    | zero => omega
    | succ k ih =>
      rw [List.range_succ, List.map_append, List.sum_append]
      rcases Nat.lt_or_ge q k with h | h
      · rw [ih h]; simp; omega
      · have : q = k := by omega
        subst this
        have h0 : ((List.range q).map (fun p => if p = q then v.weight else 0)).sum = 0 := by
          apply List.sum_eq_zero
          intro x hx
          obtain ⟨p, hp, rfl⟩ := List.mem_map.1 hx
          have := List.mem_range.1 hp
          rw [if_neg (by omega)]
        rw [h0]; simp

/-- C08: all parts at once; the sum of the part weights is the total weight. -/
theorem C08_weight_all_parts (H : Hypergraph) (k : Nat)
    (hp : ∀ v ∈ H.vertices, 0 ≤ v.part ∧ v.part < k) :
    ∃ t, H.weightAllParts k = .ok t ∧ t = (List.range k).map (fun (p : Nat) => partWeight H p) ∧
      t.sum = H.totalWeight := by
  refine ⟨_, weightAllParts_ok H k hp, rfl, ?_⟩
  rw [totalWeight_eq]
  exact sum_partWeights H.vertices k hp

theorem weightLoop_length (vs : List Vertex) : ∀ (t : List Int) (t' : List Int),
    vs.foldlM (fun t (v : Vertex) => do
      let x ← vgetI t v.part
      vsetI t v.part (x + v.weight)) t = .ok t' →
    ∀ v ∈ vs, 0 ≤ v.part ∧ v.part < t.length := by
  induction vs with
  | nil => intro t t' _ v hv; cases hv
  | cons v vs ih =>
    intro t t' h u hu
    rw [List.foldlM_cons, bind_eq_ok] at h
    obtain ⟨t1, h1, h2⟩ := h
    rw [bind_eq_ok] at h1
    obtain ⟨x, hx, h1⟩ := h1
    unfold vgetI at hx
    split at hx
    · cases hx
    · rename_i hneg
      have hlt := (List.getElem?_eq_some_iff.1 (vget_eq_ok.1 hx)).1
      unfold vsetI at h1
      rw [if_neg hneg, vset_ok hlt] at h1
      cases h1
      rcases List.mem_cons.1 hu with rfl | hu
      · omega
      · have := ih _ _ h2 u hu
        simpa using this

/-- C08: a vertex without a part in `[0,k)` makes `weight_all_parts` access out of bounds, in
every hypergraph. -/
theorem C08_unassigned_out_of_bounds (H : Hypergraph) (k : Nat)
    (hp : ∃ v ∈ H.vertices, ¬ (0 ≤ v.part ∧ v.part < k)) :
    H.weightAllParts k = .error .ub := by
  obtain ⟨v, hv, hbad⟩ := hp
  cases h : H.weightAllParts k with
  | ok t =>
    exact absurd (by simpa using weightLoop_length _ _ _ h v hv) hbad
  | error e =>
    unfold Hypergraph.weightAllParts at h
    have : ∀ (vs : List Vertex) (t : List Int), vs.foldlM (fun t (v : Vertex) => do
        let x ← vgetI t v.part
        vsetI t v.part (x + v.weight)) t = .error e → e = .ub := by
      intro vs
      induction vs with
      | nil => intro t h; cases h
      | cons v vs ih =>
        intro t h
        rw [List.foldlM_cons] at h
        unfold vgetI vsetI vget vset at h
        by_cases hneg : v.part < 0
        · simp [hneg] at h; exact h.symm
        · simp only [hneg, if_false] at h
          cases hg : t[v.part.toNat]? with
          | none => rw [hg] at h; simp at h; exact h.symm
          | some x =>
            rw [hg] at h
            simp only [ok_bind, (List.getElem?_eq_some_iff.1 hg).1, if_true] at h
            exact ih _ h
    rw [this _ _ h]

example : (∀ v ∈ exampleH.vertices, 0 ≤ v.part ∧ v.part < (2 : Nat)) ∧
    exampleH.weightAllParts 2 = .ok [6, 4] ∧ exampleH.totalWeight = 10 := by decide
example : ∃ v ∈ exampleH.vertices, ¬ (0 ≤ v.part ∧ v.part < (1 : Nat)) := by decide

/-! ### C09 -/

/-- C09: `cutsize(H, metric)` succeeds and is the metric, for every labelling. -/
theorem C09_cutsize {H : Hypergraph} (w : WF H) (m : Metric) :
    cutsize H m = .ok (cutValue m H) := cutsize_ok w m

/-- For parts 0/1 the two metrics coincide. -/
theorem metrics_agree {P : Nat → Int} {n : Net} (h : ∀ u ∈ n.vertices, P u = 0 ∨ P u = 1) :
    (((connectivity P n - 1 : Nat) : Int) * n.cost) = if IsCut P n then n.cost else 0 := by
  unfold connectivity
  have hsub : ∀ x ∈ (n.vertices.map P).dedup, x = 0 ∨ x = 1 := by
    intro x hx
    obtain ⟨u, hu, rfl⟩ := List.mem_map.1 (List.mem_dedup.1 hx)
    exact h u hu
  have hnd := List.nodup_dedup (n.vertices.map P)
  have hlen : (n.vertices.map P).dedup.length ≤ 2 := by
    have : ((n.vertices.map P).dedup).Subperm [0, 1] := by
      apply List.subperm_of_subset hnd
      intro x hx
      rcases hsub x hx with h | h <;> simp [h]
    simpa using this.length_le
  by_cases hc : IsCut P n
  · rw [if_pos hc]
    obtain ⟨u, hu, v, hv, hne⟩ := hc
    have h2 : 1 < (n.vertices.map P).dedup.length := by
      have hu' : P u ∈ (n.vertices.map P).dedup := List.mem_dedup.2 (List.mem_map_of_mem hu)
      have hv' : P v ∈ (n.vertices.map P).dedup := List.mem_dedup.2 (List.mem_map_of_mem hv)
      by_contra hle
      match hL : (n.vertices.map P).dedup, hle with
      | [], _ => rw [hL] at hu'; cases hu'
      | [a], _ =>
        rw [hL] at hu' hv'
        rw [List.mem_singleton] at hu' hv'
        exact hne (hu'.trans hv'.symm)
      | a :: b :: l, hle => simp at hle
    have : (n.vertices.map P).dedup.length = 2 := by omega
    rw [this]; simp
  · rw [if_neg hc]
    have : (n.vertices.map P).dedup.length ≤ 1 := by
      by_contra hgt
      match hL : (n.vertices.map P).dedup, hgt with
      | [], hgt => simp at hgt
      | [a], hgt => simp at hgt
      | a :: b :: l, _ =>
        have ha : a ∈ (n.vertices.map P).dedup := by rw [hL]; simp
        have hb : b ∈ (n.vertices.map P).dedup := by rw [hL]; simp
        obtain ⟨u, hu, hua⟩ := List.mem_map.1 (List.mem_dedup.1 ha)
        obtain ⟨v, hv, hvb⟩ := List.mem_map.1 (List.mem_dedup.1 hb)
        rw [hL] at hnd
        exact hc ⟨u, hu, v, hv, by
          rw [hua, hvb]
          intro hab; subst hab
          simp at hnd⟩
    have : (n.vertices.map P).dedup.length - 1 = 0 := by omega
    rw [this]; simp

/-- C09 for bisections: with exact counts `cutsize(H, C)` is the same value as both metrics. -/
theorem C09_cutsize_counts {H : Hypergraph} (w : WF H) (hb : Bipartitioned H) {C : List Cnt}
    (hC : CountsExact H C) :
    cutsizeC H C = .ok (cutValue .cutNet H) ∧ cutValue .lambdaMinusOne H = cutValue .cutNet H := by
  have h01 := parts01_self w hb
  constructor
  · rw [counts_self w hC, cutsizeC_cOf (H := H) (H' := H) _ rfl,
      cutF_exact _ _ (pinsPerm_self w) (fun n hn u hu => h01.pin w hn hu)]
    rfl
  · unfold cutValue lambdaMinusOne cutNet
    simp only
    congr 1
    apply List.map_congr_left
    intro n hn
    exact metrics_agree (fun u hu => h01.pin w hn hu)

example : WF exampleH ∧ Bipartitioned exampleH ∧ CountsExact exampleH exampleC ∧
    cutsize exampleH .cutNet = .ok 8 :=
  ⟨exampleH_wf, by unfold Bipartitioned; decide, by unfold CountsExact; decide, by decide⟩

/-! ### C11, sequential -/

/-- C11: `init_counts(H)` on a bisected hypergraph succeeds and holds the exact counts. -/
theorem C11_init_counts {H : Hypergraph} (w : WF H) (hb : Bipartitioned H) :
    ∃ C, initCounts H = .ok C ∧ CountsExact H C := initCounts_ok w hb

example : WF exampleH ∧ Bipartitioned exampleH := ⟨exampleH_wf, by unfold Bipartitioned; decide⟩

end PMondriaan
