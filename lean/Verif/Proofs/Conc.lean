import Verif.Proofs.Cut

/-
Functional view of the mutable state: a fixed base hypergraph `H`, the parts as a function of the
vertex id, the pin lists as a function of the net id, the counts as a function of the net id and
the gains as a function of the vertex id.
-/

namespace PMondriaan

open Spec

/-- The base hypergraph with parts `P` and pin lists `L`. -/
def conc (H : Hypergraph) (P : Nat → Int) (L : Nat → List Nat) : Hypergraph :=
  { H with
    vertices := H.vertices.map (fun v => { v with part := P v.id }),
    nets := H.nets.map (fun n => { n with vertices := L n.id }) }

/-- Function update. -/
def upd {β : Type} (f : Nat → β) (k : Nat) (b : β) : Nat → β := fun x => if x = k then b else f x

@[simp] theorem upd_same {β : Type} (f : Nat → β) (k : Nat) (b : β) : upd f k b k = b := by
  simp [upd]

theorem upd_other {β : Type} (f : Nat → β) {k x : Nat} (b : β) (h : x ≠ k) :
    upd f k b x = f x := by
  simp [upd, h]

/-- The pins of net `e`. -/
def pinsOf (H : Hypergraph) (e : Nat) : List Nat :=
  match H.nets.find? (fun n => n.id == e) with
  | some n => n.vertices
  | none => []

/-- The counts vector given by a function. -/
def cOf (H : Hypergraph) (F : Nat → Cnt) : List Cnt := H.nets.map (fun n => F n.id)

/-- The gains vector given by a function. -/
def gOf (H : Hypergraph) (G : Nat → Option Int) : List (Option Int) :=
  H.vertices.map (fun v => G v.id)

theorem pinsOf_eq {H : Hypergraph} (w : WF H) {n : Net} (h : n ∈ H.nets) :
    pinsOf H n.id = n.vertices := by
  unfold pinsOf
  cases hf : H.nets.find? (fun x => x.id == n.id) with
  | none =>
    rw [List.find?_eq_none] at hf
    exact absurd (by simp) (hf n h)
  | some x =>
    have hx : x ∈ H.nets := List.mem_of_find?_eq_some hf
    have hid : x.id = n.id := by simpa using List.find?_some hf
    simp [w.net_inj hx h hid]

theorem conc_self {H : Hypergraph} (w : WF H) : conc H (partOf H) (pinsOf H) = H := by
  unfold conc
  have h1 : H.vertices.map (fun v => { v with part := partOf H v.id }) = H.vertices := by
    conv_rhs => rw [← List.map_id H.vertices]
    apply List.map_congr_left
    intro v hv
    rw [w.partOf_eq hv]; rfl
  have h2 : H.nets.map (fun n => { n with vertices := pinsOf H n.id }) = H.nets := by
    conv_rhs => rw [← List.map_id H.nets]
    apply List.map_congr_left
    intro n hn
    rw [pinsOf_eq w hn]; rfl
  rw [h1, h2]

theorem map_set_upd {α : Type} {l : List α} {key : α → Nat} (hk : (l.map key).Nodup) {β : Type}
    (f : α → β) {i : Nat} {a : α} (h : l[i]? = some a) (b : β) :
    (l.map f).set i b = l.map (fun x => if key x = key a then b else f x) := by
  apply List.ext_getElem?
  intro k
  rw [List.getElem?_set]
  have hi : i < l.length := by rw [List.getElem?_eq_some_iff] at h; exact h.1
  by_cases hik : i = k
  · subst hik
    rw [List.getElem?_eq_some_iff] at h
    obtain ⟨_, rfl⟩ := h
    simp [hi]
  · simp only [hik, if_false, List.getElem?_map]
    cases hx : l[k]? with
    | none => simp
    | some x =>
      simp only [Option.map_some, Option.some.injEq]
      rw [if_neg]
      intro hkey
      apply hik
      have hk' : k < (l.map key).length := by
        rw [List.getElem?_eq_some_iff] at hx; simpa using hx.1
      have hi' : i < (l.map key).length := by simpa using hi
      refine (List.Nodup.getElem_inj_iff hk (hi := hi') (hj := hk')).1 ?_
      rw [List.getElem?_eq_some_iff] at h hx
      obtain ⟨_, rfl⟩ := h
      obtain ⟨_, rfl⟩ := hx
      simp [hkey]

section
variable {H : Hypergraph} (w : WF H) (P : Nat → Int) (L : Nat → List Nat)

theorem conc_vids : (conc H P L).vertices.map (·.id) = H.vertices.map (·.id) := by
  simp [conc, Function.comp_def]

theorem conc_nids : (conc H P L).nets.map (·.id) = H.nets.map (·.id) := by
  simp [conc, Function.comp_def]

@[simp] theorem conc_vlen : (conc H P L).vertices.length = H.vertices.length := by simp [conc]
@[simp] theorem conc_nlen : (conc H P L).nets.length = H.nets.length := by simp [conc]
@[simp] theorem conc_vmap : (conc H P L).vmap = H.vmap := rfl
@[simp] theorem conc_nmap : (conc H P L).nmap = H.nmap := rfl

theorem conc_localId (u : Nat) : (conc H P L).localId u = H.localId u := by
  simp [Hypergraph.localId]

theorem conc_localIdNet (e : Nat) : (conc H P L).localIdNet e = H.localIdNet e := by
  simp [Hypergraph.localIdNet]

theorem conc_vget {i : Nat} {v : Vertex} (h : H.vertices[i]? = some v) :
    (conc H P L).vertices[i]? = some { v with part := P v.id } := by
  simp [conc, h]

theorem conc_nget {j : Nat} {n : Net} (h : H.nets[j]? = some n) :
    (conc H P L).nets[j]? = some { n with vertices := L n.id } := by
  simp [conc, h]

theorem conc_vertexAt {i : Nat} {v : Vertex} (h : H.vertices[i]? = some v) :
    (conc H P L).vertexAt i = .ok { v with part := P v.id } := by
  simp [Hypergraph.vertexAt, conc_vget P L h]

include w

/-- Pin lists that are permutations of the original ones keep the hypergraph well-formed. -/
theorem conc_wf (hL : ∀ n ∈ H.nets, (L n.id).Perm n.vertices) : WF (conc H P L) where
  vids := by rw [conc_vids]; exact w.vids
  nids := by rw [conc_nids]; exact w.nids
  vmap := by intro u i; rw [conc_vids]; exact w.vmap u i
  nmap := by intro u i; rw [conc_nids]; exact w.nmap u i
  vnets := by
    intro v hv
    simp only [conc, List.mem_map] at hv
    obtain ⟨x, hx, rfl⟩ := hv
    exact w.vnets x hx
  npins := by
    intro v hv
    simp only [conc, List.mem_map] at hv
    obtain ⟨x, hx, rfl⟩ := hv
    exact (hL x hx).nodup_iff.2 (w.npins x hx)
  inc_net := by
    intro v hv e he
    simp only [conc, List.mem_map] at hv
    obtain ⟨x, hx, rfl⟩ := hv
    obtain ⟨n, hn, hne, hxn⟩ := w.inc_net x hx e he
    refine ⟨{ n with vertices := L n.id }, ?_, hne, ?_⟩
    · simp only [conc, List.mem_map]
      exact ⟨n, hn, rfl⟩
    · exact (hL n hn).mem_iff.2 hxn
  inc_vtx := by
    intro n hn u hu
    simp only [conc, List.mem_map] at hn
    obtain ⟨x, hx, rfl⟩ := hn
    obtain ⟨v, hv, hvu, he⟩ := w.inc_vtx x hx u ((hL x hx).mem_iff.1 hu)
    refine ⟨{ v with part := P v.id }, ?_, hvu, he⟩
    simp only [conc, List.mem_map]
    exact ⟨v, hv, rfl⟩

omit w in
theorem conc_partOf {v : Vertex} (h : v ∈ H.vertices) : partOf (conc H P L) v.id = P v.id := by
  unfold partOf conc
  simp only [List.find?_map]
  cases hf : H.vertices.find? ((fun x : Vertex => x.id == v.id) ∘ fun v => { v with part := P v.id }) with
  | none =>
    rw [List.find?_eq_none] at hf
    exact absurd (by simp) (hf v h)
  | some x =>
    have hid : x.id = v.id := by simpa using List.find?_some hf
    simp [hid]

theorem conc_vertexOf {v : Vertex} (h : v ∈ H.vertices) :
    (conc H P L).vertexOf v.id = .ok { v with part := P v.id } := by
  obtain ⟨i, hi, hl⟩ := w.localId_mem h
  simp [Hypergraph.vertexOf, conc_localId, hl, conc_vertexAt P L hi]

theorem conc_netOf {j : Nat} {n : Net} (h : H.nets[j]? = some n) :
    (conc H P L).netOf n.id = .ok { n with vertices := L n.id } := by
  have : H.nmap n.id = some j := (w.nmap_iff _ _).2 ⟨n, h, rfl⟩
  simp [Hypergraph.netOf, this, conc_nget P L h]

theorem conc_setVertex {i : Nat} {v : Vertex} (h : H.vertices[i]? = some v) (p : Int) :
    (conc H P L).setVertex i { v with part := p } = conc H (upd P v.id p) L := by
  unfold Hypergraph.setVertex conc
  simp only
  rw [map_set_upd w.vids _ h]
  congr 1
  apply List.map_congr_left
  intro x hx
  unfold upd
  split
  · rename_i hid
    rw [w.vertex_inj hx (List.mem_of_getElem? h) hid]
  · rfl

theorem conc_modifyNet {j : Nat} {n : Net} (h : H.nets[j]? = some n) (l : List Nat) :
    (conc H P L).modifyNet n.id (fun m => { m with vertices := l }) =
      .ok (conc H P (upd L n.id l)) := by
  unfold Hypergraph.modifyNet
  have : H.nmap n.id = some j := (w.nmap_iff _ _).2 ⟨n, h, rfl⟩
  simp only [conc_nmap, this, conc_nget P L h]
  unfold Hypergraph.setNet conc
  simp only
  rw [map_set_upd w.nids _ h]
  congr 2
  apply List.map_congr_left
  intro x hx
  unfold upd
  split
  · rename_i hid
    rw [w.net_inj hx (List.mem_of_getElem? h) hid]
  · rfl

omit w in
theorem cOf_get {F : Nat → Cnt} {j : Nat} {n : Net} (h : H.nets[j]? = some n) :
    (cOf H F)[j]? = some (F n.id) := by
  simp [cOf, h]

omit w in
theorem gOf_get {G : Nat → Option Int} {i : Nat} {v : Vertex} (h : H.vertices[i]? = some v) :
    (gOf H G)[i]? = some (G v.id) := by
  simp [gOf, h]

theorem cOf_set {F : Nat → Cnt} {j : Nat} {n : Net} (h : H.nets[j]? = some n) (c : Cnt) :
    (cOf H F).set j c = cOf H (upd F n.id c) := by
  unfold cOf
  rw [map_set_upd w.nids _ h]
  rfl

theorem gOf_set {G : Nat → Option Int} {i : Nat} {v : Vertex} (h : H.vertices[i]? = some v)
    (g : Option Int) : (gOf H G).set i g = gOf H (upd G v.id g) := by
  unfold gOf
  rw [map_set_upd w.vids _ h]
  rfl

/-- Total version of `Cnt.get`. -/
def _root_.PMondriaan.Cnt.at (c : Cnt) (p : Int) : Int := if p = 0 then c.c0 else c.c1

/-- Total version of `Cnt.add`. -/
def _root_.PMondriaan.Cnt.bump (c : Cnt) (p d : Int) : Cnt :=
  if p = 0 then { c with c0 := c.c0 + d } else { c with c1 := c.c1 + d }

omit w in
theorem cOf_cGet {F : Nat → Cnt} {j : Nat} {n : Net} (h : H.nets[j]? = some n) {p : Int}
    (hp : p = 0 ∨ p = 1) : cGet (cOf H F) j p = .ok ((F n.id).at p) := by
  unfold cGet
  rw [vget_ok (cOf_get h)]
  rcases hp with rfl | rfl <;> rfl

theorem cOf_cAdd {F : Nat → Cnt} {j : Nat} {n : Net} (h : H.nets[j]? = some n) {p : Int}
    (hp : p = 0 ∨ p = 1) (d : Int) :
    cAdd (cOf H F) j p d = .ok (cOf H (upd F n.id ((F n.id).bump p d))) := by
  unfold cAdd
  rw [vget_ok (cOf_get h)]
  rw [← cOf_set w h]
  rcases hp with rfl | rfl <;> rfl

end

theorem conc_sameUpToParts {H : Hypergraph} (P : Nat → Int) (L : Nat → List Nat)
    (hL : ∀ n ∈ H.nets, (L n.id).Perm n.vertices) : SameUpToParts H (conc H P L) where
  globalSize := rfl
  globalNumberNets := rfl
  nrNz := rfl
  dups := rfl
  vmap := rfl
  nmap := rfl
  vertices := by simp [conc, Function.comp_def]
  nets := by
    unfold conc
    simp only [List.forall₂_map_right_iff]
    exact List.forall₂_same.2 (fun n hn => ⟨rfl, rfl, rfl, hL n hn⟩)

/-! ### Counts -/

/-- Exact counts of the pin lists `L` under the parts `P`. -/
def exactF (P : Nat → Int) (L : Nat → List Nat) (e : Nat) : Cnt :=
  ⟨((L e).countP (fun u => P u = 0) : Nat), ((L e).countP (fun u => P u = 1) : Nat)⟩

theorem countsExact_conc {H : Hypergraph} (w : WF H) (P : Nat → Int) (L : Nat → List Nat)
    (hL : ∀ n ∈ H.nets, (L n.id).Perm n.vertices) :
    CountsExact (conc H P L) (cOf H (exactF P L)) := by
  unfold CountsExact cOf conc
  simp only [List.map_map]
  apply List.map_congr_left
  intro n hn
  simp only [Function.comp_def, exactF, pinCount]
  have : ∀ p : Int, (L n.id).countP (fun u => decide (P u = p)) =
      (L n.id).countP (fun u => decide (partOf (conc H P L) u = p)) := by
    intro p
    apply List.countP_congr
    intro u hu
    obtain ⟨v, hv, hvu, -⟩ := w.inc_vtx n hn u ((hL n hn).mem_iff.1 hu)
    rw [← hvu, conc_partOf P L hv]
  rw [this 0, this 1]
  rfl

end PMondriaan
