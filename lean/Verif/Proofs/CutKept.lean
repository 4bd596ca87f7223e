import Verif.Proofs.CutProg
import Verif.Proofs.RecBisectPar

/-
What the recursion with the cut-net metric keeps, between the start and `add_cut_nets`.
-/

namespace PMondriaan

open Spec

/-- From `xs` to `ys` no vertex, net or pin is lost or duplicated; nets may have been set aside. -/
structure CutKept (N : Nat) (xs ys : List (Hypergraph × List Net)) : Prop where
  length : ys.length = xs.length
  dist : Distributed N (ys.map (·.1))
  verts : (((ys.map (·.1)).flatMap (·.vertices)).map (fun v => (v.id, v.weight))).Perm
    (((xs.map (·.1)).flatMap (·.vertices)).map (fun v => (v.id, v.weight)))
  pins : ∀ e, (ys.flatMap (fun y => pinsIn (wide y) e)).Perm (xs.flatMap (fun x => pinsIn (wide x) e))
  live : ∀ y ∈ ys, ∀ n ∈ y.1.nets, ∃ x ∈ xs, ∃ m ∈ x.1.nets, m.id = n.id ∧ m.cost = n.cost
  aside : ∀ y ∈ ys, ∀ n ∈ y.2, ∃ x ∈ xs, ∃ m ∈ wide x, m.id = n.id ∧ m.cost = n.cost
  nets : ∀ x ∈ xs, ∀ m ∈ wide x, ∃ y ∈ ys, ∃ n ∈ wide y, n.id = m.id
  sizes : ys.map (fun y => sizes y.1) = xs.map (fun x => sizes x.1)

theorem CutKept.from {N : Nat} {xs ys : List (Hypergraph × List Net)} (h : CutKept N xs ys) {y : Hypergraph × List Net}
    (hy : y ∈ ys) {n : Net} (hn : n ∈ wide y) : ∃ x ∈ xs, ∃ m ∈ wide x, m.id = n.id ∧ m.cost = n.cost := by
  rcases List.mem_append.1 hn with hn | hn
  · obtain ⟨x, hx, m, hm, h1⟩ := h.live y hy n hn
    exact ⟨x, hx, m, List.mem_append_left _ hm, h1⟩
  · exact h.aside y hy n hn

theorem CutKept.refl {N : Nat} {xs : List (Hypergraph × List Net)} (hD : Distributed N (xs.map (·.1))) :
    CutKept N xs xs :=
  ⟨rfl, hD, .refl _, fun _ => .refl _, fun y hy n hn => ⟨y, hy, n, hn, rfl, rfl⟩,
    fun y hy n hn => ⟨y, hy, n, List.mem_append_right _ hn, rfl, rfl⟩, fun x hx m hm => ⟨x, hx, m, hm, rfl⟩, rfl⟩

theorem CutKept.trans {N : Nat} {xs ys zs : List (Hypergraph × List Net)} (h1 : CutKept N xs ys)
    (h2 : CutKept N ys zs) : CutKept N xs zs where
  length := h2.length.trans h1.length
  dist := h2.dist
  verts := h2.verts.trans h1.verts
  pins e := (h2.pins e).trans (h1.pins e)
  live z hz n hn := by
    obtain ⟨y, hy, m, hm, a, b⟩ := h2.live z hz n hn
    obtain ⟨x, hx, l, hl, c, d⟩ := h1.live y hy m hm
    exact ⟨x, hx, l, hl, c.trans a, d.trans b⟩
  aside z hz n hn := by
    obtain ⟨y, hy, m, hm, a, b⟩ := h2.aside z hz n hn
    obtain ⟨x, hx, l, hl, c, d⟩ := h1.from hy hm
    exact ⟨x, hx, l, hl, c.trans a, d.trans b⟩
  nets x hx m hm := by
    obtain ⟨y, hy, n, hn, a⟩ := h1.nets x hx m hm
    obtain ⟨z, hz, l, hl, b⟩ := h2.nets y hy n hn
    exact ⟨z, hz, l, hl, b.trans a⟩
  sizes := h2.sizes.trans h1.sizes

theorem CutKept.append {N : Nat} {A A' B B' : List (Hypergraph × List Net)}
    (hD : Distributed N ((A ++ B).map (·.1))) (h1 : CutKept N A A') (h2 : CutKept N B B') :
    CutKept N (A ++ B) (A' ++ B') := by
  have hv : ((((A' ++ B').map (·.1)).flatMap (·.vertices)).map (fun v => (v.id, v.weight))).Perm
      ((((A ++ B).map (·.1)).flatMap (·.vertices)).map (fun v => (v.id, v.weight))) := by
    simp only [List.map_append, List.flatMap_append]
    exact h1.verts.append h2.verts
  have hl : ∀ y ∈ A' ++ B', ∀ n ∈ y.1.nets, ∃ x ∈ A ++ B, ∃ m ∈ x.1.nets, m.id = n.id ∧ m.cost = n.cost := by
    intro y hy n hn
    rcases List.mem_append.1 hy with hy | hy
    · obtain ⟨x, hx, h⟩ := h1.live y hy n hn
      exact ⟨x, List.mem_append_left _ hx, h⟩
    · obtain ⟨x, hx, h⟩ := h2.live y hy n hn
      exact ⟨x, List.mem_append_right _ hx, h⟩
  refine ⟨?_, ⟨?_, ?_, ?_, ?_⟩, hv, ?_, hl, ?_, ?_, ?_⟩
  · rw [List.length_append, List.length_append, h1.length, h2.length]
  · intro H hH
    rw [List.map_append] at hH
    rcases List.mem_append.1 hH with hH | hH
    · exact h1.dist.wf H hH
    · exact h2.dist.wf H hH
  · have h := hv.map Prod.fst
    rw [List.map_map, List.map_map] at h
    exact h.nodup_iff.2 hD.disjoint
  · intro H hH
    rw [List.map_append] at hH
    rcases List.mem_append.1 hH with hH | hH
    · exact h1.dist.ids H hH
    · exact h2.dist.ids H hH
  · intro H hH H' hH' n hn n' hn' hid
    obtain ⟨y, hy, rfl⟩ := List.mem_map.1 hH
    obtain ⟨y', hy', rfl⟩ := List.mem_map.1 hH'
    obtain ⟨x, hx, m, hm, a, b⟩ := hl y hy n hn
    obtain ⟨x', hx', m', hm', a', b'⟩ := hl y' hy' n' hn'
    rw [← b, ← b']
    exact hD.costs _ (List.mem_map_of_mem hx) _ (List.mem_map_of_mem hx') m hm m' hm' (by rw [a, a', hid])
  · intro e
    rw [List.flatMap_append, List.flatMap_append]
    exact (h1.pins e).append (h2.pins e)
  · intro y hy n hn
    rcases List.mem_append.1 hy with hy | hy
    · obtain ⟨x, hx, h⟩ := h1.aside y hy n hn
      exact ⟨x, List.mem_append_left _ hx, h⟩
    · obtain ⟨x, hx, h⟩ := h2.aside y hy n hn
      exact ⟨x, List.mem_append_right _ hx, h⟩
  · intro x hx m hm
    rcases List.mem_append.1 hx with hx | hx
    · obtain ⟨y, hy, h⟩ := h1.nets x hx m hm
      exact ⟨y, List.mem_append_left _ hy, h⟩
    · obtain ⟨y, hy, h⟩ := h2.nets x hx m hm
      exact ⟨y, List.mem_append_right _ hy, h⟩
  · rw [List.map_append, List.map_append, h1.sizes, h2.sizes]

theorem CutInv.append {G : List Nat} {A B : List (Hypergraph × List Net)} (h1 : CutInv G A) (h2 : CutInv G B) :
    CutInv G (A ++ B) :=
  ⟨fun x hx => (List.mem_append.1 hx).elim (h1.live x) (h2.live x),
    fun x hx => (List.mem_append.1 hx).elim (h1.gone x) (h2.gone x),
    fun x hx => (List.mem_append.1 hx).elim (h1.nodup x) (h2.nodup x),
    fun x hx => (List.mem_append.1 hx).elim (h1.pins x) (h2.pins x)⟩

theorem CutInv.sub {G : List Nat} {A B : List (Hypergraph × List Net)} (h : CutInv G B) (hs : ∀ x ∈ A, x ∈ B) :
    CutInv G A :=
  ⟨fun x hx => h.live x (hs x hx), fun x hx => h.gone x (hs x hx), fun x hx => h.nodup x (hs x hx),
    fun x hx => h.pins x (hs x hx)⟩

/-! ### Setting aside -/

theorem pinsIn_key {A B : List Net} (h : (A.map netKey).Perm (B.map netKey)) (e : Nat) :
    (pinsIn A e).Perm (pinsIn B e) := by
  have key : ∀ L : List Net, pinsIn L e = ((L.map netKey).filter (fun x => x.1 = e)).flatMap (·.2.1) := by
    intro L
    induction L with
    | nil => rfl
    | cons n L ih =>
      rw [pinsIn_cons, ih, List.map_cons, List.filter_cons]
      by_cases hn : n.id = e
      · rw [if_pos hn, if_pos (by unfold netKey; exact decide_eq_true hn), List.flatMap_cons]; rfl
      · rw [if_neg hn, if_neg (by unfold netKey; simpa using hn), List.nil_append]
  rw [key, key]
  exact (h.filter _).flatMap_right _

theorem mem_key {A B : List Net} (h : (A.map netKey).Perm (B.map netKey)) {n : Net} (hn : n ∈ A) :
    ∃ m ∈ B, m.id = n.id ∧ m.cost = n.cost := by
  have : netKey n ∈ B.map netKey := h.mem_iff.1 (List.mem_map_of_mem hn)
  obtain ⟨m, hm, e⟩ := List.mem_map.1 this
  unfold netKey at e
  injection e with e1 e2
  injection e2 with e2 e3
  exact ⟨m, hm, e1, e3⟩

theorem SetAside.verts {ids : List Nat} {H : Hypergraph} {cut : List Net} {y : Hypergraph × List Net}
    (h : SetAside ids H cut y) : y.1.vertices.map coreKey = H.vertices.map coreKey :=
  (forall2_map_eq h.vertices fun v v' hv => by
    unfold coreKey; rw [hv.1, hv.2.1, hv.2.2.1])

theorem SetAside.sizes {ids : List Nat} {H : Hypergraph} {cut : List Net} {y : Hypergraph × List Net}
    (h : SetAside ids H cut y) : sizes y.1 = sizes H := by
  unfold Spec.sizes
  rw [h.globalSize, h.globalNumberNets, h.nrNz]

theorem aside_kept {N : Nat} {ids : List Nat} {xs ys : List (Hypergraph × List Net)}
    (hD : Distributed N (xs.map (·.1))) (h : List.Forall₂ (fun x y => SetAside ids x.1 x.2 y) xs ys) :
    CutKept N xs ys := by
  have hl : ∀ y ∈ ys, ∀ n ∈ y.1.nets, ∃ x ∈ xs, n ∈ x.1.nets := by
    intro y hy n hn
    obtain ⟨x, hx, h1⟩ := forall2_mem_right h hy
    exact ⟨x, hx, (List.mem_filter.1 (h1.nets.mem_iff.1 hn)).1⟩
  have hv : (((ys.map (·.1)).flatMap (·.vertices)).map (fun v => (v.id, v.weight))).Perm
      (((xs.map (·.1)).flatMap (·.vertices)).map (fun v => (v.id, v.weight))) := by
    rw [List.flatMap_map, List.flatMap_map, List.map_flatMap, List.map_flatMap]
    apply forall2_flatMap_perm h
    intro x y _ hxy
    have := congrArg (List.map (fun k : Nat × Int × Int => (k.1, k.2.1))) hxy.verts
    rw [List.map_map, List.map_map] at this
    exact List.Perm.of_eq this
  refine ⟨h.length_eq.symm, ⟨?_, ?_, ?_, ?_⟩, hv, ?_, ?_, ?_, ?_, ?_⟩
  · intro H hH
    obtain ⟨y, hy, rfl⟩ := List.mem_map.1 hH
    obtain ⟨x, -, h1⟩ := forall2_mem_right h hy
    exact h1.wf
  · have h := hv.map Prod.fst
    rw [List.map_map, List.map_map] at h
    exact h.nodup_iff.2 hD.disjoint
  · intro H hH n hn
    obtain ⟨y, hy, rfl⟩ := List.mem_map.1 hH
    obtain ⟨x, hx, h1⟩ := hl y hy n hn
    exact hD.ids _ (List.mem_map_of_mem hx) n h1
  · intro H hH H' hH' n hn n' hn' hid
    obtain ⟨y, hy, rfl⟩ := List.mem_map.1 hH
    obtain ⟨y', hy', rfl⟩ := List.mem_map.1 hH'
    obtain ⟨x, hx, h1⟩ := hl y hy n hn
    obtain ⟨x', hx', h2⟩ := hl y' hy' n' hn'
    exact hD.costs _ (List.mem_map_of_mem hx) _ (List.mem_map_of_mem hx') n h1 n' h2 hid
  · intro e
    apply forall2_flatMap_perm h
    intro x y _ hxy
    exact pinsIn_key hxy.keeps e
  · intro y hy n hn
    obtain ⟨x, hx, h1⟩ := hl y hy n hn
    exact ⟨x, hx, n, h1, rfl, rfl⟩
  · intro y hy n hn
    obtain ⟨x, hx, h1⟩ := forall2_mem_right h hy
    obtain ⟨m, hm, h2⟩ := mem_key h1.keeps (List.mem_append_right _ hn)
    exact ⟨x, hx, m, hm, h2⟩
  · intro x hx m hm
    obtain ⟨y, hy, h1⟩ := forall2_mem_left h hx
    obtain ⟨n, hn, h2, -⟩ := mem_key h1.keeps.symm hm
    exact ⟨y, hy, n, hn, h2⟩
  · exact forall2_map_eq h fun x y hxy => hxy.sizes

theorem aside_inv {N : Nat} {G ids : List Nat} {xs ys : List (Hypergraph × List Net)}
    (hD : Distributed N (xs.map (·.1))) (hI : CutInv G xs)
    (h : List.Forall₂ (fun x y => SetAside ids x.1 x.2 y) xs ys)
    (hp : ∀ x ∈ xs, ∀ n ∈ x.1.nets, n.vertices ≠ []) : CutInv (G ++ ids) ys := by
  have hl : ∀ y ∈ ys, ∃ x ∈ xs, (∀ n ∈ y.1.nets, n ∈ x.1.nets ∧ n.id ∉ ids) ∧ ∃ l, y.2 = x.2 ++ l ∧
      l.Perm ((x.1.nets.filter (fun n => n.id ∈ ids)).map asideCopy) := by
    intro y hy
    obtain ⟨x, hx, h1⟩ := forall2_mem_right h hy
    refine ⟨x, hx, ?_, h1.cut⟩
    intro n hn
    have := List.mem_filter.1 (h1.nets.mem_iff.1 hn)
    exact ⟨this.1, by simpa using this.2⟩
  have hlm : ∀ (x : Hypergraph × List Net) (l : List Net),
      l.Perm ((x.1.nets.filter (fun n => n.id ∈ ids)).map asideCopy) → ∀ n ∈ l, ∃ m ∈ x.1.nets, m.id ∈ ids ∧
      n.id = m.id ∧ n.vertices = m.vertices := by
    intro x l hl n hn
    obtain ⟨m, hm, rfl⟩ := List.mem_map.1 (hl.mem_iff.1 hn)
    have := List.mem_filter.1 hm
    exact ⟨m, this.1, by simpa using this.2, rfl, rfl⟩
  refine ⟨?_, ?_, ?_, ?_⟩
  · intro y hy n hn
    obtain ⟨x, hx, h1, -⟩ := hl y hy
    have := hI.live x hx n (h1 n hn).1
    have := (h1 n hn).2
    simp_all
  · intro y hy n hn
    obtain ⟨x, hx, -, l, h1, h2⟩ := hl y hy
    rw [h1] at hn
    rcases List.mem_append.1 hn with hn | hn
    · exact List.mem_append_left _ (hI.gone x hx n hn)
    · obtain ⟨m, hm, h3, h4, -⟩ := hlm x l h2 n hn
      rw [h4]
      exact List.mem_append_right _ h3
  · intro y hy
    obtain ⟨x, hx, -, l, h1, h2⟩ := hl y hy
    rw [h1, List.map_append, List.nodup_append]
    refine ⟨hI.nodup x hx, ?_, ?_⟩
    · have h3 := h2.map (·.id)
      rw [h3.nodup_iff, List.map_map]
      have w := hD.wf x.1 (List.mem_map_of_mem hx)
      exact w.nids.sublist (List.filter_sublist.map _)
    · intro e he e' he' hee
      obtain ⟨n, hn, rfl⟩ := List.mem_map.1 he
      obtain ⟨n', hn', rfl⟩ := List.mem_map.1 he'
      obtain ⟨m, hm, h3, h4, -⟩ := hlm x l h2 n' hn'
      apply hI.live x hx m hm
      rw [← h4, ← hee]
      exact hI.gone x hx n hn
  · intro y hy n hn
    obtain ⟨x, hx, -, l, h1, h2⟩ := hl y hy
    rw [h1] at hn
    rcases List.mem_append.1 hn with hn | hn
    · exact hI.pins x hx n hn
    · obtain ⟨m, hm, h3, -, h4⟩ := hlm x l h2 n hn
      rw [h4]
      exact hp x hx m hm

/-! ### Moving vertices -/

theorem wide_pins_zip (A : List Hypergraph) (cuts : List (List Net)) (hl : cuts.length = A.length) (e : Nat) :
    ((A.zip cuts).flatMap (fun x => pinsIn (wide x) e)).Perm
      (unionPins A e ++ cuts.flatMap (fun c => pinsIn c e)) := by
  induction A generalizing cuts with
  | nil =>
    have : cuts = [] := List.eq_nil_of_length_eq_zero (by simpa using hl)
    rw [this]; exact .refl _
  | cons H A ih =>
    cases cuts with
    | nil => simp at hl
    | cons c cuts =>
      have h1 := ih cuts (by simpa using hl)
      have h2 : unionPins (H :: A) e = pinsIn H.nets e ++ unionPins A e := rfl
      rw [List.zip_cons_cons, List.flatMap_cons, List.flatMap_cons, h2]
      unfold wide at h1 ⊢
      dsimp only
      rw [pinsIn_append]
      refine (List.Perm.append_left _ h1).trans ?_
      rw [List.perm_iff_count]
      intro a
      simp only [List.count_append]
      omega

theorem zip_of_mem {A : List Hypergraph} {cuts : List (List Net)} (hl : cuts.length = A.length) {H : Hypergraph}
    (hH : H ∈ A) : ∃ c, (H, c) ∈ A.zip cuts := by
  have : H ∈ (A.zip cuts).map Prod.fst := by rw [List.map_fst_zip (by omega)]; exact hH
  obtain ⟨x, hx, rfl⟩ := List.mem_map.1 this
  exact ⟨x.2, hx⟩

theorem zip_of_mem_right {A : List Hypergraph} {cuts : List (List Net)} (hl : cuts.length = A.length) {c : List Net}
    (hc : c ∈ cuts) : ∃ H, (H, c) ∈ A.zip cuts := by
  have : c ∈ (A.zip cuts).map Prod.snd := by rw [List.map_snd_zip (by omega)]; exact hc
  obtain ⟨x, hx, rfl⟩ := List.mem_map.1 this
  exact ⟨x.1, hx⟩

theorem kept_cutKept {N : Nat} {A B : List Hypergraph} {cuts : List (List Net)} (hD : Distributed N A)
    (h : Kept N A B) (hl : cuts.length = A.length) : CutKept N (A.zip cuts) (B.zip cuts) := by
  have hlB : cuts.length = B.length := by rw [hl, h.length]
  have eA : (A.zip cuts).map (·.1) = A := List.map_fst_zip (by omega)
  have eB : (B.zip cuts).map (·.1) = B := List.map_fst_zip (by omega)
  refine ⟨?_, by rw [eB]; exact h.dist, by rw [eA, eB]; exact h.verts, ?_, ?_, ?_, ?_, ?_⟩
  · rw [List.length_zip, List.length_zip, h.length]
  · intro e
    exact (wide_pins_zip B cuts hlB e).trans (((h.pins e).append_right _).trans (wide_pins_zip A cuts hl e).symm)
  · intro y hy n hn
    obtain ⟨H0, h0, m, hm, a, b⟩ := h.net hD (List.of_mem_zip hy).1 hn
    obtain ⟨c, hc⟩ := zip_of_mem hl h0
    exact ⟨_, hc, m, hm, a, b⟩
  · intro y hy n hn
    obtain ⟨H0, h0⟩ := zip_of_mem_right hl (List.of_mem_zip hy).2
    exact ⟨_, h0, n, List.mem_append_right _ hn, rfl, rfl⟩
  · intro x hx m hm
    rcases List.mem_append.1 hm with hm | hm
    · obtain ⟨H', h', hn⟩ := (h.nets m.id).2 ⟨x.1, (List.of_mem_zip hx).1, List.mem_map.2 ⟨m, hm, rfl⟩⟩
      obtain ⟨n, hn, e⟩ := List.mem_map.1 hn
      obtain ⟨c, hc⟩ := zip_of_mem hlB h'
      exact ⟨_, hc, n, List.mem_append_left _ hn, e⟩
    · obtain ⟨H', h'⟩ := zip_of_mem_right hlB (List.of_mem_zip hx).2
      exact ⟨_, h', m, List.mem_append_right _ hm, rfl⟩
  · have := h.sizes
    have e1 : (A.zip cuts).map (fun y => Spec.sizes y.1) = A.map Spec.sizes := by
      conv_rhs => rw [← eA]
      rw [List.map_map]; rfl
    have e2 : (B.zip cuts).map (fun y => Spec.sizes y.1) = B.map Spec.sizes := by
      conv_rhs => rw [← eB]
      rw [List.map_map]; rfl
    rw [e1, e2, this]

theorem kept_inv {N : Nat} {G : List Nat} {A B : List Hypergraph} {cuts : List (List Net)} (hD : Distributed N A)
    (h : Kept N A B) (hl : cuts.length = A.length) (hI : CutInv G (A.zip cuts)) : CutInv G (B.zip cuts) := by
  have hlB : cuts.length = B.length := by rw [hl, h.length]
  refine ⟨?_, ?_, ?_, ?_⟩
  · intro y hy n hn
    obtain ⟨H0, h0, m, hm, a, b⟩ := h.net hD (List.of_mem_zip hy).1 hn
    obtain ⟨c, hc⟩ := zip_of_mem hl h0
    rw [← a]
    exact hI.live _ hc m hm
  · intro y hy
    obtain ⟨H0, h0⟩ := zip_of_mem_right hl (List.of_mem_zip hy).2
    exact hI.gone (H0, y.2) h0
  · intro y hy
    obtain ⟨H0, h0⟩ := zip_of_mem_right hl (List.of_mem_zip hy).2
    exact hI.nodup (H0, y.2) h0
  · intro y hy
    obtain ⟨H0, h0⟩ := zip_of_mem_right hl (List.of_mem_zip hy).2
    exact hI.pins (H0, y.2) h0

/-- The state of all processors at the end of the recursion, in terms of the state `xs` before. -/
structure CutDone (N k : Nat) (xs : List (Hypergraph × List Net)) (G : List Nat)
    (ys : List (Hypergraph × List Net)) : Prop where
  kept : CutKept N xs ys
  inv : CutInv G ys
  parts : ∀ y ∈ ys, ∀ v ∈ y.1.vertices, 0 ≤ v.part ∧ v.part < k

theorem CutDone.before {N k : Nat} {xs ys zs : List (Hypergraph × List Net)} {G : List Nat} (h : CutKept N xs ys)
    (h2 : CutDone N k ys G zs) : CutDone N k xs G zs := ⟨h.trans h2.kept, h2.inv, h2.parts⟩

theorem CutDone.append {N k : Nat} {A A' B B' : List (Hypergraph × List Net)} {G : List Nat}
    (hD : Distributed N ((A ++ B).map (·.1))) (h1 : CutDone N k A G A') (h2 : CutDone N k B G B') :
    CutDone N k (A ++ B) G (A' ++ B') :=
  ⟨h1.kept.append hD h2.kept, h1.inv.append h2.inv,
    fun y hy => (List.mem_append.1 hy).elim (h1.parts y) (h2.parts y)⟩

theorem removeSync_done {N k : Nat} (C : CutEnv) (path : List Bool) (base : Nat) {xs : List (Hypergraph × List Net)}
    (hD : Distributed N (xs.map (·.1))) {S : Prop} {E : Err → Prop} (hE : E .ub)
    {G : List Nat} (hI : CutInv G xs)
    (hp : ∀ x ∈ xs, ∀ v ∈ x.1.vertices, 0 ≤ v.part ∧ v.part < k) :
    (removeSync C path base xs).Ends S (CutDone N k xs) E 1 G := by
  refine (removeSync_ends C path base (fun x hx => hD.wf _ (List.mem_map_of_mem hx)) hE G).mono ?_
  rintro G' ys ⟨ids, rfl, h1, h2⟩
  refine ⟨aside_kept hD h1, aside_inv hD hI h1 h2, ?_⟩
  intro y hy v hv
  obtain ⟨x, hx, h3⟩ := forall2_mem_right h1 hy
  obtain ⟨u, hu, h4⟩ := forall2_right h3.vertices hv
  rw [h4.2.2.1]
  exact hp x hx u hu

theorem lastRemove_done {N k : Nat} (C : CutEnv) (path : List Bool) (base splits : Nat)
    {xs : List (Hypergraph × List Net)} (hD : Distributed N (xs.map (·.1))) {S : Prop} {E : Err → Prop}
    (hE : E .ub) {G : List Nat} (hI : CutInv G xs) (hp : ∀ x ∈ xs, ∀ v ∈ x.1.vertices, 0 ≤ v.part ∧ v.part < k) :
    (lastRemove C path base k splits xs).Ends S (CutDone N k xs) E (if splits * 2 < k then 1 else 0) G := by
  unfold lastRemove
  split
  · exact removeSync_done C path base hD hE hI hp
  · exact ⟨fun _ => rfl, .refl hD, hI, hp⟩

end PMondriaan
