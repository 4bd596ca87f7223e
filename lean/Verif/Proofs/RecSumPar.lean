import Verif.Spec.RecSumPar
import Verif.Proofs.RecSum
import Verif.Proofs.RecBalancePar
import Verif.Props.RecSum
import Mathlib.Data.Finset.Card

/-
The number of parts of a net and the bisections that cut it, on several processors.
-/

namespace PMondriaan

open Spec

/-! ### The labels of a net -/

/-- The parts of the pins of net `e`. -/
def netLabels (Hs : List Hypergraph) (e : Nat) : Finset Int :=
  (((Hs.flatMap (·.vertices)).filter (fun v => e ∈ v.nets)).map (·.part)).toFinset

theorem mem_netLabels {Hs : List Hypergraph} {e : Nat} {q : Int} :
    q ∈ netLabels Hs e ↔ ∃ H ∈ Hs, ∃ v ∈ H.vertices, e ∈ v.nets ∧ v.part = q := by
  unfold netLabels
  rw [List.mem_toFinset, List.mem_map]
  constructor
  · rintro ⟨v, hv, rfl⟩
    obtain ⟨h1, h2⟩ := List.mem_filter.1 hv
    obtain ⟨H, hH, hv⟩ := List.mem_flatMap.1 h1
    exact ⟨H, hH, v, hv, by simpa using h2, rfl⟩
  · rintro ⟨H, hH, v, hv, he, rfl⟩
    exact ⟨v, List.mem_filter.2 ⟨List.mem_flatMap.2 ⟨H, hH, hv⟩, by simpa using he⟩, rfl⟩

theorem netLabels_append (A B : List Hypergraph) (e : Nat) :
    netLabels (A ++ B) e = netLabels A e ∪ netLabels B e := by
  unfold netLabels
  rw [List.flatMap_append, List.filter_append, List.map_append, List.toFinset_append]

theorem netLabels_perm {A B : List Hypergraph} (h : (A.flatMap (·.vertices)).Perm (B.flatMap (·.vertices))) (e : Nat) :
    netLabels A e = netLabels B e := by
  unfold netLabels
  exact List.toFinset_eq_of_perm _ _ ((h.filter _).map _)

theorem pin_iff {N : Nat} {Hs : List Hypergraph} (hD : Distributed N Hs) {v : Vertex}
    (hv : v ∈ Hs.flatMap (·.vertices)) {e : Nat} : v.id ∈ unionPins Hs e ↔ e ∈ v.nets := by
  rw [mem_unionPins_vertex hD]
  constructor
  · rintro ⟨u, hu, h1, h2⟩
    rwa [List.inj_on_of_nodup_map hD.disjoint hu hv h1] at h2
  · intro h
    exact ⟨v, hv, rfl, h⟩

theorem netLabels_connectivity {N : Nat} {Hs : List Hypergraph} (hD : Distributed N Hs) (e : Nat) :
    connectivity (partOf (unionH N Hs)) (unionNet Hs e) = (netLabels Hs e).card := by
  unfold connectivity
  rw [← List.card_toFinset]
  congr 1
  ext q
  rw [List.mem_toFinset, List.mem_map, mem_netLabels]
  constructor
  · rintro ⟨u, hu, rfl⟩
    obtain ⟨v, hv, rfl, he⟩ := (mem_unionPins_vertex hD).1 hu
    obtain ⟨H, hH, hv'⟩ := List.mem_flatMap.1 hv
    exact ⟨H, hH, v, hv', he, ((unionH_wf hD).partOf_eq hv).symm⟩
  · rintro ⟨H, hH, v, hv, he, rfl⟩
    have hv' : v ∈ Hs.flatMap (·.vertices) := List.mem_flatMap.2 ⟨H, hH, hv⟩
    exact ⟨v.id, (mem_unionPins_vertex hD).2 ⟨v, hv', rfl, he⟩, (unionH_wf hD).partOf_eq hv'⟩

theorem netLabels_nonempty {N : Nat} {Hs : List Hypergraph} (hD : Distributed N Hs) (e : Nat) :
    (netLabels Hs e).Nonempty ↔ unionPins Hs e ≠ [] := by
  constructor
  · rintro ⟨q, hq⟩
    obtain ⟨H, hH, v, hv, he, -⟩ := mem_netLabels.1 hq
    exact List.ne_nil_of_mem ((mem_unionPins_vertex hD).2 ⟨v, List.mem_flatMap.2 ⟨H, hH, hv⟩, rfl, he⟩)
  · intro h
    obtain ⟨u, hu⟩ := List.exists_mem_of_ne_nil _ h
    obtain ⟨v, hv, rfl, he⟩ := (mem_unionPins_vertex hD).1 hu
    obtain ⟨H, hH, hv⟩ := List.mem_flatMap.1 hv
    exact ⟨v.part, mem_netLabels.2 ⟨H, hH, v, hv, he, rfl⟩⟩

theorem Spec.Kept.nonempty {N : Nat} {Hs Hs' : List Hypergraph} (h : Kept N Hs Hs') (hD : Distributed N Hs) (e : Nat) :
    (netLabels Hs' e).Nonempty ↔ (netLabels Hs e).Nonempty := by
  rw [netLabels_nonempty h.dist, netLabels_nonempty hD, ne_eq, ne_eq, not_iff_not]
  constructor
  · intro h1; have := h.pins e; rw [h1] at this; exact this.nil_eq.symm
  · intro h1; have := h.pins e; rw [h1] at this; exact this.eq_nil

/-- The labels in an interval. -/
def inside (labels : Interval) (F : Finset Int) : Finset Int := F.filter (fun q => labels.low ≤ q ∧ q ≤ labels.high)

theorem mem_inside {labels : Interval} {F : Finset Int} {q : Int} :
    q ∈ inside labels F ↔ q ∈ F ∧ labels.low ≤ q ∧ q ≤ labels.high := by
  unfold inside; rw [Finset.mem_filter]

/-- Two groups of labels. -/
theorem count_join {F FA FB : Finset Int} (hF : ∀ q, q ∈ F ↔ q ∈ FA ∨ q ∈ FB) (hd : ∀ q ∈ FA, q ∉ FB) {pl ph : Prop}
    (ha : FA.Nonempty ↔ pl) (hb : FB.Nonempty ↔ ph) [Decidable (pl ∧ ph)] :
    F.card - 1 = (FA.card - 1) + (FB.card - 1) + if pl ∧ ph then 1 else 0 := by
  have e : F = FA ∪ FB := by ext q; rw [Finset.mem_union, hF]
  rw [e, Finset.card_union_of_disjoint (Finset.disjoint_left.2 fun {q} h => hd q h)]
  rw [← Finset.card_pos] at ha hb
  split
  · rename_i h
    have := ha.2 h.1
    have := hb.2 h.2
    omega
  · rename_i h
    have : FA.card = 0 ∨ FB.card = 0 := by
      by_contra hc
      push Not at hc
      exact h ⟨ha.1 (Nat.pos_of_ne_zero hc.1), hb.1 (Nat.pos_of_ne_zero hc.2)⟩
    omega

/-! ### One bisection by a group -/

/-- The bisection of a group as recorded by `GroupBisections`. -/
def rangesOf (xs : List RecProc) (rs : List RState) : List RangeOf :=
  (xs.zip rs).map (fun y => { H := y.2.H, s := 0, e := y.1.fin })

theorem rangesOf_H {xs : List RecProc} {rs : List RState} (h : xs.length = rs.length) :
    (rangesOf xs rs).map (·.H) = rs.map (·.H) := by
  unfold rangesOf
  rw [List.map_map]
  have : (xs.zip rs).map Prod.snd = rs := List.map_snd_zip (by omega)
  conv_rhs => rw [← this, List.map_map]
  rfl

theorem groupCuts_iff {N : Nat} {labels : Interval} {xs : List RecProc} {rs : List RState}
    (hB : BisectFacts labels xs rs) (hD : Distributed N (rs.map (·.H))) (hlh : labels.low < labels.high) (e : Nat) :
    GroupCuts (rangesOf xs rs) e ↔
      labels.low ∈ netLabels (rs.map (·.H)) e ∧ labels.high ∈ netLabels (rs.map (·.H)) e := by
  have hlen := hB.relabels.length_eq
  have hrest := fun a b => @(List.forall₂_iff_zip.1 hB.rest).2 a b
  have hin : ∀ x ∈ rangesOf xs rs, ∀ u ∈ slice x.H.vertices x.s x.e, u.id ∈ unionPins ((rangesOf xs rs).map (·.H)) e →
      (u.part = labels.low ∨ u.part = labels.high) ∧ u.part ∈ netLabels (rs.map (·.H)) e := by
    intro x hx u hu hp
    rw [rangesOf_H hlen] at hp
    obtain ⟨⟨y, r⟩, hy, rfl⟩ := List.mem_map.1 hx
    obtain ⟨i, -, i2, i3⟩ := mem_slice.1 hu
    dsimp only at i2 i3
    have hr : r.H ∈ rs.map (·.H) := List.mem_map_of_mem (List.of_mem_zip hy).2
    have hm := List.mem_of_getElem? i3
    rw [pin_iff hD (List.mem_flatMap.2 ⟨_, hr, hm⟩)] at hp
    refine ⟨?_, mem_netLabels.2 ⟨_, hr, u, hm, hp, rfl⟩⟩
    rcases hrest _ _ hy i u i3 with h | h
    · exact h.2
    · omega
  have hout : ∀ q, q = labels.low ∨ q = labels.high → q ∈ netLabels (rs.map (·.H)) e → ∃ x ∈ rangesOf xs rs,
      ∃ u ∈ slice x.H.vertices x.s x.e, u.id ∈ unionPins ((rangesOf xs rs).map (·.H)) e ∧ u.part = q := by
    intro q hq hm
    obtain ⟨H, hH, v, hv, he, rfl⟩ := mem_netLabels.1 hm
    obtain ⟨r, hr, rfl⟩ := List.mem_map.1 hH
    obtain ⟨i, hi⟩ := List.mem_iff_getElem?.1 hr
    have hil := (List.getElem?_eq_some_iff.1 hi).1
    have hz : (xs[i]'(by omega), r) ∈ xs.zip rs := by
      apply List.mem_of_getElem? (i := i)
      rw [List.getElem?_zip_eq_some]
      exact ⟨List.getElem?_eq_getElem (by omega), hi⟩
    obtain ⟨j, hj⟩ := List.mem_iff_getElem?.1 hv
    refine ⟨_, List.mem_map_of_mem hz, v, mem_slice.2 ⟨j, Nat.zero_le _, ?_, hj⟩, ?_, rfl⟩
    · dsimp only
      rcases hrest _ _ hz j v hj with h | h
      · exact h.1
      · omega
    · rw [rangesOf_H hlen, pin_iff hD (List.mem_flatMap.2 ⟨_, hH, hv⟩)]
      exact he
  constructor
  · rintro ⟨x, hx, y, hy, u, hu, w, hw, pu, pw, hne⟩
    obtain ⟨a1, a2⟩ := hin x hx u hu pu
    obtain ⟨b1, b2⟩ := hin y hy w hw pw
    rcases a1 with a1 | a1 <;> rcases b1 with b1 | b1
    · exact absurd (a1.trans b1.symm) hne
    · exact ⟨a1 ▸ a2, b1 ▸ b2⟩
    · exact ⟨b1 ▸ b2, a1 ▸ a2⟩
    · exact absurd (a1.trans b1.symm) hne
  · rintro ⟨h1, h2⟩
    obtain ⟨x, hx, u, hu, pu, e1⟩ := hout _ (Or.inl rfl) h1
    obtain ⟨y, hy, w, hw, pw, e2⟩ := hout _ (Or.inr rfl) h2
    exact ⟨x, hx, y, hy, u, hu, w, hw, pu, pw, by omega⟩

/-- A group without finished vertices. -/
def FullGroup (xs : List RecProc) : Prop := ∀ x ∈ xs, x.fin = x.H.vertices.length

theorem BisectFacts.full {labels : Interval} {xs : List RecProc} {rs : List RState} (hB : BisectFacts labels xs rs)
    (hF : FullGroup xs) : ∀ v ∈ (rs.map (·.H)).flatMap (·.vertices), v.part = labels.low ∨ v.part = labels.high := by
  intro v hv
  obtain ⟨H, hH, hv⟩ := List.mem_flatMap.1 hv
  obtain ⟨r, hr, rfl⟩ := List.mem_map.1 hH
  obtain ⟨i, hi⟩ := List.mem_iff_getElem?.1 hr
  have hil := (List.getElem?_eq_some_iff.1 hi).1
  have hlen := hB.relabels.length_eq
  have hz : (xs[i]'(by omega), r) ∈ xs.zip rs := by
    apply List.mem_of_getElem? (i := i)
    rw [List.getElem?_zip_eq_some]
    exact ⟨List.getElem?_eq_getElem (by omega), hi⟩
  obtain ⟨j, hj⟩ := List.mem_iff_getElem?.1 hv
  have h1 := (List.forall₂_iff_zip.1 hB.rest).2 hz j v hj
  have h2 := (List.forall₂_iff_zip.1 hB.relabels).2 hz
  have h3 := hF _ (List.of_mem_zip hz).1
  have h4 := (List.getElem?_eq_some_iff.1 hj).1
  have h5 := h2.length
  rcases h1 with h | h
  · exact h.2
  · omega

theorem recPar_kept {P : ParRecEnv} {N T k : Nat} {Bad : Err → Prop} (hP : ParRecEnvOk P N T Bad)
    (hN : N < 2147483648) {eta : ℚ} (heta : 0 ≤ eta) {M : Int} {fuel : Nat} {path : List Bool}
    {labels : Interval} {weight : Int} {xs : List RecProc} (hI : GroupInv N T k labels xs) (hf : labels.count ≤ fuel)
    {r : GroupResult} (h : recPar P eta M fuel path labels weight xs = .ok r) : Kept N (xs.map (·.H)) r.Hs := by
  rcases recPar_spec hP hN heta M fuel path labels weight xs hI hf with ⟨r', h', hk, -⟩ | ⟨e, h', -⟩
  · rw [h] at h'
    obtain rfl := Except.ok.inj h'
    exact hk
  · rw [h] at h'; cases h'

/-- A group without finished vertices gives its own labels. -/
theorem recPar_full {P : ParRecEnv} {N T k : Nat} {Bad : Err → Prop} (hP : ParRecEnvOk P N T Bad)
    (hN : N < 2147483648) {eta : ℚ} (heta : 0 ≤ eta) {M : Int} {fuel : Nat} {path : List Bool}
    {labels : Interval} {weight : Int} {xs : List RecProc} (hI : GroupInv N T k labels xs) (hF : FullGroup xs)
    (hf : labels.count ≤ fuel) {r : GroupResult} (h : recPar P eta M fuel path labels weight xs = .ok r) :
    ∀ H ∈ r.Hs, ∀ v ∈ H.vertices, labels.low ≤ v.part ∧ v.part ≤ labels.high := by
  intro H hH v hv
  by_contra hc
  have hp := (recPar_kept hP hN heta hI hf h).pos hI.pos
  have h1 := (recPar_outside hP hN heta M fuel path labels weight xs hI (fun _ => hF) hf r h v.part (by omega)).1
  have h2 : restOn xs v.part = 0 := by
    apply restOn_none
    intro x hx i u hu hi
    have := hF x hx
    have := (List.getElem?_eq_some_iff.1 hu).1
    omega
  have h3 := partOn_nonneg hp v.part
  exact partOn_zero hp (by omega) H hH v hv rfl

theorem recPar_labels_inside {P : ParRecEnv} {N T k : Nat} {Bad : Err → Prop} (hP : ParRecEnvOk P N T Bad)
    (hN : N < 2147483648) {eta : ℚ} (heta : 0 ≤ eta) {M : Int} {fuel : Nat} {path : List Bool}
    {labels : Interval} {weight : Int} {xs : List RecProc} (hI : GroupInv N T k labels xs) (hF : FullGroup xs)
    (hf : labels.count ≤ fuel) {r : GroupResult} (h : recPar P eta M fuel path labels weight xs = .ok r) (e : Nat) :
    inside labels (netLabels r.Hs e) = netLabels r.Hs e := by
  unfold inside
  rw [Finset.filter_eq_self]
  intro q hq
  obtain ⟨H, hH, v, hv, -, rfl⟩ := mem_netLabels.1 hq
  exact recPar_full hP hN heta hI hF hf h H hH v hv

/-- When both sides get processors, the low vertices go to the low processors and the high ones to the others. -/
theorem afterRedist_separated {P : ParRecEnv} {N T k : Nat} {Bad : Err → Prop} (hP : ParRecEnvOk P N T Bad) {eta : ℚ}
    (heta : 0 ≤ eta) {path : List Bool} {labels : Interval} {xs : List RecProc} (hI : GroupInv N T k labels xs)
    {sp : ParSplit} {rs : List RState} (hS : SplitFactsPar P eta path N labels xs sp rs) {ys : List (Hypergraph × Int)}
    (hy : redistribute (P.ord path) (P.dVert path) (P.dCost path) sp.plow labels.low
      labels.high (redistArgs P.rnd eta sp.w0 sp.w1 sp.plow rs) = .ok ys) (h0 : sp.plow ≠ 0) (h1 : sp.plow < xs.length) :
    (∀ z ∈ (afterRedist rs ys).take sp.plow, ∀ v ∈ z.H.vertices, 0 < v.weight → v.part ≠ labels.high) ∧
      ∀ z ∈ (afterRedist rs ys).drop sp.plow, ∀ v ∈ z.H.vertices, 0 < v.weight → v.part ≠ labels.low := by
  have hlen : rs.length = xs.length := hS.bis.relabels.length_eq.symm
  have e0 := redistArgs_total P.rnd eta sp.w0 sp.w1 sp.plow rs labels.low
  have e1 := redistArgs_total P.rnd eta sp.w0 sp.w1 sp.plow rs labels.high
  rw [← hS.w0] at e0
  rw [← hS.w1] at e1
  have hs := hS.sides
  have hpr := hI.procs
  obtain ⟨res, hr, hsep⟩ := C46_separated_code hS.input (hP.ord path) (hP.dVert path) (hP.dCost path) (plow := sp.plow)
    (by rw [redistArgs_length]; omega) (by rw [redistArgs_length]; omega) hP.keeps hP.rounds heta
    (by rw [e0]; omega) (by rw [e1]; omega) (by
      intro t a ht
      obtain ⟨r, -, rfl⟩ := redistArgs_get ht
      rw [e0, e1, redistArgs_length])
  rw [hy] at hr
  obtain rfl := Except.ok.inj hr
  have hget : ∀ (t : Nat) z, (afterRedist rs ys)[t]? = some z → ∃ y, ys[t]? = some y ∧ z.H = y.1 := by
    intro t z hz
    unfold afterRedist at hz
    rw [List.getElem?_map] at hz
    obtain ⟨⟨r, y⟩, hx, rfl⟩ := Option.map_eq_some_iff.1 hz
    exact ⟨y, (List.getElem?_zip_eq_some.1 hx).2, rfl⟩
  constructor
  · intro z hz v hv hw hq
    obtain ⟨t, ht⟩ := List.mem_iff_getElem?.1 hz
    rw [List.getElem?_take] at ht
    split at ht
    · obtain ⟨y, hy', hH⟩ := hget t z ht
      rw [hH] at hv
      have := (hsep t y hy' v hv hw).2 hq
      omega
    · cases ht
  · intro z hz v hv hw hq
    obtain ⟨t, ht⟩ := List.mem_iff_getElem?.1 hz
    rw [List.getElem?_drop] at ht
    obtain ⟨y, hy', hH⟩ := hget _ z ht
    rw [hH] at hv
    have := (hsep _ y hy' v hv hw).1 hq (by omega)
    omega

/-- The low side without processors keeps its label in the last round. -/
theorem keeps_low {N : Nat} {labels labels' : Interval} {rs rs' : List RState} {zs : List RecProc}
    (hA : AfterFacts N labels 0 rs zs) (hB : BisectFacts labels' zs rs') (hll : labels.low < labels'.low)
    (hlh : labels'.low ≤ labels'.high)
    (hp : ∀ z ∈ zs, ∀ v ∈ z.H.vertices, v.part = labels.low ∨ v.part = labels.high) (hne : labels.low ≠ labels.high) (e : Nat) :
    (∀ q, q ∈ netLabels (rs'.map (·.H)) e ↔ (q = labels.low ∧ labels.low ∈ netLabels (zs.map (·.H)) e) ∨
      q ∈ inside labels' (netLabels (rs'.map (·.H)) e)) ∧
    ((inside labels' (netLabels (rs'.map (·.H)) e)).Nonempty ↔ labels.high ∈ netLabels (zs.map (·.H)) e) := by
  have hlen := hB.relabels.length_eq
  have hrest := fun a b => @(List.forall₂_iff_zip.1 hB.rest).2 a b
  have hrel := fun a b => @(List.forall₂_iff_zip.1 hB.relabels).2 a b
  have hA' := hA.rest rfl
  have hzl : ∀ z ∈ zs, ∃ r ∈ rs', (z, r) ∈ zs.zip rs' := by
    intro z hz
    obtain ⟨i, hi⟩ := List.mem_iff_getElem?.1 hz
    have hil := (List.getElem?_eq_some_iff.1 hi).1
    have hm : (z, rs'[i]'(by omega)) ∈ zs.zip rs' := by
      apply List.mem_of_getElem? (i := i)
      rw [List.getElem?_zip_eq_some]
      exact ⟨hi, List.getElem?_eq_getElem (by omega)⟩
    exact ⟨_, List.getElem_mem _, hm⟩
  have hzr : ∀ r ∈ rs', ∃ z ∈ zs, (z, r) ∈ zs.zip rs' := by
    intro r hr
    obtain ⟨i, hi⟩ := List.mem_iff_getElem?.1 hr
    have hil := (List.getElem?_eq_some_iff.1 hi).1
    have hm : (zs[i]'(by omega), r) ∈ zs.zip rs' := by
      apply List.mem_of_getElem? (i := i)
      rw [List.getElem?_zip_eq_some]
      exact ⟨List.getElem?_eq_getElem (by omega), hi⟩
    exact ⟨_, List.getElem_mem _, hm⟩
  -- a vertex before and after
  have hpair : ∀ z r, (z, r) ∈ zs.zip rs' → ∀ (i : Nat) (v' : Vertex), r.H.vertices[i]? = some v' →
      ∃ v, z.H.vertices[i]? = some v ∧ v'.nets = v.nets ∧
        ((v.part = labels.high ∧ labels'.low ≤ v'.part ∧ v'.part ≤ labels'.high) ∨
          (v.part = labels.low ∧ v'.part = labels.low)) := by
    intro z r hz i v' hv'
    have h1 := hrel _ _ hz
    have hil : i < z.H.vertices.length := by rw [← h1.length]; exact (List.getElem?_eq_some_iff.1 hv').1
    have hi := List.getElem?_eq_getElem hil
    have hzm := (List.of_mem_zip hz).1
    refine ⟨_, hi, ?_⟩
    have h2 := hA' z hzm i _ hi
    have h3 := hp z hzm _ (List.mem_of_getElem? hi)
    have h4 := hrest _ _ hz i v' hv'
    by_cases hlt : i < z.fin
    · obtain ⟨p, hpp, h5⟩ := h1.inside i _ (Nat.zero_le _) hlt hi
      rw [hv'] at h5
      obtain rfl := Option.some.inj h5
      refine ⟨rfl, Or.inl ⟨?_, ?_⟩⟩
      · rcases h3 with h3 | h3
        · exact absurd h3 (h2.1 hlt)
        · exact h3
      · dsimp only; omega
    · have h5 := h1.outside i (by omega)
      rw [hv', hi] at h5
      obtain rfl := Option.some.inj h5
      refine ⟨rfl, Or.inr ?_⟩
      have : z.H.vertices[i].part = labels.low := by
        by_contra hc
        exact hlt (h2.2 hc)
      exact ⟨this, this⟩
  have hpair' : ∀ z r, (z, r) ∈ zs.zip rs' → ∀ (i : Nat) (v : Vertex), z.H.vertices[i]? = some v →
      ∃ v', r.H.vertices[i]? = some v' ∧ v'.nets = v.nets ∧
        ((v.part = labels.high ∧ labels'.low ≤ v'.part ∧ v'.part ≤ labels'.high) ∨
          (v.part = labels.low ∧ v'.part = labels.low)) := by
    intro z r hz i v hv
    have hil : i < r.H.vertices.length := by rw [(hrel _ _ hz).length]; exact (List.getElem?_eq_some_iff.1 hv).1
    have hi := List.getElem?_eq_getElem hil
    obtain ⟨u, h1, h2⟩ := hpair z r hz i _ hi
    rw [hv] at h1
    obtain rfl := Option.some.inj h1
    exact ⟨_, hi, h2⟩
  refine ⟨?_, ?_⟩
  · intro q
    constructor
    · intro hq
      obtain ⟨H, hH, v', hv', he, rfl⟩ := mem_netLabels.1 hq
      obtain ⟨r, hr, rfl⟩ := List.mem_map.1 hH
      obtain ⟨z, hz, hzr'⟩ := hzr r hr
      obtain ⟨i, hi⟩ := List.mem_iff_getElem?.1 hv'
      obtain ⟨v, h1, h2, h3⟩ := hpair z r hzr' i v' hi
      rcases h3 with h3 | h3
      · exact Or.inr (mem_inside.2 ⟨hq, h3.2⟩)
      · exact Or.inl ⟨h3.2, mem_netLabels.2 ⟨_, List.mem_map_of_mem hz, v, List.mem_of_getElem? h1, h2 ▸ he, h3.1⟩⟩
    · rintro (⟨rfl, hq⟩ | hq)
      · obtain ⟨H, hH, v, hv, he, hq⟩ := mem_netLabels.1 hq
        obtain ⟨z, hz, rfl⟩ := List.mem_map.1 hH
        obtain ⟨r, hr, hzr'⟩ := hzl z hz
        obtain ⟨i, hi⟩ := List.mem_iff_getElem?.1 hv
        obtain ⟨v', h1, h2, h3⟩ := hpair' z r hzr' i v hi
        rcases h3 with h3 | h3
        · exact absurd (hq.symm.trans h3.1) hne
        · exact mem_netLabels.2 ⟨_, List.mem_map_of_mem hr, v', List.mem_of_getElem? h1, by rw [h2]; exact he, h3.2⟩
      · exact (mem_inside.1 hq).1
  · constructor
    · rintro ⟨q, hq⟩
      obtain ⟨hq, hq2⟩ := mem_inside.1 hq
      obtain ⟨H, hH, v', hv', he, rfl⟩ := mem_netLabels.1 hq
      obtain ⟨r, hr, rfl⟩ := List.mem_map.1 hH
      obtain ⟨z, hz, hzr'⟩ := hzr r hr
      obtain ⟨i, hi⟩ := List.mem_iff_getElem?.1 hv'
      obtain ⟨v, h1, h2, h3⟩ := hpair z r hzr' i v' hi
      rcases h3 with h3 | h3
      · exact mem_netLabels.2 ⟨_, List.mem_map_of_mem hz, v, List.mem_of_getElem? h1, h2 ▸ he, h3.1⟩
      · omega
    · intro hq
      obtain ⟨H, hH, v, hv, he, hq⟩ := mem_netLabels.1 hq
      obtain ⟨z, hz, rfl⟩ := List.mem_map.1 hH
      obtain ⟨r, hr, hzr'⟩ := hzl z hz
      obtain ⟨i, hi⟩ := List.mem_iff_getElem?.1 hv
      obtain ⟨v', h1, h2, h3⟩ := hpair' z r hzr' i v hi
      rcases h3 with h3 | h3
      · exact ⟨v'.part, mem_inside.2 ⟨mem_netLabels.2 ⟨_, List.mem_map_of_mem hr, v', List.mem_of_getElem? h1,
          by rw [h2]; exact he, rfl⟩, h3.2⟩⟩
      · exact absurd (h3.1.symm.trans hq) hne

/-! ### A processor that is alone -/

theorem unionPins_single {H : Hypergraph} (w : WF H) {n : Net} (hn : n ∈ H.nets) : unionPins [H] n.id = n.vertices := by
  unfold unionPins
  have : H.nets.filter (fun m => m.id = n.id) = [n] := by
    have h1 : (H.nets.filter (fun m => m.id = n.id)).Nodup := (List.Nodup.of_map _ w.nids).filter _
    apply List.perm_singleton.1
    rw [List.perm_ext_iff_of_nodup h1 (List.nodup_singleton n)]
    intro m
    simp only [List.mem_filter, decide_eq_true_eq, List.mem_singleton]
    constructor
    · rintro ⟨hm, he⟩
      exact List.inj_on_of_nodup_map w.nids hm hn he
    · rintro rfl
      exact ⟨hn, rfl⟩
  simp [this]

theorem unionPins_nets {H H' : Hypergraph} (h : H'.nets = H.nets) (e : Nat) : unionPins [H'] e = unionPins [H] e := by
  unfold unionPins
  simp [h]

theorem unionCost_nets {H H' : Hypergraph} (h : H'.nets = H.nets) (e : Nat) : unionCost [H'] e = unionCost [H] e := by
  unfold unionCost
  simp [h]

theorem groupCuts_single (b : RangeOf) (e : Nat) : GroupCuts [b] e ↔ CutIn b.H b.s b.e (unionPins [b.H] e) := by
  unfold GroupCuts CutIn
  simp

theorem netLabels_single {H : Hypergraph} (w : WF H) {n : Net} (hn : n ∈ H.nets) :
    connectivity (partOf H) n = (netLabels [H] n.id).card := by
  unfold connectivity
  rw [← List.card_toFinset]
  congr 1
  ext q
  rw [List.mem_toFinset, List.mem_map, mem_netLabels]
  constructor
  · rintro ⟨u, hu, rfl⟩
    obtain ⟨v, hv, rfl, he⟩ := w.inc_vtx n hn u hu
    exact ⟨H, by simp, v, hv, he, (w.partOf_eq hv).symm⟩
  · rintro ⟨H', hH, v, hv, he, rfl⟩
    obtain rfl := List.mem_singleton.1 hH
    obtain ⟨m, hm, h1, h2⟩ := w.inc_net v hv n.id he
    rw [List.inj_on_of_nodup_map w.nids hm hn h1] at h2
    exact ⟨v.id, h2, w.partOf_eq hv⟩

theorem alone_count {P : ParRecEnv} {N T k : Nat} {Bad : Err → Prop} (hP : ParRecEnvOk P N T Bad)
    (hN : N < 2147483648) {eta : ℚ} (heta : 0 ≤ eta) {M : Int} {f : Nat} {path : List Bool} {labels : Interval} {weight : Int} {x : RecProc}
    (hI : GroupInv N T k labels [x]) (hx : x.fin = x.H.vertices.length) (hf : labels.count ≤ f + 1) {r : GroupResult}
    (h : recPar P eta M (f + 1) path labels weight [x] = .ok r) :
    ∃ Bs, GroupBisections P eta M path labels weight [x] Bs r.Hs ∧ Bs.length = (labels.high - labels.low).toNat ∧
      (∀ B ∈ Bs, ∀ e, GroupCuts B e → unionPins [x.H] e ≠ [] ∧ unionCost (B.map (·.H)) e = unionCost [x.H] e) ∧
      ∀ e, (inside labels (netLabels r.Hs e)).card - 1 = Bs.countP (fun B => GroupCuts B e) := by
  have hin := recPar_labels_inside hP hN heta hI (by intro y hy; obtain rfl := List.mem_singleton.1 hy; exact hx) hf h
  have hk := recPar_kept hP hN heta hI hf h
  have hlh : labels.low < labels.high := by
    rcases hI.proper with h | h
    · cases h
    · exact h
  obtain ⟨cur, s, s', hR, hl, rfl, rfl, rfl⟩ := aloneRun_ok hN hI h
  have hwf := hI.dist.wf x.H (by simp)
  obtain ⟨bs, c1, c2, c3, c4, c5⟩ := recLoop_sum (hP.alone path) (fun _ _ => .refl _) rfl M _ _ _ (fun _ => 0) hR
    (sumInv_whole hwf hlh rfl (by dsimp only; rw [hx]) rfl rfl) s' hl
  dsimp only at c2 c3 c4 c5 hin hk
  have hwf' : WF s'.H := hk.dist.wf _ (by simp)
  refine ⟨_, .alone c1, ?_, ?_, ?_⟩
  · rw [List.length_map, c5]
    simp
  · intro B hB e hc
    obtain ⟨b, hb, rfl⟩ := List.mem_map.1 hB
    rw [groupCuts_single, unionPins_nets (c3 b hb)] at hc
    refine ⟨?_, unionCost_nets (c3 b hb) e⟩
    obtain ⟨u, -, -, -, hu, -⟩ := hc
    exact List.ne_nil_of_mem hu
  · intro e
    rw [hin e, List.countP_map]
    by_cases he : ∃ n ∈ x.H.nets, n.id = e
    · obtain ⟨n, hn, rfl⟩ := he
      rw [← netLabels_single hwf' (by rw [c2]; exact hn), c4 n hn, Nat.zero_add]
      apply List.countP_congr
      intro b hb
      simp only [Function.comp, decide_eq_true_eq]
      rw [groupCuts_single, unionPins_nets (c3 b hb), unionPins_single hwf hn]
    · have h0 : unionPins [x.H] e = [] := by
        rw [List.eq_nil_iff_forall_not_mem]
        intro u hu
        obtain ⟨H, hH, n, hn, h1, -⟩ := mem_unionPins.1 hu
        obtain rfl := List.mem_singleton.1 hH
        exact he ⟨n, hn, h1⟩
      have h1 : netLabels [s'.H] e = ∅ := by
        rw [← Finset.not_nonempty_iff_eq_empty, netLabels_nonempty hk.dist, unionPins_nets c2, h0]
        simp
      rw [h1]
      symm
      rw [Finset.card_empty, List.countP_eq_zero]
      intro b hb
      simp only [Function.comp, decide_eq_true_eq]
      rw [groupCuts_single, unionPins_nets (c3 b hb), h0]
      rintro ⟨u, -, -, -, hu, -⟩
      cases hu

/-! ### The recursion -/

/-- The costs and pins of a net in a part of the processors. -/
theorem unionCost_sub {N : Nat} {A Hs : List Hypergraph} (hD : Distributed N Hs) (hA : Distributed N A)
    (hsub : ∀ H ∈ A, H ∈ Hs) {e : Nat} (h : unionPins A e ≠ []) :
    unionPins Hs e ≠ [] ∧ unionCost A e = unionCost Hs e := by
  obtain ⟨u, hu⟩ := List.exists_mem_of_ne_nil _ h
  obtain ⟨H, hH, n, hn, rfl, hu'⟩ := mem_unionPins.1 hu
  refine ⟨List.ne_nil_of_mem (mem_unionPins.2 ⟨H, hsub H hH, n, hn, rfl, hu'⟩), ?_⟩
  rw [unionCost_eq hA hH hn, unionCost_eq hD (hsub H hH) hn]

theorem recPar_count {P : ParRecEnv} {N T k : Nat} {Bad : Err → Prop} (hP : ParRecEnvOk P N T Bad)
    (hN : N < 2147483648) {eta : ℚ} (heta : 0 ≤ eta) (M : Int) : ∀ (fuel : Nat) (path : List Bool)
    (labels : Interval) (weight : Int) (xs : List RecProc), GroupInv N T k labels xs → AloneFull xs →
    labels.count ≤ fuel → (FullGroup xs ∨ (labels.count = 2 ∧ 2 ≤ xs.length)) → ∀ r, recPar P eta M fuel path labels weight xs = .ok r →
    (∀ c ∈ r.splits, c.plow = 0 → c.high - c.low ≤ 3) →
    ∃ Bs, GroupBisections P eta M path labels weight xs Bs r.Hs ∧ Bs.length ≤ (labels.high - labels.low).toNat ∧
      (∀ B ∈ Bs, ∀ e, GroupCuts B e →
        unionPins (xs.map (·.H)) e ≠ [] ∧ unionCost (B.map (·.H)) e = unionCost (xs.map (·.H)) e) ∧
      ∀ e, (inside labels (netLabels r.Hs e)).card - 1 ≤ Bs.countP (fun B => GroupCuts B e) ∧
        ((∀ c ∈ r.splits, c.plow = c.p → c.high - c.low ≤ 1) →
          (inside labels (netLabels r.Hs e)).card - 1 = Bs.countP (fun B => GroupCuts B e)) := by
  intro fuel
  induction fuel with
  | zero => intro _ _ _ _ _ _ _ _ r h; cases h
  | succ f ih =>
    intro path labels weight xs hI hX hf hF r h hlow
    have hle := hI.le
    have hcc := count_eq hle
    by_cases h2 : 2 ≤ xs.length
    · have hlh : labels.low < labels.high := by
        rcases hI.proper with h | h
        · rw [h] at h2; simp at h2
        · exact h
      obtain ⟨sp, rs, hS, -, hcase⟩ := recPar_round hP heta hI h2 h
      have hKr := hS.bis.kept N hI.dist
      have hlen := hS.bis.relabels.length_eq
      have hcut := groupCuts_iff hS.bis hKr.dist hlh
      have htop : ∀ e, GroupCuts (rangesOf xs rs) e →
          unionPins (xs.map (·.H)) e ≠ [] ∧ unionCost ((rangesOf xs rs).map (·.H)) e = unionCost (xs.map (·.H)) e := by
        intro e hc
        rw [rangesOf_H hlen]
        refine ⟨?_, hKr.costs e⟩
        rw [← netLabels_nonempty hI.dist, ← hKr.nonempty hI.dist]
        exact ⟨_, ((hcut e).1 hc).1⟩
      rcases hcase with ⟨hc, hg, rfl⟩ | ⟨hc, ys, a, b, hr, hg, ha, hb, rfl⟩
      · refine ⟨_, .last h2 hg, ?_, ?_, ?_⟩
        · rw [List.length_singleton]; omega
        · intro B hB e hc
          obtain rfl := List.mem_singleton.1 hB
          exact htop e hc
        · intro e
          have hval : (inside labels (netLabels (rs.map (·.H)) e)).card - 1 =
              [rangesOf xs rs].countP (fun B => GroupCuts B e) := by
            have hj := count_join (F := inside labels (netLabels (rs.map (·.H)) e))
              (FA := (netLabels (rs.map (·.H)) e).filter (fun q => q = labels.low))
              (FB := (netLabels (rs.map (·.H)) e).filter (fun q => q = labels.high))
              (pl := labels.low ∈ netLabels (rs.map (·.H)) e) (ph := labels.high ∈ netLabels (rs.map (·.H)) e)
              (by
                intro q
                rw [mem_inside, Finset.mem_filter, Finset.mem_filter]
                constructor
                · rintro ⟨h1, h2, h3⟩
                  have : q = labels.low ∨ q = labels.high := by omega
                  rcases this with h | h
                  · exact Or.inl ⟨h1, h⟩
                  · exact Or.inr ⟨h1, h⟩
                · rintro (⟨h1, rfl⟩ | ⟨h1, rfl⟩)
                  · exact ⟨h1, le_refl _, hle⟩
                  · exact ⟨h1, hle, le_refl _⟩)
              (by
                intro q h1 h2
                rw [Finset.mem_filter] at h1 h2
                omega)
              (by
                constructor
                · rintro ⟨q, hq⟩
                  obtain ⟨h1, rfl⟩ := Finset.mem_filter.1 hq
                  exact h1
                · intro h1
                  exact ⟨_, Finset.mem_filter.2 ⟨h1, rfl⟩⟩)
              (by
                constructor
                · rintro ⟨q, hq⟩
                  obtain ⟨h1, rfl⟩ := Finset.mem_filter.1 hq
                  exact h1
                · intro h1
                  exact ⟨_, Finset.mem_filter.2 ⟨h1, rfl⟩⟩)
            have hone : ∀ q, ((netLabels (rs.map (·.H)) e).filter (fun x => x = q)).card ≤ 1 := by
              intro q
              rw [Finset.card_le_one]
              intro a ha b hb
              rw [(Finset.mem_filter.1 ha).2, (Finset.mem_filter.1 hb).2]
            have o1 := hone labels.low
            have o2 := hone labels.high
            rw [hj, List.countP_singleton]
            simp only [decide_eq_true_eq]
            rw [if_congr (hcut e) rfl rfl]
            omega
          exact ⟨hval.le, fun _ => hval⟩
      · have hA := afterRedist_facts hP hS.input hr
        obtain ⟨hK, g0, g1⟩ := hI.split hc hS.three hS.bis hA
        obtain ⟨zs, hz⟩ : ∃ zs, zs = afterRedist rs ys := ⟨_, rfl⟩
        have hsep := afterRedist_separated hP heta hI hS hr
        rw [← hz] at hA hg ha hb hK g0 g1 hsep
        have hzlen : zs.length = xs.length := hA.length.trans hlen.symm
        obtain ⟨f0, f1⟩ := hA.alone (by omega)
        have hFull : FullGroup xs := by
          rcases hF with h | h
          · exact h
          · omega
        have l0 := lowLabels_length hle
        have l1 := highLabels_length hle
        have c0 : (lowLabels labels).count = labels.count / 2 := by
          show ((lowLabels labels).length + 1).toNat = _
          omega
        have c1 : (highLabels labels).count = labels.count - labels.count / 2 := by
          show ((highLabels labels).length + 1).toNat = _
          omega
        unfold Interval.length at l0 l1
        have ll : (lowLabels labels).low = labels.low := rfl
        have lh : (highLabels labels).high = labels.high := rfl
        have hnz : ∀ e, netLabels (zs.map (·.H)) e = netLabels (rs.map (·.H)) e := fun e =>
          netLabels_perm hA.redist.vertices e
        have hbis : ∀ v ∈ (zs.map (·.H)).flatMap (·.vertices), v.part = labels.low ∨ v.part = labels.high :=
          fun v hv => hS.bis.full hFull v (hA.redist.vertices.mem_iff.1 hv)
        have hzpart : ∀ z ∈ zs, ∀ v ∈ z.H.vertices, v.part = labels.low ∨ v.part = labels.high :=
          fun z hz v hv => hbis v (List.mem_flatMap.2 ⟨_, List.mem_map_of_mem hz, hv⟩)
        have hzpos : ∀ z ∈ zs, ∀ v ∈ z.H.vertices, 0 < v.weight :=
          fun z hz v hv => hK.pos hI.pos z.H (List.mem_map_of_mem hz) v hv
        have hspm : sp ∈ sp :: a.splits ++ b.splits := by simp
        have hsplow := hS.low
        have hsphigh := hS.high
        have hspp := hS.p
        have hpin : ∀ (A : List RecProc), Distributed N (A.map (·.H)) → (∀ z ∈ A, z ∈ zs) → ∀ e,
            unionPins (A.map (·.H)) e ≠ [] → unionPins (xs.map (·.H)) e ≠ [] ∧
              unionCost (A.map (·.H)) e = unionCost (xs.map (·.H)) e := by
          intro A hDA hsub e hne
          obtain ⟨h1, h2⟩ := unionCost_sub hK.dist hDA (by
            intro H hH
            obtain ⟨z, hz, rfl⟩ := List.mem_map.1 hH
            exact List.mem_map_of_mem (hsub z hz)) hne
          rw [← netLabels_nonempty hK.dist, hK.nonempty hI.dist, netLabels_nonempty hI.dist] at h1
          exact ⟨h1, by rw [h2, hK.costs]⟩
        by_cases hp0 : sp.plow = 0
        · -- the low side has no processors
          have hcnt : labels.count ≤ 4 := by
            have := hlow sp hspm hp0
            omega
          rw [hp0, List.take_zero] at ha
          have ea := recPar_nil ha
          subst ea
          have hb' := hb
          have hg' := hg
          rw [hp0, List.drop_zero] at hb' g1 f1
          obtain ⟨Bs, i1, i2, i3, i4⟩ := ih _ _ _ _ g1 f1 (by omega) (Or.inr ⟨by omega, by omega⟩) b hb' (by
            intro c hc
            exact hlow c (by simp [hc]))
          have hGB : GroupBisections P eta M path labels weight xs (rangesOf xs rs :: [] ++ Bs) ([] ++ b.Hs) := by
            refine .split h2 hg (A := []) (Ha := []) ?_ ?_
            · rw [hp0, List.take_zero]; exact .nobody
            · rw [hp0, List.drop_zero]; exact i1
          refine ⟨_, hGB, ?_, ?_, ?_⟩
          · simp only [List.cons_append, List.nil_append, List.length_cons]
            omega
          · intro B hB e hcB
            simp only [List.cons_append, List.nil_append] at hB
            rcases List.mem_cons.1 hB with rfl | hB
            · exact htop e hcB
            · obtain ⟨k1, k2⟩ := i3 B hB e hcB
              obtain ⟨k3, k4⟩ := hpin zs hK.dist (fun _ h => h) e k1
              exact ⟨k3, k2.trans k4⟩
          · intro e
            have hb2 : ∃ rs', BisectFacts (highLabels labels) zs rs' ∧ b.Hs = rs'.map (·.H) := by
              cases f with
              | zero => cases hb'
              | succ f =>
                obtain ⟨sp', rs', hS', -, ⟨-, rfl⟩ | ⟨hcnt', -⟩⟩ := recPar_two hP heta g1 (by omega) hb'
                · exact ⟨rs', hS'.bis, rfl⟩
                · omega
            obtain ⟨rs', hB', hHb⟩ := hb2
            rw [hp0] at hA
            obtain ⟨k1, k2⟩ := keeps_low hA hB' (by omega) (by omega) hzpart (by omega) e
            rw [← hHb] at k1 k2
            rw [hnz e] at k1 k2
            have hj := count_join (F := inside labels (netLabels ([] ++ b.Hs) e))
              (FA := (netLabels (rs.map (·.H)) e).filter (fun q => q = labels.low))
              (FB := inside (highLabels labels) (netLabels b.Hs e))
              (pl := labels.low ∈ netLabels (rs.map (·.H)) e) (ph := labels.high ∈ netLabels (rs.map (·.H)) e)
              (by
                intro q
                rw [List.nil_append, mem_inside, Finset.mem_filter, k1]
                constructor
                · rintro ⟨⟨rfl, h1⟩ | h1, -⟩
                  · exact Or.inl ⟨h1, rfl⟩
                  · exact Or.inr h1
                · rintro (⟨h1, rfl⟩ | h1)
                  · exact ⟨Or.inl ⟨rfl, h1⟩, le_refl _, hle⟩
                  · refine ⟨Or.inr h1, ?_⟩
                    have := (mem_inside.1 h1).2
                    omega)
              (by
                intro q h1 h2
                have h1 := (Finset.mem_filter.1 h1).2
                have h2 := (mem_inside.1 h2).2
                omega)
              (by
                constructor
                · rintro ⟨q, hq⟩
                  obtain ⟨h1, rfl⟩ := Finset.mem_filter.1 hq
                  exact h1
                · intro h1
                  exact ⟨_, Finset.mem_filter.2 ⟨h1, rfl⟩⟩)
              k2
            have hone : ((netLabels (rs.map (·.H)) e).filter (fun x => x = labels.low)).card ≤ 1 := by
              rw [Finset.card_le_one]
              intro a ha b hb
              rw [(Finset.mem_filter.1 ha).2, (Finset.mem_filter.1 hb).2]
            obtain ⟨i5, i6⟩ := i4 e
            simp only [List.cons_append, List.nil_append, List.countP_cons, decide_eq_true_eq] at hj ⊢
            rw [if_congr (hcut e) rfl rfl]
            refine ⟨by omega, ?_⟩
            intro hall
            have := i6 (fun c hc => hall c (by simp [hc]))
            omega
        · have hz0 : FullGroup (zs.take sp.plow) := fun z hz => hA.all hp0 z (List.mem_of_mem_take hz)
          have hz1 : FullGroup (zs.drop sp.plow) := fun z hz => hA.all hp0 z (List.mem_of_mem_drop hz)
          obtain ⟨As, i1, i2, i3, i4⟩ := ih _ _ _ _ g0 f0 (by omega) (Or.inl hz0) a ha (by
            intro c hc
            exact hlow c (by simp [hc]))
          obtain ⟨Bs, j1, j2, j3, j4⟩ := ih _ _ _ _ g1 f1 (by omega) (Or.inl hz1) b hb (by
            intro c hc
            exact hlow c (by simp [hc]))
          have hGB : GroupBisections P eta M path labels weight xs (rangesOf xs rs :: As ++ Bs) (a.Hs ++ b.Hs) :=
            .split h2 hg i1 j1
          refine ⟨_, hGB, ?_, ?_, ?_⟩
          · simp only [List.cons_append, List.length_cons, List.length_append]
            omega
          · intro B hB e hcB
            simp only [List.cons_append] at hB
            rcases List.mem_cons.1 hB with rfl | hB
            · exact htop e hcB
            · rcases List.mem_append.1 hB with hB | hB
              · obtain ⟨k1, k2⟩ := i3 B hB e hcB
                obtain ⟨k3, k4⟩ := hpin _ g0.dist (fun _ h => List.mem_of_mem_take h) e k1
                exact ⟨k3, k2.trans k4⟩
              · obtain ⟨k1, k2⟩ := j3 B hB e hcB
                obtain ⟨k3, k4⟩ := hpin _ g1.dist (fun _ h => List.mem_of_mem_drop h) e k1
                exact ⟨k3, k2.trans k4⟩
          · intro e
            have ina := recPar_labels_inside hP hN heta g0 hz0 (by omega) ha e
            have inb := recPar_labels_inside hP hN heta g1 hz1 (by omega) hb e
            have ka := (recPar_kept hP hN heta g0 (by omega) ha).nonempty g0.dist e
            have kb := (recPar_kept hP hN heta g1 (by omega) hb).nonempty g1.dist e
            have hla : ∀ q ∈ netLabels a.Hs e, labels.low ≤ q ∧ q ≤ (lowLabels labels).high := by
              intro q hq
              rw [← ina] at hq
              exact (mem_inside.1 hq).2
            have hlb : ∀ q ∈ netLabels b.Hs e, (highLabels labels).low ≤ q ∧ q ≤ labels.high := by
              intro q hq
              rw [← inb] at hq
              exact (mem_inside.1 hq).2
            have hF : ∀ q, q ∈ inside labels (netLabels (a.Hs ++ b.Hs) e) ↔ q ∈ netLabels a.Hs e ∨ q ∈ netLabels b.Hs e := by
              intro q
              rw [mem_inside, netLabels_append, Finset.mem_union]
              constructor
              · exact fun h => h.1
              · rintro (h | h)
                · have := hla q h
                  exact ⟨Or.inl h, by omega⟩
                · have := hlb q h
                  exact ⟨Or.inr h, by omega⟩
            have hd : ∀ q ∈ netLabels a.Hs e, q ∉ netLabels b.Hs e := by
              intro q h1 h2
              have := hla q h1
              have := hlb q h2
              omega
            have hsplit : netLabels (rs.map (·.H)) e =
                netLabels ((zs.take sp.plow).map (·.H)) e ∪ netLabels ((zs.drop sp.plow).map (·.H)) e := by
              rw [← hnz e, ← netLabels_append, ← List.map_append, List.take_append_drop]
            obtain ⟨i5, i6⟩ := i4 e
            obtain ⟨j5, j6⟩ := j4 e
            rw [ina] at i5 i6
            rw [inb] at j5 j6
            simp only [List.cons_append, List.countP_cons, List.countP_append, decide_eq_true_eq]
            rw [if_congr (hcut e) rfl rfl]
            by_cases hpp : sp.plow < xs.length
            · obtain ⟨s0, s1⟩ := hsep hp0 hpp
              have t0 : ∀ q ∈ netLabels ((zs.take sp.plow).map (·.H)) e, q = labels.low := by
                intro q hq
                obtain ⟨H, hH, v, hv, -, rfl⟩ := mem_netLabels.1 hq
                obtain ⟨z, hz, rfl⟩ := List.mem_map.1 hH
                have hzm := List.mem_of_mem_take hz
                rcases hzpart z hzm v hv with h | h
                · exact h
                · exact absurd h (s0 z hz v hv (hzpos z hzm v hv))
              have t1 : ∀ q ∈ netLabels ((zs.drop sp.plow).map (·.H)) e, q = labels.high := by
                intro q hq
                obtain ⟨H, hH, v, hv, -, rfl⟩ := mem_netLabels.1 hq
                obtain ⟨z, hz, rfl⟩ := List.mem_map.1 hH
                have hzm := List.mem_of_mem_drop hz
                rcases hzpart z hzm v hv with h | h
                · exact absurd h (s1 z hz v hv (hzpos z hzm v hv))
                · exact h
              have hj := count_join hF hd (pl := labels.low ∈ netLabels (rs.map (·.H)) e)
                (ph := labels.high ∈ netLabels (rs.map (·.H)) e) (by
                  rw [ka, hsplit, Finset.mem_union]
                  constructor
                  · rintro ⟨q, hq⟩
                    have := t0 q hq
                    subst this
                    exact Or.inl hq
                  · rintro (h | h)
                    · exact ⟨_, h⟩
                    · have := t1 _ h
                      omega) (by
                  rw [kb, hsplit, Finset.mem_union]
                  constructor
                  · rintro ⟨q, hq⟩
                    have := t1 q hq
                    subst this
                    exact Or.inr hq
                  · rintro (h | h)
                    · have := t0 _ h
                      omega
                    · exact ⟨_, h⟩)
              refine ⟨by omega, ?_⟩
              intro hall
              have := i6 (fun c hc => hall c (by simp [hc]))
              have := j6 (fun c hc => hall c (by simp [hc]))
              omega
            · -- the high side has no processors
              have hpe : zs.drop sp.plow = [] := List.drop_eq_nil_of_le (by omega)
              rw [hpe] at hb
              have eb := recPar_nil hb
              have hbe : netLabels b.Hs e = ∅ := by rw [eb]; rfl
              have hcard : (inside labels (netLabels (a.Hs ++ b.Hs) e)).card = (netLabels a.Hs e).card := by
                congr 1
                ext q
                rw [hF, hbe]
                simp
              refine ⟨?_, ?_⟩
              · rw [hcard]; omega
              · intro hall
                have hple := hS.plow_le
                have := hall sp hspm (by omega)
                omega
    · match xs, hI, hX, h2, h with
      | [], hI, hX, h2, h =>
        have e := recPar_nil h
        subst e
        refine ⟨[], .nobody, by simp, by simp, ?_⟩
        intro e
        have : inside labels (netLabels [] e) = ∅ := rfl
        rw [this]
        simp
      | [x], hI, hX, h2, h =>
        obtain ⟨Bs, b1, b2, b3, b4⟩ := alone_count hP hN heta hI (hX rfl x (by simp)) hf h
        exact ⟨Bs, b1, b2.le, b3, fun e => ⟨(b4 e).le, fun _ => b4 e⟩⟩
      | x :: y :: l, hI, hX, h2, h => simp at h2

end PMondriaan
