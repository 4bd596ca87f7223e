import Verif.Model.Bsp
import Verif.Spec.Dist
import Verif.Proofs.Counts
import Mathlib.Data.List.Flatten

/-
Distributed functions: message delivery, aggregation at the owner of a net.
-/

namespace PMondriaan

open Spec

/-! ### mapM -/

theorem mapM_ok {α β : Type} {f : α → Res β} {g : α → β} (l : List α)
    (h : ∀ a ∈ l, f a = .ok (g a)) : l.mapM f = .ok (l.map g) := by
  induction l with
  | nil => rfl
  | cons a l ih =>
    rw [List.mapM_cons, h a (by simp), ih (fun b hb => h b (by simp [hb]))]
    rfl

theorem mapM_zipIdx_map {α β : Type} {f : α × Nat → Res β} {g : α → β} (l : List α)
    (h : ∀ (i : Nat) (a : α), l[i]? = some a → f (a, i) = .ok (g a)) :
    (l.zipIdx).mapM f = .ok (l.map g) := by
  rw [mapM_ok (g := fun x => g x.1)]
  · congr 1
    have : l.zipIdx.map (fun x => g x.1) = (l.zipIdx.map Prod.fst).map g := by
      rw [List.map_map]; rfl
    rw [this, List.zipIdx_map_fst]
  · rintro ⟨a, i⟩ hx
    exact h i a (by simpa using List.mem_zipIdx_iff_getElem?.1 hx)

/-! ### Block partition -/

theorem blockPart_valid (p N : Nat) (hp : 0 < p) : (blockPart p N).Valid p N := by
  unfold blockPart
  simp only
  set b := (N - 1) / p + 1 with hb
  have hb0 : 0 < b := Nat.succ_pos _
  have hN : N ≤ p * b := by
    have h1 := Nat.div_add_mod (N - 1) p
    have h2 := Nat.mod_lt (N - 1) hp
    have h3 : p * b = p * ((N - 1) / p) + p := by rw [hb, Nat.mul_add, Nat.mul_one]
    omega
  constructor
  · intro e he
    simp only
    rw [Nat.div_lt_iff_lt_mul hb0]; omega
  · intro e he
    simp only
    have h1 := Nat.mod_lt e hb0
    have h2 := Nat.div_add_mod e b
    rw [Nat.mul_comm] at h2
    omega
  · intro e he
    simp only
    have h2 := Nat.div_add_mod e b
    rw [Nat.mul_comm] at h2
    exact h2
  · intro s hs i hi
    simp only at hi ⊢
    omega
  · intro s hs i hi
    simp only at hi ⊢
    rw [Nat.mul_comm, Nat.mul_add_div hb0, Nat.div_eq_of_lt (by omega)]; rfl
  · intro s hs i hi
    simp only at hi ⊢
    rw [Nat.mul_comm, Nat.mul_add_mod, Nat.mod_eq_of_lt (by omega)]

/-- The pairs (processor, local index) enumerate the nets. -/
theorem NetPart.Valid.perm {np : NetPart} {p N : Nat} (h : np.Valid p N) :
    ((List.range p).flatMap (fun t => (List.range (np.count t)).map (fun i => np.glob i t))).Perm
      (List.range N) := by
  rw [List.perm_ext_iff_of_nodup]
  · intro e
    simp only [List.mem_flatMap, List.mem_map, List.mem_range]
    constructor
    · rintro ⟨t, ht, i, hi, rfl⟩; exact h.glob_lt t ht i hi
    · intro he
      exact ⟨np.owner e, h.owner_lt e he, np.loc e, h.loc_lt e he, h.glob_loc e he⟩
  · rw [List.nodup_flatMap]
    constructor
    · intro t ht
      rw [List.mem_range] at ht
      refine List.Nodup.map_on ?_ List.nodup_range
      intro i hi j hj hij
      rw [List.mem_range] at hi hj
      rw [← h.loc_glob t ht i hi, ← h.loc_glob t ht j hj, hij]
    · refine List.Pairwise.imp_of_mem ?_ (List.nodup_range (n := p))
      intro s t hs ht hst e he1 he2
      rw [List.mem_range] at hs ht
      rw [List.mem_map] at he1 he2
      obtain ⟨i, hi, rfl⟩ := he1
      obtain ⟨j, hj, hij⟩ := he2
      rw [List.mem_range] at hi hj
      apply hst
      rw [← h.owner_glob s hs i hi, ← h.owner_glob t ht j hj, hij]
  · exact List.nodup_range

theorem sum_flatMap {α : Type} (l : List α) (f : α → List Int) :
    (l.flatMap f).sum = (l.map (fun a => (f a).sum)).sum := by
  induction l with
  | nil => rfl
  | cons a l ih => simp [ih]

theorem bulkSum_eq (xs : List Int) : bulkSum xs = xs.map (fun _ => xs.sum) := by
  unfold bulkSum
  have := foldl_add_eq_sum (fun x : Int => x) xs 0
  simp only [List.map_id', zero_add] at this
  rw [this]

/-- Sum over processors and local indices is the sum over the nets. -/
theorem NetPart.Valid.sum {np : NetPart} {p N : Nat} (h : np.Valid p N) (T : Nat → Int) :
    ((List.range p).map (fun t => ((List.range (np.count t)).map (fun i => T (np.glob i t))).sum)).sum =
      ((List.range N).map T).sum := by
  rw [← (h.perm.map T).sum_eq, List.map_flatMap, sum_flatMap]
  simp [Function.comp_def]

/-! ### Delivery -/

theorem inbox_perm {M : Type} {d : Delivery M} (hd : Fair d) (outs : List (List (Nat × M))) (t : Nat) :
    (inbox d outs t).Perm ((outs.flatten.filter (fun x => x.1 = t)).map (·.2)) := hd t _

theorem mem_inbox {M : Type} {d : Delivery M} (hd : Fair d) {outs : List (List (Nat × M))} {t : Nat}
    {m : M} : m ∈ inbox d outs t ↔ ∃ o ∈ outs, (t, m) ∈ o := by
  rw [(inbox_perm hd outs t).mem_iff]
  simp only [List.mem_map, List.mem_filter, List.mem_flatten, decide_eq_true_eq]
  constructor
  · rintro ⟨⟨t', m'⟩, ⟨⟨o, ho, hx⟩, rfl⟩, rfl⟩; exact ⟨o, ho, hx⟩
  · rintro ⟨o, ho, hx⟩; exact ⟨(t, m), ⟨⟨o, ho, hx⟩, rfl⟩, rfl⟩

/-! ### Accumulation of integers at the owners -/

theorem vaddAt_ok {a : List Int} {i : Nat} (h : i < a.length) (x : Int) :
    vaddAt a i x = .ok (a.set i (a[i] + x)) := by
  unfold vaddAt
  rw [vget_ok (List.getElem?_eq_getElem h)]
  simp only [ok_bind]
  exact vset_ok h

theorem countOwned_ok {np : NetPart} {t : Nat} {msgs : List (Nat × Int)}
    (h : ∀ m ∈ msgs, np.loc m.1 < np.count t) :
    countOwned np t msgs = .ok ((List.range (np.count t)).map (fun i =>
      ((msgs.filter (fun m => np.loc m.1 = i)).map (·.2)).sum)) := by
  unfold countOwned
  obtain ⟨a, h1, h2⟩ := foldlM_inv (f := fun a (m : Nat × Int) => vaddAt a (np.loc m.1) m.2)
    (fun pre _ a => a = (List.range (np.count t)).map (fun i =>
      ((pre.filter (fun m => np.loc m.1 = i)).map (·.2)).sum)) msgs
    (List.replicate (np.count t) 0) (by
      apply List.ext_getElem <;> simp) (by
      rintro pre m post a rfl hl
      have hm := h m (by rw [hl]; simp)
      refine ⟨_, vaddAt_ok (by simpa using hm) _, ?_⟩
      apply List.ext_getElem
      · simp
      · intro i h1 h2
        rw [List.getElem_set]
        simp only [List.getElem_map, List.getElem_range, List.filter_append, List.map_append,
          List.sum_append]
        by_cases hi : np.loc m.1 = i
        · subst hi; simp
        · simp [hi])
  rw [h1, h2]

/-- The value an owner accumulates for net `e`: the sum over all messages about `e`. -/
theorem owned_sum {np : NetPart} {p N : Nat} (hv : np.Valid p N) {d : Delivery (Nat × Int)}
    (hd : Fair d) {outs : List (List (Nat × (Nat × Int)))}
    (ho : ∀ o ∈ outs, ∀ x ∈ o, x.2.1 < N ∧ x.1 = np.owner x.2.1) {t : Nat} (ht : t < p) :
    countOwned np t (inbox d outs t) = .ok ((List.range (np.count t)).map (fun i =>
      ((outs.flatten.filter (fun x => x.2.1 = np.glob i t)).map (·.2.2)).sum)) := by
  rw [countOwned_ok]
  · congr 1
    apply List.map_congr_left
    intro i hi
    rw [List.mem_range] at hi
    have hp := (((inbox_perm hd outs t).filter (fun m => decide (np.loc m.1 = i))).map (·.2)).sum_eq
    rw [hp]
    rw [List.filter_map, List.filter_filter, List.map_map]
    congr 2
    apply List.filter_congr
    intro x hx
    obtain ⟨o, ho', hxo⟩ := List.mem_flatten.1 hx
    obtain ⟨h1, h2⟩ := ho o ho' x hxo
    rw [Bool.eq_iff_iff]
    simp only [Function.comp_apply, Bool.and_eq_true, decide_eq_true_eq]
    constructor
    · rintro ⟨h3, h4⟩
      rw [← h3, ← h4, h2, hv.glob_loc _ h1]
    · intro h3
      rw [h2, h3, hv.loc_glob t ht i hi, hv.owner_glob t ht i hi]
      exact ⟨rfl, rfl⟩
  · intro m hm
    obtain ⟨o, ho', hx⟩ := (mem_inbox hd).1 hm
    obtain ⟨h1, h2⟩ := ho o ho' _ hx
    simp only at h1 h2
    rw [h2]; exact hv.loc_lt _ h1

/-! ### Union -/

theorem mem_unionPins {Hs : List Hypergraph} {e u : Nat} :
    u ∈ unionPins Hs e ↔ ∃ H ∈ Hs, ∃ n ∈ H.nets, n.id = e ∧ u ∈ n.vertices := by
  simp [unionPins, and_assoc]

theorem partOf_union {N : Nat} {Hs : List Hypergraph} (hD : Distributed N Hs) {H : Hypergraph}
    (hH : H ∈ Hs) {v : Vertex} (hv : v ∈ H.vertices) : partOf (unionH N Hs) v.id = partOf H v.id := by
  rw [(hD.wf H hH).partOf_eq hv]
  unfold partOf unionH Hypergraph.create
  simp only
  have hmem : v ∈ Hs.flatMap (·.vertices) := List.mem_flatMap.2 ⟨H, hH, hv⟩
  cases hf : (Hs.flatMap (·.vertices)).find? (fun x => x.id == v.id) with
  | none =>
    rw [List.find?_eq_none] at hf
    exact absurd (by simp) (hf v hmem)
  | some x =>
    have hx := List.mem_of_find?_eq_some hf
    have hid : x.id = v.id := by simpa using List.find?_some hf
    simp [List.inj_on_of_nodup_map hD.disjoint hx hmem hid]

theorem partOf_union_pin {N : Nat} {Hs : List Hypergraph} (hD : Distributed N Hs) {H : Hypergraph}
    (hH : H ∈ Hs) {n : Net} (hn : n ∈ H.nets) {u : Nat} (hu : u ∈ n.vertices) :
    partOf (unionH N Hs) u = partOf H u := by
  obtain ⟨v, hv, rfl, -⟩ := (hD.wf H hH).inc_vtx n hn u hu
  exact partOf_union hD hH hv

theorem unionCost_eq {N : Nat} {Hs : List Hypergraph} (hD : Distributed N Hs) {H : Hypergraph}
    (hH : H ∈ Hs) {n : Net} (hn : n ∈ H.nets) : unionCost Hs n.id = n.cost := by
  unfold unionCost
  have hmem : n ∈ Hs.flatMap (·.nets) := List.mem_flatMap.2 ⟨H, hH, hn⟩
  cases hf : (Hs.flatMap (·.nets)).find? (fun x => x.id == n.id) with
  | none =>
    rw [List.find?_eq_none] at hf
    exact absurd (by simp) (hf n hmem)
  | some x =>
    have hx := List.mem_of_find?_eq_some hf
    have hid : x.id = n.id := by simpa using List.find?_some hf
    obtain ⟨H', hH', hx'⟩ := List.mem_flatMap.1 hx
    exact hD.costs H' hH' H hH x hx' n hn hid

theorem countP_unionPins (Hs : List Hypergraph) (e : Nat) (q : Nat → Bool) :
    (((unionPins Hs e).countP q : Nat) : Int) =
      (Hs.map (fun H => ((H.nets.filter (fun n => n.id = e)).map
        (fun n => ((n.vertices.countP q : Nat) : Int))).sum)).sum := by
  unfold unionPins
  induction Hs with
  | nil => rfl
  | cons H Hs ih =>
    rw [List.flatMap_cons, List.countP_append, List.map_cons, List.sum_cons, ← ih]
    push_cast
    congr 1
    generalize H.nets.filter _ = l
    induction l with
    | nil => rfl
    | cons n l ih => rw [List.flatMap_cons, List.countP_append, List.map_cons, List.sum_cons, ← ih]; push_cast; rfl

/-- The union is itself a consistent hypergraph. -/
theorem unionH_wf {N : Nat} {Hs : List Hypergraph} (hD : Distributed N Hs) : WF (unionH N Hs) := by
  apply WF_create
  · exact hD.disjoint
  · simp only [List.map_map, Function.comp_def, unionNet, List.map_id']
    exact List.nodup_range
  · intro v hv
    obtain ⟨H, hH, hv⟩ := List.mem_flatMap.1 hv
    exact (hD.wf H hH).vnets v hv
  · intro n hn
    obtain ⟨e, he, rfl⟩ := List.mem_map.1 hn
    simp only [unionNet, unionPins]
    have hdis := hD.disjoint
    have hwf := hD.wf
    clear hD hn he
    induction Hs with
    | nil => simp
    | cons H Hs ih =>
      rw [List.flatMap_cons, List.map_append, List.nodup_append] at hdis
      rw [List.flatMap_cons, List.nodup_append]
      refine ⟨?_, ih hdis.2.1 (fun H hH => hwf H (by simp [hH])), ?_⟩
      · have w := hwf H (by simp)
        rw [List.nodup_flatMap]
        refine ⟨fun n hn => w.npins n (List.mem_filter.1 hn).1, ?_⟩
        have hnd : H.nets.Pairwise (fun a b => a.id ≠ b.id) := by
          have := w.nids
          rw [List.Nodup, List.pairwise_map] at this
          exact this
        refine List.Pairwise.imp_of_mem ?_ (hnd.filter _)
        intro a b ha hb hab
        have h1 := (List.mem_filter.1 ha).2
        have h2 := (List.mem_filter.1 hb).2
        simp only [decide_eq_true_eq] at h1 h2
        exact absurd (h1.trans h2.symm) hab
      · intro u hu u' hu' huu
        subst huu
        obtain ⟨n, hn, hun⟩ := List.mem_flatMap.1 hu
        obtain ⟨v, hv, hvu, -⟩ := (hwf H (by simp)).inc_vtx n (List.mem_filter.1 hn).1 u hun
        obtain ⟨H', hH', hu2⟩ := List.mem_flatMap.1 hu'
        obtain ⟨n', hn', hun'⟩ := List.mem_flatMap.1 hu2
        obtain ⟨v', hv', hvu', -⟩ := (hwf H' (by simp [hH'])).inc_vtx n' (List.mem_filter.1 hn').1 u hun'
        exact hdis.2.2 u (List.mem_map.2 ⟨v, hv, hvu⟩) u
          (List.mem_map.2 ⟨v', List.mem_flatMap.2 ⟨H', hH', hv'⟩, hvu'⟩) rfl
  · intro v hv e he
    obtain ⟨H, hH, hv⟩ := List.mem_flatMap.1 hv
    obtain ⟨n, hn, hne, hvn⟩ := (hD.wf H hH).inc_net v hv e he
    refine ⟨unionNet Hs e, List.mem_map.2 ⟨e, ?_, rfl⟩, rfl, ?_⟩
    · rw [List.mem_range, ← hne]; exact hD.ids H hH n hn
    · exact mem_unionPins.2 ⟨H, hH, n, hn, hne, hvn⟩
  · intro n hn u hu
    obtain ⟨e, he, rfl⟩ := List.mem_map.1 hn
    obtain ⟨H, hH, m, hm, hme, hum⟩ := mem_unionPins.1 hu
    obtain ⟨v, hv, hvu, hmv⟩ := (hD.wf H hH).inc_vtx m hm u hum
    exact ⟨v, List.mem_flatMap.2 ⟨H, hH, hv⟩, hvu, by simp only [unionNet]; rw [← hme]; exact hmv⟩

/-! ### Cutsize -/

/-- The labels of a local net, as a total function. -/
def labs (H : Hypergraph) (n : Net) : List Int := (n.vertices.map (partOf H)).dedup

theorem labelsNet_mem {H : Hypergraph} (w : WF H) {n : Net} (hn : n ∈ H.nets) :
    ∃ s, labelsNet H n = .ok s ∧ s.Nodup ∧ ∀ x, x ∈ s ↔ x ∈ n.vertices.map (partOf H) := by
  obtain ⟨s, hs, hI⟩ := foldlM_inv (f := fun s u => do
      let p ← H.partOfV u
      pure (setInsert s p))
    (fun pre _ s => s.Nodup ∧ ∀ x, x ∈ s ↔ x ∈ pre.map (partOf H)) n.vertices ([] : List Int)
    (by simp) (by
      intro pre a post s hI hl
      have ha : a ∈ n.vertices := by rw [hl]; simp
      refine ⟨setInsert s (partOf H a), by simp [w.partOfV_pin hn ha], setInsert_nodup _ hI.1, ?_⟩
      intro x
      rw [setInsert_spec, hI.2]
      simp [eq_comm])
  exact ⟨s, hs, hI⟩

theorem foldl_setInsert (l s : List Int) (hs : s.Nodup) :
    (l.foldl setInsert s).Nodup ∧ ∀ x, x ∈ l.foldl setInsert s ↔ x ∈ s ∨ x ∈ l := by
  induction l generalizing s with
  | nil => simp [hs]
  | cons a l ih =>
    rw [List.foldl_cons]
    obtain ⟨h1, h2⟩ := ih (setInsert s a) (setInsert_nodup a hs)
    refine ⟨h1, fun x => ?_⟩
    rw [h2, setInsert_spec, List.mem_cons, or_assoc]

/-- What a list of messages says about slot `i`. -/
structure CutState (np : NetPart) (t : Nat) (ms : List LabelMsg)
    (st : List (List Int) × List Int) : Prop where
  len1 : st.1.length = np.count t
  len2 : st.2.length = np.count t
  sets : ∀ (i : Nat) (s : List Int), st.1[i]? = some s → s.Nodup ∧
    ∀ x, x ∈ s ↔ ∃ m ∈ ms, np.loc m.net = i ∧ x ∈ m.labels
  costs : ∀ (i : Nat) (c : Int), st.2[i]? = some c →
    (∃ m ∈ ms, np.loc m.net = i ∧ c = m.cost) ∨ ((∀ m ∈ ms, np.loc m.net ≠ i) ∧ c = 0)

theorem cutReceive_loop {np : NetPart} {t : Nat} (ms : List LabelMsg)
    (h : ∀ m ∈ ms, np.loc m.net < np.count t) :
    ∃ st, ms.foldlM (cutReceive np) (List.replicate (np.count t) [], List.replicate (np.count t) 0)
      = .ok st ∧ CutState np t ms st := by
  obtain ⟨st, h1, h2⟩ := foldlM_inv (f := cutReceive np) (fun pre _ st => CutState np t pre st) ms
    (List.replicate (np.count t) [], List.replicate (np.count t) 0) (by
      refine ⟨by simp, by simp, ?_, ?_⟩
      · intro i s hs
        have := List.mem_of_getElem? hs
        rw [List.eq_of_mem_replicate this]; simp
      · intro i s hs
        have := List.mem_of_getElem? hs
        rw [List.eq_of_mem_replicate this]; simp) (by
      intro pre m post st hI hl
      have hm := h m (by rw [hl]; simp)
      unfold cutReceive
      rw [vset_ok (by rw [hI.len2]; exact hm)]
      simp only [ok_bind]
      have hlt : np.loc m.net < st.1.length := by rw [hI.len1]; exact hm
      rw [vget_ok (List.getElem?_eq_getElem hlt)]
      simp only [ok_bind]
      rw [vset_ok hlt]
      refine ⟨_, rfl, ?_⟩
      refine ⟨by simp [hI.len1], by simp [hI.len2], ?_, ?_⟩
      · intro i s hs
        simp only at hs
        rw [List.getElem?_set] at hs
        by_cases hi : np.loc m.net = i
        · subst hi
          rw [if_pos rfl, if_pos hlt] at hs
          obtain ⟨a, b⟩ := hI.sets _ _ (List.getElem?_eq_getElem hlt)
          obtain ⟨c, e⟩ := foldl_setInsert m.labels _ a
          have hs := Option.some.inj hs
          rw [← hs]
          refine ⟨c, fun x => ?_⟩
          rw [e, b]
          constructor
          · rintro (⟨m', hm', h1, h2⟩ | h2)
            · exact ⟨m', by simp [hm'], h1, h2⟩
            · exact ⟨m, by simp, rfl, h2⟩
          · rintro ⟨m', hm', h1, h2⟩
            rcases List.mem_append.1 hm' with h3 | h3
            · exact Or.inl ⟨m', h3, h1, h2⟩
            · rw [List.mem_singleton] at h3; subst h3; exact Or.inr h2
        · rw [if_neg hi] at hs
          obtain ⟨a, b⟩ := hI.sets _ _ hs
          refine ⟨a, fun x => ?_⟩
          rw [b]
          constructor
          · rintro ⟨m', hm', h1, h2⟩; exact ⟨m', by simp [hm'], h1, h2⟩
          · rintro ⟨m', hm', h1, h2⟩
            rcases List.mem_append.1 hm' with h3 | h3
            · exact ⟨m', h3, h1, h2⟩
            · rw [List.mem_singleton] at h3; subst h3; exact absurd h1 hi
      · intro i c hs
        simp only at hs
        rw [List.getElem?_set] at hs
        by_cases hi : np.loc m.net = i
        · subst hi
          rw [if_pos rfl, if_pos (by rw [hI.len2]; exact hm)] at hs
          left
          exact ⟨m, by simp, rfl, (Option.some.inj hs).symm⟩
        · rw [if_neg hi] at hs
          rcases hI.costs _ _ hs with ⟨m', hm', h1, h2⟩ | ⟨h1, h2⟩
          · exact Or.inl ⟨m', by simp [hm'], h1, h2⟩
          · right
            refine ⟨?_, h2⟩
            intro m' hm'
            rcases List.mem_append.1 hm' with h3 | h3
            · exact h1 m' h3
            · rw [List.mem_singleton] at h3; subst h3; exact hi)
  exact ⟨st, h1, h2⟩

/-- Contribution of a slot. -/
def slotCut (metric : Metric) (s : List Int) (c : Int) : Int :=
  match metric with
  | .cutNet => if s.length > 1 then c else 0
  | .lambdaMinusOne => ((s.length - 1 : Nat) : Int) * c

theorem cutLocal_eq (metric : Metric) (sets : List (List Int)) (costs : List Int) :
    cutLocal metric sets costs = ((List.zip sets costs).map (fun x => slotCut metric x.1 x.2)).sum := by
  unfold cutLocal
  have : ∀ (l : List (List Int × Int)) (a : Int), l.foldl (fun r x =>
      if x.1.length > 1 then
        match metric with
        | .cutNet => r + x.2
        | .lambdaMinusOne => r + ((x.1.length : Int) - 1) * x.2
      else r) a = a + (l.map (fun x => slotCut metric x.1 x.2)).sum := by
    intro l
    induction l with
    | nil => simp
    | cons x l ih =>
      intro a
      rw [List.foldl_cons, ih, List.map_cons, List.sum_cons, ← add_assoc]
      congr 1
      unfold slotCut
      cases metric with
      | cutNet => simp only; split <;> simp
      | lambdaMinusOne =>
        simp only
        split
        · rename_i h; rw [Nat.cast_sub (by omega)]; simp
        · rename_i h
          have : x.1.length - 1 = 0 := by omega
          rw [this]; simp
  exact (this _ _).trans (by simp)

theorem zip_sum_range {α β : Type} (l1 : List α) (l2 : List β) (k : Nat) (h1 : l1.length = k)
    (h2 : l2.length = k) (f : α × β → Int) (T : Nat → Int)
    (h : ∀ (i : Nat) a b, l1[i]? = some a → l2[i]? = some b → f (a, b) = T i) :
    ((List.zip l1 l2).map f).sum = ((List.range k).map T).sum := by
  congr 1
  apply List.ext_getElem
  · simp [h1, h2]
  · intro i h3 h4
    simp only [List.length_map, List.length_range] at h4
    simp only [List.getElem_map, List.getElem_zip, List.getElem_range]
    exact h i _ _ (List.getElem?_eq_getElem (by omega)) (List.getElem?_eq_getElem (by omega))

/-- The contribution of net `e` of the whole hypergraph. -/
def netTerm (metric : Metric) (P : Nat → Int) (n : Net) : Int :=
  match metric with
  | .cutNet => if IsCut P n then n.cost else 0
  | .lambdaMinusOne => ((connectivity P n - 1 : Nat) : Int) * n.cost

theorem cutValue_terms (metric : Metric) (H : Hypergraph) :
    cutValue metric H = (H.nets.map (netTerm metric (partOf H))).sum := by
  cases metric <;> rfl

theorem cutsizePar_ok {N : Nat} {Hs : List Hypergraph} (hD : Distributed N Hs) {np : NetPart}
    (hv : np.Valid Hs.length N) {d : Delivery LabelMsg} (hd : Fair d) {so : List Int → List Int}
    (hso : ∀ l, (so l).Perm l) (metric : Metric) :
    cutsizePar so d np Hs metric = .ok (Hs.map (fun _ => cutValue metric (unionH N Hs))) := by
  unfold cutsizePar
  -- the sets sent
  have hlab : ∀ H ∈ Hs, ∀ n ∈ H.nets, ∃ s, labelsNet H n = .ok s ∧
      ∀ x, x ∈ so s ↔ x ∈ n.vertices.map (partOf H) := by
    intro H hH n hn
    obtain ⟨s, h1, -, h3⟩ := labelsNet_mem (hD.wf H hH) hn
    exact ⟨s, h1, fun x => by rw [(hso s).mem_iff, h3]⟩
  let lf : Hypergraph → Net → List Int := fun H n =>
    match labelsNet H n with
    | .ok s => so s
    | .error _ => []
  have hlf : ∀ H ∈ Hs, ∀ n ∈ H.nets, ∀ x, x ∈ lf H n ↔ x ∈ n.vertices.map (partOf H) := by
    intro H hH n hn x
    obtain ⟨s, h1, h2⟩ := hlab H hH n hn
    simp only [lf, h1]; exact h2 x
  let out : Hypergraph → List (Nat × LabelMsg) := fun H =>
    H.nets.map (fun n => (np.owner n.id, ⟨n.id, lf H n, n.cost⟩))
  have hsend : Hs.mapM (cutSends so Hs.length np) = .ok (Hs.map out) := by
    apply mapM_ok
    intro H hH
    unfold cutSends
    apply mapM_ok
    intro n hn
    obtain ⟨s, h1, -⟩ := hlab H hH n hn
    rw [h1]
    simp only [ok_bind, send, hv.owner_lt _ (hD.ids H hH n hn), if_true, lf, h1]
  rw [hsend]
  simp only [ok_bind]
  have hmem : ∀ t m, m ∈ inbox d (Hs.map out) t ↔
      ∃ H ∈ Hs, ∃ n ∈ H.nets, np.owner n.id = t ∧ m = ⟨n.id, lf H n, n.cost⟩ := by
    intro t m
    rw [mem_inbox hd]
    simp only [List.mem_map, out]
    constructor
    · rintro ⟨o, ⟨H, hH, rfl⟩, hx⟩
      obtain ⟨n, hn, he⟩ := List.mem_map.1 hx
      simp only [Prod.mk.injEq] at he
      exact ⟨H, hH, n, hn, he.1, he.2.symm⟩
    · rintro ⟨H, hH, n, hn, ho, rfl⟩
      exact ⟨_, ⟨H, hH, rfl⟩, List.mem_map.2 ⟨n, hn, by rw [ho]⟩⟩
  set P := partOf (unionH N Hs) with hP
  have hloc : ∀ t, t < Hs.length → (do
      let (sets, costs) ← (inbox d (Hs.map out) t).foldlM (cutReceive np)
        (List.replicate (np.count t) [], List.replicate (np.count t) 0)
      pure (cutLocal metric sets costs) : Res Int) =
      .ok (((List.range (np.count t)).map (fun i =>
        netTerm metric P (unionNet Hs (np.glob i t)))).sum) := by
    intro t ht
    obtain ⟨st, h1, h2⟩ := cutReceive_loop (np := np) (t := t) (inbox d (Hs.map out) t) (by
      intro m hm
      obtain ⟨H, hH, n, hn, ho, rfl⟩ := (hmem t m).1 hm
      simp only
      rw [← ho]; exact hv.loc_lt _ (hD.ids H hH n hn))
    rw [h1]
    simp only [ok_bind, pure_eq_ok]
    congr 1
    rw [cutLocal_eq]
    apply zip_sum_range _ _ _ h2.len1 h2.len2
    intro i s c hs hc
    have hi : i < np.count t := by
      have := (List.getElem?_eq_some_iff.1 hs).1
      rw [h2.len1] at this; exact this
    obtain ⟨hnd, hsm⟩ := h2.sets i s hs
    have hcs := h2.costs i c hc
    -- messages of slot i are about net glob i t
    have hslot : ∀ m, (m ∈ inbox d (Hs.map out) t ∧ np.loc m.net = i) ↔
        ∃ H ∈ Hs, ∃ n ∈ H.nets, n.id = np.glob i t ∧ m = ⟨n.id, lf H n, n.cost⟩ := by
      intro m
      rw [hmem]
      constructor
      · rintro ⟨⟨H, hH, n, hn, ho, rfl⟩, hl⟩
        simp only at hl
        refine ⟨H, hH, n, hn, ?_, rfl⟩
        rw [← hl, ← ho, hv.glob_loc _ (hD.ids H hH n hn)]
      · rintro ⟨H, hH, n, hn, hg, rfl⟩
        refine ⟨⟨H, hH, n, hn, ?_, rfl⟩, ?_⟩
        · rw [hg, hv.owner_glob t ht i hi]
        · simp only; rw [hg, hv.loc_glob t ht i hi]
    have hset : s.length = connectivity P (unionNet Hs (np.glob i t)) := by
      unfold connectivity
      apply List.Perm.length_eq
      rw [List.perm_ext_iff_of_nodup hnd (List.nodup_dedup _)]
      intro x
      rw [hsm, List.mem_dedup, List.mem_map]
      simp only [unionNet]
      constructor
      · rintro ⟨m, hm, hl, hx⟩
        obtain ⟨H, hH, n, hn, hg, rfl⟩ := (hslot m).1 ⟨hm, hl⟩
        rw [hlf H hH n hn, List.mem_map] at hx
        obtain ⟨u, hu, rfl⟩ := hx
        exact ⟨u, mem_unionPins.2 ⟨H, hH, n, hn, hg, hu⟩, partOf_union_pin hD hH hn hu⟩
      · rintro ⟨u, hu, rfl⟩
        obtain ⟨H, hH, n, hn, hg, hun⟩ := mem_unionPins.1 hu
        obtain ⟨h3, h4⟩ := (hslot ⟨n.id, lf H n, n.cost⟩).2 ⟨H, hH, n, hn, hg, rfl⟩
        refine ⟨_, h3, h4, ?_⟩
        simp only
        rw [hlf H hH n hn, List.mem_map]
        exact ⟨u, hun, (partOf_union_pin hD hH hn hun).symm⟩
    have hcost : c = unionCost Hs (np.glob i t) ∨ s = [] := by
      rcases hcs with ⟨m, hm, hl, hcm⟩ | ⟨hno, hc0⟩
      · left
        obtain ⟨H, hH, n, hn, hg, rfl⟩ := (hslot m).1 ⟨hm, hl⟩
        rw [hcm, ← hg, unionCost_eq hD hH hn]
      · right
        rw [List.eq_nil_iff_forall_not_mem]
        intro x hx
        obtain ⟨m, hm, hl, -⟩ := (hsm x).1 hx
        exact hno m hm hl
    have hgt := connectivity_gt_one P (unionNet Hs (np.glob i t))
    rw [← hset] at hgt
    unfold slotCut netTerm
    rw [← hset]
    rcases hcost with hc' | hs'
    · cases metric with
      | cutNet =>
        simp only
        by_cases hcut : IsCut P (unionNet Hs (np.glob i t))
        · rw [if_pos (hgt.2 hcut), if_pos hcut, hc']; rfl
        · rw [if_neg (fun h => hcut (hgt.1 h)), if_neg hcut]
      | lambdaMinusOne => simp only; rw [hc']; rfl
    · subst hs'
      cases metric with
      | cutNet =>
        simp only
        rw [if_neg (by simp), if_neg (fun h => by simpa using hgt.2 h)]
      | lambdaMinusOne => simp
  rw [mapM_ok (g := fun t => ((List.range (np.count t)).map (fun i =>
        netTerm metric P (unionNet Hs (np.glob i t)))).sum)]
  · simp only [ok_bind, pure_eq_ok]
    rw [bulkSum_eq, hv.sum (fun e => netTerm metric P (unionNet Hs e)), List.map_map]
    have hcv : cutValue metric (unionH N Hs) =
        ((List.range N).map (fun e => netTerm metric P (unionNet Hs e))).sum := by
      rw [cutValue_terms]
      simp only [unionH, Hypergraph.create, List.map_map]
      rfl
    rw [← hcv]
    congr 1
    apply List.ext_getElem
    · simp
    · intro i h1 h2; simp
  · intro t ht
    exact hloc t (List.mem_range.1 ht)

/-! ### Counts and sizes -/

theorem countsExact_self {H : Hypergraph} {C : List Cnt} (h : CountsExact H C) :
    C = H.nets.map (fun n => ⟨pinCount (partOf H) n 0, pinCount (partOf H) n 1⟩) := h

theorem countSends_ok {p : Nat} {np : NetPart} {H : Hypergraph} (c : Net → Cnt)
    (ho : ∀ n ∈ H.nets, np.owner n.id < p) :
    countSends p np H (H.nets.map c) = .ok ((H.nets.filter (fun n => 0 < (c n).c0)).map
      (fun n => (np.owner n.id, (n.id, (c n).c0)))) := by
  unfold countSends
  have hz : (H.nets.map c).zipIdx = H.nets.zipIdx.map (fun x => (c x.1, x.2)) := by
    rw [List.zipIdx_map]; rfl
  rw [hz, List.foldlM_map]
  suffices hs : ∀ (post pre : List Net) acc, H.nets = pre ++ post →
      (post.zipIdx pre.length).foldlM (fun acc x => countSend p np H acc (c x.1, x.2)) acc =
        .ok (acc ++ ((post.filter (fun n => 0 < (c n).c0)).map
          (fun n => (np.owner n.id, (n.id, (c n).c0))))) by
    simpa using hs H.nets [] [] rfl
  intro post
  induction post with
  | nil => intro pre acc _; simp
  | cons n post ih =>
    intro pre acc hl
    rw [List.zipIdx_cons, List.foldlM_cons]
    have hn : H.nets[pre.length]? = some n := by rw [hl]; simp
    have ih' := fun acc => ih (pre ++ [n]) acc (by simp [hl])
    rw [List.length_append, List.length_singleton] at ih'
    by_cases hc : (c n).c0 > 0
    · have hstep : countSend p np H acc (c n, pre.length) =
          .ok (acc ++ [(np.owner n.id, (n.id, (c n).c0))]) := by
        unfold countSend
        simp only
        rw [if_pos hc, vget_ok hn]
        simp only [ok_bind, send, ho n (List.mem_of_getElem? hn), if_true, pure_eq_ok]
      simp only [hstep, ok_bind]
      rw [ih', List.filter_cons_of_pos (by simpa using hc)]
      simp
    · have hstep : countSend p np H acc (c n, pre.length) = .ok acc := by
        unfold countSend
        simp only
        rw [if_neg hc]; rfl
      simp only [hstep, ok_bind]
      rw [ih', List.filter_cons_of_neg (by simpa using hc)]

/-- The messages about net `e` add up to the count over the union. -/
theorem sum_messages {Hs : List Hypergraph} {np : NetPart} (e : Nat) (q : Nat → Bool)
    (keep : Hypergraph → Net → Bool) (val : Hypergraph → Net → Int)
    (hval : ∀ H ∈ Hs, ∀ n ∈ H.nets, val H n = ((n.vertices.countP q : Nat) : Int))
    (hkeep : ∀ H ∈ Hs, ∀ n ∈ H.nets, keep H n = false → val H n = 0) :
    ((((Hs.map (fun H => (H.nets.filter (keep H)).map
      (fun n => (np.owner n.id, (n.id, val H n))))).flatten).filter
      (fun x => x.2.1 = e)).map (·.2.2)).sum = (((unionPins Hs e).countP q : Nat) : Int) := by
  rw [countP_unionPins]
  induction Hs with
  | nil => rfl
  | cons H Hs ih =>
    rw [List.map_cons, List.flatten_cons, List.filter_append, List.map_append, List.sum_append,
      List.map_cons, List.sum_cons, ih (fun H hH => hval H (by simp [hH]))
        (fun H hH => hkeep H (by simp [hH]))]
    congr 1
    have h1 := hval H (by simp)
    have h2 := hkeep H (by simp)
    revert h1 h2
    generalize H.nets = l
    intro h1 h2
    induction l with
    | nil => rfl
    | cons n l ih =>
      have ih := ih (fun n hn => h1 n (by simp [hn])) (fun n hn => h2 n (by simp [hn]))
      cases hk : keep H n with
      | false =>
        rw [List.filter_cons_of_neg (by simp [hk]), ih]
        by_cases he : n.id = e
        · rw [List.filter_cons_of_pos (by simp [he]), List.map_cons, List.sum_cons,
            ← h1 n (by simp), h2 n (by simp) hk, zero_add]
        · rw [List.filter_cons_of_neg (by simp [he])]
      | true =>
        rw [List.filter_cons_of_pos (by simp [hk]), List.map_cons]
        by_cases he : n.id = e
        · rw [List.filter_cons_of_pos (by simp [he]), List.filter_cons_of_pos (by simp [he]),
            List.map_cons, List.map_cons, List.sum_cons, List.sum_cons, ih, h1 n (by simp)]
        · rw [List.filter_cons_of_neg (by simp [he]), List.filter_cons_of_neg (by simp [he]), ih]

/-- After accumulation the owner of net `e` holds the count over the union. -/
theorem owned_get {np : NetPart} {p N : Nat} (hv : np.Valid p N) (T : Nat → Int) {e : Nat}
    (he : e < N) :
    (do let a ← vget ((List.range p).map (fun t => (List.range (np.count t)).map
          (fun i => T (np.glob i t)))) (np.owner e)
        vget a (np.loc e) : Res Int) = .ok (T e) := by
  rw [vget_ok (a := (List.range (np.count (np.owner e))).map (fun i => T (np.glob i (np.owner e))))]
  · simp only [ok_bind]
    apply vget_ok
    simp [hv.loc_lt e he, hv.glob_loc e he]
  · simp [hv.owner_lt e he]

theorem initCountsPar_ok {N : Nat} {Hs : List Hypergraph} (hD : Distributed N Hs) {np : NetPart}
    (hv : np.Valid Hs.length N) {d : Delivery (Nat × Int)} (hd : Fair d)
    (hb : ∀ H ∈ Hs, Bipartitioned H)
    (hs : ∀ H ∈ Hs, ∀ n ∈ H.nets, n.globalSize = (unionPins Hs n.id).length) :
    initCountsPar d np Hs = .ok (Hs.map (fun H => H.nets.map (fun n =>
      ⟨pinCount (partOf (unionH N Hs)) (unionNet Hs n.id) 0,
       pinCount (partOf (unionH N Hs)) (unionNet Hs n.id) 1⟩))) := by
  unfold initCountsPar
  set P := partOf (unionH N Hs) with hP
  let val : Hypergraph → Net → Int := fun H n => ((pinCount (partOf H) n 0 : Nat) : Int)
  let out : Hypergraph → List (Nat × (Nat × Int)) := fun H =>
    (H.nets.filter (fun n => decide (0 < val H n))).map (fun n => (np.owner n.id, (n.id, val H n)))
  have hsend : Hs.mapM (fun H => do
      let C ← initCounts H
      countSends Hs.length np H C) = .ok (Hs.map out) := by
    apply mapM_ok
    intro H hH
    obtain ⟨C, h1, h2⟩ := initCounts_ok (hD.wf H hH) (hb H hH)
    rw [h1]
    simp only [ok_bind]
    rw [countsExact_self h2, countSends_ok _ (fun n hn => hv.owner_lt _ (hD.ids H hH n hn))]
  rw [hsend]
  simp only [ok_bind]
  have hval : ∀ H ∈ Hs, ∀ n ∈ H.nets, val H n =
      ((n.vertices.countP (fun u => decide (P u = 0)) : Nat) : Int) := by
    intro H hH n hn
    simp only [val, pinCount]
    congr 1
    apply List.countP_congr
    intro u hu
    rw [hP, partOf_union_pin hD hH hn hu]
  have howned : (List.range Hs.length).mapM (fun t => countOwned np t (inbox d (Hs.map out) t)) =
      .ok ((List.range Hs.length).map (fun t => (List.range (np.count t)).map (fun i =>
        (((unionPins Hs (np.glob i t)).countP (fun u => decide (P u = 0)) : Nat) : Int)))) := by
    apply mapM_ok
    intro t ht
    rw [List.mem_range] at ht
    rw [owned_sum hv hd _ ht]
    · congr 1
      apply List.map_congr_left
      intro i _
      exact sum_messages (np.glob i t) _ (fun H n => decide (0 < val H n)) val hval (by
        intro H hH n hn hk
        simp only [decide_eq_false_iff_not, not_lt] at hk
        have : 0 ≤ val H n := by simp [val]
        omega)
    · intro o ho x hx
      obtain ⟨H, hH, rfl⟩ := List.mem_map.1 ho
      obtain ⟨n, hn, rfl⟩ := List.mem_map.1 hx
      exact ⟨hD.ids H hH n (List.mem_filter.1 hn).1, rfl⟩
  rw [howned]
  simp only [ok_bind]
  apply mapM_ok
  intro H hH
  apply mapM_ok
  intro n hn
  have hget := owned_get hv (fun e => (((unionPins Hs e).countP (fun u => decide (P u = 0)) : Nat) : Int))
    (hD.ids H hH n hn)
  rw [bind_eq_ok] at hget
  obtain ⟨a, h1, h2⟩ := hget
  rw [h1]
  simp only [ok_bind]
  rw [h2]
  simp only [ok_bind, pure_eq_ok, hs H hH n hn]
  congr 2
  simp only [pinCount, unionNet]
  have h01 : ∀ u ∈ unionPins Hs n.id, P u = 0 ∨ P u = 1 := by
    intro u hu
    obtain ⟨H', hH', m, hm, hme, hum⟩ := mem_unionPins.1 hu
    obtain ⟨v, hv', rfl, -⟩ := (hD.wf H' hH').inc_vtx m hm u hum
    rw [hP, partOf_union hD hH' hv', (hD.wf H' hH').partOf_eq hv']
    exact hb H' hH' v hv'
  have hlen := List.length_eq_countP_add_countP (fun u => decide (P u = 0)) (l := unionPins Hs n.id)
  have h1c : (unionPins Hs n.id).countP (fun u => decide (P u = 1)) =
      (unionPins Hs n.id).countP (fun u => decide ¬ (decide (P u = 0)) = true) := by
    apply List.countP_congr
    intro u hu
    rcases h01 u hu with h | h <;> simp [h]
  rw [h1c, hlen]
  push_cast
  omega

theorem globalNetSizes_ok {N : Nat} {Hs : List Hypergraph} (hD : Distributed N Hs) {np : NetPart}
    (hv : np.Valid Hs.length N) {d1 d2 : Delivery (Nat × Int)} (hd1 : Fair d1) (hd2 : Fair d2) :
    globalNetSizes d1 d2 np Hs = .ok (Hs.map (fun H =>
      (H.nets.map (fun n => ((unionPins Hs n.id).length : Int)),
       { H with nets := H.nets.map (fun n =>
          { n with globalSize := (unionPins Hs n.id).length }) }))) := by
  unfold globalNetSizes
  simp only
  let val : Hypergraph → Net → Int := fun H n => (n.vertices.length : Int)
  let out : Hypergraph → List (Nat × (Nat × Int)) := fun H =>
    (H.nets.filter (fun _ => true)).map (fun n => (np.owner n.id, (n.id, val H n)))
  have hsend : Hs.mapM (sizeSends Hs.length np) = .ok (Hs.map out) := by
    apply mapM_ok
    intro H hH
    unfold sizeSends
    rw [mapM_ok (g := fun n => (np.owner n.id, (n.id, val H n)))]
    · simp [out]
    · intro n hn
      simp only [send, hv.owner_lt _ (hD.ids H hH n hn), if_true, val]
  rw [hsend]
  simp only [ok_bind]
  let T : Nat → Int := fun e => ((unionPins Hs e).length : Int)
  have howned : (List.range Hs.length).mapM (fun t => countOwned np t (inbox d1 (Hs.map out) t)) =
      .ok ((List.range Hs.length).map (fun t => (List.range (np.count t)).map (fun i =>
        T (np.glob i t)))) := by
    apply mapM_ok
    intro t ht
    rw [List.mem_range] at ht
    rw [owned_sum hv hd1 _ ht]
    · congr 1
      apply List.map_congr_left
      intro i _
      have := sum_messages (np := np) (Hs := Hs) (np.glob i t) (fun _ => true) (fun H n => true) val
        (by intro H hH n hn; simp [val]) (by intro H hH n hn hk; cases hk)
      rw [this]; simp [T]
    · intro o ho x hx
      obtain ⟨H, hH, rfl⟩ := List.mem_map.1 ho
      obtain ⟨n, hn, rfl⟩ := List.mem_map.1 hx
      exact ⟨hD.ids H hH n (List.mem_filter.1 hn).1, rfl⟩
  rw [howned]
  simp only [ok_bind]
  set outs2 := (((List.range Hs.length).map (fun t => (List.range (np.count t)).map (fun i =>
        T (np.glob i t)))).zipIdx).map (fun (a, t) => sizeReplies Hs.length np t a) with houts2
  -- what arrives: every net with pins, with its size
  have hmem : ∀ t, t < Hs.length → ∀ m, m ∈ inbox d2 outs2 t ↔ m.1 < N ∧ m.2 = T m.1 ∧ 0 < T m.1 := by
    intro t ht m
    rw [mem_inbox hd2]
    simp only [houts2, List.mem_map, sizeReplies]
    constructor
    · rintro ⟨o, ⟨⟨a, s⟩, has, rfl⟩, hx⟩
      have has := List.mem_zipIdx_iff_getElem?.1 has
      simp only [List.getElem?_map, Option.map_eq_some_iff, List.getElem?_eq_some_iff,
        List.length_range, List.getElem_range] at has
      obtain ⟨s', ⟨hs', rfl⟩, rfl⟩ := has
      simp only [List.mem_flatMap] at hx
      obtain ⟨⟨x, i⟩, hxi, hx⟩ := hx
      have hxi := List.mem_zipIdx_iff_getElem?.1 hxi
      simp only [List.getElem?_map, Option.map_eq_some_iff, List.getElem?_eq_some_iff,
        List.length_range, List.getElem_range] at hxi
      obtain ⟨i', ⟨hi', hii⟩, rfl⟩ := hxi
      subst hii
      simp only at hx
      split at hx
      · rename_i hpos
        obtain ⟨r, hr, he⟩ := List.mem_map.1 hx
        simp only [Prod.mk.injEq] at he
        obtain ⟨-, rfl⟩ := he
        exact ⟨hv.glob_lt _ hs' _ hi', rfl, hpos⟩
      · simp at hx
    · rintro ⟨h1, h2, h3⟩
      obtain ⟨e, x⟩ := m
      simp only at h1 h2 h3
      subst h2
      refine ⟨_, ⟨((List.range (np.count (np.owner e))).map (fun i => T (np.glob i (np.owner e))),
        np.owner e), List.mem_zipIdx_iff_getElem?.2 ?_, rfl⟩, ?_⟩
      · simp [hv.owner_lt e h1]
      · simp only [List.mem_flatMap]
        refine ⟨(T e, np.loc e), List.mem_zipIdx_iff_getElem?.2 ?_, ?_⟩
        · simp [hv.loc_lt e h1, hv.glob_loc e h1]
        · simp only [if_pos h3, hv.glob_loc e h1]
          exact List.mem_map.2 ⟨t, List.mem_range.2 ht, rfl⟩
  apply mapM_zipIdx_map
  intro t H hH
  have ht : t < Hs.length := (List.getElem?_eq_some_iff.1 hH).1
  have hH := List.mem_of_getElem? hH
  have w := hD.wf H hH
  simp only
  -- the receive loop
  have hloop : (inbox d2 outs2 t).foldlM (sizeReceive H) (List.replicate H.nets.length 0) =
      .ok (H.nets.map (fun n => T n.id)) := by
    obtain ⟨r, h1, h2⟩ := foldlM_inv (f := sizeReceive H) (fun pre _ r =>
        r.length = H.nets.length ∧ ∀ (j : Nat) (n : Net), H.nets[j]? = some n →
          r[j]? = some (if n.id ∈ pre.map (·.1) then T n.id else 0))
      (inbox d2 outs2 t) (List.replicate H.nets.length 0) (by
        refine ⟨by simp, fun j n hj => ?_⟩
        have := (List.getElem?_eq_some_iff.1 hj).1
        simp [this]) (by
        intro pre m post r ⟨hlen, hr⟩ hl
        have hm := (hmem t ht m).1 (by rw [hl]; simp)
        unfold sizeReceive
        by_cases hloc : H.isLocalNet m.1 = true
        · rw [if_pos hloc]
          obtain ⟨j, hj⟩ := Option.isSome_iff_exists.1 hloc
          obtain ⟨n, hjn, hne⟩ := (w.nmap_iff _ _).1 hj
          have hj := w.localIdNet_of_get hjn
          rw [hne] at hj
          rw [hj]
          simp only [ok_bind]
          have hjlt : j < r.length := by rw [hlen]; exact (List.getElem?_eq_some_iff.1 hjn).1
          rw [vset_ok hjlt]
          refine ⟨_, rfl, by simpa using hlen, fun j' n' hj' => ?_⟩
          rw [List.getElem?_set]
          by_cases hjj : j = j'
          · subst hjj
            have : n' = n := by rw [hjn] at hj'; exact (Option.some.inj hj').symm
            subst this
            rw [if_pos rfl, if_pos hjlt, if_pos (by simp [hne]), hm.2.1, hne]
          · rw [if_neg hjj, hr j' n' hj']
            have hne' : n'.id ≠ m.1 := by
              intro h
              apply hjj
              exact w.nindex_inj hjn hj' (by rw [h]; exact hne)
            have hiff : (n'.id ∈ (pre ++ [m]).map (·.1)) ↔ n'.id ∈ pre.map (·.1) := by
              rw [List.map_append, List.mem_append]; simp [hne']
            simp only [hiff]
        · rw [if_neg hloc]
          refine ⟨r, rfl, hlen, fun j n hj => ?_⟩
          rw [hr j n hj]
          have hne' : n.id ≠ m.1 := by
            intro h
            apply hloc
            exact Option.isSome_iff_exists.2 ⟨j, (w.nmap_iff _ _).2 ⟨n, hj, h⟩⟩
          have hiff : (n.id ∈ (pre ++ [m]).map (·.1)) ↔ n.id ∈ pre.map (·.1) := by
            rw [List.map_append, List.mem_append]; simp [hne']
          simp only [hiff])
    rw [h1]
    congr 1
    apply List.ext_getElem?
    intro j
    rw [List.getElem?_map]
    cases hj : H.nets[j]? with
    | none =>
      rw [Option.map_none, List.getElem?_eq_none_iff]
      rw [List.getElem?_eq_none_iff] at hj
      rw [h2.1]; exact hj
    | some n =>
      rw [h2.2 j n hj, Option.map_some]
      congr 1
      split
      · rfl
      · rename_i hno
        by_contra hne
        apply hno
        have hpos : 0 < T n.id := by
          have : 0 ≤ T n.id := by simp [T]
          simp only [T] at *; omega
        exact List.mem_map.2 ⟨(n.id, T n.id), (hmem t ht _).2
          ⟨hD.ids H hH n (List.mem_of_getElem? hj), rfl, hpos⟩, rfl⟩
  rw [hloop]
  simp only [ok_bind]
  have hset : H.setGlobalNetSizes ((H.nets.map (fun n => T n.id)).map Int.toNat) =
      .ok { H with nets := H.nets.map (fun n =>
          { n with globalSize := (unionPins Hs n.id).length }) } := by
    unfold Hypergraph.setGlobalNetSizes
    rw [mapM_zipIdx_map (g := fun n => { n with globalSize := (unionPins Hs n.id).length })]
    · rfl
    · intro i n hn
      simp only
      rw [vget_ok (a := (unionPins Hs n.id).length) (by simp [hn, T])]
      rfl
  rw [hset]
  rfl

/-! ### Weights -/

theorem totalWeight_union (Hs : List Hypergraph) :
    ((Hs.flatMap (·.vertices)).map (·.weight)).sum =
      (Hs.map (fun H => (H.vertices.map (·.weight)).sum)).sum := by
  rw [List.map_flatMap, sum_flatMap]

/-! ### owner_min -/

theorem ownerMinLoop_ok {xs : List Int} (h : xs ≠ []) :
    ∃ t x, ownerMinLoop xs = .ok t ∧ xs[t]? = some x ∧ (∀ y ∈ xs, x ≤ y) ∧
      ∀ (s : Nat) (y : Int), t < s → xs[s]? = some y → x < y := by
  unfold ownerMinLoop
  obtain ⟨x0, xs', rfl⟩ := List.exists_cons_of_ne_nil h
  have h0 : vget (x0 :: xs') 0 = .ok x0 := rfl
  rw [h0]
  simp only [ok_bind, List.length_cons, Nat.add_sub_cancel]
  obtain ⟨st, h1, h2⟩ := foldlM_inv (f := fun (st : Int × Nat) t => do
      let x ← vget (x0 :: xs') t
      if x ≤ st.1 then pure (x, t) else pure st)
    (fun pre _ st => (x0 :: xs')[st.2]? = some st.1 ∧ st.2 ≤ pre.length ∧
      (∀ (s : Nat) (y : Int), s ≤ pre.length → (x0 :: xs')[s]? = some y → st.1 ≤ y) ∧
      ∀ (s : Nat) (y : Int), st.2 < s → s ≤ pre.length → (x0 :: xs')[s]? = some y → st.1 < y)
    (List.range' 1 xs'.length) (x0, 0) (by
      refine ⟨rfl, by simp, ?_, ?_⟩
      · intro s y hs hy
        have : s = 0 := by simpa using hs
        subst this
        simp at hy; simp [hy]
      · intro s y h1 h2 hy
        simp at h1 h2; omega) (by
      intro pre t post st ⟨a, b, c, e⟩ hl
      have ht : t = pre.length + 1 ∧ t < xs'.length + 1 := by
        have h1 : (List.range' 1 xs'.length)[pre.length]? = some t := by rw [hl]; simp
        rw [List.getElem?_eq_some_iff] at h1
        obtain ⟨h2, h3⟩ := h1
        simp at h2 h3
        omega
      have hx : (x0 :: xs')[t]? = some ((x0 :: xs')[t]'(by simpa using ht.2)) :=
        List.getElem?_eq_getElem _
      set x := (x0 :: xs')[t]'(by simpa using ht.2) with hxdef
      rw [vget_ok hx]
      simp only [ok_bind]
      rw [List.length_append, List.length_singleton]
      by_cases hle : x ≤ st.1
      · rw [if_pos hle]
        refine ⟨_, rfl, hx, by simp only; omega, ?_, ?_⟩
        · intro s y hs hy
          simp only
          rcases Nat.lt_or_ge pre.length s with h1 | h1
          · have : s = t := by omega
            subst this
            rw [hx] at hy; rw [Option.some.inj hy]
          · exact le_trans hle (c s y h1 hy)
        · intro s y h1 h2 hy
          simp only at h1; omega
      · rw [if_neg hle]
        refine ⟨_, rfl, a, by omega, ?_, ?_⟩
        · intro s y hs hy
          rcases Nat.lt_or_ge pre.length s with h1 | h1
          · have : s = t := by omega
            subst this
            rw [hx] at hy; rw [← Option.some.inj hy]; omega
          · exact c s y h1 hy
        · intro s y h1 h2 hy
          rcases Nat.lt_or_ge pre.length s with h3 | h3
          · have : s = t := by omega
            subst this
            rw [hx] at hy; rw [← Option.some.inj hy]; omega
          · exact e s y h1 h3 hy)
  rw [h1]
  obtain ⟨a, b, c, e⟩ := h2
  simp only [List.length_range'] at b c e
  have hlt : ∀ (s : Nat) (y : Int), (x0 :: xs')[s]? = some y → s ≤ xs'.length := by
    intro s y hs
    have := (List.getElem?_eq_some_iff.1 hs).1
    simp at this; omega
  refine ⟨st.2, st.1, rfl, a, ?_, ?_⟩
  · intro y hy
    obtain ⟨s, hs⟩ := List.mem_iff_getElem?.1 hy
    exact c s y (hlt s y hs) hs
  · intro s y h1 h2
    exact e s y h1 (hlt s y h2) h2

end PMondriaan
