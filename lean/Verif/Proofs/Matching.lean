import Verif.Spec.Matching
import Verif.Proofs.Contract

/-
Proofs about the choices made by the sequential matching.
-/

namespace PMondriaan

open Spec

section

variable {F : Type} {O : ScoreOps F} {H : Hypergraph}

/-- `visited` and `ip` hold, for every position, the costs `h j` added so far. -/
structure Hits (O : ScoreOps F) (n : Nat) (h : Nat → List F) (s : List Nat × List F) : Prop where
  mem : ∀ j, j ∈ s.1 ↔ j < n ∧ h j ≠ []
  len : s.2.length = n
  val : ∀ j, j < n → s.2[j]? = some ((h j).foldl O.add O.zero)

/-- Position `j` is counted when the vertex at position `i` is visited. -/
def elig (matched : List Bool) (i j : Nat) : Prop := matched[j]? = some false ∧ j ≠ i

instance (matched : List Bool) (i j : Nat) : Decidable (elig matched i j) := by
  unfold elig; infer_instance

theorem visitPin_hits {matched : List Bool} {i u ul : Nat} {c : F} {h : Nat → List F}
    {s : List Nat × List F} (hu : H.localId u = .ok ul) (hul : ul < H.vertices.length)
    (hm : matched.length = H.vertices.length)
    (hz : O.isZero O.zero = true)
    (I : Hits O H.vertices.length h s) :
    ∃ s', visitPin O H matched i c s u = .ok s' ∧
      Hits O H.vertices.length
        (fun j => if j = ul ∧ elig matched i j then h j ++ [c] else h j) s' := by
  have h2 : matched[ul]? = some (matched[ul]'(by omega)) := List.getElem?_eq_getElem _
  have h3 := I.val ul hul
  unfold visitPin
  simp only [hu, ok_bind, vget_ok h2, vget_ok h3]
  by_cases hc : matched[ul]'(by omega) = false ∧ ul ≠ i
  · rw [if_pos hc]
    have he : elig matched i ul := ⟨by rw [h2, hc.1], hc.2⟩
    refine ⟨_, rfl, ?_, by simpa using I.len, ?_⟩
    · intro j
      simp only
      by_cases hj : j = ul
      · subst hj
        have hr : j < H.vertices.length ∧
            (if j = j ∧ elig matched i j then h j ++ [c] else h j) ≠ [] := by
          refine ⟨hul, ?_⟩
          rw [if_pos (show j = j ∧ elig matched i j from ⟨rfl, he⟩)]
          simp
        refine iff_of_true ?_ hr
        split
        · simp
        · rename_i h0
          rw [I.mem]
          refine ⟨hul, ?_⟩
          intro hn
          rw [hn] at h0
          exact h0 hz
      · rw [if_neg (c := j = ul ∧ elig matched i j) (fun hh => hj hh.1)]
        split
        · rw [List.mem_append, List.mem_singleton, I.mem]
          exact ⟨fun hh => hh.resolve_right hj, Or.inl⟩
        · exact I.mem j
    · intro j hj
      simp only
      rw [List.getElem?_set]
      by_cases hjl : ul = j
      · subst hjl
        rw [if_pos rfl, if_pos (by rw [I.len]; exact hul), if_pos ⟨rfl, he⟩, List.foldl_append]
        rfl
      · rw [if_neg hjl, if_neg (fun hh => hjl hh.1.symm)]
        exact I.val j hj
  · rw [if_neg hc]
    have he : ¬ elig matched i ul := by
      intro hh
      apply hc
      refine ⟨?_, hh.2⟩
      have := hh.1
      rw [h2] at this
      exact Option.some.inj this
    refine ⟨s, rfl, ?_⟩
    have : (fun j => if j = ul ∧ elig matched i j then h j ++ [c] else h j) = h := by
      funext j
      rw [if_neg]
      rintro ⟨rfl, hh⟩
      exact he hh
    rw [this]
    exact I

/-- The costs counted for position `j` after the nets `es`. -/
def hitsOf (O : ScoreOps F) (H : Hypergraph) (matched : List Bool) (i : Nat) (es : List Nat)
    (j : Nat) : List F :=
  match H.vertices[j]? with
  | some u => if elig matched i j then
      (es.filterMap (fun e => H.nets.find? (fun n => n.id = e ∧ u.id ∈ n.vertices))).map O.cost
    else []
  | none => []

theorem find_net (w : WF H) {n : Net} (hn : n ∈ H.nets) (u : Nat) :
    H.nets.find? (fun m => m.id = n.id ∧ u ∈ m.vertices) =
      if u ∈ n.vertices then some n else none := by
  split
  · rename_i hu
    rcases hf : H.nets.find? (fun m => m.id = n.id ∧ u ∈ m.vertices) with _ | m
    · rw [List.find?_eq_none] at hf
      exact absurd (by simp [hu]) (hf n hn)
    · have h1 := List.find?_some hf
      have h2 := List.mem_of_find?_eq_some hf
      simp only [decide_eq_true_eq] at h1
      rw [hf, w.net_inj h2 hn h1.1]
  · rename_i hu
    rw [List.find?_eq_none]
    intro m hm hh
    simp only [decide_eq_true_eq] at hh
    rw [w.net_inj hm hn hh.1] at hh
    exact hu hh.2

theorem visitNet_hits (w : WF H) {matched : List Bool} {i e : Nat} {n : Net} (hn : n ∈ H.nets)
    (hne : n.id = e) (hm : matched.length = H.vertices.length) (hs : Shrinks O)
    (es : List Nat) {s : List Nat × List F}
    (I : Hits O H.vertices.length (hitsOf O H matched i es) s) :
    ∃ s', visitNet O H matched i s e = .ok s' ∧
      Hits O H.vertices.length (hitsOf O H matched i (es ++ [e])) s' := by
  subst hne
  obtain ⟨k, hk⟩ := List.mem_iff_getElem?.1 hn
  unfold visitNet
  simp only [w.netOf_of_get hk, ok_bind]
  obtain ⟨s', e', I'⟩ := foldlM_inv (f := visitPin O H matched i (O.cost n))
    (fun pre _ s => Hits O H.vertices.length
      (fun j => match H.vertices[j]? with
        | some u => if u.id ∈ pre ∧ elig matched i j then
            hitsOf O H matched i es j ++ [O.cost n] else hitsOf O H matched i es j
        | none => hitsOf O H matched i es j) s)
    n.vertices s
    (by
      have : (fun j => match H.vertices[j]? with
        | some u => if u.id ∈ ([] : List Nat) ∧ elig matched i j then
            hitsOf O H matched i es j ++ [O.cost n] else hitsOf O H matched i es j
        | none => hitsOf O H matched i es j) = hitsOf O H matched i es := by
        funext j
        cases H.vertices[j]? <;> simp
      rw [this]
      exact I)
    (by
      intro pre u post s I hl
      have hu : u ∈ n.vertices := by rw [hl]; simp
      obtain ⟨ul, v, hv, hvu, -, hloc, -⟩ := w.vertex_of_pin hn hu
      have hul : ul < H.vertices.length := (List.getElem?_eq_some_iff.1 hv).1
      have hnd := w.npins n hn
      have hup : u ∉ pre := by
        intro hh
        rw [hl, List.nodup_append] at hnd
        exact hnd.2.2 u hh u (by simp) rfl
      obtain ⟨s', e', I'⟩ := visitPin_hits (O := O) (matched := matched) (i := i) (c := O.cost n)
        hloc hul hm hs.zero I
      refine ⟨s', e', ?_⟩
      have hfun : (fun j => if j = ul ∧ elig matched i j then
          (match H.vertices[j]? with
          | some u => if u.id ∈ pre ∧ elig matched i j then
              hitsOf O H matched i es j ++ [O.cost n] else hitsOf O H matched i es j
          | none => hitsOf O H matched i es j) ++ [O.cost n]
          else
          match H.vertices[j]? with
          | some u => if u.id ∈ pre ∧ elig matched i j then
              hitsOf O H matched i es j ++ [O.cost n] else hitsOf O H matched i es j
          | none => hitsOf O H matched i es j) =
          (fun j => match H.vertices[j]? with
          | some x => if x.id ∈ pre ++ [u] ∧ elig matched i j then
              hitsOf O H matched i es j ++ [O.cost n] else hitsOf O H matched i es j
          | none => hitsOf O H matched i es j) := by
        funext j
        by_cases hj : j = ul
        · subst hj
          simp only [hv, hvu, hup, List.mem_append, List.mem_singleton]
          by_cases he : elig matched i j <;> simp [he]
        · rw [if_neg (fun hh => hj hh.1)]
          rcases hx : H.vertices[j]? with _ | x
          · rfl
          · have hxu : x.id ≠ u := by
              intro hh
              have := w.localId_of_get hx
              rw [hh, hloc] at this
              exact hj (by injection this with h; exact h.symm)
            simp only [List.mem_append, List.mem_singleton, hxu, or_false]
      rw [← hfun]
      exact I')
  refine ⟨s', e', ?_⟩
  have hfun : (fun j => match H.vertices[j]? with
      | some u => if u.id ∈ n.vertices ∧ elig matched i j then
          hitsOf O H matched i es j ++ [O.cost n] else hitsOf O H matched i es j
      | none => hitsOf O H matched i es j) = hitsOf O H matched i (es ++ [n.id]) := by
    funext j
    unfold hitsOf
    rcases hx : H.vertices[j]? with _ | x
    · rfl
    · simp only
      by_cases he : elig matched i j
      · simp only [he, and_true, if_true]
        rw [List.filterMap_append, List.filterMap_cons, find_net w hn]
        by_cases hxn : x.id ∈ n.vertices
        · simp [hxn]
        · simp [hxn]
      · simp [he]
  rw [← hfun]
  exact I'

theorem visit_hits (w : WF H) {matched : List Bool} {i : Nat} {v : Vertex} (hv : v ∈ H.vertices)
    (hm : matched.length = H.vertices.length) (hs : Shrinks O) {ip : List F}
    (hip : ip = List.replicate H.vertices.length O.zero) :
    ∃ s', v.nets.foldlM (visitNet O H matched i) ([], ip) = .ok s' ∧
      Hits O H.vertices.length (hitsOf O H matched i v.nets) s' := by
  apply foldlM_inv (f := visitNet O H matched i)
    (fun pre _ s => Hits O H.vertices.length (hitsOf O H matched i pre) s)
  · have h0 : ∀ j, hitsOf O H matched i [] j = [] := by
      intro j
      unfold hitsOf
      cases H.vertices[j]? <;> simp
    refine ⟨?_, by simp [hip], ?_⟩
    · intro j
      rw [h0]
      simp
    · intro j hj
      rw [h0, hip]
      simp [hj]
  · intro pre e post s I hl
    obtain ⟨j, n, hj, hne, -⟩ := w.net_of_vnet hv (show e ∈ v.nets by rw [hl]; simp)
    exact visitNet_hits w (List.mem_of_getElem? hj) hne hm hs pre I

theorem gt_trans (hg : StrictWeak O) {a b c : F} (h1 : O.gt a b = true) (h2 : O.gt b c = true) :
    O.gt a c = true := by
  rcases h : O.gt a c with _ | _
  · rw [hg.trans a c b h (hg.asymm b c h2)] at h1
    cases h1
  · rfl

/-- The number by which the score of position `j` is divided. -/
def degAt (H : Hypergraph) (v : Vertex) (j : Nat) : Nat :=
  match H.vertices[j]? with
  | some u => min v.nets.length u.nets.length
  | none => 1

/-- What the second loop has found after the candidates `pre`, with the sums `x`, the degrees `d` and the
positions with room `R`. A position can be listed more than once. -/
structure Picked (O : ScoreOps F) (n : Nat) (d : Nat → Nat) (x : Nat → F) (R : Nat → Prop)
    (ip : List F) (pre : List Nat) (s : List F × F × Option Nat) : Prop where
  len : s.1.length = n
  val : ∀ j, j ∉ pre → s.1[j]? = ip[j]?
  again : ∀ j ∈ pre, ∃ t, s.1[j]? = some (O.scale (d j) t) ∧
    (R j → O.gt (O.scale (d j) t) s.2.1 = false)
  seen : ∀ u ∈ pre, R u → O.gt (O.scale (d u) (x u)) s.2.1 = false
  zero : O.gt O.zero s.2.1 = false
  none' : s.2.2 = none → s.2.1 = O.zero
  some' : ∀ b, s.2.2 = some b → b ∈ pre ∧ R b ∧ s.2.1 = O.scale (d b) (x b) ∧
    O.gt s.2.1 O.zero = true

theorem gt_irrefl (hg : StrictWeak O) (a : F) : O.gt a a = false := by
  rcases h : O.gt a a with _ | _
  · rfl
  · have := hg.asymm _ _ h
    rw [h] at this
    cases this

theorem pick_best (hg : StrictWeak O) (hs : Shrinks O) {vis : List Nat}
    (hlt : ∀ u ∈ vis, u < H.vertices.length) (v : Vertex) (hd : ∀ u ∈ vis, 1 ≤ degAt H v u)
    (maxC : Nat) {M : List (List Nat)}
    (hM : M.length = H.vertices.length) {ip : List F}
    (hl : ip.length = H.vertices.length) {x : Nat → F}
    (hx : ∀ j, j < H.vertices.length → ip[j]? = some (x j)) :
    ∃ s', vis.foldlM (pickStep O H maxC M v) (ip, O.zero, none) = .ok s' ∧
      Picked O H.vertices.length (degAt H v) x
        (fun j => ∃ l, M[j]? = some l ∧ l.length < maxC) ip vis s' := by
  apply foldlM_inv (f := pickStep O H maxC M v)
    (fun pre _ s => Picked O H.vertices.length (degAt H v) x
        (fun j => ∃ l, M[j]? = some l ∧ l.length < maxC) ip pre s)
  · exact ⟨hl, fun _ _ => rfl, (by intro u hu; cases hu), (by intro u hu; cases hu), gt_irrefl hg _,
      fun _ => rfl, (by intro b hb; cases hb)⟩
  · intro pre u post s I hvis
    have hu : u ∈ vis := by rw [hvis]; simp
    have hul := hlt u hu
    have h2 : H.vertices[u]? = some (H.vertices[u]) := List.getElem?_eq_getElem _
    have h3 : M[u]? = some (M[u]'(by omega)) := List.getElem?_eq_getElem _
    have hdeg : min v.nets.length (H.vertices[u]).nets.length = degAt H v u := by
      unfold degAt
      simp only [h2]
    have hR : (∃ l, M[u]? = some l ∧ l.length < maxC) → (M[u]'(by omega)).length < maxC := by
      rintro ⟨l, hl1, hl2⟩
      rw [h3] at hl1
      injection hl1 with hl1
      rw [hl1]
      exact hl2
    -- the value found: the sum, or a score that was already compared
    obtain ⟨z, h1, hz⟩ : ∃ z, s.1[u]? = some z ∧
        ((u ∉ pre ∧ z = x u) ∨ (u ∈ pre ∧ ((∃ l, M[u]? = some l ∧ l.length < maxC) →
          O.gt (O.scale (degAt H v u) z) s.2.1 = false))) := by
      by_cases hup : u ∈ pre
      · obtain ⟨t, ht, hgt⟩ := I.again u hup
        refine ⟨_, ht, Or.inr ⟨hup, fun hr => ?_⟩⟩
        rcases hp : O.gt (O.scale (degAt H v u) t) O.zero with _ | _
        · exact hg.trans _ _ _ (hs.neg _ t (hd u hu) hp) I.zero
        · exact hg.trans _ _ _ (hs.pos _ t (hd u hu) hp) (hgt hr)
      · exact ⟨x u, by rw [I.val u hup, hx u hul], Or.inl ⟨hup, rfl⟩⟩
    unfold pickStep
    simp only [vget_ok h1, ok_bind, vertexAt_ok h2, vget_ok h3, hdeg]
    have hval : ∀ z : F, ∀ j, j ∉ pre ++ [u] → (s.1.set u z)[j]? = ip[j]? := by
      intro z j hj
      rw [List.mem_append, List.mem_singleton, not_or] at hj
      rw [List.getElem?_set_ne (fun hh => hj.2 hh.symm), I.val j hj.1]
    have hsu : u < s.1.length := by rw [I.len]; exact hul
    split
    · rename_i hc
      have hzx : u ∉ pre ∧ z = x u := by
        rcases hz with hz | ⟨-, hz⟩
        · exact hz
        · have := hz ⟨_, h3, hc.2⟩
          rw [this] at hc
          exact absurd hc.1 (by simp)
      obtain ⟨hup, rfl⟩ := hzx
      have hmono : ∀ a, O.gt a s.2.1 = false → O.gt a (O.scale (degAt H v u) (x u)) = false :=
        fun a ha => hg.trans _ _ _ ha (hg.asymm _ _ hc.1)
      refine ⟨_, rfl, by simpa using I.len, hval _, ?_, ?_, hmono _ I.zero, (by intro h; cases h), ?_⟩
      · intro j hj
        rw [List.mem_append, List.mem_singleton] at hj
        by_cases hju : j = u
        · subst hju
          exact ⟨x j, by simp [hsu], fun _ => gt_irrefl hg _⟩
        · obtain ⟨t, ht, hgt⟩ := I.again j (hj.resolve_right hju)
          exact ⟨t, by simp only; rw [List.getElem?_set_ne (Ne.symm hju), ht],
            fun hr => hmono _ (hgt hr)⟩
      · intro j hj hr
        rw [List.mem_append, List.mem_singleton] at hj
        rcases hj with hj | rfl
        · exact hmono _ (I.seen j hj hr)
        · exact gt_irrefl hg _
      · intro b hb
        simp only [Option.some.injEq] at hb
        subst hb
        refine ⟨by simp, ⟨_, h3, hc.2⟩, rfl, ?_⟩
        simp only
        rcases hbest : s.2.2 with _ | b
        · rw [← I.none' hbest]; exact hc.1
        · exact gt_trans hg hc.1 (I.some' b hbest).2.2.2
    · rename_i hc
      have hno : (∃ l, M[u]? = some l ∧ l.length < maxC) →
          O.gt (O.scale (degAt H v u) z) s.2.1 = false := by
        intro hr
        by_contra hh
        exact hc ⟨by simpa using hh, hR hr⟩
      refine ⟨_, rfl, by simpa using I.len, hval _, ?_, ?_, I.zero, I.none', ?_⟩
      · intro j hj
        rw [List.mem_append, List.mem_singleton] at hj
        by_cases hju : j = u
        · subst hju
          exact ⟨z, by simp [hsu], hno⟩
        · obtain ⟨t, ht, hgt⟩ := I.again j (hj.resolve_right hju)
          exact ⟨t, by simp only; rw [List.getElem?_set_ne (Ne.symm hju), ht], hgt⟩
      · intro j hj hr
        rw [List.mem_append, List.mem_singleton] at hj
        rcases hj with hj | rfl
        · exact I.seen j hj hr
        · rcases hz with ⟨-, rfl⟩ | ⟨hup, -⟩
          · exact hno hr
          · exact I.seen j hup hr
      · intro b hb
        obtain ⟨hb1, hb2⟩ := I.some' b hb
        exact ⟨by simp [hb1], hb2⟩

theorem reset_zero (z : F) (vis : List Nat) : ∀ (ip : List F),
    (∀ j, j < ip.length → j ∉ vis → ip[j]? = some z) →
    vis.foldl (fun (ip : List F) u => ip.set u z) ip = List.replicate ip.length z := by
  induction vis with
  | nil =>
    intro ip h
    apply List.ext_getElem?
    intro j
    rw [List.foldl_nil, List.getElem?_replicate]
    split
    · rename_i hj; exact h j hj (by simp)
    · rename_i hj; exact List.getElem?_eq_none (by omega)
  | cons a l ih =>
    intro ip h
    rw [List.foldl_cons, ih]
    · simp
    · intro j hj hjl
      rw [List.length_set] at hj
      rw [List.getElem?_set]
      by_cases ha : a = j
      · subst ha
        simp [hj]
      · rw [if_neg ha]
        exact h j hj (by simp [hjl, Ne.symm ha])

/-- The state after the decisions `ds`. -/
structure DInv (O : ScoreOps F) (H : Hypergraph) (ds : List (Nat × Option Nat)) (s : MState F) :
    Prop where
  lenM : s.matchesL.length = H.vertices.length
  lenB : s.matched.length = H.vertices.length
  ip : s.ip = List.replicate H.vertices.length O.zero
  mat : ∀ (j : Nat) (u : Vertex), H.vertices[j]? = some u → s.matchesL[j]? = some (chosenBy ds u.id)
  bit : ∀ (j : Nat) (u : Vertex), H.vertices[j]? = some u →
    (s.matched[j]? = some false ↔ ∀ d ∈ ds, d.1 = u.id → d.2 = none)
  kept : s.newV.map (·.id) = (ds.filter (fun d => d.2 = none)).map (·.1)

theorem chosenBy_snoc (ds : List (Nat × Option Nat)) (x : Nat) (o : Option Nat) (u : Nat) :
    chosenBy (ds ++ [(x, o)]) u = chosenBy ds u ++ (if o = some u then [x] else []) := by
  unfold chosenBy
  rw [List.filter_append, List.map_append]
  by_cases h : o = some u <;> simp [h]

theorem hits_shared (matched : List Bool) (i : Nat) {j : Nat} {v u : Vertex}
    (hu : H.vertices[j]? = some u) (he : elig matched i j) :
    hitsOf O H matched i v.nets j = (sharedNets H v u).map O.cost := by
  unfold hitsOf sharedNets
  simp only [hu, he, if_true]

theorem deg_pos (w : WF H) {matched : List Bool} {i j : Nat} {v : Vertex}
    (hj : j < H.vertices.length) (h : hitsOf O H matched i v.nets j ≠ []) : 1 ≤ degAt H v j := by
  have hu : H.vertices[j]? = some H.vertices[j] := List.getElem?_eq_getElem _
  unfold hitsOf at h
  unfold degAt
  simp only [hu] at h ⊢
  split at h
  · obtain ⟨c, hc⟩ := List.exists_mem_of_ne_nil _ h
    obtain ⟨n, hn, -⟩ := List.mem_map.1 hc
    obtain ⟨e, he, hf⟩ := List.mem_filterMap.1 hn
    have h1 := List.mem_of_find?_eq_some hf
    have h2 := List.find?_some hf
    simp only [decide_eq_true_eq] at h2
    obtain ⟨x, hx, hxu, hxn⟩ := w.inc_vtx n h1 _ h2.2
    rw [w.vertex_inj hx (List.getElem_mem _) hxu] at hxn
    have h3 := List.length_pos_of_mem he
    have h4 := List.length_pos_of_mem hxn
    omega
  · exact absurd rfl h

/-- One step of the matching is one greedy decision. -/
theorem matchStep_greedy (w : WF H) (hs : Shrinks O) (hg : StrictWeak O) (maxC : Nat)
    {ds : List (Nat × Option Nat)} {i : Nat} {v : Vertex} (hv : H.vertices[i]? = some v) {s : MState F} (I : DInv O H ds s) :
    ∃ s' o, matchStep O H maxC s i = .ok s' ∧ DInv O H (ds ++ [(v.id, o)]) s' ∧
      GreedyChoice O H maxC ds (v.id, o) := by
  have hvm := List.mem_of_getElem? hv
  have hil : i < H.vertices.length := (List.getElem?_eq_some_iff.1 hv).1
  have hinj : ∀ j u, H.vertices[j]? = some u → u.id = v.id → j = i := by
    intro j u hu hid
    have h1 := w.localId_of_get hu
    rw [hid, w.localId_of_get hv] at h1
    injection h1 with h1
    exact h1.symm
  have hstay : ∀ ip, ip = List.replicate H.vertices.length O.zero →
      DInv O H (ds ++ [(v.id, none)]) { s with newV := s.newV ++ [newVertex v], ip := ip } := by
    intro ip hip
    refine ⟨I.lenM, I.lenB, hip, ?_, ?_, ?_⟩
    · intro j u hu
      rw [chosenBy_snoc]
      simpa using I.mat j u hu
    · intro j u hu
      refine (I.bit j u hu).trans ?_
      constructor
      · intro h d hd
        rw [List.mem_append, List.mem_singleton] at hd
        rcases hd with hd | rfl
        · exact h d hd
        · intro _; rfl
      · intro h d hd
        exact h d (by simp [hd])
    · simp only [List.map_append, List.filter_append]
      rw [I.kept]
      simp [newVertex, Vertex.mk']
  unfold matchStep
  simp only [vertexAt_ok hv, ok_bind, vget_ok (I.mat i v hv)]
  split
  · rename_i hnil
    obtain ⟨s1, e1, h1⟩ := visit_hits (O := O) w (i := i) hvm I.lenB hs I.ip
    simp only [e1, ok_bind]
    obtain ⟨s2, e2, h2⟩ := pick_best (O := O) hg hs (fun u hu => ((h1.mem u).1 hu).1) v
      (fun u hu => deg_pos w ((h1.mem u).1 hu).1 ((h1.mem u).1 hu).2) maxC I.lenM h1.len h1.val
    simp only [e2, ok_bind]
    have hip3 : s1.1.foldl (fun (ip : List F) u => ip.set u O.zero) s2.1 =
        List.replicate H.vertices.length O.zero := by
      rw [reset_zero, h2.len]
      intro j hj hjv
      rw [h2.len] at hj
      rw [h2.val j hjv, h1.val j hj]
      have : hitsOf O H s.matched i v.nets j = [] := by
        by_contra hne
        exact hjv ((h1.mem j).2 ⟨hj, hne⟩)
      rw [this]
      rfl
    -- positions and vertices
    have hcand : ∀ u, MayJoin H maxC ds v u → ∃ j, H.vertices[j]? = some u ∧ j ∈ s1.1 ∧
        (∃ l, s.matchesL[j]? = some l ∧ l.length < maxC) ∧ elig s.matched i j := by
      intro u hu
      obtain ⟨j, hj⟩ := List.mem_iff_getElem?.1 hu.mem
      have hel : elig s.matched i j := by
        refine ⟨(I.bit j u hj).2 hu.stays, ?_⟩
        rintro rfl
        rw [hv] at hj
        injection hj with hj
        exact hu.ne (by rw [hj])
      refine ⟨j, hj, (h1.mem j).2 ⟨(List.getElem?_eq_some_iff.1 hj).1, ?_⟩, ⟨_, I.mat j u hj, hu.room⟩,
        hel⟩
      rw [hits_shared s.matched i hj hel]
      intro h0
      exact hu.shares (List.map_eq_nil_iff.1 h0)
    have hscore : ∀ j u, H.vertices[j]? = some u → elig s.matched i j →
        O.scale (degAt H v j) ((hitsOf O H s.matched i v.nets j).foldl O.add O.zero) =
          score O H v u := by
      intro j u hj hel
      unfold degAt
      simp only [hj]
      rw [hits_shared s.matched i hj hel]
      rfl
    rcases hbest : s2.2.2 with _ | b
    · refine ⟨_, none, rfl, hstay _ hip3, v, hvm, rfl, Or.inr ?_⟩
      intro u hu
      obtain ⟨j, hj, hjv, hR, hel⟩ := hcand u hu
      have := h2.seen j hjv hR
      rw [hscore j u hj hel, h2.none' hbest] at this
      exact this
    · obtain ⟨hb1, ⟨lb, hlb, hlt⟩, hb3, hb4⟩ := h2.some' b hbest
      obtain ⟨hbl, hbh⟩ := (h1.mem b).1 hb1
      obtain ⟨u, hu⟩ : ∃ u, H.vertices[b]? = some u := ⟨_, List.getElem?_eq_getElem hbl⟩
      have hel : elig s.matched i b := by
        by_contra hne
        apply hbh
        unfold hitsOf
        simp only [hu, hne, if_false]
      have hlb' : lb = chosenBy ds u.id := by
        rw [I.mat b u hu] at hlb
        injection hlb with hlb
        exact hlb.symm
      have hune : u.id ≠ v.id := fun hid => hel.2 (hinj b u hu hid)
      simp only [vget_ok hlb, ok_bind]
      refine ⟨_, some u.id, rfl, ?_, v, hvm, rfl, hnil, u, ?_, rfl, ?_, ?_⟩
      · refine ⟨by simpa using I.lenM, by simpa using I.lenB, hip3, ?_, ?_, ?_⟩
        · intro j x hx
          rw [chosenBy_snoc]
          simp only
          rw [List.getElem?_set]
          by_cases hbj : b = j
          · subst hbj
            rw [hu] at hx
            injection hx with hx
            subst hx
            rw [if_pos rfl, if_pos (by rw [I.lenM]; exact hbl), hlb']
            simp
          · rw [if_neg hbj, I.mat j x hx]
            have : u.id ≠ x.id := by
              intro hid
              have h3 := w.localId_of_get hu
              rw [hid, w.localId_of_get hx] at h3
              injection h3 with h3
              exact hbj h3.symm
            simp [this]
        · intro j x hx
          simp only
          rw [List.getElem?_set]
          by_cases hij : i = j
          · subst hij
            rw [hv] at hx
            injection hx with hx
            subst hx
            rw [if_pos rfl, if_pos (by rw [I.lenB]; exact hil)]
            simp
          · rw [if_neg hij, I.bit j x hx]
            have hxv : x.id ≠ v.id := fun hid => hij (hinj j x hx hid).symm
            constructor
            · intro h d hd
              rw [List.mem_append, List.mem_singleton] at hd
              rcases hd with hd | rfl
              · exact h d hd
              · intro h'; exact absurd h'.symm hxv
            · intro h d hd
              exact h d (by simp [hd])
        · simp only [List.filter_append, List.map_append]
          rw [I.kept]
          simp
      · refine ⟨List.mem_of_getElem? hu, hune, ?_, (I.bit b u hu).1 hel.1, by rw [← hlb']; exact hlt⟩
        intro h0
        apply hbh
        rw [hits_shared s.matched i hu hel, h0]
        rfl
      · rw [hb3, hscore b u hu hel] at hb4
        exact hb4
      · intro u' hu'
        obtain ⟨j, hj, hjv, hR, hel'⟩ := hcand u' hu'
        have := h2.seen j hjv hR
        rw [hb3, hscore j u' hj hel', hscore b u hu hel] at this
        exact this
  · rename_i hne
    exact ⟨_, none, rfl, hstay s.ip I.ip, v, hvm, rfl, Or.inl hne⟩

/-- The whole matching is a sequence of greedy decisions. -/
theorem matching_greedy (w : WF H) (hs : Shrinks O) (hg : StrictWeak O) (maxC : Nat)
    {idx : List Nat} (hidx : idx.Perm (List.range H.vertices.length)) :
    ∃ s ds, idx.foldlM (matchStep O H maxC)
        { matchesL := List.replicate H.vertices.length [],
          matched := List.replicate H.vertices.length false, newV := [],
          ip := List.replicate H.vertices.length O.zero } = .ok s ∧
      ds.map (·.1) = idx.filterMap (fun i => (H.vertices[i]?).map (·.id)) ∧
      AllGreedy O H maxC ds ∧ DInv O H ds s := by
  obtain ⟨s, e, ds, h1, h2, h3⟩ := foldlM_inv (f := matchStep O H maxC)
    (fun pre _ s => ∃ ds : List (Nat × Option Nat),
      ds.map (·.1) = pre.filterMap (fun i => (H.vertices[i]?).map (·.id)) ∧
      AllGreedy O H maxC ds ∧ DInv O H ds s) idx
    { matchesL := List.replicate H.vertices.length [],
      matched := List.replicate H.vertices.length false, newV := [],
      ip := List.replicate H.vertices.length O.zero }
    (by
      refine ⟨[], rfl, ?_, by simp, by simp, rfl, ?_, ?_, rfl⟩
      · intro pre d post h
        simp at h
      · intro j u hu
        have : j < H.vertices.length := (List.getElem?_eq_some_iff.1 hu).1
        simp [this, chosenBy]
      · intro j u hu
        have : j < H.vertices.length := (List.getElem?_eq_some_iff.1 hu).1
        simp [this])
    (by
      intro pre i post s ⟨ds, h1, h2, h3⟩ hl
      have hil : i < H.vertices.length :=
        List.mem_range.1 (hidx.subset (show i ∈ idx by rw [hl]; simp))
      have hv : H.vertices[i]? = some H.vertices[i] := List.getElem?_eq_getElem _
      obtain ⟨s', o, e', I', hgr⟩ := matchStep_greedy (O := O) w hs hg maxC hv h3
      refine ⟨s', e', ds ++ [(H.vertices[i].id, o)], ?_, ?_, I'⟩
      · rw [List.map_append, h1, List.filterMap_append]
        simp [hv]
      · intro p d q hpq
        rcases List.eq_nil_or_concat q with rfl | ⟨q', x, rfl⟩
        · have := List.append_inj' (t₁ := [(H.vertices[i].id, o)]) (t₂ := [d]) hpq rfl
          rw [← this.1]
          have h5 := this.2
          injection h5 with h5 _
          rw [← h5]
          exact hgr
        · have hpq' : ds ++ [(H.vertices[i].id, o)] = (p ++ d :: q') ++ [x] := by
            rw [hpq]; simp
          exact h2 p d q' (List.append_inj' hpq' rfl).1)
  exact ⟨s, ds, e, h1, h2, h3⟩

end

end PMondriaan
