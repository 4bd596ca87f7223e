import Verif.Spec.Requests
import Verif.Proofs.Matching
import Verif.Proofs.CoarsenPar

/-
Proofs about the choices made in `request_matches`.
-/

namespace PMondriaan

open Spec

section

variable {F : Type} {O : ScoreOps F} {H : Hypergraph}

/-! ### The samples received -/

theorem sampleSends_mem {p s : Nat} {samples : List Nat} {out : List (Nat × SampleMsg)}
    (h : ∀ x ∈ samples, x < H.vertices.length) (e : sampleSends p s H samples = .ok out)
    (y : Nat × SampleMsg) :
    y ∈ out ↔ y.1 < p ∧ y.2.1 = s ∧ ∃ x u, samples[y.2.2.1]? = some x ∧ H.vertices[x]? = some u ∧
      y.2.2.2 = u.nets := by
  unfold sampleSends at e
  have e1 : samples.zipIdx.mapM (fun x => do
      let v ← H.vertexAt x.1
      pure ((List.range p).map (fun t => (t, (s, x.2, v.nets))))) =
      (.ok (samples.zipIdx.map (fun x => (List.range p).map (fun t =>
        (t, (s, x.2, ((H.vertices[x.1]?).map (·.nets)).getD []))))) :
        Res (List (List (Nat × SampleMsg)))) := by
    apply mapM_ok
    rintro ⟨x, j⟩ hx
    have hx := h x (List.mem_of_getElem? (List.mem_zipIdx_iff_getElem?.1 hx))
    rw [vertexAt_ok (List.getElem?_eq_getElem hx), ok_bind, List.getElem?_eq_getElem hx]
    rfl
  rw [e1] at e
  injection e with e
  subst e
  simp only [List.mem_flatten, List.mem_map]
  constructor
  · rintro ⟨_, ⟨⟨x, j⟩, hx, rfl⟩, hy⟩
    obtain ⟨t, ht, rfl⟩ := List.mem_map.1 hy
    have hj := List.mem_zipIdx_iff_getElem?.1 hx
    have hxl := h x (List.mem_of_getElem? hj)
    refine ⟨List.mem_range.1 ht, rfl, x, _, hj, List.getElem?_eq_getElem hxl, ?_⟩
    simp [List.getElem?_eq_getElem hxl]
  · rintro ⟨h1, h2, x, u, h3, h4, h5⟩
    refine ⟨_, ⟨(x, y.2.2.1), List.mem_zipIdx_iff_getElem?.2 h3, rfl⟩, ?_⟩
    refine List.mem_map.2 ⟨y.1, List.mem_range.2 h1, ?_⟩
    obtain ⟨y1, y2, y3, y4⟩ := y
    simp only at h2 h4 h5
    subst h2 h5
    simp [h4]

/-! ### Inner products -/

/-- The costs counted for position `j` after the nets `es`. -/
def hitsPar (O : ScoreOps F) (H : Hypergraph) (es : List Nat) (j : Nat) : List F :=
  match H.vertices[j]? with
  | some v =>
    (es.filterMap (fun e => H.nets.find? (fun n => n.id = e ∧ v.id ∈ n.vertices))).map O.cost
  | none => []

/-- `current_ip` and `changed_indices` hold, for every position, the costs `h j` added so far. -/
structure HitsPar (O : ScoreOps F) (n : Nat) (h : Nat → List F) (s : List F × List Nat) : Prop where
  nodup : s.2.Nodup
  mem : ∀ j, j ∈ s.2 ↔ j < n ∧ h j ≠ []
  len : s.1.length = n
  val : ∀ j, j < n → s.1[j]? = some ((h j).foldl O.add O.zero)

theorem ipPin_hits {u ul : Nat} {c : F} {h : Nat → List F} {s : List F × List Nat}
    (hu : H.localId u = .ok ul) (hul : ul < H.vertices.length)
    (I : HitsPar O H.vertices.length h s) :
    ∃ s', ipPin O H c s u = .ok s' ∧
      HitsPar O H.vertices.length (fun j => if j = ul then h j ++ [c] else h j) s' := by
  unfold ipPin
  rw [hu, ok_bind, vget_ok (I.val ul hul), ok_bind]
  refine ⟨_, rfl, setInsert_nodup _ I.nodup, ?_, by simpa using I.len, ?_⟩
  · intro j
    simp only
    rw [setInsert_spec, I.mem]
    by_cases hj : j = ul
    · subst hj
      simp [hul]
    · simp [hj]
  · intro j hj
    simp only
    rw [List.getElem?_set]
    by_cases hjl : ul = j
    · subst hjl
      rw [if_pos rfl, if_pos (by rw [I.len]; exact hul), if_pos rfl, List.foldl_append]
      rfl
    · rw [if_neg hjl, if_neg (fun hh => hjl hh.symm)]
      exact I.val j hj

theorem ipNet_hits (w : WF H) (es : List Nat) (e : Nat) {s : List F × List Nat}
    (I : HitsPar O H.vertices.length (hitsPar O H es) s) :
    ∃ s', ipNet O H s e = .ok s' ∧ HitsPar O H.vertices.length (hitsPar O H (es ++ [e])) s' := by
  unfold ipNet
  by_cases hl : H.isLocalNet e
  · rw [if_pos hl]
    obtain ⟨k, hk⟩ := Option.isSome_iff_exists.1 hl
    have hkn := (w.nmap e k).1 hk
    rw [List.getElem?_map, Option.map_eq_some_iff] at hkn
    obtain ⟨n, hn', hid⟩ := hkn
    have hn := List.mem_of_getElem? hn'
    have hid : n.id = e := hid
    subst hid
    rw [w.netOf_of_get hn', ok_bind]
    obtain ⟨s', e', I'⟩ := foldlM_inv (f := ipPin O H (O.cost n))
      (fun pre _ s => HitsPar O H.vertices.length
        (fun j => match H.vertices[j]? with
          | some v => if v.id ∈ pre then hitsPar O H es j ++ [O.cost n] else hitsPar O H es j
          | none => hitsPar O H es j) s)
      n.vertices s
      (by
        have : (fun j => match H.vertices[j]? with
          | some v => if v.id ∈ ([] : List Nat) then hitsPar O H es j ++ [O.cost n]
              else hitsPar O H es j
          | none => hitsPar O H es j) = hitsPar O H es := by
          funext j
          cases H.vertices[j]? <;> simp
        rw [this]
        exact I)
      (by
        intro pre u post s I hl
        have hu : u ∈ n.vertices := by rw [hl]; simp
        obtain ⟨ul, v, hv, hvu, -, hloc, -⟩ := w.vertex_of_pin hn hu
        have hul : ul < H.vertices.length := (List.getElem?_eq_some_iff.1 hv).1
        have hnd := w.npins n hn
        have hup : u ∉ pre := by
          intro hh
          rw [hl, List.nodup_append] at hnd
          exact hnd.2.2 u hh u (by simp) rfl
        obtain ⟨s', e', I'⟩ := ipPin_hits (O := O) (c := O.cost n) hloc hul I
        refine ⟨s', e', ?_⟩
        have hfun : (fun j => if j = ul then
            (match H.vertices[j]? with
            | some v => if v.id ∈ pre then hitsPar O H es j ++ [O.cost n] else hitsPar O H es j
            | none => hitsPar O H es j) ++ [O.cost n]
            else
            match H.vertices[j]? with
            | some v => if v.id ∈ pre then hitsPar O H es j ++ [O.cost n] else hitsPar O H es j
            | none => hitsPar O H es j) =
            (fun j => match H.vertices[j]? with
            | some x => if x.id ∈ pre ++ [u] then hitsPar O H es j ++ [O.cost n]
                else hitsPar O H es j
            | none => hitsPar O H es j) := by
          funext j
          by_cases hj : j = ul
          · subst hj
            simp only [hv, hvu, hup, List.mem_append, List.mem_singleton]
            simp
          · rw [if_neg hj]
            rcases hx : H.vertices[j]? with _ | x
            · rfl
            · have hxu : x.id ≠ u := by
                intro hh
                have := w.localId_of_get hx
                rw [hh, hloc] at this
                exact hj (by injection this with h; exact h.symm)
              simp only [List.mem_append, List.mem_singleton, hxu, or_false]
        rw [← hfun]
        exact I')
    refine ⟨s', e', ?_⟩
    have hfun : (fun j => match H.vertices[j]? with
        | some v => if v.id ∈ n.vertices then hitsPar O H es j ++ [O.cost n] else hitsPar O H es j
        | none => hitsPar O H es j) = hitsPar O H (es ++ [n.id]) := by
      funext j
      unfold hitsPar
      rcases hx : H.vertices[j]? with _ | x
      · rfl
      · simp only
        rw [List.filterMap_append, List.filterMap_cons, find_net w hn]
        by_cases hxn : x.id ∈ n.vertices
        · simp [hxn]
        · simp [hxn]
    rw [← hfun]
    exact I'
  · rw [if_neg hl]
    refine ⟨s, rfl, ?_⟩
    have hfun : hitsPar O H (es ++ [e]) = hitsPar O H es := by
      funext j
      unfold hitsPar
      rcases hx : H.vertices[j]? with _ | x
      · rfl
      · simp only
        rw [List.filterMap_append, List.filterMap_cons]
        have : H.nets.find? (fun n => n.id = e ∧ x.id ∈ n.vertices) = none := by
          rw [List.find?_eq_none]
          intro n hn hh
          simp only [decide_eq_true_eq] at hh
          obtain ⟨k, hk⟩ := List.mem_iff_getElem?.1 hn
          apply hl
          have := (w.nmap_iff n.id k).2 ⟨n, hk, rfl⟩
          rw [hh.1] at this
          unfold Hypergraph.isLocalNet
          rw [this]
          rfl
        rw [this]
        simp
    rw [hfun]
    exact I

/-- Position `i` of `best_ip` after the samples `pre`: the best score and the number of that sample. -/
def BestSoFar (O : ScoreOps F) (H : Hypergraph) (ss : Nat) (pre : List SampleMsg) (v : Vertex)
    (b : F × Option Nat) : Prop :=
  O.gt O.zero b.1 = false ∧
  (∀ m ∈ pre, ∀ u : Vertex, u.nets = m.2.2 → sharedNets H u v ≠ [] → O.gt (score O H u v) b.1 = false) ∧
  (b.2 = none → b.1 = O.zero) ∧
  ∀ g, b.2 = some g → ∃ m ∈ pre, g = m.1 * ss + m.2.1 ∧
    ∀ u : Vertex, u.nets = m.2.2 → sharedNets H u v ≠ [] ∧ b.1 = score O H u v ∧
      O.gt b.1 O.zero = true

theorem hitsPar_shared {j : Nat} {v u : Vertex} {es : List Nat} (hu : u.nets = es)
    (hv : H.vertices[j]? = some v) :
    hitsPar O H es j = (sharedNets H u v).map O.cost := by
  unfold hitsPar sharedNets
  simp only [hv, hu]

theorem ipMsg_best (hg : StrictWeak O) {order : List Nat → List Nat} (ho : ∀ l, (order l).Perm l)
    (w : WF H) (ss : Nat) {pre : List SampleMsg} (m : SampleMsg)
    {st : List F × List (F × Option Nat)}
    (h1 : st.1 = List.replicate H.vertices.length O.zero)
    (h2 : st.2.length = H.vertices.length)
    (h3 : ∀ (i : Nat) v b, H.vertices[i]? = some v → st.2[i]? = some b → BestSoFar O H ss pre v b) :
    ∃ st', ipMsg O order H ss st m = .ok st' ∧
      st'.1 = List.replicate H.vertices.length O.zero ∧ st'.2.length = H.vertices.length ∧
      ∀ (i : Nat) v b, H.vertices[i]? = some v → st'.2[i]? = some b →
        BestSoFar O H ss (pre ++ [m]) v b := by
  unfold ipMsg
  obtain ⟨⟨sc, sch⟩, e1, I1⟩ := foldlM_inv (f := ipNet O H)
    (fun pre _ s => HitsPar O H.vertices.length (hitsPar O H pre) s) m.2.2 (st.1, [])
    (by
      have h0 : ∀ j, hitsPar O H [] j = [] := by
        intro j
        unfold hitsPar
        cases H.vertices[j]? <;> simp
      refine ⟨by simp, ?_, by simp [h1], ?_⟩
      · intro j
        rw [h0]
        simp
      · intro j hj
        rw [h0, h1]
        simp [hj])
    (fun pre e post s I _ => ipNet_hits w pre e I)
  rw [e1, ok_bind]
  show ∃ st', (order sch).foldlM (ipBest O H (m.1 * ss + m.2.1) m.2.2.length) (sc, st.2) = .ok st' ∧ _
  have hmem : ∀ i, i ∈ order sch ↔ i < H.vertices.length ∧ hitsPar O H m.2.2 i ≠ [] := by
    intro i
    rw [(ho _).mem_iff, I1.mem]
  have hnd : (order sch).Nodup := (ho _).nodup_iff.2 I1.nodup
  generalize order sch = ch at hmem hnd ⊢
  obtain ⟨s2, e2, k1, k2, k3, k4⟩ := foldlM_inv
    (f := ipBest O H (m.1 * ss + m.2.1) m.2.2.length)
    (fun done _ (s : List F × List (F × Option Nat)) =>
      s.1.length = H.vertices.length ∧ s.2.length = H.vertices.length ∧
      (∀ i, i < H.vertices.length → s.1[i]? = if i ∈ done then some O.zero else sc[i]?) ∧
      ∀ (i : Nat) v b, H.vertices[i]? = some v → s.2[i]? = some b →
        if i ∈ done then BestSoFar O H ss (pre ++ [m]) v b else st.2[i]? = some b)
    ch (sc, st.2)
    (by
      refine ⟨I1.len, h2, by simp, ?_⟩
      intro i v b hv hb
      simpa using hb)
    (by
      rintro done i post s ⟨j1, j2, j3, j4⟩ hl
      have hic : i ∈ ch := by rw [hl]; simp
      have hid : i ∉ done := by
        intro hh
        rw [hl, List.nodup_append] at hnd
        exact hnd.2.2 i hh i (by simp) rfl
      obtain ⟨hil, hne⟩ := (hmem i).1 hic
      have hv : H.vertices[i]? = some H.vertices[i] := List.getElem?_eq_getElem _
      have hx : s.1[i]? = some ((hitsPar O H m.2.2 i).foldl O.add O.zero) := by
        rw [j3 i hil, if_neg hid, I1.val i hil]
      have hb : s.2[i]? = some (s.2[i]'(by omega)) := List.getElem?_eq_getElem _
      generalize s.2[i]'(by omega) = b at hb
      generalize H.vertices[i] = v at hv
      unfold ipBest
      simp only [vertexAt_ok hv, ok_bind, vget_ok hx, vget_ok hb]
      have hold := j4 i v b hv hb
      rw [if_neg hid] at hold
      obtain ⟨o1, o2, o3, o4⟩ := h3 i v b hv hold
      have hsc : ∀ u : Vertex, u.nets = m.2.2 →
          O.scale (min v.nets.length m.2.2.length) ((hitsPar O H m.2.2 i).foldl O.add O.zero) =
            score O H u v := by
        intro u hu
        rw [hitsPar_shared hu hv, ← hu, Nat.min_comm]
        rfl
      have hsh : ∀ u : Vertex, u.nets = m.2.2 → sharedNets H u v ≠ [] := by
        intro u hu h0
        apply hne
        rw [hitsPar_shared hu hv, h0]
        rfl
      refine ⟨_, rfl, by simp [j1], ?_, ?_, ?_⟩
      · simp only
        split <;> simp [j2]
      · intro i' hi'
        simp only
        rw [List.getElem?_set]
        by_cases hii : i = i'
        · subst hii
          simp [j1, hil]
        · rw [if_neg hii, j3 i' hi']
          simp [Ne.symm hii]
      · intro i' v' b' hv' hb'
        simp only at hb'
        by_cases hii : i' = i
        · subst hii
          rw [if_pos (by simp)]
          rw [hv] at hv'
          injection hv' with hv'
          subst hv'
          split at hb'
          · rename_i hgt
            rw [List.getElem?_set_self (by omega)] at hb'
            injection hb' with hb'
            subst hb'
            refine ⟨hg.trans _ _ _ o1 (hg.asymm _ _ hgt), ?_, (by intro h; cases h), ?_⟩
            · intro m' hm' u hu hs
              rw [List.mem_append, List.mem_singleton] at hm'
              rcases hm' with hm' | rfl
              · exact hg.trans _ _ _ (o2 m' hm' u hu hs) (hg.asymm _ _ hgt)
              · simp only
                rw [hsc u hu]
                exact gt_irrefl hg _
            · intro g hgg
              simp only [Option.some.injEq] at hgg
              refine ⟨m, by simp, hgg.symm, ?_⟩
              intro u hu
              refine ⟨hsh u hu, hsc u hu, ?_⟩
              simp only
              rcases hz : O.gt _ O.zero with _ | _
              · rw [hg.trans _ _ _ hz o1] at hgt
                cases hgt
              · rfl
          · rename_i hgt
            rw [hb] at hb'
            injection hb' with hb'
            subst hb'
            refine ⟨o1, ?_, o3, ?_⟩
            · intro m' hm' u hu hs
              rw [List.mem_append, List.mem_singleton] at hm'
              rcases hm' with hm' | rfl
              · exact o2 m' hm' u hu hs
              · rw [← hsc u hu]
                simpa using hgt
            · intro g hgg
              obtain ⟨m', hm', q⟩ := o4 g hgg
              exact ⟨m', by simp [hm'], q⟩
        · have hb2 : s.2[i']? = some b' := by
            split at hb'
            · rw [List.getElem?_set_ne (Ne.symm hii)] at hb'
              exact hb'
            · exact hb'
          have := j4 i' v' b' hv' hb2
          simpa [hii] using this)
  refine ⟨s2, e2, ?_, k2, ?_⟩
  · apply List.ext_getElem?
    intro i
    by_cases hi : i < H.vertices.length
    · rw [k3 i hi, List.getElem?_replicate, if_pos hi]
      split
      · rfl
      · rename_i hn
        rw [I1.val i hi]
        have : hitsPar O H m.2.2 i = [] := by
          by_contra hne
          exact hn ((hmem i).2 ⟨hi, hne⟩)
        rw [this]
        rfl
    · rw [List.getElem?_eq_none (by omega), List.getElem?_eq_none (by simp; omega)]
  · intro i v b hv hb
    have hil : i < H.vertices.length := (List.getElem?_eq_some_iff.1 hv).1
    have := k4 i v b hv hb
    split at this
    · exact this
    · rename_i hn
      obtain ⟨o1, o2, o3, o4⟩ := h3 i v b hv this
      refine ⟨o1, ?_, o3, ?_⟩
      · intro m' hm' u hu hs
        rw [List.mem_append, List.mem_singleton] at hm'
        rcases hm' with hm' | rfl
        · exact o2 m' hm' u hu hs
        · exfalso
          apply hn
          rw [hmem]
          refine ⟨hil, ?_⟩
          rw [hitsPar_shared hu hv]
          intro h0
          exact hs (List.map_eq_nil_iff.1 h0)
      · intro g hgg
        obtain ⟨m', hm', q⟩ := o4 g hgg
        exact ⟨m', by simp [hm'], q⟩

theorem ipMsgs_best (hg : StrictWeak O) {order : List Nat → List Nat} (ho : ∀ l, (order l).Perm l)
    (w : WF H) (ss : Nat) (msgs : List SampleMsg) :
    ∃ st, msgs.foldlM (ipMsg O order H ss)
        (List.replicate H.vertices.length O.zero, List.replicate H.vertices.length (O.zero, none)) =
        .ok st ∧ st.2.length = H.vertices.length ∧
      ∀ (i : Nat) v b, H.vertices[i]? = some v → st.2[i]? = some b → BestSoFar O H ss msgs v b := by
  obtain ⟨st, e, -, h2, h3⟩ := foldlM_inv (f := ipMsg O order H ss)
    (fun pre _ (st : List F × List (F × Option Nat)) =>
      st.1 = List.replicate H.vertices.length O.zero ∧ st.2.length = H.vertices.length ∧
      ∀ (i : Nat) v b, H.vertices[i]? = some v → st.2[i]? = some b → BestSoFar O H ss pre v b)
    msgs (List.replicate H.vertices.length O.zero,
      List.replicate H.vertices.length (O.zero, none))
    (by
      refine ⟨rfl, by simp, ?_⟩
      intro i v b hv hb
      simp only [List.getElem?_replicate] at hb
      split at hb
      · injection hb with hb
        subst hb
        exact ⟨gt_irrefl hg _, by simp, fun _ => rfl, by intro g h; cases h⟩
      · cases hb)
    (by
      rintro pre m post st ⟨i1, i2, i3⟩ hl
      exact ipMsg_best hg ho w ss m i1 i2 i3)
  exact ⟨st, e, h2, h3⟩

theorem clearBest_other (O : ScoreOps F) {samples : List Nat} {best best' : List (F × Option Nat)}
    (e : samples.foldlM (clearBest O) best = .ok best') {i : Nat} (hi : i ∉ samples) :
    best'[i]? = best[i]? := by
  induction samples generalizing best with
  | nil => injection e with e; rw [e]
  | cons a l ih =>
    rw [List.foldlM_cons, bind_eq_ok] at e
    obtain ⟨b1, e1, e2⟩ := e
    rw [ih e2 (fun h => hi (by simp [h]))]
    unfold clearBest vset at e1
    split at e1
    · injection e1 with e1
      subst e1
      rw [List.getElem?_set_ne (fun h => hi (by simp [h]))]
    · cases e1

/-! ### The requests -/

/-- The request of vertex `v` when it is for the sample with global number `g`. -/
def reqOf (H : Hypergraph) (best : List (F × Option Nat)) (g : Nat) (v : Vertex) : Option (Nat × F) :=
  match H.vmap v.id with
  | some i => match best[i]? with
    | some b => if b.2 = some g then some (v.id, b.1) else none
    | none => none
  | none => none

theorem reqOf_eq (w : WF H) {best : List (F × Option Nat)} {g i : Nat} {v : Vertex}
    {b : F × Option Nat} (hv : H.vertices[i]? = some v) (hb : best[i]? = some b) :
    reqOf H best g v = if b.2 = some g then some (v.id, b.1) else none := by
  unfold reqOf
  have hvm : H.vmap v.id = some i := (w.vmap_iff _ _).2 ⟨v, hv, rfl⟩
  simp only [hvm, hb]

/-- The requests for the sample with global number `g`. -/
def reqsFor (H : Hypergraph) (best : List (F × Option Nat)) (V : List Vertex) (g : Nat) : List (Nat × F) :=
  V.filterMap (reqOf H best g)

theorem addRequests_eq (w : WF H) {best : List (F × Option Nat)}
    (hb : best.length = H.vertices.length) {total : Nat}
    (hg : ∀ b ∈ best, ∀ g, b.2 = some g → g < total) :
    H.vertices.foldlM (addRequest H best) (List.replicate total []) =
      .ok ((List.range total).map (reqsFor H best H.vertices)) := by
  obtain ⟨s, e, I⟩ := foldlM_inv (f := addRequest H best)
    (fun pre _ reqs => reqs = (List.range total).map (reqsFor H best pre)) H.vertices
    (List.replicate total [])
    (by apply List.ext_getElem <;> simp [reqsFor])
    (by
      rintro pre v post reqs rfl hl
      have hv : v ∈ H.vertices := by rw [hl]; simp
      obtain ⟨i, hi⟩ := List.mem_iff_getElem?.1 hv
      have hil : i < H.vertices.length := (List.getElem?_eq_some_iff.1 hi).1
      have hbi : best[i]? = some (best[i]'(by omega)) := List.getElem?_eq_getElem _
      generalize best[i]'(by omega) = b at hbi
      have hsnoc : ∀ g, reqsFor H best (pre ++ [v]) g =
          reqsFor H best pre g ++ (if b.2 = some g then [(v.id, b.1)] else []) := by
        intro g
        unfold reqsFor
        rw [List.filterMap_append, List.filterMap_cons, List.filterMap_nil, reqOf_eq w hi hbi]
        by_cases h : b.2 = some g
        · rw [if_pos h, if_pos h]
        · rw [if_neg h, if_neg h]
      unfold addRequest
      rw [w.localId_of_get hi, ok_bind, vget_ok hbi, ok_bind]
      rcases hb2 : b.2 with _ | g
      · refine ⟨_, rfl, ?_⟩
        apply List.map_congr_left
        intro g _
        rw [hsnoc, hb2]
        simp
      · have hgt := hg b (List.mem_of_getElem? hbi) g hb2
        simp only
        rw [vget_ok (a := reqsFor H best pre g) (by simp [hgt]), ok_bind]
        refine ⟨_, rfl, ?_⟩
        apply List.ext_getElem
        · simp
        · intro k h1 h2
          rw [List.getElem_set]
          simp only [List.getElem_map, List.getElem_range]
          rw [hsnoc, hb2]
          by_cases hk : g = k
          · subst hk
            simp
          · simp [hk])
  rw [e, I]

theorem mem_reqsFor (w : WF H) {best : List (F × Option Nat)}
    (hb : best.length = H.vertices.length) {g : Nat} {x : Nat × F} :
    x ∈ reqsFor H best H.vertices g ↔ ∃ (i : Nat) (v : Vertex) (b : F × Option Nat), H.vertices[i]? = some v ∧
      best[i]? = some b ∧ b.2 = some g ∧ x = (v.id, b.1) := by
  unfold reqsFor
  rw [List.mem_filterMap]
  constructor
  · rintro ⟨v, hv, hx⟩
    obtain ⟨i, hi⟩ := List.mem_iff_getElem?.1 hv
    have hil : i < H.vertices.length := (List.getElem?_eq_some_iff.1 hi).1
    have hbi : best[i]? = some (best[i]'(by omega)) := List.getElem?_eq_getElem _
    rw [reqOf_eq w hi hbi] at hx
    split at hx
    · rename_i h2
      injection hx with hx
      exact ⟨i, v, _, hi, hbi, h2, hx.symm⟩
    · cases hx
  · rintro ⟨i, v, b, hi, hb, h2, rfl⟩
    refine ⟨v, List.mem_of_getElem? hi, ?_⟩
    rw [reqOf_eq w hi hb, if_pos h2]

theorem reqOf_fst {best : List (F × Option Nat)} {g : Nat} {v : Vertex} {x : Nat × F}
    (h : reqOf H best g v = some x) : x.1 = v.id := by
  unfold reqOf at h
  split at h
  · split at h
    · split at h
      · injection h with h
        rw [← h]
      · cases h
    · cases h
  · cases h

theorem reqsFor_nodup (w : WF H) (best : List (F × Option Nat)) (g : Nat) :
    ((reqsFor H best H.vertices g).map (·.1)).Nodup := by
  have : ((reqsFor H best H.vertices g).map (·.1)).Sublist (H.vertices.map (·.id)) := by
    unfold reqsFor
    generalize H.vertices = V
    induction V with
    | nil => simp
    | cons v V ih =>
      rw [List.filterMap_cons, List.map_cons]
      rcases hx : reqOf H best g v with _ | x
      · exact ih.trans (List.sublist_cons_self _ _)
      · simp only [List.map_cons]
        rw [reqOf_fst hx]
        exact ih.cons_cons _
  exact this.nodup w.vids

/-- The request of `x` for the sample with global number `g`, with its addressee. -/
def reqMsg (s ss g : Nat) (x : Nat × F) : Nat × ReqMsg F :=
  (g / ss, { sender := s, sample := g - g / ss * ss, proposer := x.1, score := x.2 })

/-- What processor `s` sends, exactly. -/
theorem requests_eq (E : CoarseEnv F) (hg : StrictWeak E.scores) (ho : ∀ l, (E.order l).Perm l)
    (opts : Options) (p s : Nat) {H : Hypergraph} (w : WF H) {samples : List Nat}
    (hs : ∀ x ∈ samples, x < H.vertices.length) {k : Nat → Nat}
    (hk : ∀ t, t < p → k t ≤ opts.sampleSize) {msgs : List SampleMsg}
    (hm : ∀ m ∈ msgs, m.1 < p ∧ m.2.1 < k m.1) (hn : ∀ k l, (E.nthLocal k l).Perm l) :
    ∃ best, best.length = H.vertices.length ∧
      (∀ (i : Nat) v b, H.vertices[i]? = some v → best[i]? = some b →
        (i ∈ samples → b = (E.scores.zero, none)) ∧
        (i ∉ samples → BestSoFar E.scores H opts.sampleSize msgs v b)) ∧
      requests E opts p s H samples msgs = .ok ((List.range (p * opts.sampleSize)).flatMap (fun g =>
        (topC E.nthLocal opts.maxClustersize (reqsFor H best H.vertices g)).map
          (reqMsg s opts.sampleSize g))) := by
  obtain ⟨st, e1, h1, h2⟩ := ipMsgs_best hg ho w opts.sampleSize msgs
  obtain ⟨best, e2, j1, j2, j3⟩ := clearBest_ok E.scores hs h1
  have hbest : ∀ b ∈ best, ∀ g, b.2 = some g →
      ∃ t j, t < p ∧ j < k t ∧ g = t * opts.sampleSize + j := by
    intro b hb g hgg
    rcases j3 b hb with h | rfl
    · obtain ⟨i, hi⟩ := List.mem_iff_getElem?.1 h
      have hil : i < H.vertices.length := by
        rw [← h1]; exact (List.getElem?_eq_some_iff.1 hi).1
      obtain ⟨m, hmm, hgm, -⟩ := (h2 i _ b (List.getElem?_eq_getElem hil) hi).2.2.2 g hgg
      exact ⟨m.1, m.2.1, (hm m hmm).1, (hm m hmm).2, hgm⟩
    · cases hgg
  have e3 := addRequests_eq w j1 (total := p * opts.sampleSize) (by
    intro b hb g hgg
    obtain ⟨t, j, q1, q2, rfl⟩ := hbest b hb g hgg
    have := hk t q1
    calc t * opts.sampleSize + j < t * opts.sampleSize + opts.sampleSize := by omega
      _ = (t + 1) * opts.sampleSize := by ring
      _ ≤ p * opts.sampleSize := Nat.mul_le_mul_right _ q1)
  refine ⟨best, j1, ?_, ?_⟩
  · intro i v b hv hb
    constructor
    · intro hi
      rw [j2 i hi] at hb
      injection hb with hb
      exact hb.symm
    · intro hi
      rw [clearBest_other E.scores e2 hi] at hb
      exact h2 i v b hv hb
  · unfold requests
    simp only
    rw [e1, ok_bind]
    simp only [e2, ok_bind]
    rw [e3, ok_bind]
    rw [zipIdx_rangeMap, mapM_rangeMap (g := fun g =>
      (topC E.nthLocal opts.maxClustersize (reqsFor H best H.vertices g)).map
        (reqMsg s opts.sampleSize g)) (by
      intro g hgt
      unfold reqSends
      apply mapM_ok
      intro y hy
      have hy := (topC_sub hn _ _).subset hy
      obtain ⟨i, v, b, hi, hb, h2', -⟩ := (mem_reqsFor w j1).1 hy
      obtain ⟨t, j, q1, q2, rfl⟩ := hbest b (List.mem_of_getElem? hb) g h2'
      have h3 := hk t q1
      have h4 : (t * opts.sampleSize + j) / opts.sampleSize = t := by
        rw [Nat.mul_comm, Nat.mul_add_div (by omega), Nat.div_eq_of_lt (by omega), Nat.add_zero]
      unfold send
      simp only
      rw [if_pos (by rw [h4]; exact q1)]
      rfl), ok_bind, pure_eq_ok]
    rfl

/-! ### The best of a list -/

/-- What is left out by `nth_element` is not better than what is taken. -/
theorem topC_best {α : Type} {key : α → F} {nth : Nat → List α → List α}
    (hn : ∀ k l, (nth k l).Perm l) (hN : NthLargest O key nth) (maxC : Nat) {l : List α} {x : α}
    (hx : x ∈ l) (hne : x ∉ topC nth maxC l) :
    (topC nth maxC l).length = maxC ∧ ∀ a ∈ topC nth maxC l, O.gt (key x) (key a) = false := by
  unfold topC at hne ⊢
  split at hne
  · rename_i hlt
    rw [if_pos hlt]
    have hxn : x ∈ nth maxC l := (hn _ _).mem_iff.2 hx
    rw [← List.take_append_drop maxC (nth maxC l), List.mem_append] at hxn
    refine ⟨?_, fun a ha => hN maxC l hlt a ha x (hxn.resolve_left hne)⟩
    rw [List.length_take, (hn _ _).length_eq]
    omega
  · rename_i hlt
    rw [List.take_of_length_le (by omega)] at hne
    exact absurd hx hne

theorem topC_full {α : Type} {nth : Nat → List α → List α} (hn : ∀ k l, (nth k l).Perm l)
    (maxC : Nat) {l : List α} (h : maxC ≤ l.length) : (topC nth maxC l).length = maxC := by
  unfold topC
  rw [List.length_take]
  split
  · rw [(hn _ _).length_eq]; omega
  · omega

/-! ### The choice of the owner -/

/-- A request that is not accepted, at whichever of the two selections it is dropped, is not better than the
accepted ones. -/
theorem accepted_best (hg : StrictWeak O) {nthL : Nat → List (Nat × F) → List (Nat × F)}
    {nthO : Nat → List (ReqMsg F) → List (ReqMsg F)} (hn : ∀ k l, (nthL k l).Perm l)
    (hn2 : ∀ k l, (nthO k l).Perm l) (hN : NthLargest O (·.2) nthL)
    (hN2 : NthLargest O (·.score) nthO) (maxC : Nat) {j p : Nat} {Q : Nat → List (Nat × F)}
    (hQ : ∀ s, s < p → ((Q s).map (·.1)).Nodup) {M : List (ReqMsg F)}
    (hM : ∀ m, m ∈ M ↔ ∃ s, s < p ∧ ∃ x ∈ topC nthL maxC (Q s),
      m = { sender := s, sample := j, proposer := x.1, score := x.2 })
    {s : Nat} (hs : s < p) {x : Nat × F} (hx : x ∈ Q s)
    (hne : (x.1, s) ∉ (topC nthO maxC M).map (fun m => (m.proposer, m.sender))) :
    (topC nthO maxC M).length = maxC ∧ ∀ m ∈ topC nthO maxC M, O.gt x.2 m.score = false := by
  let msg : Nat × F → ReqMsg F := fun x => { sender := s, sample := j, proposer := x.1, score := x.2 }
  have hmsg : ∀ y ∈ topC nthL maxC (Q s), msg y ∈ M := fun y hy => (hM _).2 ⟨s, hs, y, hy, rfl⟩
  by_cases hxT : x ∈ topC nthL maxC (Q s)
  · have : msg x ∉ topC nthO maxC M := by
      intro h
      exact hne (List.mem_map.2 ⟨_, h, rfl⟩)
    exact topC_best (key := fun m : ReqMsg F => m.score) hn2 hN2 maxC (hmsg x hxT) this
  · obtain ⟨h1, h2⟩ := topC_best (key := fun y : Nat × F => y.2) hn hN maxC hx hxT
    have hnd : ((topC nthL maxC (Q s)).map msg).Nodup := by
      have hsub : ((topC nthL maxC (Q s)).map (·.1)).Nodup := by
        obtain ⟨l, hp, hl⟩ := (topC_sub hn maxC (Q s))
        exact ((hl.map _).nodup (hQ s hs) |> fun q => ((hp.map _).nodup_iff).1 q)
      have : ((topC nthL maxC (Q s)).map msg).map (·.proposer) =
          (topC nthL maxC (Q s)).map (·.1) := by
        rw [List.map_map]
        rfl
      exact List.Nodup.of_map _ (this ▸ hsub)
    have hlenM : maxC ≤ M.length := by
      have := (hnd.subperm (l₂ := M) (by
        intro m hm
        obtain ⟨y, hy, rfl⟩ := List.mem_map.1 hm
        exact hmsg y hy)).length_le
      rw [List.length_map, h1] at this
      exact this
    have hlenA := topC_full hn2 maxC hlenM
    refine ⟨hlenA, ?_⟩
    by_cases hall : ∀ y ∈ topC nthL maxC (Q s), msg y ∈ topC nthO maxC M
    · have hp := (hnd.subperm (l₂ := topC nthO maxC M) (by
        intro m hm
        obtain ⟨y, hy, rfl⟩ := List.mem_map.1 hm
        exact hall y hy)).perm_of_length_le (by rw [List.length_map, h1, hlenA])
      intro m hm
      obtain ⟨y, hy, rfl⟩ := List.mem_map.1 (hp.mem_iff.2 hm)
      exact h2 y hy
    · push Not at hall
      obtain ⟨y, hy, hyA⟩ := hall
      intro m hm
      exact hg.trans _ _ _ (h2 y hy)
        ((topC_best (key := fun m : ReqMsg F => m.score) hn2 hN2 maxC (hmsg y hy) hyA).2 m hm)

theorem vertexAt_range {p : Nat} {h : Nat → Hypergraph} {s i : Nat} {H : Hypergraph} {v : Vertex} :
    VertexAt ((List.range p).map h) s i H v ↔ s < p ∧ H = h s ∧ (h s).vertices[i]? = some v := by
  unfold VertexAt
  rw [List.getElem?_map]
  by_cases hs : s < p
  · rw [List.getElem?_range hs]
    simp only [Option.map_some, Option.some.injEq, hs, true_and]
    constructor
    · rintro ⟨rfl, h2⟩; exact ⟨rfl, h2⟩
    · rintro ⟨rfl, h2⟩; exact ⟨rfl, h2⟩
  · rw [List.getElem?_eq_none (by simp; omega)]
    simp [hs]

theorem sampleAt_range {p : Nat} {h : Nat → Hypergraph} {σ : Nat → List Nat} {t j : Nat} {u : Vertex} :
    SampleAt ((List.range p).map h) ((List.range p).map σ) t j u ↔ t < p ∧ ∃ x, (σ t)[j]? = some x ∧
      (h t).vertices[x]? = some u := by
  unfold SampleAt
  by_cases ht : t < p
  · constructor
    · rintro ⟨H, l, x, h1, h2, h3, h4⟩
      rw [List.getElem?_map, List.getElem?_range ht] at h1 h2
      injection h1 with h1
      injection h2 with h2
      subst h1 h2
      exact ⟨ht, x, h3, h4⟩
    · rintro ⟨-, x, h3, h4⟩
      exact ⟨h t, σ t, x, by simp [ht], by simp [ht], h3, h4⟩
  · constructor
    · rintro ⟨H, l, x, h1, -⟩
      rw [List.getElem?_eq_none (by simp; omega)] at h1
      cases h1
    · exact fun h => absurd h.1 ht

/-- The two selections together. -/
theorem matching_best (E : CoarseEnv F) (hg : StrictWeak E.scores) (ho : ∀ l, (E.order l).Perm l)
    (hn : ∀ k l, (E.nthLocal k l).Perm l) (hn2 : ∀ k l, (E.nthOwner k l).Perm l)
    (hN : NthLargest E.scores (·.2) E.nthLocal) (hN2 : NthLargest E.scores (·.score) E.nthOwner)
    (hdS : Fair E.dSample) (hdR : Fair E.dReq) (opts : Options) {p : Nat}
    {h : Nat → Hypergraph} {σ : Nat → List Nat} (hw : ∀ t, t < p → WF (h t))
    (hσ : SamplesOk opts.sampleSize p h σ)
    {outs : Nat → List (Nat × SampleMsg)} {reqs : Nat → List (Nat × ReqMsg F)}
    {m : Nat → List (List (Nat × Nat))} {out2 : Nat → List (Nat × (Nat × Nat))}
    (g1 : ∀ t, t < p → sampleSends p t (h t) (σ t) = .ok (outs t))
    (g2 : ∀ t, t < p → requests E opts p t (h t) (σ t) (inbox E.dSample ((List.range p).map outs) t) =
        .ok (reqs t))
    (g3 : ∀ t, t < p → accepts E opts p t (σ t).length
          { samples := sampleIds (h t) (σ t), matched := List.replicate (σ t).length [] }
          (inbox E.dReq ((List.range p).map reqs) t) = .ok (contractionOf (h t) (σ t) (m t), out2 t)) :
    ∃ fav, Favourites E.scores ((List.range p).map h) ((List.range p).map σ) fav ∧
      ∀ t j u, SampleAt ((List.range p).map h) ((List.range p).map σ) t j u →
        ∃ L, (m t)[j]? = some L ∧
          BestAccepted E.scores ((List.range p).map h) fav opts.maxClustersize t j u L := by
  -- the samples received
  have hmsgs : ∀ s, s < p → ∀ y : SampleMsg, y ∈ inbox E.dSample ((List.range p).map outs) s ↔
      ∃ u, SampleAt ((List.range p).map h) ((List.range p).map σ) y.1 y.2.1 u ∧ y.2.2 = u.nets := by
    intro s hs y
    rw [mem_inbox hdS]
    constructor
    · rintro ⟨o, ho', hy⟩
      obtain ⟨t, ht, rfl⟩ := List.mem_map.1 ho'
      have ht := List.mem_range.1 ht
      obtain ⟨-, q2, x, u, q3, q4, q5⟩ := (sampleSends_mem (hσ t ht).2.1 (g1 t ht) _).1 hy
      simp only at q2 q3 q5
      rw [q2]
      exact ⟨u, sampleAt_range.2 ⟨ht, x, q3, q4⟩, q5⟩
    · rintro ⟨u, hu, hy⟩
      obtain ⟨ht, x, q3, q4⟩ := sampleAt_range.1 hu
      exact ⟨outs y.1, List.mem_map.2 ⟨_, List.mem_range.2 ht, rfl⟩,
        (sampleSends_mem (hσ y.1 ht).2.1 (g1 y.1 ht) (s, y)).2 ⟨hs, rfl, x, u, q3, q4, hy⟩⟩
  have hsj : ∀ t j u, SampleAt ((List.range p).map h) ((List.range p).map σ) t j u →
      t < p ∧ j < (σ t).length ∧ j < opts.sampleSize := by
    intro t j u hu
    obtain ⟨ht, x, q3, -⟩ := sampleAt_range.1 hu
    have := (List.getElem?_eq_some_iff.1 q3).1
    exact ⟨ht, this, Nat.lt_of_lt_of_le this (hσ t ht).2.2⟩
  -- the best sample of every vertex
  have hreq : ∀ s, s < p → ∃ best : List (F × Option Nat), best.length = (h s).vertices.length ∧
      (∀ (i : Nat) v b, (h s).vertices[i]? = some v → best[i]? = some b →
        (i ∈ σ s → b = (E.scores.zero, none)) ∧
        (i ∉ σ s → BestSoFar E.scores (h s) opts.sampleSize
          (inbox E.dSample ((List.range p).map outs) s) v b)) ∧
      reqs s = (List.range (p * opts.sampleSize)).flatMap (fun g =>
        (topC E.nthLocal opts.maxClustersize (reqsFor (h s) best (h s).vertices g)).map
          (reqMsg s opts.sampleSize g)) := by
    intro s hs
    obtain ⟨best, b1, b2, b3⟩ := requests_eq E hg ho opts p s (hw s hs) (hσ s hs).2.1
      (k := fun t => (σ t).length) (fun t ht => (hσ t ht).2.2)
      (msgs := inbox E.dSample ((List.range p).map outs) s) (by
        intro y hy
        obtain ⟨u, hu, -⟩ := (hmsgs s hs y).1 hy
        exact ⟨(hsj _ _ _ hu).1, (hsj _ _ _ hu).2.1⟩) hn
    refine ⟨best, b1, b2, ?_⟩
    rw [g2 s hs] at b3
    injection b3
  classical
  let best : Nat → List (F × Option Nat) := fun s => if hs : s < p then Classical.choose (hreq s hs) else []
  have hbest : ∀ s (hs : s < p), best s = Classical.choose (hreq s hs) := fun s hs => dif_pos hs
  have b1 : ∀ s, s < p → (best s).length = (h s).vertices.length := fun s hs => by
    rw [hbest s hs]; exact (Classical.choose_spec (hreq s hs)).1
  have b2 : ∀ s, s < p → ∀ (i : Nat) v b, (h s).vertices[i]? = some v → (best s)[i]? = some b →
        (i ∈ σ s → b = (E.scores.zero, none)) ∧
        (i ∉ σ s → BestSoFar E.scores (h s) opts.sampleSize
          (inbox E.dSample ((List.range p).map outs) s) v b) := fun s hs => by
    rw [hbest s hs]; exact (Classical.choose_spec (hreq s hs)).2.1
  have b3 : ∀ s, s < p → reqs s = (List.range (p * opts.sampleSize)).flatMap (fun g =>
        (topC E.nthLocal opts.maxClustersize (reqsFor (h s) (best s) (h s).vertices g)).map
          (reqMsg s opts.sampleSize g)) := fun s hs => by
    rw [hbest s hs]; exact (Classical.choose_spec (hreq s hs)).2.2
  clear_value best
  clear hbest hreq
  -- what a best sample is
  have hdec : ∀ s, s < p → ∀ (i : Nat) v b g, (h s).vertices[i]? = some v → (best s)[i]? = some b →
      b.2 = some g → i ∉ σ s ∧ ∃ t j u, g = t * opts.sampleSize + j ∧
        SampleAt ((List.range p).map h) ((List.range p).map σ) t j u ∧
        sharedNets (h s) u v ≠ [] ∧ b.1 = score E.scores (h s) u v ∧
        E.scores.gt b.1 E.scores.zero = true := by
    intro s hs i v b g hv hb hgg
    have hi : i ∉ σ s := by
      intro hi
      rw [(b2 s hs i v b hv hb).1 hi] at hgg
      cases hgg
    refine ⟨hi, ?_⟩
    obtain ⟨y, hy, q1, q2⟩ := ((b2 s hs i v b hv hb).2 hi).2.2.2 g hgg
    obtain ⟨u, hu, hyn⟩ := (hmsgs s hs y).1 hy
    exact ⟨y.1, y.2.1, u, q1, hu, q2 u hyn.symm⟩
  have hinj : ∀ t j t' j', j < opts.sampleSize → j' < opts.sampleSize →
      t * opts.sampleSize + j = t' * opts.sampleSize + j' → t = t' ∧ j = j' := by
    intro t j t' j' hj hj' he
    have k1 := divmod_unique (t := t) hj
    have k2 := divmod_unique (t := t') hj'
    rw [he] at k1
    exact ⟨k1.1.symm.trans k2.1, k1.2.symm.trans k2.2⟩
  have huniq : ∀ t j u u', SampleAt ((List.range p).map h) ((List.range p).map σ) t j u →
      SampleAt ((List.range p).map h) ((List.range p).map σ) t j u' → u = u' := by
    intro t j u u' hu hu'
    obtain ⟨-, x, q1, q2⟩ := sampleAt_range.1 hu
    obtain ⟨-, x', q1', q2'⟩ := sampleAt_range.1 hu'
    rw [q1] at q1'
    injection q1' with q1'
    subst q1'
    rw [q2] at q2'
    injection q2'
  -- the favourite
  let fav : Nat → Nat → Option (Nat × Nat) := fun s i =>
    ((best s)[i]?.bind (·.2)).map (fun g => (g / opts.sampleSize, g - g / opts.sampleSize * opts.sampleSize))
  have hfav : ∀ s, s < p → ∀ (i : Nat) v b, (h s).vertices[i]? = some v → (best s)[i]? = some b →
      ∀ t j u, SampleAt ((List.range p).map h) ((List.range p).map σ) t j u →
      (fav s i = some (t, j) ↔ b.2 = some (t * opts.sampleSize + j)) := by
    intro s hs i v b hv hb t j u hu
    have hj := (hsj t j u hu).2.2
    show ((best s)[i]?.bind (·.2)).map _ = _ ↔ _
    rw [hb]
    simp only [Option.bind_some]
    constructor
    · intro he
      rcases hb2 : b.2 with _ | g
      · rw [hb2] at he; cases he
      · rw [hb2] at he
        obtain ⟨-, t', j', u', rfl, hu', -⟩ := hdec s hs i v b g hv hb hb2
        simp only [Option.map_some, Option.some.injEq, Prod.mk.injEq] at he
        have k := divmod_unique (t := t') (hsj _ _ _ hu').2.2
        rw [← he.1, ← he.2]
        rw [k.2, k.1]
    · intro he
      rw [he]
      have k := divmod_unique (t := t) hj
      simp only [Option.map_some]
      rw [k.2, k.1]
  refine ⟨fav, ?_, ?_⟩
  · intro s i H v l hV hl
    obtain ⟨hs, rfl, hv⟩ := vertexAt_range.1 hV
    have hl : l = σ s := by
      rw [List.getElem?_map, List.getElem?_range hs] at hl
      injection hl with hl
      exact hl.symm
    subst hl
    have hil : i < (h s).vertices.length := (List.getElem?_eq_some_iff.1 hv).1
    obtain ⟨b, hb⟩ : ∃ b, (best s)[i]? = some b :=
      ⟨_, List.getElem?_eq_getElem (by rw [b1 s hs]; exact hil)⟩
    rcases hb2 : b.2 with _ | g
    · have hf : fav s i = none := by
        show ((best s)[i]?.bind (·.2)).map _ = _
        rw [hb]
        simp [hb2]
      rw [hf]
      simp only
      by_cases hi : i ∈ σ s
      · exact Or.inl hi
      · refine Or.inr ?_
        intro t j u hu hsh
        obtain ⟨-, o2, o3, -⟩ := (b2 s hs i v b hv hb).2 hi
        have := o2 (t, j, u.nets) ((hmsgs s hs _).2 ⟨u, hu, rfl⟩) u rfl hsh
        rw [o3 hb2] at this
        exact this
    · obtain ⟨hi, t, j, u, rfl, hu, q1, q2, q3⟩ := hdec s hs i v b g hv hb hb2
      rw [(hfav s hs i v b hv hb t j u hu).2 hb2]
      simp only
      rw [q2] at q3
      refine ⟨hi, u, hu, q1, q3, ?_⟩
      intro t' j' u' hu' hsh
      obtain ⟨-, o2, -⟩ := (b2 s hs i v b hv hb).2 hi
      have := o2 (t', j', u'.nets) ((hmsgs s hs _).2 ⟨u', hu', rfl⟩) u' rfl hsh
      rw [q2] at this
      exact this
  · intro t j u hu
    obtain ⟨ht, hjl, hj⟩ := hsj t j u hu
    have hk := divmod_unique (t := t) hj
    -- the requests received
    have hinb : ∀ y, y ∈ inbox E.dReq ((List.range p).map reqs) t ↔ ∃ s, s < p ∧ ∃ j',
        ∃ x ∈ topC E.nthLocal opts.maxClustersize
          (reqsFor (h s) (best s) (h s).vertices (t * opts.sampleSize + j')),
        j' < (σ t).length ∧ y = { sender := s, sample := j', proposer := x.1, score := x.2 } := by
      intro y
      rw [mem_inbox hdR]
      constructor
      · rintro ⟨o, ho', hy⟩
        obtain ⟨s, hs, rfl⟩ := List.mem_map.1 ho'
        have hs := List.mem_range.1 hs
        rw [b3 s hs, List.mem_flatMap] at hy
        obtain ⟨g, -, hy⟩ := hy
        obtain ⟨x, hx, he⟩ := List.mem_map.1 hy
        obtain ⟨i, v, b, hv, hb, hb2, -⟩ :=
          (mem_reqsFor (hw s hs) (b1 s hs)).1 ((topC_sub hn _ _).subset hx)
        obtain ⟨-, t', j', u', rfl, hu', -⟩ := hdec s hs i v b g hv hb hb2
        have k := divmod_unique (t := t') (hsj _ _ _ hu').2.2
        unfold reqMsg at he
        rw [k.2, k.1] at he
        injection he with he1 he2
        subst he1
        exact ⟨s, hs, j', x, hx, (hsj _ _ _ hu').2.1, he2.symm⟩
      · rintro ⟨s, hs, j', x, hx, hj', rfl⟩
        have hj'' : j' < opts.sampleSize := Nat.lt_of_lt_of_le hj' (hσ t ht).2.2
        refine ⟨reqs s, List.mem_map.2 ⟨s, List.mem_range.2 hs, rfl⟩, ?_⟩
        rw [b3 s hs, List.mem_flatMap]
        refine ⟨t * opts.sampleSize + j', ?_, ?_⟩
        · rw [List.mem_range]
          calc t * opts.sampleSize + j' < t * opts.sampleSize + opts.sampleSize := by omega
            _ = (t + 1) * opts.sampleSize := by ring
            _ ≤ p * opts.sampleSize := Nat.mul_le_mul_right _ ht
        · refine List.mem_map.2 ⟨x, hx, ?_⟩
          unfold reqMsg
          have k := divmod_unique (t := t) hj''
          rw [k.2, k.1]
    have hacc := accepts_ok E hn2 opts p t (σ t).length
      (C := { samples := sampleIds (h t) (σ t), matched := List.replicate (σ t).length [] }) rfl
      (msgs := inbox E.dReq ((List.range p).map reqs) t) (by
        intro y hy
        obtain ⟨s, hs, j', x, hx, hj', rfl⟩ := (hinb y).1 hy
        exact ⟨hj', hs⟩)
    rw [g3 t ht] at hacc
    injection hacc with hacc
    have hmt : m t = (List.range (σ t).length).map (fun i =>
        (acceptedFor E opts.maxClustersize (inbox E.dReq ((List.range p).map reqs) t) i).map
          (fun m => (m.proposer, m.sender))) := congrArg (fun z => z.1.matched) hacc
    have hM : ∀ y, y ∈ (inbox E.dReq ((List.range p).map reqs) t).filter (fun m => m.sample = j) ↔
        ∃ s, s < p ∧ ∃ x ∈ topC E.nthLocal opts.maxClustersize
          (reqsFor (h s) (best s) (h s).vertices (t * opts.sampleSize + j)),
        y = { sender := s, sample := j, proposer := x.1, score := x.2 } := by
      intro y
      rw [List.mem_filter, hinb]
      simp only [decide_eq_true_eq]
      constructor
      · rintro ⟨⟨s, hs, j', x, hx, hj', rfl⟩, rfl⟩
        exact ⟨s, hs, x, hx, rfl⟩
      · rintro ⟨s, hs, x, hx, rfl⟩
        exact ⟨⟨s, hs, j, x, hx, hjl, rfl⟩, rfl⟩
    refine ⟨_, by rw [hmt, List.getElem?_map, List.getElem?_range hjl]; rfl, ?_, ?_⟩
    · intro y hy
      obtain ⟨r, hr, rfl⟩ := List.mem_map.1 hy
      obtain ⟨s, hs, x, hx, rfl⟩ := (hM r).1 ((topC_sub hn2 _ _).subset hr)
      obtain ⟨i, v, b, hv, hb, hb2, rfl⟩ :=
        (mem_reqsFor (hw s hs) (b1 s hs)).1 ((topC_sub hn _ _).subset hx)
      exact ⟨i, h s, v, vertexAt_range.2 ⟨hs, rfl, hv⟩, rfl, (hfav s hs i v b hv hb t j u hu).2 hb2⟩
    · intro s i H v hV hf hne
      obtain ⟨hs, rfl, hv⟩ := vertexAt_range.1 hV
      have hil : i < (h s).vertices.length := (List.getElem?_eq_some_iff.1 hv).1
      obtain ⟨b, hb⟩ : ∃ b, (best s)[i]? = some b :=
        ⟨_, List.getElem?_eq_getElem (by rw [b1 s hs]; exact hil)⟩
      have hb2 := (hfav s hs i v b hv hb t j u hu).1 hf
      have hsc : ∀ s, s < p → ∀ (i : Nat) v b, (h s).vertices[i]? = some v → (best s)[i]? = some b →
          b.2 = some (t * opts.sampleSize + j) → b.1 = score E.scores (h s) u v := by
        intro s hs i v b hv hb hb2
        obtain ⟨-, t', j', u', hgg, hu', -, q2, -⟩ := hdec s hs i v b _ hv hb hb2
        obtain ⟨rfl, rfl⟩ := hinj _ _ _ _ hj (hsj _ _ _ hu').2.2 hgg
        rw [huniq _ _ _ _ hu hu']
        exact q2
      obtain ⟨k1, k2⟩ := accepted_best hg hn hn2 hN hN2 opts.maxClustersize
        (Q := fun s => reqsFor (h s) (best s) (h s).vertices (t * opts.sampleSize + j))
        (fun s hs => reqsFor_nodup (hw s hs) _ _) hM hs (x := (v.id, b.1))
        ((mem_reqsFor (hw s hs) (b1 s hs)).2 ⟨i, v, b, hv, hb, hb2, rfl⟩) hne
      refine ⟨by rw [List.length_map]; exact k1, ?_⟩
      intro y hy i' H' v' hV' hid
      obtain ⟨r, hr, rfl⟩ := List.mem_map.1 hy
      have hk2 := k2 r hr
      obtain ⟨s', hs', x, hx, rfl⟩ := (hM r).1 ((topC_sub hn2 _ _).subset hr)
      obtain ⟨i2, v2, b', hv2, hb', hb2', rfl⟩ :=
        (mem_reqsFor (hw s' hs') (b1 s' hs')).1 ((topC_sub hn _ _).subset hx)
      obtain ⟨-, rfl, hv'⟩ := vertexAt_range.1 hV'
      simp only at hid hv' hk2 ⊢
      have hii : i' = i2 := by
        have e1 := (hw s' hs').localId_of_get hv'
        have e2 := (hw s' hs').localId_of_get hv2
        rw [hid, e2] at e1
        injection e1 with e1
        exact e1.symm
      subst hii
      rw [hv2] at hv'
      injection hv' with hv'
      subst hv'
      rw [← hsc s hs i v b hv hb hb2, ← hsc s' hs' i' v2 b' hv2 hb' hb2']
      exact hk2

end

end PMondriaan
