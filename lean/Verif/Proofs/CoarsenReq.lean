import Verif.Model.CoarsenPar
import Verif.Proofs.Coarsen
import Verif.Proofs.RedistMain
import Verif.Proofs.ParPass
import Mathlib.Data.List.Perm.Subperm

/-
Proofs about the sampling messages and `request_matches`.
-/

namespace PMondriaan

open Spec

variable {F : Type}

/-! ### Samples -/

theorem sampleSends_ok (p s : Nat) {H : Hypergraph} {samples : List Nat}
    (h : ∀ x ∈ samples, x < H.vertices.length) :
    ∃ out, sampleSends p s H samples = .ok out ∧
      ∀ y ∈ out, y.1 < p ∧ y.2.1 = s ∧ y.2.2.1 < samples.length := by
  unfold sampleSends
  obtain ⟨ls, h1, h2, h3⟩ := mapM_zipIdx_get samples (fun x => do
      let v ← H.vertexAt x.1
      pure ((List.range p).map (fun t => (t, (s, x.2, v.nets)))))
    (fun i _ (b : List (Nat × SampleMsg)) => i < samples.length → ∀ y ∈ b, y.1 < p ∧ y.2.1 = s ∧ y.2.2.1 < samples.length) (by
      intro i a ha
      have hlt := h a (List.mem_of_getElem? ha)
      refine ⟨(List.range p).map (fun t => (t, (s, i, H.vertices[a].nets))), ?_, ?_⟩
      · rw [vertexAt_ok (List.getElem?_eq_getElem hlt)]; rfl
      · intro hi y hy
        obtain ⟨t, ht, rfl⟩ := List.mem_map.1 hy
        exact ⟨List.mem_range.1 ht, rfl, hi⟩)
  refine ⟨ls.flatten, by rw [h1]; rfl, ?_⟩
  intro y hy
  obtain ⟨b, hb, hyb⟩ := List.mem_flatten.1 hy
  obtain ⟨i, hi⟩ := List.mem_iff_getElem?.1 hb
  have hil : i < samples.length := by
    rw [← h2]; exact (List.getElem?_eq_some_iff.1 hi).1
  obtain ⟨b', hb', hR⟩ := h3 i _ (List.getElem?_eq_getElem hil)
  rw [hb'] at hi
  cases hi
  exact hR hil y hyb

/-! ### Inner products -/

/-- What the entries of `best_ip` can be: `none`, or the number of a sample that exists. -/
def BestOk (p ss : Nat) (k : Nat → Nat) (best : List (F × Option Nat)) : Prop :=
  ∀ b ∈ best, ∀ g, b.2 = some g → ∃ t j, t < p ∧ j < k t ∧ g = t * ss + j

theorem ipNet_ok (O : ScoreOps F) {H : Hypergraph} (w : WF H) (e : Nat) {st : List F × List Nat}
    (h1 : st.1.length = H.vertices.length) (h2 : ∀ i ∈ st.2, i < H.vertices.length) :
    ∃ st', ipNet O H st e = .ok st' ∧ st'.1.length = H.vertices.length ∧
      ∀ i ∈ st'.2, i < H.vertices.length := by
  unfold ipNet
  by_cases hl : H.isLocalNet e
  · rw [if_pos hl]
    obtain ⟨j, hj⟩ := Option.isSome_iff_exists.1 hl
    have hjn := (w.nmap e j).1 hj
    rw [List.getElem?_map, Option.map_eq_some_iff] at hjn
    obtain ⟨n, hn, hid⟩ := hjn
    have hno : H.netOf e = .ok n := by unfold Hypergraph.netOf; rw [hj]; simp only [hn]
    rw [hno, ok_bind]
    obtain ⟨s', e', I⟩ := foldlM_inv' (f := ipPin O H (O.cost n))
      (fun st => st.1.length = H.vertices.length ∧ ∀ i ∈ st.2, i < H.vertices.length) n.vertices st
      ⟨h1, h2⟩ (by
        rintro u st hu ⟨i1, i2⟩
        obtain ⟨v, hv, hvu, -⟩ := w.inc_vtx n (List.mem_of_getElem? hn) u hu
        obtain ⟨i, hi⟩ := List.mem_iff_getElem?.1 hv
        have hil : i < H.vertices.length := (List.getElem?_eq_some_iff.1 hi).1
        unfold ipPin
        rw [← hvu, w.localId_of_get hi, ok_bind, vget_ok (List.getElem?_eq_getElem (by omega)), ok_bind]
        refine ⟨_, rfl, by simp [i1], ?_⟩
        intro x hx
        rcases (setInsert_spec _ _ _).1 hx with hx | rfl
        · exact i2 x hx
        · exact hil)
    exact ⟨s', e', I⟩
  · rw [if_neg hl]
    exact ⟨st, rfl, h1, h2⟩

theorem ipMsg_ok (O : ScoreOps F) {order : List Nat → List Nat} (ho : ∀ l, (order l).Perm l)
    {H : Hypergraph} (w : WF H) {p ss : Nat} {k : Nat → Nat} {m : SampleMsg} (hm : m.1 < p)
    (hm2 : m.2.1 < k m.1) {st : List F × List (F × Option Nat)}
    (h1 : st.1.length = H.vertices.length) (h2 : st.2.length = H.vertices.length)
    (h3 : BestOk p ss k st.2) :
    ∃ st', ipMsg O order H ss st m = .ok st' ∧ st'.1.length = H.vertices.length ∧
      st'.2.length = H.vertices.length ∧ BestOk p ss k st'.2 := by
  unfold ipMsg
  obtain ⟨s1, e1, i1, i2⟩ := foldlM_inv' (f := ipNet O H)
    (fun st => st.1.length = H.vertices.length ∧ ∀ i ∈ st.2, i < H.vertices.length) m.2.2 (st.1, [])
    ⟨h1, by simp⟩ (fun e st _ hI => ipNet_ok O w e hI.1 hI.2)
  rw [e1, ok_bind]
  obtain ⟨s2, e2, I⟩ := foldlM_inv' (f := ipBest O H (m.1 * ss + m.2.1) m.2.2.length)
    (fun st => st.1.length = H.vertices.length ∧ st.2.length = H.vertices.length ∧
      BestOk p ss k st.2) (order s1.2) (s1.1, st.2) ⟨i1, h2, h3⟩ (by
      rintro i st hi ⟨j1, j2, j3⟩
      have hil := i2 i ((ho _).subset hi)
      unfold ipBest
      rw [vertexAt_ok (List.getElem?_eq_getElem hil), ok_bind,
        vget_ok (List.getElem?_eq_getElem (by omega)), ok_bind,
        vget_ok (List.getElem?_eq_getElem (by omega)), ok_bind]
      refine ⟨_, rfl, by simp [j1], ?_, ?_⟩
      · simp only
        split <;> simp [j2]
      · simp only
        split
        · intro b hb g hg
          rcases List.mem_or_eq_of_mem_set hb with hb | rfl
          · exact j3 b hb g hg
          · simp only [Option.some.injEq] at hg
            exact ⟨m.1, m.2.1, hm, hm2, hg.symm⟩
        · exact j3)
  exact ⟨s2, e2, I⟩

theorem clearBest_ok (O : ScoreOps F) {samples : List Nat} {n : Nat} (h : ∀ x ∈ samples, x < n)
    {best : List (F × Option Nat)} (hb : best.length = n) :
    ∃ best', samples.foldlM (clearBest O) best = .ok best' ∧ best'.length = n ∧
      (∀ x ∈ samples, best'[x]? = some (O.zero, none)) ∧
      ∀ b ∈ best', b ∈ best ∨ b = (O.zero, none) := by
  obtain ⟨s, e, I⟩ := foldlM_inv (f := clearBest O)
    (fun pre _ (s : List (F × Option Nat)) => s.length = n ∧ (∀ x ∈ pre, s[x]? = some (O.zero, none)) ∧
      ∀ b ∈ s, b ∈ best ∨ b = (O.zero, none)) samples best
    ⟨hb, by simp, fun b h => Or.inl h⟩ (by
      rintro pre a post s ⟨i1, i2, i3⟩ hl
      have ha : a < s.length := by rw [i1]; exact h a (by rw [hl]; simp)
      refine ⟨s.set a (O.zero, none), by unfold clearBest; rw [vset_ok ha], by simp [i1], ?_, ?_⟩
      · intro x hx
        rw [List.getElem?_set]
        split
        · rename_i hax
          subst hax
          simp
        · rename_i hax
          rcases List.mem_append.1 hx with hx | hx
          · exact i2 x hx
          · rw [List.mem_singleton] at hx
            exact absurd hx.symm hax
      · intro b hb
        rcases List.mem_or_eq_of_mem_set hb with hb | rfl
        · exact i3 b hb
        · exact Or.inr rfl)
  exact ⟨s, e, I⟩

/-! ### Requests -/

/-- What `requested_matches` holds after the vertices `pre`. -/
structure ReqInv (H : Hypergraph) (best : List (F × Option Nat)) (total : Nat) (pre : List Vertex)
    (reqs : List (List (Nat × F))) : Prop where
  len : reqs.length = total
  from' : ∀ (g : Nat) l, reqs[g]? = some l → ∀ x ∈ l, ∃ (i : Nat) (v : Vertex) (b : F × Option Nat),
    H.vertices[i]? = some v ∧ v.id = x.1 ∧ best[i]? = some b ∧ b.2 = some g
  sub : (reqs.flatten.map (·.1)).Subperm (pre.map (·.id))

theorem addRequests_ok {H : Hypergraph} (w : WF H) {best : List (F × Option Nat)}
    (hb : best.length = H.vertices.length) {total : Nat}
    (hg : ∀ b ∈ best, ∀ g, b.2 = some g → g < total) :
    ∃ reqs, H.vertices.foldlM (addRequest H best) (List.replicate total []) = .ok reqs ∧
      ReqInv H best total H.vertices reqs := by
  obtain ⟨s, e, I⟩ := foldlM_inv (f := addRequest H best)
    (fun pre _ reqs => ReqInv H best total pre reqs) H.vertices (List.replicate total [])
    (by
      refine ⟨by simp, ?_, by simp⟩
      intro g l hgl x hx
      rw [List.getElem?_replicate] at hgl
      split at hgl
      · cases hgl; cases hx
      · cases hgl) (by
      intro pre v post reqs I hl
      have hv : v ∈ H.vertices := by rw [hl]; simp
      obtain ⟨i, hi⟩ := List.mem_iff_getElem?.1 hv
      have hil : i < H.vertices.length := (List.getElem?_eq_some_iff.1 hi).1
      have hbi : best[i]? = some (best[i]'(by omega)) := List.getElem?_eq_getElem _
      generalize best[i]'(by omega) = b at hbi
      unfold addRequest
      rw [w.localId_of_get hi, ok_bind, vget_ok hbi, ok_bind]
      rcases hb2 : b.2 with _ | g
      · refine ⟨reqs, rfl, I.len, I.from', ?_⟩
        refine I.sub.trans ?_
        rw [List.map_append]
        exact (List.sublist_append_left _ _).subperm
      · have hgt := hg b (List.mem_of_getElem? hbi) g hb2
        have hrg : reqs[g]? = some (reqs[g]'(by rw [I.len]; exact hgt)) := List.getElem?_eq_getElem _
        generalize reqs[g]'(by rw [I.len]; exact hgt) = l at hrg
        simp only
        rw [vget_ok hrg, ok_bind]
        refine ⟨_, rfl, by simp [I.len], ?_, ?_⟩
        · intro g' l' hg' x hx
          rw [List.getElem?_set] at hg'
          split at hg'
          · rename_i hgg
            subst hgg
            rw [if_pos (by rw [I.len]; exact hgt)] at hg'
            cases hg'
            rcases List.mem_append.1 hx with hx | hx
            · exact I.from' g l hrg x hx
            · rw [List.mem_singleton] at hx
              subst hx
              exact ⟨i, v, b, hi, rfl, hbi, hb2⟩
          · exact I.from' g' l' hg' x hx
        · refine ((flatten_set_perm reqs g l (v.id, b.1) hrg).map _).subperm.trans ?_
          rw [List.map_append, List.map_append]
          exact I.sub.append (List.Subperm.refl _))
  exact ⟨s, e, I⟩

theorem topC_sub {α : Type} {nth : Nat → List α → List α} (hn : ∀ k l, (nth k l).Perm l) (maxC : Nat)
    (l : List α) : (topC nth maxC l).Subperm l := by
  unfold topC
  split
  · exact (List.take_sublist _ _).subperm.trans (hn _ _).subperm
  · exact (List.take_sublist _ _).subperm

theorem topC_length {α : Type} (nth : Nat → List α → List α) (maxC : Nat)
    (l : List α) : (topC nth maxC l).length ≤ maxC := by
  unfold topC
  exact List.length_take_le _ _

theorem flatMap_subperm {α β : Type} (l : List α) {f g : α → List β}
    (h : ∀ a ∈ l, (f a).Subperm (g a)) : (l.flatMap f).Subperm (l.flatMap g) := by
  induction l with
  | nil => simp
  | cons a l ih =>
    rw [List.flatMap_cons, List.flatMap_cons]
    exact (h a (by simp)).append (ih (fun b hb => h b (by simp [hb])))

theorem subperm_map {α β : Type} (f : α → β) {l l' : List α} (h : l.Subperm l') :
    (l.map f).Subperm (l'.map f) := by
  obtain ⟨m, hm, hs⟩ := h
  exact ⟨m.map f, hm.map f, hs.map f⟩

theorem Subperm.nodup' {α : Type} {l l' : List α} (h : l.Subperm l') (hn : l'.Nodup) : l.Nodup := by
  obtain ⟨m, hm, hs⟩ := h
  exact hm.nodup_iff.1 (hs.nodup hn)

/-- The requests of processor `s`: each goes to a sample that exists, each vertex makes at most
one, and no local sample makes any. -/
structure ReqsOk (p s : Nat) (k : Nat → Nat) (H : Hypergraph) (samples : List Nat)
    (out : List (Nat × ReqMsg F)) : Prop where
  target : ∀ x ∈ out, x.1 < p ∧ x.2.sample < k x.1
  sender : ∀ x ∈ out, x.2.sender = s
  proposer : ∀ x ∈ out, ∃ (i : Nat) (v : Vertex), H.vertices[i]? = some v ∧ v.id = x.2.proposer ∧ i ∉ samples
  nodup : (out.map (·.2.proposer)).Nodup

theorem requests_ok (E : CoarseEnv F) (ho : ∀ l, (E.order l).Perm l)
    (hn : ∀ k l, (E.nthLocal k l).Perm l) (opts : Options) (p s : Nat) {H : Hypergraph} (w : WF H)
    {samples : List Nat} (hs : ∀ x ∈ samples, x < H.vertices.length) {k : Nat → Nat}
    (hk : ∀ t, t < p → k t ≤ opts.sampleSize) {msgs : List SampleMsg}
    (hm : ∀ m ∈ msgs, m.1 < p ∧ m.2.1 < k m.1) :
    ∃ out, requests E opts p s H samples msgs = .ok out ∧ ReqsOk p s k H samples out := by
  unfold requests
  simp only
  obtain ⟨s1, e1, i1, i2, i3⟩ := foldlM_inv' (f := ipMsg E.scores E.order H opts.sampleSize)
    (fun st => st.1.length = H.vertices.length ∧ st.2.length = H.vertices.length ∧
      BestOk p opts.sampleSize k st.2) msgs
    (List.replicate H.vertices.length E.scores.zero,
      List.replicate H.vertices.length (E.scores.zero, none))
    ⟨by simp, by simp, by
      intro b hb g hg
      rw [List.eq_of_mem_replicate hb] at hg
      cases hg⟩
    (fun m st hmm hI => ipMsg_ok E.scores ho w (hm m hmm).1 (hm m hmm).2 hI.1 hI.2.1 hI.2.2)
  rw [e1, ok_bind]
  obtain ⟨best, e2, j1, j2, j3⟩ := clearBest_ok E.scores hs i2
  simp only [e2, ok_bind]
  have hbest : ∀ b ∈ best, ∀ g, b.2 = some g →
      ∃ t j, t < p ∧ j < k t ∧ g = t * opts.sampleSize + j := by
    intro b hb g hg
    rcases j3 b hb with h | rfl
    · exact i3 b h g hg
    · cases hg
  obtain ⟨reqs, e3, I⟩ := addRequests_ok w j1 (total := p * opts.sampleSize) (by
    intro b hb g hg
    obtain ⟨t, j, h1, h2, rfl⟩ := hbest b hb g hg
    have := hk t h1
    calc t * opts.sampleSize + j < t * opts.sampleSize + opts.sampleSize := by omega
      _ = (t + 1) * opts.sampleSize := by ring
      _ ≤ p * opts.sampleSize := Nat.mul_le_mul_right _ h1)
  rw [e3, ok_bind]
  -- a request is for a sample that exists
  have hdec : ∀ (g : Nat) l, reqs[g]? = some l → ∀ x ∈ l, g / opts.sampleSize < p ∧
      g - g / opts.sampleSize * opts.sampleSize < k (g / opts.sampleSize) := by
    intro g l hgl x hx
    obtain ⟨i, v, b, -, -, hb, hg⟩ := I.from' g l hgl x hx
    obtain ⟨t, j, h1, h2, rfl⟩ := hbest b (List.mem_of_getElem? hb) g hg
    have h3 := hk t h1
    have h4 : (t * opts.sampleSize + j) / opts.sampleSize = t := by
      rw [Nat.mul_comm, Nat.mul_add_div (by omega), Nat.div_eq_of_lt (by omega), Nat.add_zero]
    rw [h4]
    exact ⟨h1, by omega⟩
  let msgOf : Nat → Nat × F → Nat × ReqMsg F := fun g x => (g / opts.sampleSize,
    { sender := s, sample := g - g / opts.sampleSize * opts.sampleSize, proposer := x.1, score := x.2 })
  have e4 : reqs.zipIdx.mapM (fun x =>
      reqSends E p s opts.sampleSize opts.maxClustersize x.2 x.1) =
      .ok (reqs.zipIdx.map (fun x => (topC E.nthLocal opts.maxClustersize x.1).map (msgOf x.2))) := by
    apply mapM_ok
    rintro ⟨l, g⟩ hx
    have hgl : reqs[g]? = some l := List.mem_zipIdx_iff_getElem?.1 hx
    unfold reqSends
    apply mapM_ok
    intro y hy
    unfold send
    rw [if_pos (hdec g l hgl y ((topC_sub hn _ _).subset hy)).1]
  rw [e4, ok_bind, pure_eq_ok]
  have hmem : ∀ z ∈ (reqs.zipIdx.map (fun x =>
      (topC E.nthLocal opts.maxClustersize x.1).map (msgOf x.2))).flatten,
      ∃ (g : Nat) (l : List (Nat × F)) (y : Nat × F), reqs[g]? = some l ∧ y ∈ l ∧ z = msgOf g y := by
    intro z hz
    rw [List.mem_flatten] at hz
    obtain ⟨b, hb, hzb⟩ := hz
    obtain ⟨⟨l, g⟩, hlg, rfl⟩ := List.mem_map.1 hb
    obtain ⟨y, hy, rfl⟩ := List.mem_map.1 hzb
    exact ⟨g, l, y, List.mem_zipIdx_iff_getElem?.1 hlg, (topC_sub hn _ _).subset hy, rfl⟩
  refine ⟨_, rfl, ?_, ?_, ?_, ?_⟩
  · intro z hz
    obtain ⟨g, l, y, hgl, hy, rfl⟩ := hmem z hz
    exact hdec g l hgl y hy
  · intro z hz
    obtain ⟨g, l, y, hgl, hy, rfl⟩ := hmem z hz
    rfl
  · intro z hz
    obtain ⟨g, l, y, hgl, hy, rfl⟩ := hmem z hz
    obtain ⟨i, v, b, hv, hid, hb, hg⟩ := I.from' g l hgl y hy
    refine ⟨i, v, hv, hid, ?_⟩
    intro hi
    rw [j2 i hi] at hb
    cases hb
    cases hg
  · refine Subperm.nodup' ?_ w.vids
    refine List.Subperm.trans ?_ I.sub
    have h1 : (reqs.zipIdx.map (fun x =>
        (topC E.nthLocal opts.maxClustersize x.1).map (msgOf x.2))).flatten.map (·.2.proposer) =
        reqs.flatMap (fun l => (topC E.nthLocal opts.maxClustersize l).map (·.1)) := by
      rw [List.map_flatten, List.map_map]
      have : reqs = reqs.zipIdx.map Prod.fst := (List.zipIdx_map_fst 0 reqs).symm
      conv_rhs => rw [this]
      rw [List.flatMap, List.map_map]
      congr 1
      apply List.map_congr_left
      intro x _
      simp [msgOf, Function.comp_def]
    rw [h1]
    have h2 : reqs.flatten.map (·.1) = reqs.flatMap (fun l => l.map (·.1)) := by
      rw [List.map_flatten, List.flatMap]
    rw [h2]
    exact flatMap_subperm _ (fun l _ => subperm_map _ (topC_sub hn _ l))

/-! ### Acceptance -/

/-- The requests accepted for sample `i`. -/
def acceptedFor (E : CoarseEnv F) (maxC : Nat) (msgs : List (ReqMsg F)) (i : Nat) : List (ReqMsg F) :=
  topC E.nthOwner maxC (msgs.filter (fun m => m.sample = i))

theorem takeRequests_ok {k : Nat} {msgs : List (ReqMsg F)} (hm : ∀ m ∈ msgs, m.sample < k) :
    msgs.foldlM takeRequest (List.replicate k []) =
      .ok ((List.range k).map (fun i => msgs.filter (fun m => m.sample = i))) := by
  obtain ⟨s, e, I⟩ := foldlM_inv (f := takeRequest)
    (fun pre _ (s : List (List (ReqMsg F))) =>
      s = (List.range k).map (fun i => pre.filter (fun m => m.sample = i))) msgs
    (List.replicate k []) (by
      apply List.ext_getElem <;> simp) (by
      rintro pre m post s rfl hl
      have hk : m.sample < k := hm m (by rw [hl]; simp)
      unfold takeRequest
      rw [vget_ok (a := pre.filter (fun x => x.sample = m.sample)) (by simp [hk]), ok_bind,
        vset_ok (by simpa using hk)]
      refine ⟨_, rfl, ?_⟩
      apply List.ext_getElem
      · simp
      · intro i h1 h2
        simp only [List.length_map, List.length_range] at h2
        rw [List.getElem_set]
        split
        · rename_i h
          subst h
          simp
        · rename_i h
          simp [h])
  rw [e, I]

theorem accepts_ok (E : CoarseEnv F) (hn : ∀ k l, (E.nthOwner k l).Perm l) (opts : Options)
    (p s k : Nat) {C : Contraction} (hC : C.matched = List.replicate k []) {msgs : List (ReqMsg F)}
    (hm : ∀ m ∈ msgs, m.sample < k ∧ m.sender < p) :
    accepts E opts p s k C msgs = .ok
      ({ C with matched := (List.range k).map (fun i =>
          (acceptedFor E opts.maxClustersize msgs i).map (fun m => (m.proposer, m.sender))) },
       (List.range k).flatMap (fun i => (acceptedFor E opts.maxClustersize msgs i).map
          (fun m => (m.sender, (i + s * opts.sampleSize, m.proposer))))) := by
  unfold accepts
  rw [takeRequests_ok (fun m h => (hm m h).1), ok_bind]
  let A := acceptedFor E opts.maxClustersize msgs
  have hA : ∀ i, ∀ m ∈ A i, m.sender < p := by
    intro i m h
    exact (hm m (List.mem_filter.1 ((topC_sub hn _ _).subset h)).1).2
  -- one sample
  have hone : ∀ (i : Nat) (C0 : Contraction) (out0 : List (Nat × (Nat × Nat))),
      C0.matched[i]? = some [] →
      (A i).foldlM (acceptMatch p s opts.sampleSize i) (C0, out0) =
        .ok ({ C0 with matched := C0.matched.set i ((A i).map (fun m => (m.proposer, m.sender))) },
          out0 ++ (A i).map (fun m => (m.sender, (i + s * opts.sampleSize, m.proposer)))) := by
    intro i C0 out0 h0
    have hil : i < C0.matched.length := (List.getElem?_eq_some_iff.1 h0).1
    obtain ⟨st, e, I⟩ := foldlM_inv (f := acceptMatch (F := F) p s opts.sampleSize i)
      (fun pre _ (st : Contraction × List (Nat × (Nat × Nat))) => st =
        ({ C0 with matched := C0.matched.set i (pre.map (fun m => (m.proposer, m.sender))) },
          out0 ++ pre.map (fun m => (m.sender, (i + s * opts.sampleSize, m.proposer))))) (A i)
      (C0, out0) (by
        have hs : C0.matched.set i [] = C0.matched := by
          apply List.ext_getElem?
          intro j
          rw [List.getElem?_set]
          split
          · rename_i h; subst h; simp [hil]; exact ((List.getElem?_eq_some_iff.1 h0).2)
          · rfl
        simp [hs]) (by
        rintro pre m post st rfl hl
        unfold acceptMatch
        have hadd : ({ C0 with matched := C0.matched.set i (pre.map (fun m => (m.proposer, m.sender))) } :
            Contraction).addMatch i m.proposer m.sender =
            .ok { C0 with matched := C0.matched.set i ((pre ++ [m]).map (fun m => (m.proposer, m.sender))) } := by
          unfold Contraction.addMatch
          simp [hil]
        simp only [hadd, ok_bind]
        unfold send
        rw [if_pos (hA i m (by rw [hl]; simp))]
        refine ⟨_, rfl, ?_⟩
        simp)
    rw [e, I]
  obtain ⟨st, e, I⟩ := foldlM_inv (f := acceptSample E p s opts.sampleSize opts.maxClustersize
      ((List.range k).map (fun i => msgs.filter (fun m => m.sample = i))))
    (fun pre _ (st : Contraction × List (Nat × (Nat × Nat))) => st =
      ({ C with matched := (List.range k).map (fun i => if i < pre.length then
          (A i).map (fun m => (m.proposer, m.sender)) else []) },
       (List.range pre.length).flatMap (fun i => (A i).map
          (fun m => (m.sender, (i + s * opts.sampleSize, m.proposer)))))) (List.range k)
    (C, []) (by
      have : (List.range k).map (fun i => if i < ([] : List Nat).length then
          (A i).map (fun m => (m.proposer, m.sender)) else []) = C.matched := by
        rw [hC]
        apply List.ext_getElem <;> simp
      rw [this]
      rfl) (by
      rintro pre i post st rfl hl
      have hi : i = pre.length ∧ i < k := by
        have := congrArg (·[pre.length]?) hl
        simp only [List.getElem?_append_right (Nat.le_refl _), Nat.sub_self,
          List.getElem?_cons_zero] at this
        rw [List.getElem?_eq_some_iff] at this
        obtain ⟨hlt, he⟩ := this
        rw [List.length_range] at hlt
        rw [List.getElem_range] at he
        omega
      obtain ⟨hi, hik⟩ := hi
      subst hi
      unfold acceptSample
      rw [vget_ok (a := msgs.filter (fun m => m.sample = pre.length)) (by simp [hik]), ok_bind]
      refine ⟨_, hone pre.length _ _ (by simp [hik]), ?_⟩
      congr 1
      · congr 1
        apply List.ext_getElem
        · simp
        · intro j h1 h2
          simp only [List.length_map, List.length_range] at h2
          rw [List.getElem_set]
          split
          · rename_i h
            subst h
            simp
          · rename_i h
            have : (j < pre.length + 1) ↔ (j < pre.length) := by omega
            simp [this]
      · rw [List.length_append, List.length_singleton, List.range_succ, List.flatMap_append,
          List.flatMap_singleton])
  rw [e, I]
  simp only [List.length_range]
  congr 3
  apply List.map_congr_left
  intro i hi
  rw [if_pos (List.mem_range.1 hi)]

end PMondriaan
