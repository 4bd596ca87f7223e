import Verif.Proofs.CoarsenInfo
import Verif.Props.Matching

/-
C100: what `send_information_matches` sends.
-/

namespace PMondriaan

open Spec

/-- The global number of the sample a message is about: `sample_size` numbers for each processor. -/
def sampleOf (ss : Nat) (x : Nat × InfoMsg) : Nat := x.1 * ss + x.2.sample

/-- What is known about the order of the messages after the matches `pre`. -/
structure KeyInv (ss : Nat) (pre : List (Nat × Nat)) (st : InfoState) : Prop where
  start : st.prev = none → pre = [] ∧ st.out = []
  sorted : ∀ q, st.prev = some q → (st.out.map (sampleOf ss) ++ [q]).Pairwise (· < ·) ∧
    (∀ y ∈ pre, y.1 ≤ q) ∧ ∀ g, g ∈ st.out.map (sampleOf ss) ++ [q] ↔ g ∈ pre.map (·.1)
  nodup : st.nets.Nodup
  msgs : ∀ x ∈ st.out, x.2.nets.Nodup

theorem infoFlush_keys {order : List Nat → List Nat} (ho : ∀ l, (order l).Perm l) {p ss : Nat}
    {H : Hypergraph} {st : InfoState} {q : Nat} {out : List (Nat × InfoMsg)} (hn : st.nets.Nodup)
    (h : infoFlush order p ss H st q = .ok out) :
    ∃ x, out = st.out ++ [x] ∧ sampleOf ss x = q ∧ x.2.nets.Nodup := by
  unfold infoFlush at h
  split at h
  · cases h
  · rename_i hss
    obtain ⟨costs, -, h⟩ := bind_eq_ok.1 h
    obtain ⟨o, ho', h⟩ := bind_eq_ok.1 h
    cases h
    unfold send at ho'
    split at ho'
    · cases ho'
      refine ⟨_, rfl, ?_, (ho _).nodup_iff.2 hn⟩
      have := Nat.div_mul_le_self q ss
      simp only [sampleOf]
      omega
    · cases ho'

theorem infoStep_keys {order : List Nat → List Nat} (ho : ∀ l, (order l).Perm l) {p ss : Nat}
    {H : Hypergraph} {pre : List (Nat × Nat)} {st st' : InfoState} {m : Nat × Nat}
    (K : KeyInv ss pre st) (hm : ∀ y ∈ pre, y.1 ≤ m.1) (h : infoStep order p ss H st m = .ok st') :
    KeyInv ss (pre ++ [m]) st' := by
  unfold infoStep at h
  obtain ⟨s1, h1, h⟩ := bind_eq_ok.1 h
  obtain ⟨i, -, h⟩ := bind_eq_ok.1 h
  obtain ⟨mt, -, h⟩ := bind_eq_ok.1 h
  obtain ⟨v, -, h⟩ := bind_eq_ok.1 h
  cases h
  have key : s1.nets.Nodup ∧ (∀ x ∈ s1.out, x.2.nets.Nodup) ∧
      (s1.out.map (sampleOf ss) ++ [m.1]).Pairwise (· < ·) ∧
      ∀ g, g ∈ s1.out.map (sampleOf ss) ++ [m.1] ↔ g ∈ (pre ++ [m]).map (·.1) := by
    unfold infoNext at h1
    rcases hq : st.prev with _ | q
    · rw [hq] at h1
      cases h1
      obtain ⟨rfl, h2⟩ := K.start hq
      refine ⟨K.nodup, K.msgs, ?_, ?_⟩ <;> simp [h2]
    · rw [hq] at h1
      simp only at h1
      obtain ⟨k1, k2, k3⟩ := K.sorted q hq
      have hqm : q ≤ m.1 := by
        obtain ⟨y, hy, hyq⟩ := List.mem_map.1 ((k3 q).1 (by simp))
        rw [← hyq]
        exact hm y hy
      by_cases hg : m.1 = q
      · rw [if_neg (by simpa using hg)] at h1
        cases h1
        refine ⟨K.nodup, K.msgs, by rw [hg]; exact k1, fun g => ?_⟩
        rw [hg, k3 g, List.map_append, List.mem_append]
        constructor
        · exact Or.inl
        · rintro (h | h)
          · exact h
          · simp only [List.map_cons, List.map_nil, List.mem_singleton] at h
            rw [h, hg]
            exact (k3 q).1 (by simp)
      · rw [if_pos hg] at h1
        obtain ⟨out, h2, h1⟩ := bind_eq_ok.1 h1
        cases h1
        obtain ⟨x, rfl, hx1, hx2⟩ := infoFlush_keys ho K.nodup h2
        refine ⟨by simp, ?_, ?_, ?_⟩
        · intro y hy
          rcases List.mem_append.1 hy with hy | hy
          · exact K.msgs y hy
          · rw [List.mem_singleton] at hy
            rw [hy]; exact hx2
        · simp only [List.map_append, List.map_cons, List.map_nil, hx1]
          rw [List.pairwise_append]
          refine ⟨k1, by simp, ?_⟩
          intro a ha b hb
          rw [List.mem_singleton] at hb
          rw [hb]
          obtain ⟨y, hy, hya⟩ := List.mem_map.1 ((k3 a).1 ha)
          have := k2 y hy
          omega
        · intro g
          simp only [List.map_append, List.map_cons, List.map_nil, hx1]
          rw [List.mem_append, k3 g, List.mem_append]
  obtain ⟨n1, n2, n3, n4⟩ := key
  refine ⟨by simp, ?_, (foldl_insertNat _ _ n1).1, n2⟩
  intro q hq
  simp only [Option.some.injEq] at hq
  subst hq
  refine ⟨n3, ?_, n4⟩
  intro y hy
  rcases List.mem_append.1 hy with hy | hy
  · exact hm y hy
  · rw [List.mem_singleton] at hy
    rw [hy]

theorem infoSteps_keys {order : List Nat → List Nat} (ho : ∀ l, (order l).Perm l) {p ss : Nat}
    {H : Hypergraph} : ∀ {l pre : List (Nat × Nat)} {st st' : InfoState}, KeyInv ss pre st →
    (pre ++ l).Pairwise (fun a b => a.1 ≤ b.1) → l.foldlM (infoStep order p ss H) st = .ok st' →
    KeyInv ss (pre ++ l) st'
  | [], pre, st, st', K, _, h => by
    cases h
    simpa using K
  | m :: l, pre, st, st', K, hp, h => by
    rw [List.foldlM_cons] at h
    obtain ⟨s1, h1, h⟩ := bind_eq_ok.1 h
    have hm : ∀ y ∈ pre, y.1 ≤ m.1 :=
      fun y hy => (List.pairwise_append.1 hp).2.2 y hy m (by simp)
    have e : pre ++ m :: l = pre ++ [m] ++ l := by simp
    rw [e] at hp ⊢
    exact infoSteps_keys ho (infoStep_keys ho K hm h1) hp h

theorem pairLe_sorted (l : List (Nat × Nat)) :
    (l.mergeSort pairLe).Pairwise (fun a b => a.1 ≤ b.1) := by
  have h := List.pairwise_mergeSort (le := pairLe) (by
    intro a b c
    simp only [pairLe, Bool.or_eq_true, decide_eq_true_eq, Bool.and_eq_true, beq_iff_eq]
    omega) (by
    intro a b
    simp only [pairLe, Bool.or_eq_true, decide_eq_true_eq, Bool.and_eq_true, beq_iff_eq]
    omega) l
  refine h.imp ?_
  intro a b
  simp only [pairLe, Bool.or_eq_true, decide_eq_true_eq, Bool.and_eq_true, beq_iff_eq]
  omega

theorem infoSends_keys {order : List Nat → List Nat} (ho : ∀ l, (order l).Perm l) {p ss : Nat}
    {H : Hypergraph} {acc : List (Nat × Nat)} {mt : List Bool} {out : List (Nat × InfoMsg)}
    (h : infoSends order p ss H acc = .ok (mt, out)) :
    (out.map (sampleOf ss)).Pairwise (· < ·) ∧
      (∀ g, g ∈ out.map (sampleOf ss) ↔ g ∈ acc.map (·.1)) ∧ ∀ x ∈ out, x.2.nets.Nodup := by
  unfold infoSends at h
  obtain ⟨st, h1, h⟩ := bind_eq_ok.1 h
  obtain ⟨o, h2, h⟩ := bind_eq_ok.1 h
  cases h
  have K := infoSteps_keys (pre := []) ho (ss := ss) ⟨by simp, by simp, by simp, by simp⟩
    (by simpa using pairLe_sorted acc) h1
  rw [List.nil_append] at K
  have hperm : (acc.mergeSort pairLe).Perm acc := List.mergeSort_perm _ _
  unfold infoLast at h2
  rcases hq : st.prev with _ | q
  · rw [hq] at h2
    cases h2
    obtain ⟨e1, e2⟩ := K.start hq
    rw [e1] at hperm
    rw [e2, ← hperm.nil_eq]
    simp
  · rw [hq] at h2
    simp only at h2
    obtain ⟨x, rfl, hx1, hx2⟩ := infoFlush_keys ho K.nodup h2
    obtain ⟨k1, -, k3⟩ := K.sorted q hq
    refine ⟨by simpa [hx1] using k1, fun g => ?_, ?_⟩
    · rw [← (hperm.map (·.1)).mem_iff, ← k3 g]
      simp [hx1]
    · intro y hy
      rcases List.mem_append.1 hy with hy | hy
      · exact K.msgs y hy
      · rw [List.mem_singleton] at hy
        rw [hy]; exact hx2

/-- The message `x` tells the owner of a sample everything about the vertices of `H` matched to it in
`acc`: their weight, their nets without repetition, and the costs of these. -/
structure TellsAll (p ss : Nat) (H : Hypergraph) (acc : List (Nat × Nat)) (x : Nat × InfoMsg) :
    Prop where
  target : x.1 < p
  sample : x.2.sample < ss
  weight : x.2.weight =
    ((H.vertices.filter (fun v => (x.1 * ss + x.2.sample, v.id) ∈ acc)).map (·.weight)).sum
  once : x.2.nets.Nodup
  nets : ∀ e, e ∈ x.2.nets ↔
    ∃ v ∈ H.vertices, (x.1 * ss + x.2.sample, v.id) ∈ acc ∧ e ∈ v.nets
  costs : List.Forall₂ (fun e c => ∃ n ∈ H.nets, n.id = e ∧ n.cost = c) x.2.nets x.2.costs

/-- C100: `send_information_matches` sends one message for every sample with which a local vertex has
been matched and none for the others, in ascending order of the samples; the message has the total
weight of all local vertices matched to the sample, every net of one of them once, and the costs of
these nets. Exactly the vertices with an accepted match are marked as matched. -/
theorem C100_merged {order : List Nat → List Nat} (ho : ∀ l, (order l).Perm l) {p ss : Nat}
    {H : Hypergraph} (w : WF H) {acc : List (Nat × Nat)} (hacc : acc.Nodup) (hss : acc ≠ [] → 0 < ss)
    (hp : ∀ y ∈ acc, y.1 / ss < p) (hv : ∀ y ∈ acc, ∃ v ∈ H.vertices, v.id = y.2) :
    ∃ out, infoSends order p ss H acc =
        .ok (H.vertices.map (fun v => decide (v.id ∈ acc.map (·.2))), out) ∧
      (out.map (fun x => x.1 * ss + x.2.sample)).Pairwise (· < ·) ∧
      (∀ g, g ∈ out.map (fun x => x.1 * ss + x.2.sample) ↔ ∃ v, (g, v) ∈ acc) ∧
      ∀ x ∈ out, TellsAll p ss H acc x := by
  obtain ⟨vtx, hvtx⟩ : ∃ vtx : Nat → Vertex, ∀ y ∈ acc, vtx y.2 ∈ H.vertices ∧ (vtx y.2).id = y.2 := by
    classical
    refine ⟨fun i => if h : ∃ v ∈ H.vertices, v.id = i then h.choose else ⟨0, [], 0, 0⟩, ?_⟩
    intro y hy
    have h := hv y hy
    simp only [dif_pos h]
    exact h.choose_spec
  obtain ⟨c, hc⟩ : ∃ c : Nat → Int, ∀ n ∈ H.nets, n.cost = c n.id := by
    classical
    refine ⟨fun i => if h : ∃ n ∈ H.nets, n.id = i then h.choose.cost else 0, ?_⟩
    intro n hn
    have h : ∃ m ∈ H.nets, m.id = n.id := ⟨n, hn, rfl⟩
    simp only [dif_pos h]
    have := List.inj_on_of_nodup_map w.nids h.choose_spec.1 hn h.choose_spec.2
    rw [this]
  obtain ⟨out, h1, T⟩ := infoSends_ok ho w hc hss hp hvtx
  obtain ⟨k1, k2, k3⟩ := infoSends_keys ho h1
  refine ⟨out, h1, k1, ?_, ?_⟩
  · intro g
    refine (k2 g).trans ?_
    rw [List.mem_map]
    constructor
    · rintro ⟨y, hy, rfl⟩
      exact ⟨y.2, hy⟩
    · rintro ⟨v, h⟩
      exact ⟨_, h, rfl⟩
  · intro x hx
    have hok := T.msgs x hx
    -- the message is the only one about its sample
    have hone : ∀ y ∈ out, y.1 = x.1 → y.2.sample = x.2.sample → y = x := by
      intro y hy e1 e2
      have hn : (out.map (sampleOf ss)).Nodup := k1.imp (fun h => Nat.ne_of_lt h)
      exact List.inj_on_of_nodup_map hn hy hx (by unfold sampleOf; rw [e1, e2])
    have hfilt : out.filter (fun y => y.1 = x.1 ∧ y.2.sample = x.2.sample) = [x] := by
      have hn : out.Nodup := List.Nodup.of_map _ (k1.imp (fun h => Nat.ne_of_lt h))
      have hn2 := hn.filter (fun y => decide (y.1 = x.1 ∧ y.2.sample = x.2.sample))
      have hperm : (out.filter (fun y => decide (y.1 = x.1 ∧ y.2.sample = x.2.sample))).Perm [x] := by
        rw [List.perm_ext_iff_of_nodup hn2 (by simp)]
        intro y
        simp only [List.mem_filter, decide_eq_true_eq, List.mem_singleton]
        constructor
        · rintro ⟨a, b, c⟩; exact hone y a b c
        · rintro rfl; exact ⟨hx, rfl, rfl⟩
      exact List.perm_singleton.1 hperm
    have hvt : ∀ v ∈ H.vertices, ∀ g, (g, v.id) ∈ acc → vtx v.id = v := by
      intro v hv' g hg
      obtain ⟨a, b⟩ := hvtx _ hg
      exact List.inj_on_of_nodup_map w.vids a hv' b
    refine ⟨hok.target, hok.sample, ?_, k3 x hx, ?_, ?_⟩
    · have hw := T.weight x.1 x.2.sample hok.sample
      unfold toldWeight at hw
      rw [hfilt] at hw
      simp only [List.map_cons, List.map_nil, List.sum_cons, List.sum_nil, add_zero] at hw
      rw [hw]
      unfold accWeight
      apply List.Perm.sum_eq
      have hperm : (((acc.filter (fun y => y.1 = x.1 * ss + x.2.sample)).map (fun y => vtx y.2))).Perm
          (H.vertices.filter (fun v => (x.1 * ss + x.2.sample, v.id) ∈ acc)) := by
        rw [List.perm_ext_iff_of_nodup]
        · intro v
          simp only [List.mem_map, List.mem_filter, decide_eq_true_eq]
          constructor
          · rintro ⟨y, ⟨hy, hg⟩, rfl⟩
            obtain ⟨a, b⟩ := hvtx y hy
            refine ⟨a, ?_⟩
            rw [b, ← hg]; exact hy
          · rintro ⟨a, b⟩
            exact ⟨_, ⟨b, rfl⟩, hvt v a _ b⟩
        · apply List.Nodup.map_on _ (hacc.filter _)
          intro y hy z hz e
          simp only [List.mem_filter, decide_eq_true_eq] at hy hz
          have e2 : y.2 = z.2 := by rw [← (hvtx y hy.1).2, ← (hvtx z hz.1).2, e]
          exact Prod.ext (hy.2.trans hz.2.symm) e2
        · exact (List.Nodup.of_map _ w.vids).filter _
      have := hperm.map (·.weight)
      rwa [List.map_map] at this
    · intro e
      have hn := T.nets x.1 x.2.sample e hok.sample
      have h2 : toldNet out x.1 x.2.sample e ↔ e ∈ x.2.nets := by
        unfold toldNet
        constructor
        · rintro ⟨y, hy, a, b, h⟩
          rw [hone y hy a b] at h
          exact h
        · exact fun h => ⟨x, hx, rfl, rfl, h⟩
      rw [← h2, hn]
      unfold accNet
      constructor
      · rintro ⟨y, hy, hg, he⟩
        obtain ⟨a, b⟩ := hvtx y hy
        exact ⟨_, a, by rw [b, ← hg]; exact hy, he⟩
      · rintro ⟨v, a, b, he⟩
        exact ⟨_, b, rfl, by rw [hvt v a _ b]; exact he⟩
    · rw [hok.costs, List.forall₂_map_right_iff, List.forall₂_same]
      intro e he
      obtain ⟨n, hn, hid⟩ := List.mem_map.1 (hok.nets e he)
      exact ⟨n, hn, hid, by rw [hc n hn, hid]⟩

/-- C100: so a processor sends at most as many messages as there are samples, however many of its
vertices are matched. -/
theorem C100_few {order : List Nat → List Nat} (ho : ∀ l, (order l).Perm l) {p ss : Nat}
    {H : Hypergraph} {acc : List (Nat × Nat)} (hp : ∀ y ∈ acc, y.1 < p * ss) {mt : List Bool}
    {out : List (Nat × InfoMsg)} (h : infoSends order p ss H acc = .ok (mt, out)) :
    out.length ≤ p * ss := by
  obtain ⟨k1, k2, -⟩ := infoSends_keys ho h
  have hn : (out.map (sampleOf ss)).Nodup := k1.imp (fun h => Nat.ne_of_lt h)
  have hsub : out.map (sampleOf ss) ⊆ List.range (p * ss) := by
    intro g hg
    obtain ⟨y, hy, rfl⟩ := List.mem_map.1 ((k2 g).1 hg)
    exact List.mem_range.2 (hp y hy)
  have := (hn.subperm hsub).length_le
  simpa using this

/-- Three vertices and the nets 0 = {0, 1} and 1 = {1, 2}. -/
def exampleInfo : Hypergraph := Hypergraph.create 3 2
  [⟨0, [0], 2, 0⟩, ⟨1, [0, 1], 3, 0⟩, ⟨2, [1], 4, 0⟩]
  [⟨0, [0, 1], 5, 2⟩, ⟨1, [1, 2], 7, 2⟩]

/-- Vertices 0 and 1 are matched to sample 1 of processor 1, vertex 2 to sample 0 of processor 0: two
messages are sent for the three matches. -/
example : (infoSends id 2 2 exampleInfo [(3, 1), (0, 2), (3, 0)]).toOption =
    some ([true, true, true], [(0, ⟨0, 4, [1], [7]⟩), (1, ⟨1, 5, [0, 1], [5, 7]⟩)]) := by
  have : [(3, 1), (0, 2), (3, 0)].mergeSort pairLe = [(0, 2), (3, 0), (3, 1)] := by
    simp [List.mergeSort, List.MergeSort.Internal.splitInTwo, List.splitAt, List.splitAt.go, pairLe]
  unfold infoSends
  rw [this]
  decide +kernel

end PMondriaan
