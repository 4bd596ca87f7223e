import Verif.Proofs.CoarsenReq

/-
Proofs about `send_information_matches`.
-/

namespace PMondriaan

open Spec

theorem foldl_insertNat (l s : List Nat) (hs : s.Nodup) :
    (l.foldl setInsert s).Nodup ∧ ∀ x, x ∈ l.foldl setInsert s ↔ x ∈ s ∨ x ∈ l := by
  induction l generalizing s with
  | nil => simp [hs]
  | cons a l ih =>
    rw [List.foldl_cons]
    obtain ⟨h1, h2⟩ := ih (setInsert s a) (setInsert_nodup a hs)
    refine ⟨h1, fun x => ?_⟩
    rw [h2, setInsert_spec, List.mem_cons, or_assoc]

/-- The weight that the messages `out` report for sample `j` of processor `t`. -/
def toldWeight (out : List (Nat × InfoMsg)) (t j : Nat) : Int :=
  ((out.filter (fun x => x.1 = t ∧ x.2.sample = j)).map (·.2.weight)).sum

/-- The net `e` is reported for sample `j` of processor `t`. -/
def toldNet (out : List (Nat × InfoMsg)) (t j e : Nat) : Prop :=
  ∃ x ∈ out, x.1 = t ∧ x.2.sample = j ∧ e ∈ x.2.nets

/-- The weight of the vertices matched to the sample with global number `g`. -/
def accWeight (vtx : Nat → Vertex) (acc : List (Nat × Nat)) (g : Nat) : Int :=
  ((acc.filter (fun y => y.1 = g)).map (fun y => (vtx y.2).weight)).sum

/-- The net `e` is a net of a vertex matched to the sample with global number `g`. -/
def accNet (vtx : Nat → Vertex) (acc : List (Nat × Nat)) (g e : Nat) : Prop :=
  ∃ y ∈ acc, y.1 = g ∧ e ∈ (vtx y.2).nets

/-- A message about a sample that exists, with nets of `H` and their costs. -/
structure InfoOk (p ss : Nat) (c : Nat → Int) (H : Hypergraph) (gs : List Nat) (x : Nat × InfoMsg) :
    Prop where
  target : x.1 < p
  sample : x.2.sample < ss
  key : x.1 * ss + x.2.sample ∈ gs
  nets : ∀ e ∈ x.2.nets, IsNet H e
  costs : x.2.costs = x.2.nets.map c

/-- The messages so far, with what is pending, account for the matches so far. -/
structure InfoInv (p ss : Nat) (c : Nat → Int) (vtx : Nat → Vertex) (H : Hypergraph)
    (pre : List (Nat × Nat)) (st : InfoState) : Prop where
  msgs : ∀ x ∈ st.out, InfoOk p ss c H (pre.map (·.1)) x
  start : st.prev = none → st.weight = 0 ∧ st.nets = []
  cur : ∀ q, st.prev = some q → q ∈ pre.map (·.1)
  nodup : st.nets.Nodup
  isnet : ∀ e ∈ st.nets, IsNet H e
  weight : ∀ t j, j < ss → toldWeight st.out t j + (if st.prev = some (t * ss + j) then st.weight else 0) =
    accWeight vtx pre (t * ss + j)
  nets : ∀ t j e, j < ss → (toldNet st.out t j e ∨ (st.prev = some (t * ss + j) ∧ e ∈ st.nets) ↔
    accNet vtx pre (t * ss + j) e)
  flags : st.matched = H.vertices.map (fun v => decide (v.id ∈ pre.map (·.2)))

theorem divmod_unique {ss t j : Nat} (hj : j < ss) : (t * ss + j) / ss = t ∧
    (t * ss + j) - (t * ss + j) / ss * ss = j := by
  have h4 : (t * ss + j) / ss = t := by
    rw [Nat.mul_comm, Nat.mul_add_div (by omega), Nat.div_eq_of_lt (by omega), Nat.add_zero]
  rw [h4]
  exact ⟨rfl, by omega⟩

theorem infoFlush_ok {order : List Nat → List Nat} (ho : ∀ l, (order l).Perm l) {p ss : Nat}
    (hss : 0 < ss) {c : Nat → Int} {vtx : Nat → Vertex} {H : Hypergraph} (w : WF H)
    (hc : ∀ n ∈ H.nets, n.cost = c n.id) {pre : List (Nat × Nat)}
    (hp : ∀ y ∈ pre, y.1 / ss < p) {st : InfoState} (I : InfoInv p ss c vtx H pre st) {q : Nat}
    (hq : st.prev = some q) :
    ∃ out, infoFlush order p ss H st q = .ok out ∧
      (∀ x ∈ out, InfoOk p ss c H (pre.map (·.1)) x) ∧
      (∀ t j, j < ss → toldWeight out t j = accWeight vtx pre (t * ss + j)) ∧
      (∀ t j e, j < ss → (toldNet out t j e ↔ accNet vtx pre (t * ss + j) e)) := by
  have hqp : q / ss < p := by
    obtain ⟨y, hy, rfl⟩ := List.mem_map.1 (I.cur q hq)
    exact hp y hy
  have hmod : q - q / ss * ss = q % ss := by
    have := Nat.div_add_mod q ss
    rw [Nat.mul_comm] at this
    omega
  have hdm : q / ss * ss + q % ss = q := by
    have := Nat.div_add_mod q ss
    rw [Nat.mul_comm] at this
    omega
  have hlt : q % ss < ss := Nat.mod_lt _ hss
  have hkey : ∀ t j, j < ss → ((q / ss = t ∧ q % ss = j) ↔ q = t * ss + j) := by
    intro t j hj
    constructor
    · rintro ⟨rfl, rfl⟩; exact hdm.symm
    · intro h
      have h2 := divmod_unique (t := t) hj
      rw [← h] at h2
      exact ⟨h2.1, by rw [← hmod]; exact h2.2⟩
  unfold infoFlush
  rw [if_neg (by omega)]
  have hcs : (order st.nets).mapM (fun e => do
      let n ← H.netOf e
      pure n.cost) = (.ok ((order st.nets).map c) : Res (List Int)) := by
    apply mapM_ok
    intro e he
    obtain ⟨n, hn, hid⟩ := List.mem_map.1 (I.isnet e ((ho _).subset he))
    obtain ⟨j, hj⟩ := List.mem_iff_getElem?.1 hn
    rw [← hid, w.netOf_of_get hj, ok_bind, hc n hn]
    rfl
  rw [hcs, ok_bind]
  unfold send
  rw [if_pos hqp, ok_bind, hmod]
  refine ⟨_, rfl, ?_, ?_, ?_⟩
  · intro x hx
    rcases List.mem_append.1 hx with hx | hx
    · exact I.msgs x hx
    · rw [List.mem_singleton] at hx
      subst hx
      exact ⟨hqp, hlt, by simp only [hdm]; exact I.cur q hq,
        fun e he => I.isnet e ((ho _).subset he), rfl⟩
  · intro t j hj
    rw [← I.weight t j hj, hq]
    unfold toldWeight
    rw [List.filter_append, List.map_append, List.sum_append]
    congr 1
    have := hkey t j hj
    by_cases h : q = t * ss + j
    · have h2 := this.2 h
      rw [List.filter_cons_of_pos (by simpa using h2), if_pos (by rw [h])]
      simp
    · have h2 := fun h3 => h (this.1 h3)
      rw [List.filter_cons_of_neg (by simpa using h2), if_neg (by simpa using h)]
      rfl
  · intro t j e hj
    rw [← I.nets t j e hj, hq]
    unfold toldNet
    have := hkey t j hj
    constructor
    · rintro ⟨x, hx, h1, h2, h3⟩
      rcases List.mem_append.1 hx with hx | hx
      · exact Or.inl ⟨x, hx, h1, h2, h3⟩
      · rw [List.mem_singleton] at hx
        subst hx
        exact Or.inr ⟨by rw [this.1 ⟨h1, h2⟩], (ho _).subset h3⟩
    · rintro (⟨x, hx, h⟩ | ⟨h1, h2⟩)
      · exact ⟨x, by simp [hx], h⟩
      · simp only [Option.some.injEq] at h1
        obtain ⟨h3, h4⟩ := this.2 h1
        exact ⟨_, List.mem_append_right _ (List.mem_singleton.2 rfl), h3, h4, (ho _).symm.subset h2⟩

theorem InfoOk.mono {p ss : Nat} {c : Nat → Int} {H : Hypergraph} {gs gs' : List Nat}
    {x : Nat × InfoMsg} (h : InfoOk p ss c H gs x) (hg : ∀ g ∈ gs, g ∈ gs') :
    InfoOk p ss c H gs' x := ⟨h.target, h.sample, hg _ h.key, h.nets, h.costs⟩

theorem accWeight_append (vtx : Nat → Vertex) (a b : List (Nat × Nat)) (g : Nat) :
    accWeight vtx (a ++ b) g = accWeight vtx a g + accWeight vtx b g := by
  unfold accWeight
  rw [List.filter_append, List.map_append, List.sum_append]

theorem accNet_append (vtx : Nat → Vertex) (a b : List (Nat × Nat)) (g e : Nat) :
    accNet vtx (a ++ b) g e ↔ accNet vtx a g e ∨ accNet vtx b g e := by
  unfold accNet
  constructor
  · rintro ⟨y, hy, h⟩
    rcases List.mem_append.1 hy with hy | hy
    · exact Or.inl ⟨y, hy, h⟩
    · exact Or.inr ⟨y, hy, h⟩
  · rintro (⟨y, hy, h⟩ | ⟨y, hy, h⟩)
    · exact ⟨y, by simp [hy], h⟩
    · exact ⟨y, by simp [hy], h⟩

/-- What is known just before the vertex is looked at: the pending sample, if any, is `g`. -/
theorem infoNext_ok {order : List Nat → List Nat} (ho : ∀ l, (order l).Perm l) {p ss : Nat}
    (hss : 0 < ss) {c : Nat → Int} {vtx : Nat → Vertex} {H : Hypergraph} (w : WF H)
    (hc : ∀ n ∈ H.nets, n.cost = c n.id) {pre : List (Nat × Nat)}
    (hp : ∀ y ∈ pre, y.1 / ss < p) {st : InfoState} (I : InfoInv p ss c vtx H pre st) (g : Nat) :
    ∃ st', infoNext order p ss H st g = .ok st' ∧ st'.matched = st.matched ∧ st'.nets.Nodup ∧
      (∀ x ∈ st'.out, InfoOk p ss c H (pre.map (·.1)) x) ∧ (∀ e ∈ st'.nets, IsNet H e) ∧
      (∀ t j, j < ss → toldWeight st'.out t j + (if g = t * ss + j then st'.weight else 0) =
        accWeight vtx pre (t * ss + j)) ∧
      (∀ t j e, j < ss → (toldNet st'.out t j e ∨ (g = t * ss + j ∧ e ∈ st'.nets) ↔
        accNet vtx pre (t * ss + j) e)) := by
  unfold infoNext
  rcases hq : st.prev with _ | q
  · obtain ⟨h1, h2⟩ := I.start hq
    refine ⟨st, rfl, rfl, I.nodup, I.msgs, I.isnet, ?_, ?_⟩
    · intro t j hj
      rw [← I.weight t j hj, hq, h1]
      simp
    · intro t j e hj
      rw [← I.nets t j e hj, hq, h2]
      simp
  · simp only
    by_cases hg : g = q
    · rw [if_neg (by simpa using hg)]
      refine ⟨st, rfl, rfl, I.nodup, I.msgs, I.isnet, ?_, ?_⟩
      · intro t j hj
        rw [← I.weight t j hj, hq, hg]
        simp
      · intro t j e hj
        rw [← I.nets t j e hj, hq, hg]
        simp
    · rw [if_pos hg]
      obtain ⟨out, e1, h1, h2, h3⟩ := infoFlush_ok ho hss w hc hp I hq
      rw [e1, ok_bind]
      refine ⟨_, rfl, rfl, by simp, h1, by simp, ?_, ?_⟩
      · intro t j hj
        simp [h2 t j hj]
      · intro t j e hj
        simp [h3 t j e hj]

theorem infoStep_ok {order : List Nat → List Nat} (ho : ∀ l, (order l).Perm l) {p ss : Nat}
    (hss : 0 < ss) {c : Nat → Int} {vtx : Nat → Vertex} {H : Hypergraph} (w : WF H)
    (hc : ∀ n ∈ H.nets, n.cost = c n.id) {pre : List (Nat × Nat)}
    (hp : ∀ y ∈ pre, y.1 / ss < p) {st : InfoState} (I : InfoInv p ss c vtx H pre st)
    {m : Nat × Nat} (hm : vtx m.2 ∈ H.vertices) (hid : (vtx m.2).id = m.2) :
    ∃ st', infoStep order p ss H st m = .ok st' ∧ InfoInv p ss c vtx H (pre ++ [m]) st' := by
  unfold infoStep
  obtain ⟨s1, e1, f1, f2, f3, f4, f5, f6⟩ := infoNext_ok ho hss w hc hp I m.1
  obtain ⟨i, hi⟩ := List.mem_iff_getElem?.1 hm
  have hil : i < H.vertices.length := (List.getElem?_eq_some_iff.1 hi).1
  rw [e1, ok_bind]
  have hloc : H.localId m.2 = .ok i := by
    have := w.localId_of_get hi
    rwa [hid] at this
  have hml : i < s1.matched.length := by rw [f1, I.flags]; simpa using hil
  rw [hloc, ok_bind, vset_ok hml, ok_bind, vertexAt_ok hi, ok_bind]
  obtain ⟨g1, g2⟩ := foldl_insertNat (vtx m.2).nets s1.nets f2
  refine ⟨_, rfl, ?_, by simp, ?_, g1, ?_, ?_, ?_, ?_⟩
  · intro x hx
    exact (f3 x hx).mono (by intro g hg; simp only [List.map_append, List.mem_append]; exact Or.inl hg)
  · intro q hq
    simp only [Option.some.injEq] at hq
    subst hq
    simp
  · intro e he
    rcases (g2 e).1 he with h | h
    · exact f4 e h
    · obtain ⟨n, hn, he', -⟩ := w.inc_net _ hm e h
      exact List.mem_map.2 ⟨n, hn, he'⟩
  · intro t j hj
    rw [accWeight_append, ← f5 t j hj]
    simp only [Option.some.injEq]
    unfold accWeight
    by_cases h : m.1 = t * ss + j
    · simp [h]; ring
    · simp [h]
  · intro t j e hj
    rw [accNet_append, ← f6 t j e hj]
    simp only [Option.some.injEq]
    unfold accNet
    rw [g2]
    simp only [List.mem_singleton, exists_eq_left]
    tauto
  · apply List.ext_getElem
    · simp [f1, I.flags]
    · intro j h1 h2
      simp only [List.length_map] at h2
      have hj : j < s1.matched.length := by simpa using h1
      rw [List.getElem_set]
      have hfl : s1.matched[j] = decide (H.vertices[j].id ∈ pre.map (·.2)) := by
        simp [f1, I.flags]
      have hvi : H.vertices[i] = vtx m.2 := (List.getElem?_eq_some_iff.1 hi).2
      split
      · rename_i hij
        subst hij
        simp [hvi, hid]
      · rename_i hij
        rw [hfl]
        simp only [List.getElem_map, List.map_append, List.mem_append, List.map_cons, List.map_nil,
          List.mem_singleton]
        have : H.vertices[j].id ≠ m.2 := by
          intro h
          apply hij
          have h3 : (H.vertices.map (·.id))[i]'(by simpa using hil) =
              (H.vertices.map (·.id))[j]'(by simpa using h2) := by
            simp [hvi, hid, h]
          exact (w.vids.getElem_inj_iff).1 h3
        simp [this]

/-- The messages of one processor report, per sample, the weights and nets of the local vertices
matched to it. -/
structure Told (p ss : Nat) (c : Nat → Int) (vtx : Nat → Vertex) (H : Hypergraph)
    (acc : List (Nat × Nat)) (out : List (Nat × InfoMsg)) : Prop where
  msgs : ∀ x ∈ out, InfoOk p ss c H (acc.map (·.1)) x
  weight : ∀ t j, j < ss → toldWeight out t j = accWeight vtx acc (t * ss + j)
  nets : ∀ t j e, j < ss → (toldNet out t j e ↔ accNet vtx acc (t * ss + j) e)

theorem infoSends_ok {order : List Nat → List Nat} (ho : ∀ l, (order l).Perm l) {p ss : Nat}
    {c : Nat → Int} {vtx : Nat → Vertex} {H : Hypergraph} (w : WF H)
    (hc : ∀ n ∈ H.nets, n.cost = c n.id) {acc : List (Nat × Nat)} (hss : acc ≠ [] → 0 < ss)
    (hp : ∀ y ∈ acc, y.1 / ss < p)
    (hv : ∀ y ∈ acc, vtx y.2 ∈ H.vertices ∧ (vtx y.2).id = y.2) :
    ∃ out, infoSends order p ss H acc =
        .ok (H.vertices.map (fun v => decide (v.id ∈ acc.map (·.2))), out) ∧
      Told p ss c vtx H acc out := by
  by_cases hne : acc = []
  · subst hne
    refine ⟨[], ?_, by simp, ?_, ?_⟩
    · unfold infoSends
      simp [infoLast]
    · intro t j _
      simp [toldWeight, accWeight]
    · intro t j e _
      simp [toldNet, accNet]
  have hss := hss hne
  have hperm : (acc.mergeSort pairLe).Perm acc := List.mergeSort_perm _ _
  generalize hs : acc.mergeSort pairLe = srt at hperm
  obtain ⟨st, e1, I⟩ := foldlM_inv (f := infoStep order p ss H)
    (fun pre _ st => InfoInv p ss c vtx H pre st) srt
    { prev := none, weight := 0, nets := [], out := [],
      matched := List.replicate H.vertices.length false } (by
      refine ⟨by simp, by simp, by simp, by simp, by simp, ?_, ?_, ?_⟩
      · intro t j _
        simp [toldWeight, accWeight]
      · intro t j e _
        simp [toldNet, accNet]
      · apply List.ext_getElem <;> simp) (by
      intro pre a post st I hl
      have ha : a ∈ acc := hperm.subset (by rw [hl]; simp)
      exact infoStep_ok ho hss w hc
        (fun y hy => hp y (hperm.subset (by rw [hl]; simp [hy]))) I (hv a ha).1 (hv a ha).2)
  have hfl : st.matched = H.vertices.map (fun v => decide (v.id ∈ acc.map (·.2))) := by
    rw [I.flags]
    apply List.map_congr_left
    intro v _
    rw [decide_eq_decide]
    exact (hperm.map (·.2)).mem_iff
  have hout : ∃ out, infoLast order p ss H st = .ok out ∧ Told p ss c vtx H srt out := by
    unfold infoLast
    rcases hq : st.prev with _ | q
    · have h := I.start hq
      refine ⟨st.out, rfl, I.msgs, ?_, ?_⟩
      · intro t j hj
        rw [← I.weight t j hj, hq]
        simp
      · intro t j e hj
        rw [← I.nets t j e hj, hq]
        simp
    · obtain ⟨out, e2, h1, h2, h3⟩ := infoFlush_ok ho hss w hc
        (fun y hy => hp y (hperm.subset hy)) I hq
      exact ⟨out, e2, h1, h2, h3⟩
  obtain ⟨out, e2, T⟩ := hout
  refine ⟨out, ?_, ?_, ?_, ?_⟩
  · unfold infoSends
    simp only [hs, e1, ok_bind, e2, hfl]
    rfl
  · intro x hx
    exact (T.msgs x hx).mono (fun g hg => (hperm.map _).subset hg)
  · intro t j hj
    rw [T.weight t j hj]
    unfold accWeight
    exact ((hperm.filter _).map _).sum_eq
  · intro t j e hj
    rw [T.nets t j e hj]
    unfold accNet
    constructor
    · rintro ⟨y, hy, h⟩; exact ⟨y, hperm.subset hy, h⟩
    · rintro ⟨y, hy, h⟩; exact ⟨y, hperm.symm.subset hy, h⟩

end PMondriaan
