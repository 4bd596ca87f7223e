import Verif.Proofs.Buckets

/-
The gain structure: `add_gain`, the per-net update, `move`.
-/

namespace PMondriaan

open Spec

/-- The pairs that the buckets of part `p` should hold. -/
def InBucket (H : Hypergraph) (P : Nat → Int) (G : Nat → Option Int) (p : Int) (u : Nat) (g : Int) :
    Prop := IsVertex H u ∧ P u = p ∧ G u = some g

/-- `x` has the largest gain, `g`, in the bucket structure of part `p`. -/
def TopOf (H : Hypergraph) (P : Nat → Int) (G : Nat → Option Int) (p : Int) (x : Vertex) (g : Int) :
    Prop := x ∈ H.vertices ∧ InBucket H P G p x.id g ∧ ∀ u' g', InBucket H P G p u' g' → g' ≤ g

/-- The state of the gain structure on the functional view. -/
structure GInv (H : Hypergraph) (M : Nat) (P : Nat → Int) (L : Nat → List Nat) (F : Nat → Cnt)
    (G : Nat → Option Int) (s : GainStructure) : Prop where
  hH : s.H = conc H P L
  hC : s.C = cOf H F
  hg : s.gains = gOf H G
  i0 : BInv M s.b0 (InBucket H P G 0)
  i1 : BInv M s.b1 (InBucket H P G 1)
  m0 : BMax M s.b0 (InBucket H P G 0)
  m1 : BMax M s.b1 (InBucket H P G 1)

theorem GInv.congrG {H : Hypergraph} {M : Nat} {P : Nat → Int} {L : Nat → List Nat}
    {F : Nat → Cnt} {G G' : Nat → Option Int} {s : GainStructure} (h : GInv H M P L F G s)
    (hG : ∀ u, IsVertex H u → G u = G' u) : GInv H M P L F G' s := by
  have hR : ∀ p u g, InBucket H P G p u g ↔ InBucket H P G' p u g := by
    intro p u g
    unfold InBucket
    constructor
    · rintro ⟨h1, h2, h3⟩; exact ⟨h1, h2, by rw [← hG u h1]; exact h3⟩
    · rintro ⟨h1, h2, h3⟩; exact ⟨h1, h2, by rw [hG u h1]; exact h3⟩
  refine ⟨h.hH, h.hC, ?_, h.i0.congr (hR 0), h.i1.congr (hR 1), h.m0.congr (hR 0),
    h.m1.congr (hR 1)⟩
  rw [h.hg]
  unfold gOf
  apply List.map_congr_left
  intro v hv
  exact hG v.id (List.mem_map_of_mem hv)

/-- The bucket of part `p`, as a total function. -/
def GainStructure.bk (s : GainStructure) (p : Int) : Buckets := if p = 0 then s.b0 else s.b1

theorem GInv.bucket {H : Hypergraph} {M : Nat} {P : Nat → Int} {L : Nat → List Nat}
    {F : Nat → Cnt} {G : Nat → Option Int} {s : GainStructure} (h : GInv H M P L F G s)
    {p : Int} (hp : p = 0 ∨ p = 1) :
    s.bucket p = .ok (s.bk p) ∧ BInv M (s.bk p) (InBucket H P G p) ∧
      BMax M (s.bk p) (InBucket H P G p) := by
  rcases hp with rfl | rfl
  · exact ⟨rfl, h.i0, h.m0⟩
  · exact ⟨rfl, h.i1, h.m1⟩

/-- Replacing the bucket of part `p`. -/
theorem GInv.setBucket {H : Hypergraph} {M : Nat} {P : Nat → Int} {L : Nat → List Nat}
    {F : Nat → Cnt} {G G' : Nat → Option Int} {s : GainStructure} (h : GInv H M P L F G s)
    {p : Int} (hp : p = 0 ∨ p = 1) {b : Buckets}
    (hb : BInv M b (InBucket H P G' p)) (hm : BMax M b (InBucket H P G' p))
    (hoth : ∀ u g, InBucket H P G' (other p) u g ↔ InBucket H P G (other p) u g) :
    ∃ s', s.setBucket p b = .ok s' ∧ s'.gains = s.gains ∧
      GInv H M P L F G' { s' with gains := gOf H G' } := by
  rcases hp with rfl | rfl
  · refine ⟨{ s with b0 := b }, rfl, rfl, ⟨h.hH, h.hC, rfl, hb, ?_, hm, ?_⟩⟩
    · exact h.i1.congr (fun u g => (hoth u g).symm)
    · exact h.m1.congr (fun u g => (hoth u g).symm)
  · refine ⟨{ s with b1 := b }, rfl, rfl, ⟨h.hH, h.hC, rfl, ?_, hb, ?_, hm⟩⟩
    · exact h.i0.congr (fun u g => (hoth u g).symm)
    · exact h.m0.congr (fun u g => (hoth u g).symm)

/-- Adding `d` to the stored gain of the ids in `S` (locked ones stay locked). -/
def addSet (G : Nat → Option Int) (S : List Nat) (d : Int) : Nat → Option Int :=
  fun u => if u ∈ S then (G u).map (· + d) else G u

theorem addGain_ok {H : Hypergraph} (w : WF H) {M : Nat} {P : Nat → Int} {L : Nat → List Nat}
    {F : Nat → Cnt} {G : Nat → Option Int} {s : GainStructure} (h : GInv H M P L F G s)
    (h01 : Parts01 H P) {x : Vertex} (hx : x ∈ H.vertices) (d : Int)
    (hb : ∀ g, G x.id = some g → -(M : Int) ≤ g + d ∧ g + d ≤ M) :
    ∃ s', s.addGain x.id d = .ok s' ∧ GInv H M P L F (addSet G [x.id] d) s' := by
  obtain ⟨i, hi, hloc⟩ := w.localId_mem hx
  have hisv : IsVertex H x.id := List.mem_map_of_mem hx
  unfold GainStructure.addGain
  rw [h.hH, conc_localId, hloc]
  simp only [ok_bind]
  rw [h.hg, vget_ok (gOf_get hi)]
  simp only [ok_bind]
  cases hGx : G x.id with
  | none =>
    refine ⟨s, rfl, h.congrG ?_⟩
    intro u _
    unfold addSet
    by_cases hu : u = x.id
    · subst hu; simp [hGx]
    · simp [hu]
  | some g =>
    simp only
    rw [conc_vertexAt P L hi]
    simp only [ok_bind]
    obtain ⟨hbk, hbi, hbm⟩ := h.bucket (h01 x hx)
    rw [hbk]
    simp only [ok_bind]
    have hR : InBucket H P G (P x.id) x.id g := ⟨hisv, rfl, hGx⟩
    obtain ⟨f, b1, hb1, -, hb1i, hb1m⟩ := remove_ok hbi x.id (hbi.rng _ _ hR)
    rw [hb1]
    simp only [ok_bind]
    obtain ⟨b2, hb2, hb2i, hb2m, -⟩ := insert_ok hb1i x.id (hb g hGx)
    rw [hb2]
    simp only [ok_bind]
    have hR' : ∀ u g', ((InBucket H P G (P x.id) u g' ∧ ¬ (u = x.id ∧ g' = g)) ∨
        (u = x.id ∧ g' = g + d)) ↔ InBucket H P (addSet G [x.id] d) (P x.id) u g' := by
      intro u g'
      unfold InBucket addSet
      by_cases hu : u = x.id
      · subst hu
        simp only [hGx, List.mem_singleton, if_true, Option.map_some, Option.some.injEq, true_and,
          hisv]
        constructor
        · rintro (⟨h1, h2⟩ | h3)
          · exact absurd h1.symm h2
          · exact h3.symm
        · intro h3; exact Or.inr h3.symm
      · simp [hu]
    obtain ⟨s', hs', hgs, hinv⟩ := h.setBucket (G' := addSet G [x.id] d) (h01 x hx)
      (hb2i.congr hR') ((hb2m (hb1m hbm)).congr hR') (by
        intro u g'
        unfold InBucket addSet
        by_cases hu : u = x.id
        · subst hu
          have := other_ne (h01 x hx)
          simp [Ne.symm this]
        · simp [hu])
    rw [hs']
    simp only [ok_bind]
    have hlen : i < s'.gains.length := by
      rw [hgs, h.hg]
      rw [List.getElem?_eq_some_iff] at hi
      simpa [gOf] using hi.1
    rw [vset_ok hlen]
    refine ⟨_, rfl, ?_⟩
    have hgset : s'.gains.set i (some (g + d)) = gOf H (addSet G [x.id] d) := by
      rw [hgs, h.hg, gOf_set w hi]
      unfold gOf
      apply List.map_congr_left
      intro v hv
      unfold upd addSet
      by_cases hu : v.id = x.id
      · simp [hu, hGx]
      · simp [hu]
    rw [hgset]
    exact hinv

theorem addGainList_ok {H : Hypergraph} (w : WF H) {M : Nat} {P : Nat → Int} {L : Nat → List Nat}
    {F : Nat → Cnt} {G : Nat → Option Int} {s : GainStructure} (h : GInv H M P L F G s)
    (h01 : Parts01 H P) (l : List Nat) (hnd : l.Nodup) (hl : ∀ u ∈ l, IsVertex H u) (d : Int)
    (hb : ∀ u ∈ l, ∀ g, G u = some g → -(M : Int) ≤ g + d ∧ g + d ≤ M) :
    ∃ s', l.foldlM (fun s u => s.addGain u d) s = .ok s' ∧ GInv H M P L F (addSet G l d) s' := by
  obtain ⟨s', hs', hI⟩ := foldlM_inv (f := fun (s : GainStructure) u => s.addGain u d)
    (fun pre _ s => GInv H M P L F (addSet G pre d) s) l s (by
      refine h.congrG ?_
      intro u _; simp [addSet]) (by
      intro pre a post s hI hlist
      have ha : a ∈ l := by rw [hlist]; simp
      have hnot : a ∉ pre := by
        rw [hlist] at hnd
        intro hm
        exact (List.nodup_append.1 hnd).2.2 _ hm _ (by simp) rfl
      obtain ⟨x, hx, rfl⟩ := List.mem_map.1 (hl a ha)
      obtain ⟨s', hs', hI'⟩ := addGain_ok w hI h01 hx d (by
        intro g hg
        apply hb x.id ha
        simpa [addSet, hnot] using hg)
      refine ⟨s', hs', hI'.congrG ?_⟩
      intro u _
      unfold addSet
      by_cases hu : u = x.id
      · subst hu; simp [hnot]
      · simp [hu])
  exact ⟨s', hs', hI⟩

/-- Contribution of one net with counts `c` and cost `k` to the gain of a vertex in part `p`. -/
def contrib (c : Cnt) (k : Int) (p : Int) : Int :=
  (if c.at p = 1 then k else 0) - (if c.at (other p) = 0 then k else 0)

theorem addGainAll_ok {H : Hypergraph} (w : WF H) {M : Nat} {P : Nat → Int} {L : Nat → List Nat}
    {F : Nat → Cnt} {G : Nat → Option Int} {s : GainStructure} (h : GInv H M P L F G s)
    (h01 : Parts01 H P) (hL : PinsPerm H L) {j : Nat} {n : Net} (hj : H.nets[j]? = some n) (d : Int)
    (hb : ∀ u ∈ L n.id, ∀ g, G u = some g → -(M : Int) ≤ g + d ∧ g + d ≤ M) :
    ∃ s', s.addGainAll n.id d = .ok s' ∧ GInv H M P L F (addSet G (L n.id) d) s' := by
  unfold GainStructure.addGainAll
  have hn := List.mem_of_getElem? hj
  rw [h.hH, conc_netOf w P L hj]
  simp only [ok_bind]
  apply addGainList_ok w h h01 (L n.id) ((hL n hn).nodup_iff.2 (w.npins n hn))
  · intro u hu
    obtain ⟨v, hv, rfl, -⟩ := w.inc_vtx n hn u ((hL n hn).mem_iff.1 hu)
    exact List.mem_map_of_mem hv
  · exact hb

/-- The pins of a net of the moved vertex `v`, split around `v`; `side p` are the others in `p`. -/
def side (A B : List Nat) (p : Int) : List Nat := if p = 0 then A else B

theorem endVertex_ok {n : Net} {A B : List Nat} {v : Nat} (hl : n.vertices = A ++ v :: B)
    {p : Int} (hp : p = 0 ∨ p = 1) (h1 : (side A B p).length = 1) :
    ∃ u, side A B p = [u] ∧ GainStructure.endVertex n p = .ok u := by
  obtain ⟨u, hu⟩ := List.length_eq_one_iff.1 h1
  refine ⟨u, hu, ?_⟩
  unfold GainStructure.endVertex
  rcases hp with rfl | rfl
  · simp only [side, if_true] at hu
    subst hu
    rw [if_neg (by decide), hl]
    rfl
  · simp only [side] at hu
    rw [if_neg (by decide)] at hu
    subst hu
    rw [if_pos rfl, hl]
    apply vgetI_ok (k := A.length + 1)
    · simp; omega
    · simp

theorem addGainEnd_ok {H : Hypergraph} (w : WF H) {M : Nat} {P : Nat → Int} {L : Nat → List Nat}
    {F : Nat → Cnt} {G : Nat → Option Int} {s : GainStructure} (h : GInv H M P L F G s)
    (h01 : Parts01 H P) (hL : PinsPerm H L) {j : Nat} {n : Net} (hj : H.nets[j]? = some n)
    {A B : List Nat} {v : Nat} (hAB : L n.id = A ++ v :: B) {p : Int} (hp : p = 0 ∨ p = 1)
    (h1 : (side A B p).length = 1) (d : Int)
    (hb : ∀ u ∈ side A B p, ∀ g, G u = some g → -(M : Int) ≤ g + d ∧ g + d ≤ M) :
    ∃ s', s.addGainEnd n.id p d = .ok s' ∧ GInv H M P L F (addSet G (side A B p) d) s' := by
  unfold GainStructure.addGainEnd
  have hn := List.mem_of_getElem? hj
  rw [h.hH, conc_netOf w P L hj]
  simp only [ok_bind]
  obtain ⟨u, hu, he⟩ := endVertex_ok (n := { n with vertices := L n.id }) hAB hp h1
  rw [he]
  simp only [ok_bind]
  have humem : u ∈ L n.id := by
    rw [hAB]
    have : u ∈ side A B p := by rw [hu]; simp
    unfold side at this
    split at this <;> simp [this]
  obtain ⟨x, hx, rfl, -⟩ := w.inc_vtx n hn u ((hL n hn).mem_iff.1 humem)
  rw [hu]
  exact addGain_ok w h h01 hx d (hb x.id (by rw [hu]; simp))

/-- A conditional step. -/
theorem ite_step {c : Prop} [Decidable c] {s : GainStructure} {f : Res GainStructure}
    {Q : (GainStructure → Prop)} (h1 : c → ∃ s', f = .ok s' ∧ Q s') (h2 : ¬ c → Q s) :
    ∃ s', runIf c f s = .ok s' ∧ Q s' := by
  unfold runIf
  by_cases hc : c
  · rw [if_pos hc]; exact h1 hc
  · rw [if_neg hc]; exact ⟨s, rfl, h2 hc⟩

theorem side_mem {A B : List Nat} {Q : Nat → Int} (hA : ∀ u ∈ A, Q u = 0) (hB : ∀ u ∈ B, Q u = 1)
    {p : Int} (hp : p = 0 ∨ p = 1) (u : Nat) (hu : u ∈ A ∨ u ∈ B) : u ∈ side A B p ↔ Q u = p := by
  unfold side
  rcases hp with rfl | rfl
  · simp only [if_true]
    constructor
    · exact hA u
    · intro h
      rcases hu with h' | h'
      · exact h'
      · have := hB u h'; omega
  · rw [if_neg (by decide)]
    constructor
    · exact hB u
    · intro h
      rcases hu with h' | h'
      · have := hA u h'; omega
      · exact h'

theorem stepCnt_from {p : Int} (hp : p = 0 ∨ p = 1) (c : Cnt) : (stepCnt p c).at p = c.at p - 1 := by
  rcases hp with rfl | rfl <;> simp [stepCnt, Cnt.at, Cnt.bump] <;> omega

theorem stepCnt_to {p : Int} (hp : p = 0 ∨ p = 1) (c : Cnt) :
    (stepCnt p c).at (other p) = c.at (other p) + 1 := by
  rcases hp with rfl | rfl <;> simp [stepCnt, Cnt.at, Cnt.bump]

theorem GInv.setC {H : Hypergraph} {M : Nat} {P : Nat → Int} {L : Nat → List Nat}
    {F : Nat → Cnt} {G : Nat → Option Int} {s : GainStructure} (h : GInv H M P L F G s)
    (F' : Nat → Cnt) : GInv H M P L F' G { s with C := cOf H F' } :=
  ⟨h.hH, rfl, h.hg, h.i0, h.i1, h.m0, h.m1⟩

/-- One net of the moved vertex `v`: the stored gains of the other pins change exactly by the
difference of the contributions. -/
theorem moveNetLoc_ok {H : Hypergraph} (w : WF H) {M : Nat} {Q : Nat → Int} {L : Nat → List Nat}
    {F Fl : Nat → Cnt} {G : Nat → Option Int} {s : GainStructure} (h : GInv H M Q L F G s)
    (h01 : Parts01 H Q) (hL : PinsPerm H L) {j : Nat} {n : Net} (hj : H.nets[j]? = some n)
    {A B : List Nat} {v : Nat} (hAB : L n.id = A ++ v :: B)
    (hA : ∀ u ∈ A, Q u = 0) (hB : ∀ u ∈ B, Q u = 1) (hGv : G v = none)
    {p : Int} (hp : p = 0 ∨ p = 1)
    (hlf : (Fl n.id).at p = ((side A B p).length : Int) + 1)
    (hlt : (Fl n.id).at (other p) = ((side A B (other p)).length : Int))
    (hf : (Fl n.id).at p ≤ (F n.id).at p) (ht : (Fl n.id).at (other p) ≤ (F n.id).at (other p))
    (hcost : 0 ≤ n.cost)
    (hbound : ∀ u ∈ A ++ B, ∀ g, G u = some g →
      -((M : Int) - n.cost) ≤ g - contrib (F n.id) n.cost (Q u) ∧
      g - contrib (F n.id) n.cost (Q u) ≤ (M : Int) - n.cost) :
    ∃ s', GainStructure.moveNetLoc p (other p) (s, cOf H Fl) n.id =
        .ok (s', cOf H (upd Fl n.id (stepCnt p (Fl n.id)))) ∧
      GInv H M Q L (upd F n.id (stepCnt p (F n.id)))
        (fun u => if u ∈ L n.id then
          (G u).map (· + (contrib (stepCnt p (F n.id)) n.cost (Q u) - contrib (F n.id) n.cost (Q u)))
          else G u) s' := by
  have hn := List.mem_of_getElem? hj
  have hop := other_01 hp
  have hne := other_ne hp
  have hLnd : (A ++ v :: B).Nodup := by
    rw [← hAB]; exact (hL n hn).nodup_iff.2 (w.npins n hn)
  have hvA : v ∉ A := by
    intro hm; exact (List.nodup_append.1 hLnd).2.2 _ hm _ (by simp) rfl
  have hvB : v ∉ B := (List.nodup_cons.1 (List.nodup_append.1 hLnd).2.1).1
  have hloc : H.localIdNet n.id = .ok j := w.localIdNet_of_get hj
  -- the pins other than v
  have hpin : ∀ u, u ∈ L n.id → u = v ∨ (u ∈ A ∨ u ∈ B) := by
    intro u hu
    rw [hAB] at hu
    simp at hu
    rcases hu with h' | h' | h'
    · exact Or.inr (Or.inl h')
    · exact Or.inl h'
    · exact Or.inr (Or.inr h')
  have hpin' : ∀ u, (u ∈ A ∨ u ∈ B) → u ∈ L n.id := by
    intro u hu
    rw [hAB]; simp
    rcases hu with h' | h'
    · exact Or.inl h'
    · exact Or.inr (Or.inr h')
  have hside : ∀ q, (q = 0 ∨ q = 1) → ∀ u, u ∈ side A B q → (u ∈ A ∨ u ∈ B) := by
    intro q _ u hu
    unfold side at hu
    split at hu
    · exact Or.inl hu
    · exact Or.inr hu
  have hQu : ∀ u, (u ∈ A ∨ u ∈ B) → Q u = p ∨ Q u = other p := by
    intro u hu
    have : Q u = 0 ∨ Q u = 1 := by
      rcases hu with h' | h'
      · exact Or.inl (hA u h')
      · exact Or.inr (hB u h')
    rcases this with h1 | h1 <;> rcases hp with h2 | h2 <;> simp [h1, h2]
  set f := (F n.id).at p with hfdef
  set t := (F n.id).at (other p) with htdef
  set c := n.cost with hcdef
  -- sizes
  have hfrom : ∀ u, (u ∈ A ∨ u ∈ B) → Q u = p → 2 ≤ f := by
    intro u hu hq
    have : 0 < (side A B p).length := List.length_pos_of_mem ((side_mem hA hB hp u hu).2 hq)
    omega
  have hto : ∀ u, (u ∈ A ∨ u ∈ B) → Q u = other p → 1 ≤ t := by
    intro u hu hq
    have : 0 < (side A B (other p)).length := List.length_pos_of_mem ((side_mem hA hB hop u hu).2 hq)
    omega
  have hf1 : 1 ≤ f := by omega
  have ht0 : 0 ≤ t := by omega
  -- contributions before
  have hk_from : ∀ u, (u ∈ A ∨ u ∈ B) → Q u = p →
      contrib (F n.id) c (Q u) = - (if t = 0 then c else 0) := by
    intro u hu hq
    have h2 := hfrom u hu hq
    unfold contrib
    rw [hq, ← hfdef, ← htdef, if_neg (by omega)]
    omega
  have hk_to : ∀ u, (u ∈ A ∨ u ∈ B) → Q u = other p →
      contrib (F n.id) c (Q u) = (if t = 1 then c else 0) := by
    intro u hu hq
    unfold contrib
    rw [hq, other_other hp, ← hfdef, ← htdef, if_neg (show ¬ f = 0 by omega)]
    omega
  -- contributions after
  have hk'_from : ∀ u, (u ∈ A ∨ u ∈ B) → Q u = p →
      contrib (stepCnt p (F n.id)) c (Q u) = (if f = 2 then c else 0) := by
    intro u hu hq
    unfold contrib
    rw [hq, stepCnt_from hp, stepCnt_to hp, ← hfdef, ← htdef, if_neg (show ¬ t + 1 = 0 by omega)]
    split_ifs <;> omega
  have hk'_to : ∀ u, (u ∈ A ∨ u ∈ B) → Q u = other p →
      contrib (stepCnt p (F n.id)) c (Q u) = - (if f = 1 then c else 0) := by
    intro u hu hq
    have := hto u hu hq
    unfold contrib
    rw [hq, other_other hp, stepCnt_from hp, stepCnt_to hp, ← hfdef, ← htdef,
      if_neg (show ¬ t + 1 = 1 by omega)]
    split_ifs <;> omega
  unfold GainStructure.moveNetLoc
  simp only
  rw [h.hH, conc_localIdNet, hloc]
  simp only [ok_bind]
  rw [conc_netOf w Q L hj]
  simp only [ok_bind]
  rw [h.hC, cOf_cGet hj hop]
  simp only [ok_bind]
  rw [← htdef]
  -- stage 1
  obtain ⟨s1, hs1, h1⟩ := ite_step (c := t = 0) (s := s) (f := s.addGainAll n.id c)
    (Q := GInv H M Q L F (fun u => if u ∈ L n.id then
      (G u).map (· + (if t = 0 then c else 0)) else G u)) (by
      intro ht0'
      obtain ⟨s', hs', hI⟩ := addGainAll_ok w h h01 hL hj c (by
        intro u hu g hg
        rcases hpin u hu with rfl | hu'
        · rw [hGv] at hg; cases hg
        · rcases hQu u hu' with hq | hq
          · have hb := hbound u (by simpa using hu') g hg
            rw [hk_from u hu' hq, if_pos ht0'] at hb
            omega
          · have := hto u hu' hq
            omega)
      refine ⟨s', hs', hI.congrG ?_⟩
      intro u _
      simp [addSet, ht0']) (by
      intro ht0'
      refine h.congrG ?_
      intro u _
      simp [ht0'])
  rw [hs1]
  simp only [ok_bind]
  rw [cOf_cGet hj hop, hlt]
  simp only [ok_bind]
  -- stage 2
  obtain ⟨s2, hs2, h2⟩ := ite_step (c := t = 1 ∧ ((side A B (other p)).length : Int) = 1) (s := s1)
    (f := s1.addGainEnd n.id (other p) (-1 * c))
    (Q := GInv H M Q L F (fun u => if u ∈ L n.id then
      (G u).map (· + ((if t = 0 then c else 0) - (if t = 1 ∧ Q u = other p then c else 0))) else G u))
    (by
      rintro ⟨ht1, hl1⟩
      obtain ⟨s', hs', hI⟩ := addGainEnd_ok w h1 h01 hL hj hAB hop (by exact_mod_cast hl1) (-1 * c) (by
        intro u hu g hg
        have hu' := hside _ hop u hu
        have hq := (side_mem hA hB hop u hu').1 hu
        simp only [hpin' u hu', if_true, show ¬ t = 0 by omega, if_false, add_zero,
          Option.map_id'] at hg
        have hb := hbound u (by simpa using hu') g hg
        rw [hk_to u hu' hq, if_pos ht1] at hb
        omega)
      refine ⟨s', hs', hI.congrG ?_⟩
      intro u _
      unfold addSet
      by_cases hu : u ∈ L n.id
      · rcases hpin u hu with rfl | hu'
        · simp [hGv]
        · have hiff := side_mem hA hB hop u hu'
          simp only [hu, if_true, hiff, ht1, true_and]
          by_cases hq : Q u = other p
          · simp only [hq, if_true, Option.map_map]
            congr 1
            funext g; simp
          · simp [hq]
      · have : u ∉ side A B (other p) := fun hm => hu (hpin' u (hside _ hop u hm))
        simp [hu, this]) (by
      intro hno
      refine h1.congrG ?_
      intro u _
      by_cases hu : u ∈ L n.id
      · rcases hpin u hu with rfl | hu'
        · simp [hGv]
        · have : ¬ (t = 1 ∧ Q u = other p) := by
            rintro ⟨ht1, hq⟩
            have hmem := (side_mem hA hB hop u hu').2 hq
            have hpos : 0 < (side A B (other p)).length := List.length_pos_of_mem hmem
            exact hno ⟨ht1, by omega⟩
          simp [hu, this]
      · simp [hu])
  rw [hs2]
  simp only [ok_bind]
  rw [h2.hC, cOf_cAdd w hj hop]
  simp only [ok_bind]
  rw [cOf_cAdd w hj hp]
  simp only [ok_bind]
  rw [cOf_cAdd w hj hop]
  simp only [ok_bind]
  rw [cOf_cAdd w hj hp]
  simp only [ok_bind]
  have hFF : ∀ F : Nat → Cnt, upd (upd F n.id ((F n.id).bump (other p) 1)) n.id
      ((upd F n.id ((F n.id).bump (other p) 1) n.id).bump p (-1)) =
      upd F n.id (stepCnt p (F n.id)) := by
    intro F
    funext e
    by_cases he : e = n.id
    · subst he; simp [stepCnt]
    · simp [upd_other _ _ he]
  rw [hFF, hFF]
  have h2' := h2.setC (upd F n.id (stepCnt p (F n.id)))
  rw [cOf_cGet hj hp]
  simp only [ok_bind, upd_same]
  rw [stepCnt_from hp, ← hfdef]
  -- stage 3
  obtain ⟨s3, hs3, h3⟩ := ite_step (c := f - 1 = 0)
    (s := { s2 with C := cOf H (upd F n.id (stepCnt p (F n.id))) })
    (f := GainStructure.addGainAll { s2 with C := cOf H (upd F n.id (stepCnt p (F n.id))) } n.id (-1 * c))
    (Q := GInv H M Q L (upd F n.id (stepCnt p (F n.id))) (fun u => if u ∈ L n.id then
      (G u).map (· + ((if t = 0 then c else 0) - (if t = 1 ∧ Q u = other p then c else 0)
        - (if f = 1 then c else 0))) else G u)) (by
      intro hf0
      obtain ⟨s', hs', hI⟩ := addGainAll_ok w h2' h01 hL hj (-1 * c) (by
        intro u hu g hg
        rcases hpin u hu with rfl | hu'
        · simp [hu, hGv] at hg
        · rcases hQu u hu' with hq | hq
          · have := hfrom u hu' hq
            omega
          · have ht1 := hto u hu' hq
            simp only [hu, if_true, Option.map_eq_some_iff] at hg
            obtain ⟨g0, hg0, hg1⟩ := hg
            have hb := hbound u (by simpa using hu') g0 hg0
            rw [hk_to u hu' hq] at hb
            rw [if_neg (show ¬ t = 0 by omega)] at hg1
            simp only [hq, and_true] at hg1
            split_ifs at hb hg1 <;> omega)
      refine ⟨s', hs', hI.congrG ?_⟩
      intro u _
      unfold addSet
      have : f = 1 := by omega
      by_cases hu : u ∈ L n.id
      · simp only [hu, if_true, Option.map_map, this]
        congr 1
        funext g; simp; omega
      · simp [hu]) (by
      intro hf0
      refine h2'.congrG ?_
      intro u _
      have : ¬ f = 1 := by omega
      simp [this])
  rw [hs3]
  simp only [ok_bind]
  rw [cOf_cGet hj hp]
  simp only [ok_bind, upd_same]
  rw [stepCnt_from hp, hlf]
  -- stage 4
  obtain ⟨s4, hs4, h4⟩ := ite_step (c := f - 1 = 1 ∧ ((side A B p).length : Int) + 1 - 1 = 1) (s := s3)
    (f := s3.addGainEnd n.id p c)
    (Q := GInv H M Q L (upd F n.id (stepCnt p (F n.id))) (fun u => if u ∈ L n.id then
          (G u).map (· + (contrib (stepCnt p (F n.id)) c (Q u) - contrib (F n.id) c (Q u)))
          else G u)) (by
      rintro ⟨hf2, hl1⟩
      obtain ⟨s', hs', hI⟩ := addGainEnd_ok w h3 h01 hL hj hAB hp (by omega) c (by
        intro u hu g hg
        have hu' := hside _ hp u hu
        have hq := (side_mem hA hB hp u hu').1 hu
        have hqo : ¬ Q u = other p := by rw [hq]; exact Ne.symm hne
        simp only [hpin' u hu', if_true, Option.map_eq_some_iff, hqo, and_false, if_false,
          show ¬ f = 1 by omega, sub_zero] at hg
        obtain ⟨g0, hg0, hg1⟩ := hg
        have hb := hbound u (by simpa using hu') g0 hg0
        rw [hk_from u hu' hq] at hb
        omega)
      refine ⟨s', hs', hI.congrG ?_⟩
      intro u _
      unfold addSet
      by_cases hu : u ∈ L n.id
      · rcases hpin u hu with rfl | hu'
        · simp [hGv]
        · have hiff := side_mem hA hB hp u hu'
          simp only [hu, if_true, hiff]
          rcases hQu u hu' with hq | hq
          · have hqo : ¬ Q u = other p := by rw [hq]; exact Ne.symm hne
            rw [hk_from u hu' hq, hk'_from u hu' hq]
            simp only [hq, if_true, Option.map_map]
            congr 1
            funext g
            simp only [Function.comp_def, Ne.symm hne, and_false, if_false,
              show f = 2 by omega, if_true]
            omega
          · have hqo : ¬ Q u = p := by rw [hq]; exact hne
            have ht1 := hto u hu' hq
            rw [hk_to u hu' hq, hk'_to u hu' hq]
            simp only [hne, hq, if_false, and_true, show ¬ f = 1 by omega, show ¬ t = 0 by omega]
            congr 1
            funext g; omega
      · have : u ∉ side A B p := fun hm => hu (hpin' u (hside _ hp u hm))
        simp [hu, this]) (by
      intro hno
      refine h3.congrG ?_
      intro u _
      by_cases hu : u ∈ L n.id
      · rcases hpin u hu with rfl | hu'
        · simp [hGv]
        · simp only [hu, if_true]
          rcases hQu u hu' with hq | hq
          · have hf2 : ¬ f = 2 := by
              intro hf2
              have hmem := (side_mem hA hB hp u hu').2 hq
              have hpos : 0 < (side A B p).length := List.length_pos_of_mem hmem
              exact hno ⟨by omega, by omega⟩
            have := hfrom u hu' hq
            rw [hk_from u hu' hq, hk'_from u hu' hq]
            simp only [hq, Ne.symm hne, and_false, if_false, show ¬ f = 1 by omega, hf2]
            congr 1
            funext g; omega
          · have ht1 := hto u hu' hq
            rw [hk_to u hu' hq, hk'_to u hu' hq]
            simp only [hq, and_true, show ¬ t = 0 by omega, if_false]
            congr 1
            funext g; omega
      · simp [hu])
  rw [hs4]
  exact ⟨s4, rfl, h4⟩

end PMondriaan
