import Verif.Proofs.MachineParRound

/-
The passes of the parallel refinement in 64-bit arithmetic.
-/

namespace PMondriaan

open Spec

/-! ### The gain structures -/

theorem create_H {H : Hypergraph} {C : List Cnt} {s : GainStructure} (h : GainStructure.create H C = .ok s) : s.H = H := by
  unfold GainStructure.create at h
  rw [bind_eq_ok] at h
  obtain ⟨size, -, h⟩ := h
  rw [bind_eq_ok] at h
  obtain ⟨⟨s1, m0, m1⟩, h1, h⟩ := h
  cases h
  show s1.H = H
  refine foldlM_okInv (fun st : GainStructure × Int × Int => st.1.H = H) ?_ (s := (_, _, _)) rfl h1
  rintro ⟨s, a, b⟩ ⟨v, i⟩ s' - hs h
  unfold GainStructure.initStep at h
  simp only [bind_eq_ok] at h
  obtain ⟨g, -, b, -, b', -, s1, h2, gs, -, h⟩ := h
  cases h
  show s1.H = H
  rw [(setBucket_keeps h2).1]
  exact hs

theorem netOf_frame {A B : Hypergraph} (h : Frame A B) {e : Nat} {n : Net} (hn : B.netOf e = .ok n) : n.cost = costAt A e := by
  unfold Hypergraph.netOf at hn
  rw [h.nm] at hn
  unfold costAt Hypergraph.netOf
  cases hm : A.nmap e with
  | none => rw [hm] at hn; cases hn
  | some j =>
    rw [hm] at hn
    dsimp only at hn ⊢
    have hc : (B.nets.map (·.cost))[j]? = (A.nets.map (·.cost))[j]? := by rw [h.costs]
    rw [List.getElem?_map, List.getElem?_map] at hc
    cases hb : B.nets[j]? with
    | none => rw [hb] at hn; cases hn
    | some m =>
      rw [hb] at hn hc
      cases hn
      cases ha : A.nets[j]? with
      | none => rw [ha] at hc; cases hc
      | some m' =>
        rw [ha] at hc
        exact Option.some.inj hc

/-- The costs of the nets of each vertex fit. -/
def VertexFit (H : Hypergraph) : Prop := ∀ v ∈ H.vertices, (v.nets.map (costAt H)).sum ≤ 2 ^ 60

theorem vertexFit {H : Hypergraph} (wf : WF H) (F : FitP H) : VertexFit H := by
  intro x hx
  rw [((nets_perm wf hx).map (costAt H)).sum_eq, List.map_map]
  have h1 : ∀ l : List Net, (∀ n ∈ l, n ∈ H.nets) →
      ((l.filter (fun n => n.id ∈ x.nets)).map (costAt H ∘ (·.id))).sum ≤ (l.map (·.cost)).sum := by
    intro l
    induction l with
    | nil => intro _; simp
    | cons n l ih =>
      intro h
      have h0 := h n (List.mem_cons_self ..)
      have h1 := ih (fun n hn => h n (List.mem_cons_of_mem _ hn))
      have h2 := F.hc n h0
      rw [List.filter_cons, List.map_cons, List.sum_cons]
      split
      · rw [List.map_cons, List.sum_cons]
        have h3 : (costAt H ∘ (·.id)) n = n.cost := costAt_mem wf h0
        omega
      · omega
  have h2 := h1 H.nets (fun _ h => h)
  have h3 := F.costs
  omega

theorem frame_bound {A B : Hypergraph} (h : Frame A B) (F : FitP A) (hv : VertexFit A) : CostBound B (costAt A) := by
  refine ⟨fun e n hn => netOf_frame h hn, costAt_nonneg F.hc, ?_⟩
  intro v hv'
  have h1 : (v.id, v.nets, v.weight) ∈ A.vertices.map (fun v => (v.id, v.nets, v.weight)) := by
    rw [← h.vs]
    exact List.mem_map_of_mem hv'
  obtain ⟨x, hx, e⟩ := List.mem_map.1 h1
  have e2 : x.nets = v.nets := congrArg (fun y : Nat × List Nat × Int => y.2.1) e
  rw [← e2]
  exact hv x hx

theorem create_open {A H : Hypergraph} (hf : Frame A H) (F : FitP A) (hv : VertexFit A) {C : List Cnt} {s : GainStructure}
    (h : GainStructure.create H C = .ok s) :
    GainStructure.create64 H C = .ok s ∧ ∃ o, OpenInv A o s ∧ o ≤ (A.vertices.map (·.weight)).sum := by
  obtain ⟨h1, h2⟩ := create_sim (frame_bound hf F hv) h
  exact ⟨h1, _, ⟨h2, by rw [create_H h]; exact hf, rfl⟩, (openW_range F.wsNonneg _).2⟩

/-! ### Before the first round and after the last one -/

/-- All processors between two passes. -/
structure PassFit (p : Nat) (h : Nat → Hypergraph) (D : Int) (r : Nat → ParResult) : Prop where
  frame : ∀ t, t < p → Frame (h t) (r t).H
  w0 : ∀ t, t < p → (r t).w.w0.natAbs ≤ D
  w1 : ∀ t, t < p → (r t).w.w1.natAbs ≤ D

/-- The weight of all vertices. -/
def procWeight (p : Nat) (h : Nat → Hypergraph) : Int :=
  ((List.range p).map (fun t => ((h t).vertices.map (·.weight)).sum)).sum

theorem parStart_sim {p : Nat} {h : Nat → Hypergraph} {own : List OwnerData} {max0 max1 D : Int}
    (F : FitPar p h own max0 max1) (hv : ∀ t, t < p → VertexFit (h t)) {d : Delivery (Nat × Cnt)} {np : NetPart}
    {r : Nat → ParResult} (hr : PassFit p h D r) {l : List ProcState}
    (hs : parStart d np own ((List.range p).map r) = .ok l) :
    parStart64 d np own ((List.range p).map r) = .ok l ∧
      ∃ q o, l = (List.range p).map q ∧ RoundFit p h own (D + 2 * procWeight p h) q o := by
  unfold parStart at hs
  unfold parStart64
  simp only [List.length_map, List.length_range] at hs ⊢
  rw [bind_eq_ok] at hs
  obtain ⟨gl, h1, hs⟩ := hs
  rw [bind_eq_ok] at hs
  obtain ⟨pl, h2, hs⟩ := hs
  rw [List.mapM_map] at h1
  obtain ⟨gs, rfl, hg⟩ := rangeM_fn h1
  obtain ⟨q, rfl, hq⟩ := rangeM_fn hs
  have s1 : ∀ t, t < p → GainStructure.create64 (r t).H (r t).C = .ok (gs t) ∧
      ∃ o, OpenInv (h t) o (gs t) ∧ o ≤ ((h t).vertices.map (·.weight)).sum := fun t ht =>
    create_open (hr.frame t ht) (F.fit t ht) (hv t ht) (hg t ht)
  obtain ⟨o, ho⟩ : ∃ o : Nat → Int, ∀ t, t < p → OpenInv (h t) (o t) (gs t) ∧ o t ≤ ((h t).vertices.map (·.weight)).sum := by
    choose! o ho using fun t ht => (s1 t ht).2
    exact ⟨o, ho⟩
  -- the counts at the owners
  unfold initPreviousC at h2
  simp only [List.length_map, List.length_range] at h2
  rw [bind_eq_ok] at h2
  obtain ⟨puts, h3, h2⟩ := h2
  obtain ⟨pv, rfl, hpv⟩ := rangeM_fn h2
  have s2 : ∀ t, t < p → (do
      let o ← vget own t
      let owned ← (inbox d puts t).foldlM (fun a (m : Nat × Cnt) => vset a m.1 m.2)
        (List.replicate (np.count t) ⟨0, 0⟩)
      let cut ← ownedCut64 owned o.costs
      pure (owned, cut) : Res (List Cnt × Int)) = .ok (pv t) ∧ (pv t).2 = cutSum (costsAt own t) (pv t).1 := by
    intro t ht
    have h4 := hpv t ht
    simp only [bind_eq_ok] at h4
    obtain ⟨od, hod, owned, h5, h4⟩ := h4
    have e : costsAt own t = od.costs := by unfold costsAt; rw [vget_eq_ok.1 hod]
    have k1 := F.own.nonneg t
    have k2 := F.own.each ht
    rw [e] at k1 k2 ⊢
    obtain ⟨c1, c2⟩ := ownedCut_sim (owned := owned) k1 k2
    rw [hod]; simp only [ok_bind]
    rw [h5]; simp only [ok_bind]
    rw [c1]
    refine ⟨h4, ?_⟩
    rw [← Except.ok.inj h4]
    exact c2
  have s3 : ∀ t, t < p → q t =
      ⟨⟨gs t, (r t).C.map (·.c0), (pv t).1, (pv t).2⟩, (r t).L, (r t).w, (r t).cut, [], false, (r t).rng⟩ := by
    intro t ht
    have h4 := hq t ht
    rw [vget_ok (rangeMap_get ht _)] at h4
    simp only [ok_bind] at h4
    rw [vget_ok (rangeMap_get ht _)] at h4
    simp only [ok_bind] at h4
    rw [vget_ok (rangeMap_get ht _)] at h4
    simp only [ok_bind] at h4
    exact (Except.ok.inj h4).symm
  rw [List.mapM_map]
  rw [rangeM_ok (f := (fun q : ParResult => GainStructure.create64 q.H q.C) ∘ r) (g := gs) (fun t ht => (s1 t ht).1)]
  simp only [ok_bind]
  unfold initPreviousC64
  simp only [List.length_map, List.length_range]
  rw [h3]; simp only [ok_bind]
  rw [rangeM_ok (fun t ht => (s2 t ht).1)]
  simp only [ok_bind]
  refine ⟨hs, q, o, rfl, ?_, ?_, ?_, ?_, ?_⟩
  · intro t ht; rw [s3 t ht]; exact (ho t ht).1
  · intro t ht
    rw [s3 t ht]
    have := (ho t ht).2
    simp only [List.map_nil, List.sum_nil]
    omega
  · intro t ht; rw [s3 t ht]; exact (s2 t ht).2
  · intro t ht
    rw [s3 t ht]
    have e1 := rangeSum_le (fun t ht => (ho t ht).2)
    have e2 := hr.w0 t ht
    unfold procWeight
    dsimp only
    omega
  · intro t ht
    rw [s3 t ht]
    have e1 := rangeSum_le (fun t ht => (ho t ht).2)
    have e2 := hr.w1 t ht
    unfold procWeight
    dsimp only
    omega

theorem backStep_sim {H0 : Hypergraph} (F : FitP H0) : ∀ (l : List Nat) {st st' : BackState}, Frame H0 st.H →
    st.wc.natAbs + (l.map (vweight H0)).sum ≤ 2 ^ 62 → l.foldlM backStep st = .ok st' →
    l.foldlM backStep64 st = .ok st' ∧ Frame H0 st'.H ∧ st'.wc.natAbs ≤ st.wc.natAbs + (l.map (vweight H0)).sum := by
  intro l
  induction l with
  | nil => intro st st' hf _ h; cases h; exact ⟨rfl, hf, by simp⟩
  | cons v l ih =>
    intro st st' hf hb h
    rw [List.map_cons, List.sum_cons] at hb ⊢
    have hn := vweights_nonneg F.hw l
    rw [List.foldlM_cons, bind_eq_ok] at h
    obtain ⟨s1, h1, h2⟩ := h
    unfold backStep at h1
    simp only [bind_eq_ok] at h1
    obtain ⟨x, hx, ⟨H, C, L⟩, hm, h1⟩ := h1
    have hxw := F.weight hf (vertexOf_mem' hx)
    have hwa := vweight_frame hf hx
    have hf1 : Frame H0 H := hf.trans (moveLoc_frame hm)
    have hs1 : s1.H = H ∧ s1.wc.natAbs ≤ st.wc.natAbs + x.weight ∧ backStep64 st v = .ok s1 := by
      unfold backStep64
      rw [hx]; simp only [ok_bind]
      split at h1
      · rename_i hp
        cases h1
        rw [if_pos hp, long_ok (by omega) (by omega)]
        simp only [ok_bind]
        rw [hm]
        exact ⟨trivial, by omega, rfl⟩
      · rename_i hp
        cases h1
        rw [if_neg hp, long_ok (by omega) (by omega)]
        simp only [ok_bind]
        rw [hm]
        exact ⟨trivial, by omega, rfl⟩
    obtain ⟨k1, k2, k3⟩ := hs1
    rw [List.foldlM_cons, k3]
    simp only [ok_bind]
    obtain ⟨j1, j2, j3⟩ := ih (st := s1) (by rw [k1]; exact hf1) (by omega) h2
    exact ⟨j1, j2, by omega⟩

theorem zip_rangeMap {α β γ : Type} (p : Nat) (f : Nat → α) (g : Nat → β) (k : α × β → γ) :
    (List.zip ((List.range p).map f) ((List.range p).map g)).map k = (List.range p).map (fun t => k (f t, g t)) := by
  induction List.range p with
  | nil => rfl
  | cons a l ih =>
    rw [List.map_cons, List.map_cons, List.zip_cons_cons, List.map_cons, List.map_cons, ih]

theorem parFinish_sim {p : Nat} {h : Nat → Hypergraph} {own : List OwnerData} {max0 max1 X : Int}
    (F : FitPar p h own max0 max1) (hT : procWeight p h ≤ 2 ^ 60) (hX : X ≤ 2 ^ 60) {pe : PassEnv} {np : NetPart}
    {q : Nat → ProcState} {o : Nat → Int} (hq : RoundFit p h own X q o) {l : List ParResult}
    (hr : parFinish pe np own ((List.range p).map q) = .ok l) :
    parFinish64 pe np own ((List.range p).map q) = .ok l ∧
      ∃ r, l = (List.range p).map r ∧ PassFit p h (X + procWeight p h) r := by
  unfold parFinish at hr
  unfold parFinish64
  simp only [List.length_map, List.length_range] at hr ⊢
  rw [bind_eq_ok] at hr
  obtain ⟨bl, h1, hr⟩ := hr
  rw [bind_eq_ok] at hr
  obtain ⟨outs, h2, hr⟩ := hr
  rw [bind_eq_ok] at hr
  obtain ⟨ul, h3, hr⟩ := hr
  rw [List.mapM_map] at h1
  obtain ⟨b, rfl, hb⟩ := rangeM_fn h1
  obtain ⟨r, rfl, hr'⟩ := rangeM_fn hr
  have hon : ∀ t, t < p → 0 ≤ o t := fun t ht => (hq.gs t ht).nonneg (F.fit t ht)
  have hos := rangeSum_nonneg hon
  have hW : ∀ t, t < p → ((h t).vertices.map (·.weight)).sum ≤ 2 ^ 60 := fun t ht => (F.fit t ht).weights
  have s1 : ∀ t, t < p → (q t).noImp.foldlM backStep64
      { H := (q t).u.gs.H, C := (q t).u.gs.C, L := (q t).L, wc := 0, changed := [] } = .ok (b t) ∧ Frame (h t) (b t).H ∧
      (b t).wc.natAbs ≤ ((h t).vertices.map (·.weight)).sum := by
    intro t ht
    have e0 := hq.back t ht
    have e1 := hW t ht
    have e2 := hon t ht
    have e3 : ((0 : Int).natAbs : Int) = 0 := rfl
    obtain ⟨a1, a2, a3⟩ := backStep_sim (F.fit t ht) (q t).noImp
      (st := { H := (q t).u.gs.H, C := (q t).u.gs.C, L := (q t).L, wc := 0, changed := [] })
      (hq.gs t ht).frame (by dsimp only; omega) (hb t ht)
    dsimp only at a3
    exact ⟨a1, a2, by omega⟩
  rw [zip_rangeMap] at h3
  obtain ⟨c1, u, rfl, c2⟩ := updateC_sim F.fit F.own
    (u := fun t => { (q t).u with gs := { (q t).u.gs with H := (b t).H, C := (b t).C } }) (o := o)
    (fun t ht => ⟨⟨(hq.gs t ht).small, (s1 t ht).2.1, (hq.gs t ht).op⟩, hq.cut t ht⟩) h3
  have hsum : (((List.range p).map b).map (fun x : BackState => (x.wc.natAbs : Int))).sum ≤ procWeight p h := by
    rw [List.map_map]
    exact rangeSum_le (f := fun t => ((b t).wc.natAbs : Int)) (fun t ht => (s1 t ht).2.2)
  have hfold : ∀ bs : List BackState, (bs.map (fun x : BackState => (x.wc.natAbs : Int))).sum ≤ 2 ^ 60 →
      (bs.map (fun x : BackState => x.wc)).foldlM (fun t x => long (t + x)) 0 = .ok ((bs.map (fun x : BackState => x.wc)).foldl (· + ·) 0) ∧
      (((bs.map (fun x : BackState => x.wc)).foldl (· + ·) 0).natAbs : Int) ≤ (bs.map (fun x : BackState => (x.wc.natAbs : Int))).sum := by
    intro bs hbs
    have e3 : ((0 : Int).natAbs : Int) = 0 := rfl
    have := sumLong_abs (fun x : Int => x) (bs.map (·.wc)) 0 (by
      rw [List.map_map]
      show ((0 : Int).natAbs : Int) + (bs.map (fun x : BackState => (x.wc.natAbs : Int))).sum ≤ _
      omega)
    refine ⟨this.1, ?_⟩
    have h4 := this.2
    rw [List.map_map, e3, Int.zero_add] at h4
    exact h4
  obtain ⟨f1, f2⟩ := hfold ((List.range p).map b) (by omega)
  generalize hch : (((List.range p).map b).map (fun x : BackState => x.wc)).foldl (· + ·) 0 = ch at f1 f2 hr hr'
  have s2 : ∀ t, t < p → (do
      let q ← vget ((List.range p).map q) t
      let b ← vget ((List.range p).map b) t
      let u ← vget ((List.range p).map u) t
      let w0 ← long (q.w.w0 + ch)
      let w1 ← long (q.w.w1 - ch)
      pure { cut := q.best, H := u.gs.H, C := u.gs.C, L := b.L, w := ⟨w0, w1⟩, rng := q.rng } : Res ParResult) = .ok (r t) ∧
      Frame (h t) (r t).H ∧ (r t).w.w0.natAbs ≤ X + procWeight p h ∧ (r t).w.w1.natAbs ≤ X + procWeight p h := by
    intro t ht
    have h4 := hr' t ht
    rw [vget_ok (rangeMap_get ht _)] at h4 ⊢
    simp only [ok_bind] at h4 ⊢
    rw [vget_ok (rangeMap_get ht _)] at h4 ⊢
    simp only [ok_bind] at h4 ⊢
    rw [vget_ok (rangeMap_get ht _)] at h4 ⊢
    simp only [ok_bind] at h4 ⊢
    have e0 := hq.w0 t ht
    have e1 := hq.w1 t ht
    rw [long_ok (by omega) (by omega)]; simp only [ok_bind]
    rw [long_ok (by omega) (by omega)]; simp only [ok_bind]
    refine ⟨h4, ?_⟩
    rw [← Except.ok.inj h4]
    refine ⟨(c2 t ht).1.frame, ?_, ?_⟩
    · dsimp only; omega
    · dsimp only; omega
  rw [List.mapM_map]
  rw [rangeM_ok (f := (fun q : ProcState => q.noImp.foldlM backStep64
    { H := q.u.gs.H, C := q.u.gs.C, L := q.L, wc := 0, changed := [] }) ∘ q) (g := b) (fun t ht => (s1 t ht).1)]
  simp only [ok_bind]
  rw [h2]; simp only [ok_bind]
  rw [zip_rangeMap, c1]
  simp only [ok_bind]
  rw [f1]
  simp only [ok_bind]
  rw [rangeM_ok (fun t ht => (s2 t ht).1)]
  exact ⟨rfl, r, rfl, fun t ht => (s2 t ht).2.1, fun t ht => (s2 t ht).2.2.1, fun t ht => (s2 t ht).2.2.2⟩

theorem procWeight_nonneg {p : Nat} {h : Nat → Hypergraph} {own : List OwnerData} {max0 max1 : Int}
    (F : FitPar p h own max0 max1) : 0 ≤ procWeight p h :=
  rangeSum_nonneg (fun t ht => sum_nonneg' (F.fit t ht).wsNonneg)

theorem KLFMPassPar_sim {p : Nat} {h : Nat → Hypergraph} {own : List OwnerData} {max0 max1 D : Int}
    (F : FitPar p h own max0 max1) (hv : ∀ t, t < p → VertexFit (h t)) (hD0 : 0 ≤ D) (hD : D + 3 * procWeight p h ≤ 2 ^ 60)
    {pe : PassEnv} (hpe : PassFair pe) {rounds fuel K : Nat} {np : NetPart}
    {r : Nat → ParResult} (hr : PassFit p h D r) {l : List ParResult}
    (hs : KLFMPassPar rounds fuel K pe np max0 max1 own ((List.range p).map r) = .ok l) :
    KLFMPassPar64 rounds fuel K pe np max0 max1 own ((List.range p).map r) = .ok l ∧
      ∃ r', l = (List.range p).map r' ∧ PassFit p h (D + 3 * procWeight p h) r' := by
  have hT := procWeight_nonneg F
  unfold KLFMPassPar at hs
  rw [bind_eq_ok] at hs
  obtain ⟨l1, h1, hs⟩ := hs
  rw [bind_eq_ok] at hs
  obtain ⟨l2, h2, hs⟩ := hs
  obtain ⟨a1, q, o, rfl, a2⟩ := parStart_sim F hv hr h1
  obtain ⟨b1, q', o', rfl, b2⟩ := parRounds_sim F (X := D + 2 * procWeight p h) (by omega) hpe rounds 0 a2 h2
  obtain ⟨c1, r', rfl, c2⟩ := parFinish_sim F (by omega) (by omega) b2 hs
  unfold KLFMPassPar64
  rw [a1]; simp only [ok_bind]
  rw [b1]; simp only [ok_bind]
  rw [c1]
  have e : D + 2 * procWeight p h + procWeight p h = D + 3 * procWeight p h := by omega
  rw [e] at c2
  exact ⟨rfl, r', rfl, c2⟩

theorem parPasses_sim {p : Nat} {h : Nat → Hypergraph} {own : List OwnerData} {max0 max1 : Int}
    (F : FitPar p h own max0 max1) (hv : ∀ t, t < p → VertexFit (h t)) {pes : Nat → PassEnv} (hpe : ∀ i, PassFair (pes i))
    {rounds fuel K : Nat} {np : NetPart} : ∀ (k i : Nat) {D : Int} {r : Nat → ParResult} {l : List ParResult},
    0 ≤ D → D + 3 * (k : Int) * procWeight p h ≤ 2 ^ 60 → PassFit p h D r →
    parPasses rounds fuel K pes np max0 max1 own k i ((List.range p).map r) = .ok l →
    parPasses64 rounds fuel K pes np max0 max1 own k i ((List.range p).map r) = .ok l := by
  have hT := procWeight_nonneg F
  intro k
  induction k with
  | zero => intro i D r l _ _ _ hs; exact hs
  | succ k ih =>
    intro i D r l hD0 hD hr hs
    have e : 3 * ((k + 1 : Nat) : Int) * procWeight p h = 3 * procWeight p h + 3 * (k : Int) * procWeight p h := by
      push_cast
      ring
    rw [e] at hD
    have hk : 0 ≤ 3 * (k : Int) * procWeight p h := Int.mul_nonneg (by omega) hT
    unfold parPasses at hs
    rw [bind_eq_ok] at hs
    obtain ⟨l1, h1, hs⟩ := hs
    obtain ⟨a1, r', rfl, a2⟩ := KLFMPassPar_sim F hv hD0 (by omega) (hpe i) hr h1
    unfold parPasses64
    rw [a1]; simp only [ok_bind]
    dsimp only at hs
    split at hs
    · rename_i hbet
      rw [if_pos hbet]
      exact ih (i + 1) (by omega) (by omega) a2 hs
    · rename_i hbet
      rw [if_neg hbet]
      exact hs

/-! ### The costs at the owners -/

theorem set_sum : ∀ (l : List Int) (i : Nat) (v : Int), (∀ c ∈ l, 0 ≤ c) → 0 ≤ v → (l.set i v).sum ≤ l.sum + v := by
  intro l
  induction l with
  | nil => intro i v _ h; simpa using h
  | cons a l ih =>
    intro i v hl hv
    have ha := hl a (by simp)
    cases i with
    | zero => rw [List.set_cons_zero, List.sum_cons, List.sum_cons]; omega
    | succ i =>
      rw [List.set_cons_succ, List.sum_cons, List.sum_cons]
      have := ih i v (fun c hc => hl c (by simp [hc])) hv
      omega

theorem puts_sum : ∀ (l : List (Nat × Int)) {a a' : List Int}, (∀ c ∈ a, 0 ≤ c) → (∀ m ∈ l, 0 ≤ m.2) →
    l.foldlM (fun a (m : Nat × Int) => vset a m.1 m.2) a = .ok a' →
    (∀ c ∈ a', 0 ≤ c) ∧ a'.sum ≤ a.sum + (l.map (·.2)).sum := by
  intro l
  induction l with
  | nil => intro a a' ha _ h; cases h; exact ⟨ha, by simp⟩
  | cons m l ih =>
    intro a a' ha hl h
    rw [List.foldlM_cons, bind_eq_ok] at h
    obtain ⟨a1, h1, h2⟩ := h
    have hm := hl m (by simp)
    have e := (vset_eq_ok' h1).2
    have hn : ∀ c ∈ a1, 0 ≤ c := by
      intro c hc
      rw [e] at hc
      rcases List.mem_or_eq_of_mem_set hc with hc | rfl
      · exact ha c hc
      · exact hm
    obtain ⟨k1, k2⟩ := ih hn (fun m hm => hl m (by simp [hm])) h2
    have k3 := set_sum a m.1 m.2 ha hm
    rw [← e] at k3
    refine ⟨k1, ?_⟩
    rw [List.map_cons, List.sum_cons]
    omega

theorem ind_sum (a : Nat) {v : Int} (hv : 0 ≤ v) (p : Nat) :
    ((List.range p).map (fun t => if a = t then v else 0)).sum ≤ v ∧
      (p ≤ a → ((List.range p).map (fun t => if a = t then v else 0)).sum = 0) := by
  induction p with
  | zero => exact ⟨by simpa using hv, fun _ => rfl⟩
  | succ p ih =>
    rw [List.range_succ, List.map_append, List.sum_append]
    simp only [List.map_cons, List.map_nil, List.sum_cons, List.sum_nil]
    by_cases h : a = p
    · have := ih.2 (by omega)
      rw [if_pos h]
      exact ⟨by omega, fun h' => by omega⟩
    · rw [if_neg h]
      exact ⟨by have := ih.1; omega, fun h' => by have := ih.2 (by omega); omega⟩

theorem filter_sum (p : Nat) : ∀ (l : List (Nat × (Nat × Int))), (∀ m ∈ l, 0 ≤ m.2.2) →
    ((List.range p).map (fun t => (((l.filter (fun x => x.1 = t)).map (·.2)).map (·.2)).sum)).sum ≤ (l.map (·.2.2)).sum := by
  intro l
  induction l with
  | nil => intro _; simp
  | cons m l ih =>
    intro h
    have hm := h m (by simp)
    have h1 := ih (fun x hx => h x (by simp [hx]))
    have h2 := (ind_sum m.1 hm p).1
    have e : (fun t : Nat => ((((m :: l).filter (fun x => x.1 = t)).map (·.2)).map (·.2)).sum) = fun t =>
        (if m.1 = t then m.2.2 else 0) + (((l.filter (fun x => x.1 = t)).map (·.2)).map (·.2)).sum := by
      funext t
      rw [List.filter_cons]
      by_cases ht : m.1 = t
      · simp [ht]
      · simp [ht]
    rw [e, rangeSum_add, List.map_cons, List.sum_cons]
    omega

theorem initCost_fit {dc : Delivery (Nat × Int)} (hd : Fair dc) {dp : Delivery (Nat × Nat)} {np : NetPart}
    {Hs : List Hypergraph} (hc : ∀ H ∈ Hs, CostsNonneg H) (hb : (Hs.map (fun H => (H.nets.map (·.cost)).sum)).sum ≤ 2 ^ 60)
    {own : List OwnerData} (h : initCostMyNets dc dp np Hs = .ok own) : OwnFit Hs.length own := by
  have : Inhabited OwnerData := ⟨⟨[], []⟩⟩
  unfold initCostMyNets at h
  rw [bind_eq_ok] at h
  obtain ⟨puts, h1, h⟩ := h
  rw [bind_eq_ok] at h
  obtain ⟨outs, -, h⟩ := h
  obtain ⟨g, rfl, hg⟩ := rangeM_fn h
  have e1 : puts.map (fun l => l.map (·.2.2)) = Hs.map (fun H => H.nets.map (·.cost)) := by
    apply mapM_map_eq _ h1
    intro H l hl
    unfold costPuts at hl
    apply mapM_map_eq _ hl
    intro n x hx
    unfold send at hx
    split at hx
    · cases hx; rfl
    · cases hx
  have e2 : puts.flatten.map (·.2.2) = (Hs.map (fun H => H.nets.map (·.cost))).flatten := by
    rw [← e1, List.map_flatten]
  have hn : ∀ m ∈ puts.flatten, 0 ≤ m.2.2 := by
    intro m hm
    have h2 : m.2.2 ∈ puts.flatten.map (·.2.2) := List.mem_map_of_mem (f := fun x : Nat × (Nat × Int) => x.2.2) hm
    rw [e2] at h2
    obtain ⟨l, hl, hml⟩ := List.mem_flatten.1 h2
    obtain ⟨H, hH, rfl⟩ := List.mem_map.1 hl
    obtain ⟨n, hn, e⟩ := List.mem_map.1 hml
    rw [← e]
    exact hc H hH n hn
  have hsum : (puts.flatten.map (·.2.2)).sum ≤ 2 ^ 60 := by
    rw [e2, List.sum_flatten, List.map_map]
    exact hb
  have key : ∀ t, t < Hs.length → (∀ c ∈ (g t).costs, 0 ≤ c) ∧
      (g t).costs.sum ≤ (((puts.flatten.filter (fun x => x.1 = t)).map (·.2)).map (·.2)).sum := by
    intro t ht
    have h2 := hg t ht
    simp only [bind_eq_ok] at h2
    obtain ⟨costs, h3, procs, -, h2⟩ := h2
    have h4 : (g t).costs = costs := by rw [← Except.ok.inj h2]
    rw [h4]
    have hperm := inbox_perm hd puts t
    obtain ⟨k1, k2⟩ := puts_sum _ (by
      intro c hc
      rw [List.eq_of_mem_replicate hc]) (by
      intro m hm
      obtain ⟨x, hx, rfl⟩ := List.mem_map.1 (hperm.mem_iff.1 hm)
      exact hn x (List.mem_filter.1 hx).1) h3
    rw [(hperm.map _).sum_eq] at k2
    refine ⟨k1, ?_⟩
    simpa using k2
  have hat : ∀ t, t < Hs.length → costsAt ((List.range Hs.length).map g) t = (g t).costs := by
    intro t ht
    unfold costsAt
    rw [rangeMap_get ht]
  constructor
  · intro t c hc'
    by_cases ht : t < Hs.length
    · rw [hat t ht] at hc'
      exact (key t ht).1 c hc'
    · unfold costsAt at hc'
      rw [List.getElem?_eq_none (by simpa using Nat.not_lt.1 ht)] at hc'
      cases hc'
  · have h2 := rangeSum_le (p := Hs.length) (f := fun t => (costsAt ((List.range Hs.length).map g) t).sum)
      (g := fun t => (((puts.flatten.filter (fun x => x.1 = t)).map (·.2)).map (·.2)).sum) (fun t ht => by
        rw [hat t ht]; exact (key t ht).2)
    have h3 := filter_sum Hs.length puts.flatten hn
    omega

end PMondriaan
