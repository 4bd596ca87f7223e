import Verif.Proofs.ParOwner

/-
`update_C`: owners and processors agree on the new global counts.
-/

namespace PMondriaan

open Spec

/-- The hypergraph of processor `t`. -/
def hAt (Hs : List Hypergraph) (t : Nat) : Hypergraph := Hs.getD t (Hypergraph.create 0 0 [] [])

theorem hAt_get {Hs : List Hypergraph} {t : Nat} (ht : t < Hs.length) : Hs[t]? = some (hAt Hs t) := by
  unfold hAt
  rw [List.getElem?_eq_getElem ht]
  simp [ht]

theorem hAt_mem {Hs : List Hypergraph} {t : Nat} (ht : t < Hs.length) : hAt Hs t ∈ Hs :=
  List.mem_of_getElem? (hAt_get ht)

theorem map_hAt {β : Type} (Hs : List Hypergraph) (f : Hypergraph → β) :
    Hs.map f = (List.range Hs.length).map (fun t => f (hAt Hs t)) := by
  apply List.ext_getElem?
  intro k
  by_cases hk : k < Hs.length
  · rw [rangeMap_get hk, List.getElem?_map, hAt_get hk]; rfl
  · simp [hk]

theorem mem_hAt {Hs : List Hypergraph} {H : Hypergraph} (h : H ∈ Hs) :
    ∃ t, t < Hs.length ∧ hAt Hs t = H := by
  obtain ⟨t, ht, rfl⟩ := List.getElem_of_mem h
  refine ⟨t, ht, ?_⟩
  have := hAt_get ht
  rw [List.getElem?_eq_getElem ht] at this
  exact (Option.some.inj this).symm

/-! ### New counts at the owners -/

/-- The count of part 0 that a processor with parts `P'` and outdated remote counts has. -/
def claim0 (Hs : List Hypergraph) (P P' : Nat → Int) (s e : Nat) : Int :=
  (locF (hAt Hs s) P' e).c0 + (remF Hs (hAt Hs s) P e).c0

theorem locF_absent {H : Hypergraph} {P : Nat → Int} {e : Nat} (h : e ∉ H.nets.map (·.id)) :
    locF H P e = ⟨0, 0⟩ := by
  unfold locF exactF
  rw [pinsOf_absent h]; rfl

theorem sum_map_sub_range (p : Nat) (f g : Nat → Int) :
    ((List.range p).map (fun s => f s - g s)).sum =
      ((List.range p).map f).sum - ((List.range p).map g).sum := by
  induction p with
  | zero => rfl
  | succ p ih =>
    simp only [List.range_succ, List.map_append, List.sum_append, ih, List.map_cons, List.map_nil,
      List.sum_cons, List.sum_nil]
    omega

theorem new_counts {N : Nat} {Hs : List Hypergraph} {np : NetPart} (b : ParBase N Hs np)
    {P P' : Nat → Int} (h01 : GParts01 Hs P) (h01' : GParts01 Hs P') {d : Delivery (Nat × Int)}
    (hd : Fair d) (E : Nat → List Nat) (hE : ∀ s, s < Hs.length → (E s).Nodup)
    (hcov : ∀ s, s < Hs.length → ∀ n ∈ (hAt Hs s).nets, n.id ∉ E s →
      (locF (hAt Hs s) P' n.id).c0 = (locF (hAt Hs s) P n.id).c0) (e : Nat) :
    shiftF (globF Hs P) (delta (globF Hs P)
      (inbox d ((List.range Hs.length).map (fun s => reports np (E s) (claim0 Hs P P' s)))
        (np.owner e))) e = globF Hs P' e := by
  have hδ := delta_inbox (np := np) hd (globF Hs P) E hE (claim0 Hs P P') e
  have hs : (List.range Hs.length).map (fun s => if e ∈ E s then claim0 Hs P P' s e - (globF Hs P e).c0 else 0)
      = (List.range Hs.length).map (fun s => (locF (hAt Hs s) P' e).c0 - (locF (hAt Hs s) P e).c0) := by
    apply List.map_congr_left
    intro s hs
    have hs := List.mem_range.1 hs
    by_cases he : e ∈ E s
    · rw [if_pos he]
      unfold claim0 remF
      simp only
      omega
    · rw [if_neg he]
      by_cases hn : e ∈ (hAt Hs s).nets.map (·.id)
      · obtain ⟨n, hn', hne⟩ := List.mem_map.1 hn
        have hne : n.id = e := hne
        subst hne
        have := hcov s hs n hn' he
        omega
      · rw [locF_absent hn, locF_absent hn]; simp
  rw [hs, sum_map_sub_range] at hδ
  have g := globF_sum b.D.wf P e
  have g' := globF_sum b.D.wf P' e
  rw [map_hAt] at g g'
  have l := globF_len b.D.wf h01 e
  have l' := globF_len b.D.wf h01' e
  unfold shiftF
  rw [hδ]
  have e0 : (globF Hs P e).c0 + (((List.range Hs.length).map (fun s => (locF (hAt Hs s) P' e).c0)).sum -
      ((List.range Hs.length).map (fun s => (locF (hAt Hs s) P e).c0)).sum) = (globF Hs P' e).c0 := by
    rw [← g.1, ← g'.1]; omega
  have e1 : (globF Hs P e).c1 - (((List.range Hs.length).map (fun s => (locF (hAt Hs s) P' e).c0)).sum -
      ((List.range Hs.length).map (fun s => (locF (hAt Hs s) P e).c0)).sum) = (globF Hs P' e).c1 := by
    rw [← g.1, ← g'.1]; omega
  rw [e0, e1]

/-! ### Replies -/

/-- What the owners know: costs, and the processors of each net. -/
structure OwnSpec (N : Nat) (Hs : List Hypergraph) (np : NetPart) (procs : Nat → List Nat)
    (own : List OwnerData) : Prop where
  eq : own = (List.range Hs.length).map (fun t =>
    { costs := ownedL np t (unionCost Hs), procs := ownedL np t procs })
  mem : ∀ e, e < N → ∀ r, r ∈ procs e ↔ r < Hs.length ∧ e ∈ (hAt Hs r).nets.map (·.id)

theorem ownedL_idx {β : Type} {np : NetPart} {t i : Nat} (hi : i < np.count t) (f : Nat → β) :
    vget (ownedL np t f) i = .ok (f (np.glob i t)) := by
  apply vget_ok
  unfold ownedL
  exact rangeMap_get hi _

/-- The replies of owner `t`. -/
def repliesOf (np : NetPart) (t : Nat) (procs : Nat → List Nat) (A A' : Nat → Cnt) :
    List (Nat × (Nat × Int)) :=
  ((List.range (np.count t)).map (fun i =>
    if (A (np.glob i t)).c0 ≠ (A' (np.glob i t)).c0 then
      (procs (np.glob i t)).map (fun r => (r, (np.glob i t, (A' (np.glob i t)).c0)))
    else [])).flatten

theorem ownerReplies_ok {np : NetPart} {p t : Nat} {procs : Nat → List Nat} {A A' : Nat → Cnt}
    (hp : ∀ i, i < np.count t → ∀ r ∈ procs (np.glob i t), r < p) :
    ownerReplies p np t (ownedL np t procs) (ownedL np t A) (ownedL np t A') =
      .ok (repliesOf np t procs A A') := by
  unfold ownerReplies repliesOf
  rw [mapM_ok (g := fun i => if (A (np.glob i t)).c0 ≠ (A' (np.glob i t)).c0 then
      (procs (np.glob i t)).map (fun r => (r, (np.glob i t, (A' (np.glob i t)).c0))) else [])]
  · rfl
  · intro i hi
    have hi := List.mem_range.1 hi
    rw [ownedL_idx hi]; simp only [ok_bind]
    rw [ownedL_idx hi]; simp only [ok_bind]
    split
    · rw [ownedL_idx hi]; simp only [ok_bind]
      apply mapM_ok
      intro r hr
      unfold send
      rw [if_pos (hp i hi r hr)]
    · rfl

theorem mem_repliesOf {np : NetPart} {p N : Nat} (hv : np.Valid p N) {t : Nat} (ht : t < p)
    {procs : Nat → List Nat} {A A' : Nat → Cnt} {r e : Nat} {c : Int} :
    (r, (e, c)) ∈ repliesOf np t procs A A' ↔
      (e < N ∧ np.owner e = t ∧ (A e).c0 ≠ (A' e).c0 ∧ r ∈ procs e ∧ c = (A' e).c0) := by
  unfold repliesOf
  rw [List.mem_flatten]
  constructor
  · rintro ⟨l, hl, hm⟩
    obtain ⟨i, hi, rfl⟩ := List.mem_map.1 hl
    have hi := List.mem_range.1 hi
    split at hm
    · rename_i hne
      obtain ⟨r', hr', heq⟩ := List.mem_map.1 hm
      simp only [Prod.mk.injEq] at heq
      obtain ⟨rfl, rfl, rfl⟩ := heq
      exact ⟨hv.glob_lt t ht i hi, hv.owner_glob t ht i hi, hne, hr', rfl⟩
    · cases hm
  · rintro ⟨he, rfl, hne, hr, rfl⟩
    refine ⟨_, List.mem_map_of_mem (List.mem_range.2 (hv.loc_lt e he)), ?_⟩
    rw [hv.glob_loc e he, if_pos hne]
    exact List.mem_map.2 ⟨r, hr, rfl⟩

theorem receivePrev_ok {H : Hypergraph} (w : WF H) {P : Nat → Int} {L : Nat → List Nat}
    {A A' : Nat → Cnt} (msgs : List (Nat × Int))
    (hm : ∀ m ∈ msgs, m.1 ∈ H.nets.map (·.id) ∧ m.2 = (A' m.1).c0)
    (hcov : ∀ n ∈ H.nets, (A n.id).c0 ≠ (A' n.id).c0 → (n.id, (A' n.id).c0) ∈ msgs) :
    receivePrev (conc H P L) (c0Of H A) msgs = .ok (c0Of H A') := by
  unfold receivePrev
  obtain ⟨st, h1, h2⟩ := foldlM_inv (f := fun (a : List Int) (m : Nat × Int) => do
      let j ← (conc H P L).localIdNet m.1
      vset a j m.2)
    (fun pre _ a => a = H.nets.map (fun n => if n.id ∈ pre.map (·.1) then (A' n.id).c0 else (A n.id).c0))
    msgs (c0Of H A) (by simp [c0Of]) (by
      rintro pre m post a rfl hl
      obtain ⟨hmem, hval⟩ := hm m (by rw [hl]; simp)
      obtain ⟨n, hn, hne⟩ := List.mem_map.1 hmem
      have hne : n.id = m.1 := hne
      obtain ⟨j, hj⟩ := List.getElem?_of_mem hn
      rw [← hne, conc_localIdNet, w.localIdNet_of_get hj]
      simp only [ok_bind]
      rw [vset_ok (by simpa using (List.getElem?_eq_some_iff.1 hj).1)]
      refine ⟨_, rfl, ?_⟩
      rw [map_set_upd w.nids _ hj]
      apply List.map_congr_left
      intro x _
      simp only [List.map_append, List.map_cons, List.map_nil, List.mem_append, List.mem_singleton]
      by_cases hx : x.id = n.id
      · rw [if_pos hx, hval, ← hne, if_pos (Or.inr hx), hx]
      · rw [if_neg hx, ← hne]
        simp only [hx, or_false])
  rw [h1, h2]
  congr 1
  unfold c0Of
  apply List.map_congr_left
  intro n hn
  split
  · rfl
  · rename_i hnot
    by_contra hcon
    exact hnot (List.mem_map.2 ⟨_, hcov n hn hcon, rfl⟩)

/-! ### `update_C` -/

/-- The variables of processor `t` that `update_C` changes, on the functional view. -/
def uOf (Hs : List Hypergraph) (np : NetPart) (P : Nat → Int) (t : Nat) (gs : GainStructure) : UState :=
  { gs, prev0 := c0Of (hAt Hs t) (globF Hs P), owned := ownedL np t (globF Hs P),
    cutMine := ownCut np t (globF Hs P) (unionCost Hs) }

theorem updateC_out {B : Prop} {N : Nat} {Hs : List Hypergraph} {np : NetPart} (b : ParBase N Hs np)
    {procs : Nat → List Nat} {own : List OwnerData} (ho : OwnSpec N Hs np procs own)
    {P P' : Nat → Int} (h01 : GParts01 Hs P) (h01' : GParts01 Hs P')
    {dUp dDown : Delivery (Nat × Int)} (hUp : Fair dUp) (hDown : Fair dDown)
    (E : Nat → List Nat) (hE : ∀ s, s < Hs.length → (E s).Nodup)
    (hsub : ∀ s, s < Hs.length → ∀ e ∈ E s, e ∈ (hAt Hs s).nets.map (·.id))
    (hcov : ∀ s, s < Hs.length → ∀ n ∈ (hAt Hs s).nets, n.id ∉ E s →
      (locF (hAt Hs s) P' n.id).c0 = (locF (hAt Hs s) P n.id).c0)
    (L : Nat → Nat → List Nat) (hL : ∀ t, t < Hs.length → PinsPerm (hAt Hs t) (L t))
    (gs : Nat → GainStructure)
    (hgs : ∀ t, t < Hs.length → (gs t).H = conc (hAt Hs t) P' (L t)) (updateG : Bool)
    (Q : Nat → GainStructure → Prop)
    (hQ : ∀ t, t < Hs.length → Outcome B (runIf (updateG = true)
      (refreshGains (gs t) (c0Of (hAt Hs t) (globF Hs P'))) (gs t))
      (fun s => s.H = conc (hAt Hs t) P' (L t) ∧
        Q t { s with C := cOf (hAt Hs t) (globF Hs P') })) :
    Outcome B (updateC dUp dDown np updateG own
        ((List.range Hs.length).map (fun t => uOf Hs np P t (gs t)))
        ((List.range Hs.length).map (fun s => reports np (E s) (claim0 Hs P P' s))))
      (fun us => us.length = Hs.length ∧ ∀ (t : Nat) (u : UState), us[t]? = some u →
        ∃ s, u = uOf Hs np P' t s ∧ Q t s ∧ s.H = conc (hAt Hs t) P' (L t) ∧
          s.C = cOf (hAt Hs t) (globF Hs P')) := by
  set p := Hs.length with hp
  unfold updateC
  simp only [List.length_map, List.length_range]
  -- the owners
  have hown : (List.range p).mapM (fun t => do
      let o ← vget own t
      let u ← vget ((List.range p).map (fun t => uOf Hs np P t (gs t))) t
      (inbox dUp ((List.range p).map (fun s => reports np (E s) (claim0 Hs P P' s))) t).foldlM
        (ownerStep np o.costs u.owned) (u.owned, u.cutMine)) =
      .ok ((List.range p).map (fun t => (ownedL np t (globF Hs P'),
        ownCut np t (globF Hs P') (unionCost Hs)))) := by
    apply mapM_ok
    intro t ht
    have ht := List.mem_range.1 ht
    rw [ho.eq, vget_ok (rangeMap_get ht _)]; simp only [ok_bind]
    rw [vget_ok (rangeMap_get ht _)]; simp only [ok_bind]
    unfold uOf
    simp only
    rw [ownerStep_fold b.hv]
    · have hnew : ownedL np t (shiftF (globF Hs P) (delta (globF Hs P)
          (inbox dUp ((List.range p).map (fun s => reports np (E s) (claim0 Hs P P' s))) t))) =
          ownedL np t (globF Hs P') := by
        unfold ownedL
        apply List.map_congr_left
        intro i hi
        have hi := List.mem_range.1 hi
        have := new_counts b h01 h01' hUp E hE hcov (np.glob i t)
        rw [b.hv.owner_glob t ht i hi] at this
        exact this
      have hcut : ownCut np t (shiftF (globF Hs P) (delta (globF Hs P)
          (inbox dUp ((List.range p).map (fun s => reports np (E s) (claim0 Hs P P' s))) t)))
          (unionCost Hs) = ownCut np t (globF Hs P') (unionCost Hs) := by
        rw [← ownedCut_eq, ← ownedCut_eq, hnew]
      rw [hnew, hcut]
      congr 2
      omega
    · intro m hm
      obtain ⟨o, ho', hmo⟩ := (mem_inbox hUp).1 hm
      obtain ⟨s, hs, rfl⟩ := List.mem_map.1 ho'
      obtain ⟨e, he, heq⟩ := List.mem_map.1 hmo
      simp only [Prod.mk.injEq] at heq
      obtain ⟨h1, h2⟩ := heq
      have hs := List.mem_range.1 hs
      subst h2
      obtain ⟨n, hn, hne⟩ := List.mem_map.1 (hsub s hs e he)
      have hne : n.id = e := hne
      exact ⟨by rw [← hne]; exact b.D.ids _ (hAt_mem hs) n hn, h1⟩
  rw [hown]; simp only [ok_bind]
  -- the replies
  have hrep : (List.range p).mapM (fun t => do
      let o ← vget own t
      let u ← vget ((List.range p).map (fun t => uOf Hs np P t (gs t))) t
      let a ← vget ((List.range p).map (fun t => (ownedL np t (globF Hs P'),
        ownCut np t (globF Hs P') (unionCost Hs)))) t
      ownerReplies p np t o.procs u.owned a.1) =
      .ok ((List.range p).map (fun t => repliesOf np t procs (globF Hs P) (globF Hs P'))) := by
    apply mapM_ok
    intro t ht
    have ht := List.mem_range.1 ht
    rw [ho.eq, vget_ok (rangeMap_get ht _)]; simp only [ok_bind]
    rw [vget_ok (rangeMap_get ht _)]; simp only [ok_bind]
    rw [vget_ok (rangeMap_get ht _)]; simp only [ok_bind]
    apply ownerReplies_ok
    intro i hi r hr
    exact ((ho.mem _ (b.hv.glob_lt t ht i hi) r).1 hr).1
  rw [hrep]; simp only [ok_bind]
  -- the processors
  refine Outcome.range (fun t u => ∃ s, u = uOf Hs np P' t s ∧ Q t s ∧
    s.H = conc (hAt Hs t) P' (L t) ∧ s.C = cOf (hAt Hs t) (globF Hs P')) ?_
  intro t ht
  rw [vget_ok (rangeMap_get ht _)]; simp only [ok_bind]
  rw [vget_ok (rangeMap_get ht _)]; simp only [ok_bind]
  have wt := b.D.wf _ (hAt_mem ht)
  unfold updateLocal uOf
  simp only
  rw [hgs t ht, receivePrev_ok wt (A' := globF Hs P')]
  · simp only [ok_bind]
    refine (hQ t ht).bind ?_
    rintro s ⟨hsH, hsQ⟩
    have hsc : setCounts (conc (hAt Hs t) P' (L t)) (c0Of (hAt Hs t) (globF Hs P')) =
        .ok (cOf (hAt Hs t) (globF Hs P')) := by
      have h1 := setCounts_ok wt (h01' _ (hAt_mem ht)) (hL t ht) (b.rsize (hAt_mem ht) h01')
      have e1 : c0Of (hAt Hs t) (viewF P' (L t) (remF Hs (hAt Hs t) P')) =
          c0Of (hAt Hs t) (globF Hs P') := by
        unfold c0Of
        apply List.map_congr_left
        intro n hn
        rw [view_glob wt (hL t ht) hn]
      have e2 : cOf (hAt Hs t) (viewF P' (L t) (remF Hs (hAt Hs t) P')) =
          cOf (hAt Hs t) (globF Hs P') := cOf_congr (fun n hn => view_glob wt (hL t ht) hn)
      rw [e1, e2] at h1
      exact h1
    rw [hsH, hsc]; simp only [ok_bind]
    refine Outcome.pure' ⟨{ s with C := cOf (hAt Hs t) (globF Hs P') }, ?_, hsQ, hsH, rfl⟩
    rw [← hsH]
  · intro m hm
    obtain ⟨o, ho', hmo⟩ := (mem_inbox hDown).1 hm
    obtain ⟨t', ht', rfl⟩ := List.mem_map.1 ho'
    have ht' := List.mem_range.1 ht'
    obtain ⟨he, -, -, hr, hc⟩ := (mem_repliesOf b.hv ht').1 hmo
    exact ⟨((ho.mem _ he t).1 hr).2, hc⟩
  · intro n hn hne
    have he := b.D.ids _ (hAt_mem ht) n hn
    refine (mem_inbox hDown).2 ⟨_, List.mem_map_of_mem (List.mem_range.2 (b.hv.owner_lt _ he)), ?_⟩
    exact (mem_repliesOf b.hv (b.hv.owner_lt _ he)).2 ⟨he, rfl, hne,
      (ho.mem _ he t).2 ⟨ht, List.mem_map_of_mem hn⟩, rfl⟩

end PMondriaan
