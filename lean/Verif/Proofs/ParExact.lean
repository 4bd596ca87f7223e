import Verif.Proofs.ParFull
import Verif.Proofs.ParAgree

/-
`update_C` on its own: exact counts at owners and processors.
-/

namespace PMondriaan

open Spec

namespace Spec

/-- The processor `t` that is responsible for the nets `np.glob i t` holds their counts over all
processors, and the cost of the cut ones, for the labelling `P`. -/
structure OwnerExact (Hs : List Hypergraph) (P : Nat → Int) (np : NetPart) (t : Nat)
    (owned : List Cnt) (cut : Int) : Prop where
  counts : owned = (List.range (np.count t)).map (fun i =>
    ⟨pinCount P (unionNet Hs (np.glob i t)) 0, pinCount P (unionNet Hs (np.glob i t)) 1⟩)
  cut : cut = cutNet P ((List.range (np.count t)).map (fun i => unionNet Hs (np.glob i t)))

/-- The counts a processor works with after its own moves: it knows the labels `P` of the pins on the
other processors and the new labels `P'` of its own. -/
def viewCount (Hs : List Hypergraph) (P P' : Nat → Int) (n : Net) (q : Int) : Int :=
  (pinCount P (unionNet Hs n.id) q : Int) - pinCount P n q + pinCount P' n q

end Spec

/-! ### The gains are no part of the counts -/

theorem bind_ok {α β : Type} {x : Res α} {f : α → Res β} {b : β} (h : x >>= f = .ok b) :
    ∃ a, x = .ok a ∧ f a = .ok b := by
  cases x with
  | error e => cases h
  | ok a => exact ⟨a, rfl, h⟩

theorem foldlM_keeps {α β γ : Type} (π : β → γ) {f : β → α → Res β}
    (h : ∀ s a s', f s a = .ok s' → π s' = π s) : ∀ (l : List α) (s s' : β),
    l.foldlM f s = .ok s' → π s' = π s := by
  intro l
  induction l with
  | nil =>
    intro s s' h'
    rw [List.foldlM_nil, pure_eq_ok] at h'
    rw [Except.ok.inj h']
  | cons a l ih =>
    intro s s' h'
    rw [List.foldlM_cons] at h'
    obtain ⟨s1, h1, h2⟩ := bind_ok h'
    rw [ih _ _ h2, h _ _ _ h1]

theorem runIf_keeps {β γ : Type} (π : β → γ) {c : Prop} [Decidable c] {x : Res β} {s s' : β}
    (hx : ∀ s', x = .ok s' → π s' = π s) (h : runIf c x s = .ok s') : π s' = π s := by
  unfold runIf at h
  split at h
  · exact hx s' h
  · rw [Except.ok.inj h]

theorem setBucket_H {s s' : GainStructure} {q : Int} {b : Buckets} (h : s.setBucket q b = .ok s') :
    s'.H = s.H := by
  unfold GainStructure.setBucket at h
  split at h
  · rw [← Except.ok.inj h]
  · split at h
    · rw [← Except.ok.inj h]
    · cases h

theorem addGain_H {s s' : GainStructure} {u : Nat} {x : Int} (h : s.addGain u x = .ok s') :
    s'.H = s.H := by
  unfold GainStructure.addGain at h
  obtain ⟨i, -, h⟩ := bind_ok h
  obtain ⟨old, -, h⟩ := bind_ok h
  cases old with
  | none => rw [← Except.ok.inj h]
  | some g =>
    obtain ⟨v, -, h⟩ := bind_ok h
    obtain ⟨b, -, h⟩ := bind_ok h
    obtain ⟨b1, -, h⟩ := bind_ok h
    obtain ⟨b2, -, h⟩ := bind_ok h
    obtain ⟨s1, h1, h⟩ := bind_ok h
    obtain ⟨gs, -, h⟩ := bind_ok h
    rw [← Except.ok.inj h]
    show s1.H = s.H
    exact setBucket_H h1

theorem addGainSide_H {s s' : GainStructure} {n : Net} {q x : Int}
    (h : addGainSide s n q x = .ok s') : s'.H = s.H := by
  unfold addGainSide at h
  obtain ⟨u, -, h⟩ := bind_ok h
  obtain ⟨v, -, h⟩ := bind_ok h
  exact runIf_keeps (·.H) (fun _ h => addGain_H h) h

theorem updateGains_H {s s' : GainStructure} {n : Net} {a b : Cnt}
    (h : updateGains s n a b = .ok s') : s'.H = s.H := by
  unfold updateGains at h
  obtain ⟨s1, h1, h⟩ := bind_ok h
  obtain ⟨s2, h2, h⟩ := bind_ok h
  obtain ⟨s3, h3, h⟩ := bind_ok h
  obtain ⟨s4, h4, h⟩ := bind_ok h
  obtain ⟨s5, h5, h⟩ := bind_ok h
  have e1 := runIf_keeps (·.H) (fun _ h =>
    foldlM_keeps (·.H) (fun _ _ _ h => addGain_H h) _ _ _ h) h1
  have e2 := runIf_keeps (·.H) (fun _ h => addGainSide_H h) h2
  have e3 := runIf_keeps (·.H) (fun _ h => addGainSide_H h) h3
  have e4 := runIf_keeps (·.H) (fun _ h =>
    foldlM_keeps (·.H) (fun _ _ _ h => addGain_H h) _ _ _ h) h4
  have e5 := runIf_keeps (·.H) (fun _ h => addGainSide_H h) h5
  have e6 := runIf_keeps (·.H) (fun _ h => addGainSide_H h) h
  rw [e6, e5, e4, e3, e2, e1]

theorem refreshGains_H {s s' : GainStructure} {prev0 : List Int}
    (h : refreshGains s prev0 = .ok s') : s'.H = s.H := by
  unfold refreshGains at h
  refine foldlM_keeps (·.H) (fun t i t' h => ?_) _ _ _ h
  unfold refreshStep at h
  obtain ⟨c0, -, h⟩ := bind_ok h
  obtain ⟨c, -, h⟩ := bind_ok h
  obtain ⟨n, -, h⟩ := bind_ok h
  exact runIf_keeps (·.H) (fun _ h => updateGains_H h) h

/-- What `update_C` leaves behind apart from the gains. -/
def UState.noGains (u : UState) : Hypergraph × List Cnt × List Int × List Cnt × Int :=
  (u.gs.H, u.gs.C, u.prev0, u.owned, u.cutMine)

theorem updateLocal_false {b : Bool} {u u' : UState} {owned : List Cnt} {cut : Int}
    {msgs : List (Nat × Int)} (h : updateLocal b u owned cut msgs = .ok u') :
    ∃ u'', updateLocal false u owned cut msgs = .ok u'' ∧ u''.noGains = u'.noGains := by
  unfold updateLocal at h ⊢
  obtain ⟨prev0, h1, h⟩ := bind_ok h
  obtain ⟨gs, h2, h⟩ := bind_ok h
  obtain ⟨C, h3, h⟩ := bind_ok h
  have hH : gs.H = u.gs.H := runIf_keeps (·.H) (fun _ h => refreshGains_H h) h2
  rw [hH] at h3
  rw [h1]; simp only [ok_bind]
  have : runIf (false = true) (refreshGains u.gs prev0) u.gs = .ok u.gs := by simp [runIf]
  rw [this]; simp only [ok_bind]
  rw [h3]; simp only [ok_bind, pure_eq_ok]
  refine ⟨_, rfl, ?_⟩
  rw [← Except.ok.inj h]
  unfold UState.noGains
  simp [hH]

theorem mapM_rel {α β γ : Type} {f g : α → Res β} (π : β → γ)
    (h : ∀ a b, f a = .ok b → ∃ b', g a = .ok b' ∧ π b' = π b) : ∀ (l : List α) (r : List β),
    l.mapM f = .ok r → ∃ r', l.mapM g = .ok r' ∧ r'.map π = r.map π := by
  intro l
  induction l with
  | nil =>
    intro r hr
    rw [List.mapM_nil, pure_eq_ok] at hr
    refine ⟨[], rfl, ?_⟩
    rw [← Except.ok.inj hr]
  | cons a l ih =>
    intro r hr
    rw [List.mapM_cons] at hr
    obtain ⟨b, h1, hr⟩ := bind_ok hr
    obtain ⟨r1, h2, hr⟩ := bind_ok hr
    obtain ⟨b', h3, h4⟩ := h a b h1
    obtain ⟨r', h5, h6⟩ := ih r1 h2
    refine ⟨b' :: r', ?_, ?_⟩
    · rw [List.mapM_cons, h3]; simp only [ok_bind]
      rw [h5]; rfl
    · rw [pure_eq_ok] at hr
      rw [← Except.ok.inj hr, List.map_cons, List.map_cons, h4, h6]

theorem updateC_false {dUp dDown : Delivery (Nat × Int)} {np : NetPart} {b : Bool}
    {own : List OwnerData} {us us' : List UState} {outs : List (List (Nat × (Nat × Int)))}
    (h : updateC dUp dDown np b own us outs = .ok us') :
    ∃ us'', updateC dUp dDown np false own us outs = .ok us'' ∧
      us''.map UState.noGains = us'.map UState.noGains := by
  unfold updateC at h ⊢
  dsimp only at h ⊢
  obtain ⟨owned, h1, h⟩ := bind_ok h
  obtain ⟨replies, h2, h⟩ := bind_ok h
  rw [h1]; simp only [ok_bind]
  rw [h2]; simp only [ok_bind]
  refine mapM_rel UState.noGains ?_ _ _ h
  intro t u' h
  obtain ⟨u, h3, h⟩ := bind_ok h
  obtain ⟨a, h4, h⟩ := bind_ok h
  rw [h3]; simp only [ok_bind]
  rw [h4]; simp only [ok_bind]
  exact updateLocal_false h

/-! ### Translation -/

theorem globF_pinCount (Hs : List Hypergraph) (P : Nat → Int) (e : Nat) :
    globF Hs P e = ⟨pinCount P (unionNet Hs e) 0, pinCount P (unionNet Hs e) 1⟩ := rfl

theorem ownerExact_iff {N : Nat} {Hs : List Hypergraph} {np : NetPart} (b : ParBase N Hs np)
    {P : Nat → Int} (h01 : GParts01 Hs P) {t : Nat} {owned : List Cnt} {cut : Int} :
    OwnerExact Hs P np t owned cut ↔
      owned = ownedL np t (globF Hs P) ∧ cut = ownCut np t (globF Hs P) (unionCost Hs) := by
  have hc : ownCut np t (globF Hs P) (unionCost Hs) =
      cutNet P ((List.range (np.count t)).map (fun i => unionNet Hs (np.glob i t))) := by
    unfold ownCut cutNet
    rw [List.map_map]
    congr 1
    apply List.map_congr_left
    intro i _
    simp only [Function.comp_apply]
    have := globCut_iff b.D.wf h01 (np.glob i t)
    by_cases h : IsCut P (unionNet Hs (np.glob i t))
    · rw [if_pos h, if_pos (this.2 h)]; rfl
    · rw [if_neg h, if_neg (fun h' => h (this.1 h'))]
  constructor
  · rintro ⟨h1, h2⟩
    exact ⟨h1, by rw [h2, hc]⟩
  · rintro ⟨h1, h2⟩
    exact ⟨h1, by rw [h2, hc]⟩

theorem viewCount_eq {Hs : List Hypergraph} {H : Hypergraph} (w : WF H) {P P' : Nat → Int}
    {n : Net} (hn : n ∈ H.nets) :
    (⟨viewCount Hs P P' n 0, viewCount Hs P P' n 1⟩ : Cnt) = viewF P' (pinsOf H) (remF Hs H P) n.id := by
  have e : ∀ Q : Nat → Int, locF H Q n.id = ⟨pinCount Q n 0, pinCount Q n 1⟩ := by
    intro Q
    unfold locF exactF pinCount
    rw [pinsOf_eq w hn]
  have e2 : exactF P' (pinsOf H) n.id = ⟨pinCount P' n 0, pinCount P' n 1⟩ := e P'
  unfold viewF remF viewCount
  rw [e P, e2, globF_pinCount]
  simp only [Cnt.mk.injEq]
  constructor <;> omega

/-- `update_C` after arbitrary local changes. `P` is the labelling before, the labels stored in `Hs`
are those after. -/
theorem updateC_exact {N : Nat} {Hs : List Hypergraph} {np : NetPart} (b : ParBase N Hs np)
    {procs : Nat → List Nat} {own : List OwnerData} (ho : OwnSpec N Hs np procs own)
    {P : Nat → Int} (h01 : GParts01 Hs P) (hb : ∀ H ∈ Hs, Bipartitioned H)
    {dUp dDown : Delivery (Nat × Int)} (hUp : Fair dUp) (hDown : Fair dDown)
    (gs : Nat → GainStructure) (hgs : ∀ t, t < Hs.length → (gs t).H = hAt Hs t)
    (hC : ∀ t, t < Hs.length → (gs t).C = (hAt Hs t).nets.map (fun n =>
      ⟨viewCount Hs P (partOf (unionH N Hs)) n 0, viewCount Hs P (partOf (unionH N Hs)) n 1⟩)) :
    ∃ outs us', ((List.range Hs.length).map (fun t => uOf Hs np P t (gs t))).mapM (fun u =>
        changeSends Hs.length np u.gs.H u.gs.C u.prev0) = .ok outs ∧
      updateC dUp dDown np false own ((List.range Hs.length).map (fun t => uOf Hs np P t (gs t)))
        outs = .ok us' ∧
      us'.map UState.noGains = (List.range Hs.length).map (fun t => (hAt Hs t,
        cOf (hAt Hs t) (globF Hs (partOf (unionH N Hs))),
        c0Of (hAt Hs t) (globF Hs (partOf (unionH N Hs))),
        ownedL np t (globF Hs (partOf (unionH N Hs))),
        ownCut np t (globF Hs (partOf (unionH N Hs))) (unionCost Hs))) := by
  set P' := partOf (unionH N Hs) with hP'
  have D := b.D
  have h01' : GParts01 Hs P' := union_01 D hb
  have hwf : ∀ t, t < Hs.length → WF (hAt Hs t) := fun t ht => D.wf _ (hAt_mem ht)
  have hpin : ∀ t, t < Hs.length → PinsPerm (hAt Hs t) (pinsOf (hAt Hs t)) :=
    fun t ht => pinsPerm_self (hwf t ht)
  let F : Nat → Nat → Cnt := fun t => viewF P' (pinsOf (hAt Hs t)) (remF Hs (hAt Hs t) P)
  have hC' : ∀ t, t < Hs.length → (gs t).C = cOf (hAt Hs t) (F t) := by
    intro t ht
    rw [hC t ht]
    unfold cOf
    apply List.map_congr_left
    intro n hn
    exact viewCount_eq (hwf t ht) hn
  have hHc : ∀ t, t < Hs.length → (gs t).H = conc (hAt Hs t) P' (pinsOf (hAt Hs t)) := by
    intro t ht
    rw [hgs t ht, conc_union D ht]
  let E : Nat → List Nat := fun t => changedNets (hAt Hs t) (globF Hs P) (F t)
  have hclaim : ∀ t, t < Hs.length → ∀ nn ∈ (hAt Hs t).nets, (F t nn.id).c0 = claim0 Hs P P' t nn.id := by
    intro t ht nn hnn
    unfold claim0
    rw [locF_exact (hwf t ht) (hpin t ht) hnn]
    rfl
  have houts : ((List.range Hs.length).map (fun t => uOf Hs np P t (gs t))).mapM (fun u =>
        changeSends Hs.length np u.gs.H u.gs.C u.prev0) =
      .ok ((List.range Hs.length).map (fun t => reports np (E t) (claim0 Hs P P' t))) := by
    apply mapM_rangeMap
    intro t ht
    unfold uOf
    simp only
    rw [hHc t ht, hC' t ht, changeSends_ok b.hv (fun n hn => D.ids _ (hAt_mem ht) n hn)]
    rfl
  have hupd := updateC_out (B := True) b ho h01 h01' hUp hDown E
    (fun s hs => changedNets_nodup (hwf s hs) _ _) (fun s hs e he => changedNets_sub _ _ he)
    (fun s hs nn hnn hnot => by
      have h1 := changedNets_not hnn hnot
      rw [hclaim s hs nn hnn] at h1
      unfold claim0 remF at h1
      simp only at h1
      omega)
    (fun t => pinsOf (hAt Hs t)) hpin gs hHc false (fun _ _ => True)
    (fun t ht => by
      unfold runIf
      rw [if_neg (by simp)]
      exact Outcome.pure' ⟨hHc t ht, trivial⟩)
  rcases hupd with ⟨us', h1, hlen, hus⟩ | ⟨hf, -⟩
  · refine ⟨_, us', houts, h1, ?_⟩
    apply List.ext_getElem?
    intro t
    by_cases ht : t < Hs.length
    · obtain ⟨u, hu⟩ : ∃ u, us'[t]? = some u := ⟨us'[t], List.getElem?_eq_getElem (by omega)⟩
      rw [rangeMap_get ht, List.getElem?_map, hu]
      obtain ⟨s, e1, -, e2, e3⟩ := hus t u hu
      rw [conc_union D ht] at e2
      simp only [Option.map_some]
      rw [e1]
      unfold uOf UState.noGains
      simp only [e2, e3]
    · simp [ht, hlen]
  · exact absurd trivial hf

end PMondriaan
