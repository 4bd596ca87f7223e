import Verif.Proofs.AddCutWorld

/-
Reasoning about programs of groups: what holds when they end, whatever the other groups send.
-/

namespace PMondriaan

open Spec

/-- However the program continues after its synchronizations: when it ends, `Q` holds for the result and the ids
delivered so far; it only fails in one of the ways `E`. At each synchronization all processors receive the same ids.
`G` has the ids delivered before. When `S` holds, there are exactly `n` synchronizations before a normal end. -/
def CutProg.Ends {α : Type} (S : Prop) (Q : List Nat → α → Prop) (E : Err → Prop) : CutProg α → Nat → List Nat → Prop
  | .ret (.ok a), n, G => (S → n = 0) ∧ Q G a
  | .ret (.error e), _, _ => E e
  | .sync sends next, n, G => (S → 0 < n) ∧ ∀ (ids : List Nat) (ins : List (List Nat)), ins.length = sends.length →
      (∀ i ∈ ins, ∀ e, e ∈ i ↔ e ∈ ids) → (next ins).Ends S Q E (n - 1) (G ++ ids)

theorem CutProg.Ends.mono {α : Type} {S : Prop} {Q Q' : List Nat → α → Prop} {E : Err → Prop}
    (h : ∀ G a, Q G a → Q' G a) {x : CutProg α} : ∀ {n : Nat} {G : List Nat}, x.Ends S Q E n G → x.Ends S Q' E n G := by
  induction x with
  | ret r =>
    intro n G hx
    cases r with
    | ok a => exact ⟨hx.1, h G a hx.2⟩
    | error e => exact hx
  | sync sends next ih => exact fun hx => ⟨hx.1, fun ids ins h1 h2 => ih ins (hx.2 ids ins h1 h2)⟩

/-- Without `S` the number does not matter. -/
theorem CutProg.Ends.any {α : Type} {S : Prop} (hS : ¬ S) {Q : List Nat → α → Prop} {E : Err → Prop} {x : CutProg α} :
    ∀ {n : Nat} (m : Nat) {G : List Nat}, x.Ends S Q E n G → x.Ends S Q E m G := by
  induction x with
  | ret r =>
    intro n m G hx
    cases r with
    | ok a => exact ⟨fun h => absurd h hS, hx.2⟩
    | error e => exact hx
  | sync sends next ih =>
    exact fun m G hx => ⟨fun h => absurd h hS, fun ids ins h1 h2 => ih ins (m - 1) (hx.2 ids ins h1 h2)⟩

theorem CutProg.Ends.change {α : Type} {S : Prop} {Q : List Nat → α → Prop} {E : Err → Prop} {x : CutProg α}
    {n m : Nat} {G : List Nat} (h : S → n = m) (hx : x.Ends S Q E n G) : x.Ends S Q E m G := by
  by_cases hS : S
  · rw [← h hS]; exact hx
  · exact hx.any hS m

theorem CutProg.Ends.andThen {α β : Type} {S : Prop} {Q : List Nat → α → Prop} {Q' : List Nat → β → Prop}
    {E : Err → Prop} {f : α → CutProg β} {m : Nat} (hf : ∀ G a, Q G a → (f a).Ends S Q' E m G) {x : CutProg α} :
    ∀ {n : Nat} {G : List Nat}, x.Ends S Q E n G → (x.andThen f).Ends S Q' E (n + m) G := by
  induction x with
  | ret r =>
    intro n G hx
    cases r with
    | ok a => exact (hf G a hx.2).change (fun h => by rw [hx.1 h, Nat.zero_add])
    | error e => exact hx
  | sync sends next ih =>
    intro n G hx
    refine ⟨fun h => by have := hx.1 h; omega, fun ids ins h1 h2 => ?_⟩
    refine (ih ins (hx.2 ids ins h1 h2)).change (fun h => ?_)
    have := hx.1 h
    omega

theorem CutProg.Ends.both {α β : Type} {S : Prop} {Q : List Nat → α → Prop} {Q' : List Nat → β → Prop}
    {E : Err → Prop} (hE : ¬ S → E .abort) {x : CutProg α} : ∀ {y : CutProg β} {n : Nat} {G : List Nat},
    x.Ends S Q E n G → y.Ends S Q' E n G → (x.both y).Ends S (fun G ab => Q G ab.1 ∧ Q' G ab.2) E n G := by
  induction x with
  | ret r =>
    intro y n G hx hy
    cases r with
    | ok a =>
      cases y with
      | ret r' =>
        cases r' with
        | ok b => exact ⟨hx.1, hx.2, hy.2⟩
        | error e => exact hy
      | sync s nx =>
        refine hE fun h => ?_
        have h1 := hx.1 h
        have h2 := hy.1 h
        omega
    | error e => exact hx
  | sync sends next ih =>
    intro y n G hx hy
    cases y with
    | ret r' =>
      cases r' with
      | ok b =>
        refine hE fun h => ?_
        have h1 := hx.1 h
        have h2 := hy.1 h
        omega
      | error e => exact hy
    | sync s nx =>
      refine ⟨hx.1, fun ids ins h1 h2 => ?_⟩
      rw [List.length_append] at h1
      refine ih _ (hx.2 ids _ ?_ ?_) (hy.2 ids _ ?_ ?_)
      · rw [List.length_take]; omega
      · exact fun i hi => h2 i (List.mem_of_mem_take hi)
      · rw [List.length_drop]; omega
      · exact fun i hi => h2 i (List.mem_of_mem_drop hi)

theorem CutProg.Ends.runWorld {α : Type} {S : Prop} {Q : List Nat → α → Prop} {E : Err → Prop} {d : Nat → Delivery Nat}
    (hd : ∀ i, Fair (d i)) {x : CutProg α} : ∀ {n : Nat} {G : List Nat} (i : Nat), x.Ends S Q E n G →
    (∃ G' a, x.runWorld d i = .ok a ∧ Q G' a) ∨ ∃ e, x.runWorld d i = .error e ∧ E e := by
  induction x with
  | ret r =>
    intro n G i hx
    cases r with
    | ok a => exact Or.inl ⟨G, a, rfl, hx.2⟩
    | error e => exact Or.inr ⟨e, rfl, hx⟩
  | sync sends next ih =>
    intro n G i hx
    refine ih _ (i + 1) (hx.2 sends.flatten _ (by simp) ?_)
    intro m hm e
    obtain ⟨t, ht, rfl⟩ := List.mem_map.1 hm
    exact (inbox_toEvery (hd i) (List.mem_range.1 ht) sends).mem_iff

/-! ### The reports of a group -/

theorem foldlM_error {α σ : Type} {f : σ → α → Res σ} {e : Err} : ∀ {l : List α} {s : σ},
    l.foldlM f s = .error e → ∃ a ∈ l, ∃ s', f s' a = .error e := by
  intro l
  induction l with
  | nil => intro s h; cases h
  | cons a l ih =>
    intro s h
    rw [List.foldlM_cons] at h
    cases hs : f s a with
    | error e' =>
      rw [hs, error_bind] at h
      injection h with h
      exact ⟨a, by simp, s, by rw [hs, h]⟩
    | ok s' =>
      rw [hs, ok_bind] at h
      obtain ⟨b, hb, h⟩ := ih h
      exact ⟨b, by simp [hb], h⟩

theorem foldlM_ok_mem {α σ : Type} {f : σ → α → Res σ} : ∀ {l : List α} {s r : σ},
    l.foldlM f s = .ok r → ∀ a ∈ l, ∃ s' s'', f s' a = .ok s'' := by
  intro l
  induction l with
  | nil => intro s r _ a ha; cases ha
  | cons b l ih =>
    intro s r h a ha
    rw [List.foldlM_cons, bind_eq_ok] at h
    obtain ⟨s', h1, h2⟩ := h
    rcases List.mem_cons.1 ha with rfl | ha
    · exact ⟨s, s', h1⟩
    · exact ih h2 a ha

theorem mapM_error_mem {α β : Type} {f : α → Res β} {e : Err} : ∀ {l : List α},
    l.mapM f = .error e → ∃ a ∈ l, f a = .error e := by
  intro l
  induction l with
  | nil => intro h; cases h
  | cons a l ih =>
    intro h
    rw [List.mapM_cons] at h
    cases hs : f a with
    | error e' =>
      rw [hs, error_bind] at h
      injection h with h
      exact ⟨a, by simp, by rw [hs, h]⟩
    | ok b =>
      rw [hs, ok_bind] at h
      cases hl : l.mapM f with
      | error e' =>
        rw [hl, error_bind] at h
        injection h with h
        rw [h] at hl
        obtain ⟨c, hc, h⟩ := ih hl
        exact ⟨c, by simp [hc], h⟩
      | ok bs => rw [hl, ok_bind] at h; cases h

theorem mapM_ok_mem {α β : Type} {f : α → Res β} : ∀ {l : List α} {r : List β},
    l.mapM f = .ok r → (∀ a ∈ l, ∃ b, f a = .ok b) ∧ r.length = l.length := by
  intro l
  induction l with
  | nil =>
    intro r h
    injection h with h
    exact ⟨by simp, by rw [← h]; rfl⟩
  | cons a l ih =>
    intro r h
    rw [List.mapM_cons, bind_eq_ok] at h
    obtain ⟨b, h1, h2⟩ := h
    rw [bind_eq_ok] at h2
    obtain ⟨bs, h3, h4⟩ := h2
    injection h4 with h4
    obtain ⟨h5, h6⟩ := ih h3
    refine ⟨?_, by rw [← h4, List.length_cons, List.length_cons, h6]⟩
    intro c hc
    rcases List.mem_cons.1 hc with rfl | hc
    · exact ⟨b, h1⟩
    · exact h5 c hc

theorem vget_error {α : Type} {l : List α} {i : Nat} {e : Err} (h : vget l i = .error e) : e = .ub := by
  unfold vget at h
  split at h
  · cases h
  · injection h with h; exact h.symm

theorem vset_error {α : Type} {l : List α} {i : Nat} {a : α} {e : Err} (h : vset l i a = .error e) : e = .ub := by
  unfold vset at h
  split at h
  · cases h
  · injection h with h; exact h.symm

theorem reportedNets_error {H : Hypergraph} (w : WF H) {e : Err} (h : reportedNets H = .error e) : e = .ub := by
  obtain ⟨n, hn, s, h⟩ := foldlM_error h
  by_cases hne : n.vertices = []
  · rw [reportsNet_empty H hne, error_bind] at h
    injection h with h
    exact h.symm
  · rw [reportsNet_ok w hn hne, ok_bind] at h
    cases h

theorem reportedNets_pins {H : Hypergraph} {r : List Nat} (h : reportedNets H = .ok r) :
    ∀ n ∈ H.nets, n.vertices ≠ [] := by
  intro n hn hne
  obtain ⟨s, s', h⟩ := foldlM_ok_mem h n hn
  rw [reportsNet_empty H hne, error_bind] at h
  cases h

theorem sendLabels_error {np : NetPart} {p : Nat} {H : Hypergraph} (w : WF H) {e : Err}
    (h : sendLabels np p H = .error e) : e = .ub := by
  obtain ⟨n, hn, h⟩ := mapM_error_mem h
  cases hv : vget n.vertices 0 with
  | error e' =>
    rw [hv, error_bind] at h
    injection h with h
    rw [← h]; exact vget_error hv
  | ok v0 =>
    rw [hv, ok_bind] at h
    have hmem : v0 ∈ n.vertices := by
      unfold vget at hv
      split at hv
      · rename_i a ha
        injection hv with hv
        rw [← hv]; exact List.mem_of_getElem? ha
      · cases hv
    obtain ⟨u, hu, hid⟩ := List.mem_map.1 (pins_isVertex w hn v0 hmem)
    have hid : u.id = v0 := hid
    have hvo : H.vertexOf v0 = .ok u := by rw [← hid]; exact w.vertexOf_mem hu
    rw [hvo, ok_bind, labelLoop_ok w _ _ (pins_isVertex w hn), ok_bind] at h
    unfold send at h
    split at h
    · cases h
    · injection h with h; exact h.symm

theorem sendLabels_pins {np : NetPart} {p : Nat} {H : Hypergraph} {r : List (Nat × (Nat × Int))}
    (h : sendLabels np p H = .ok r) : ∀ n ∈ H.nets, n.vertices ≠ [] := by
  intro n hn hne
  obtain ⟨b, hb⟩ := (mapM_ok_mem h).1 n hn
  rw [hne] at hb
  cases hb

theorem collectLabel_error {np : NetPart} {st : List Int × List Nat} {m : Nat × Int} {e : Err}
    (h : collectLabel np st m = .error e) : e = .ub := by
  unfold collectLabel at h
  cases hv : vget st.1 (np.loc m.1) with
  | error e' =>
    rw [hv, error_bind] at h
    injection h with h
    rw [← h]; exact vget_error hv
  | ok t =>
    rw [hv, ok_bind] at h
    split at h
    · cases hs : vset st.1 (np.loc m.1) m.2 with
      | error e' =>
        rw [hs, error_bind] at h
        injection h with h
        rw [← h]; exact vset_error hs
      | ok tc => rw [hs, ok_bind] at h; cases h
    · split at h
      · cases hs : vset st.1 (np.loc m.1) (-1) with
        | error e' =>
          rw [hs, error_bind] at h
          injection h with h
          rw [← h]; exact vset_error hs
        | ok tc => rw [hs, ok_bind] at h; cases h
      · cases h

/-- The reports of a group that does not consist of one processor. -/
def manyReports (C : CutEnv) (path : List Bool) (base : Nat) (Hs : List Hypergraph) : Res (List (List Nat)) := do
  let outs ← Hs.mapM (fun H => sendLabels (C.np Hs.length) Hs.length H)
  (List.range Hs.length).mapM (fun t => do
    let r ← (inbox (C.dLab path) outs t).foldlM (collectLabel (C.np Hs.length))
      (List.replicate ((C.np Hs.length).count (base + t)) (-2), [])
    pure r.2)

theorem groupReports_eq (C : CutEnv) (path : List Bool) (base : Nat) (Hs : List Hypergraph) :
    (∃ H, Hs = [H] ∧ groupReports C path base Hs = (do let ids ← reportedNets H; pure [ids])) ∨
      groupReports C path base Hs = manyReports C path base Hs := by
  match Hs with
  | [] => exact Or.inr rfl
  | [H] => exact Or.inl ⟨H, rfl, rfl⟩
  | H :: K :: Hs => exact Or.inr rfl

/-- The reports fail only with undefined behaviour. When they succeed, no net is without local pins. -/
theorem groupReports_spec (C : CutEnv) (path : List Bool) (base : Nat) {Hs : List Hypergraph}
    (hw : ∀ H ∈ Hs, WF H) : groupReports C path base Hs = .error .ub ∨
      ∃ sends, groupReports C path base Hs = .ok sends ∧ sends.length = Hs.length ∧
        ∀ H ∈ Hs, ∀ n ∈ H.nets, n.vertices ≠ [] := by
  rcases groupReports_eq C path base Hs with ⟨H, rfl, e⟩ | e
  · rw [e]
    cases hr : reportedNets H with
    | error er =>
      left
      rw [reportedNets_error (hw H (by simp)) hr]
      rfl
    | ok ids =>
      right
      refine ⟨[ids], rfl, rfl, ?_⟩
      intro K hK
      rw [List.mem_singleton] at hK
      rw [hK]
      exact reportedNets_pins hr
  · rw [e]
    unfold manyReports
    cases ho : Hs.mapM (fun H => sendLabels (C.np Hs.length) Hs.length H) with
    | error er =>
      left
      obtain ⟨H, hH, h⟩ := mapM_error_mem ho
      rw [sendLabels_error (hw H hH) h]
      rfl
    | ok outs =>
      rw [ok_bind]
      cases hs : (List.range Hs.length).mapM (fun t => do
          let r ← (inbox (C.dLab path) outs t).foldlM (collectLabel (C.np Hs.length))
            (List.replicate ((C.np Hs.length).count (base + t)) (-2), [])
          pure r.2) with
      | error er =>
        left
        obtain ⟨t, -, h⟩ := mapM_error_mem hs
        cases hf : (inbox (C.dLab path) outs t).foldlM (collectLabel (C.np Hs.length))
            (List.replicate ((C.np Hs.length).count (base + t)) (-2), []) with
        | error e' =>
          rw [hf, error_bind] at h
          injection h with h
          obtain ⟨m, -, st, h'⟩ := foldlM_error hf
          rw [← h, collectLabel_error h']
        | ok r => rw [hf, ok_bind] at h; cases h
      | ok sends =>
        right
        refine ⟨sends, rfl, ?_, ?_⟩
        · have := (mapM_ok_mem hs).2
          rwa [List.length_range] at this
        · intro H hH
          obtain ⟨b, hb⟩ := (mapM_ok_mem ho).1 H hH
          exact sendLabels_pins hb

theorem removeSync_ends (C : CutEnv) (path : List Bool) (base : Nat) {xs : List (Hypergraph × List Net)}
    (hw : ∀ x ∈ xs, WF x.1) {S : Prop} {E : Err → Prop} (hE : E .ub) (G : List Nat) :
    (removeSync C path base xs).Ends S (fun G' ys => ∃ ids, G' = G ++ ids ∧
      List.Forall₂ (fun x y => SetAside ids x.1 x.2 y) xs ys ∧ ∀ x ∈ xs, ∀ n ∈ x.1.nets, n.vertices ≠ []) E 1 G := by
  unfold removeSync
  rcases groupReports_spec C path base (Hs := xs.map (·.1)) (by
    intro H hH; obtain ⟨x, hx, rfl⟩ := List.mem_map.1 hH; exact hw x hx) with h | ⟨sends, h, hl, hp⟩
  · rw [h]; exact hE
  · rw [h]
    refine ⟨fun _ => by omega, ?_⟩
    intro ids ins h1 h2
    rw [List.length_map] at hl
    have hlen : xs.length = ins.length := by omega
    obtain ⟨ys, h3, h4⟩ := mapM_forall2 (f := fun (x : (Hypergraph × List Net) × List Nat) => x.2.foldlM setAside x.1)
      (R := fun x y => SetAside ids x.1.1 x.1.2 y) (xs.zip ins) (by
        rintro ⟨⟨H, cut⟩, i⟩ hx
        obtain ⟨hx1, hx2⟩ := List.of_mem_zip hx
        obtain ⟨y, hy, hs⟩ := setAside_ok i (hw _ hx1) cut
        exact ⟨y, hy, hs.congr (h2 i hx2)⟩)
    show CutProg.Ends S _ E (CutProg.ret (List.mapM (fun (x : (Hypergraph × List Net) × List Nat) =>
      List.foldlM setAside x.1 x.2) (xs.zip ins))) 0 (G ++ ids)
    rw [h3]
    refine ⟨fun _ => rfl, ids, rfl, ?_, fun x hx => hp _ (List.mem_map_of_mem hx)⟩
    have : xs = (xs.zip ins).map Prod.fst := by rw [List.map_fst_zip (by omega)]
    rw [this, List.forall₂_map_left_iff]
    exact h4

end PMondriaan
