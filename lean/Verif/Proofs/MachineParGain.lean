import Verif.Model.MachineKLFMPar
import Verif.Proofs.MachineKLFM
import Verif.Proofs.ParRounds

/-
The gain structure of the parallel refinement in 64-bit arithmetic: what moves leave unchanged in the hypergraph, the weight of
the vertices that may still move, and the steps of `find_top_moves` and `update_gains`.
-/

namespace PMondriaan

open Spec

theorem vset_eq_ok' {α : Type} {l r : List α} {i : Nat} {a : α} (h : vset l i a = .ok r) : i < l.length ∧ r = l.set i a := by
  unfold vset at h
  split at h
  · rename_i h1
    cases h
    exact ⟨h1, rfl⟩
  · cases h

theorem foldlM_okInv {α σ : Type} {f : σ → α → Res σ} (I : σ → Prop) {l : List α}
    (step : ∀ s a s', a ∈ l → I s → f s a = .ok s' → I s') {s r : σ} (h0 : I s) (h : l.foldlM f s = .ok r) : I r := by
  induction l generalizing s with
  | nil => cases h; exact h0
  | cons a l ih =>
    rw [List.foldlM_cons, bind_eq_ok] at h
    obtain ⟨s1, h1, h2⟩ := h
    exact ih (fun s b s' hb => step s b s' (by simp [hb])) (step s a s1 (by simp) h0 h1) h2

theorem mapM_map_eq {α β γ : Type} {f : α → Res β} {g : β → γ} {g' : α → γ} (hf : ∀ a b, f a = .ok b → g b = g' a) :
    ∀ {l : List α} {r : List β}, l.mapM f = .ok r → r.map g = l.map g' := by
  intro l
  induction l with
  | nil => intro r h; cases h; rfl
  | cons a l ih =>
    intro r h
    rw [List.mapM_cons] at h
    simp only [bind_eq_ok] at h
    obtain ⟨b, h1, r', h2, h3⟩ := h
    cases h3
    rw [List.map_cons, List.map_cons, ih h2, hf a b h1]

/-! ### What moves leave unchanged -/

/-- The two hypergraphs differ only in the parts and in the order of the pins. -/
structure Frame (A B : Hypergraph) : Prop where
  vs : B.vertices.map (fun v => (v.id, v.nets, v.weight)) = A.vertices.map (fun v => (v.id, v.nets, v.weight))
  ns : B.nets.map (fun n => (n.id, n.cost)) = A.nets.map (fun n => (n.id, n.cost))
  vm : B.vmap = A.vmap
  nm : B.nmap = A.nmap

theorem Frame.refl (A : Hypergraph) : Frame A A := ⟨rfl, rfl, rfl, rfl⟩

theorem Frame.trans {A B C : Hypergraph} (h : Frame A B) (k : Frame B C) : Frame A C :=
  ⟨k.vs.trans h.vs, k.ns.trans h.ns, k.vm.trans h.vm, k.nm.trans h.nm⟩

theorem Frame.weights {A B : Hypergraph} (h : Frame A B) : B.vertices.map (·.weight) = A.vertices.map (·.weight) := by
  have := congrArg (List.map (fun x : Nat × List Nat × Int => x.2.2)) h.vs
  simpa [List.map_map, Function.comp_def] using this

theorem Frame.costs {A B : Hypergraph} (h : Frame A B) : B.nets.map (·.cost) = A.nets.map (·.cost) := by
  have := congrArg (List.map (fun x : Nat × Int => x.2)) h.ns
  simpa [List.map_map, Function.comp_def] using this

theorem Frame.vlen {A B : Hypergraph} (h : Frame A B) : B.vertices.length = A.vertices.length := by
  have := congrArg List.length h.vs
  simpa using this

theorem map_set_same {α β : Type} {f : α → β} {l : List α} {i : Nat} {a b : α} (h : l[i]? = some a) (hf : f b = f a) :
    (l.set i b).map f = l.map f := by
  apply List.ext_getElem?
  intro k
  rw [List.getElem?_map, List.getElem?_map, List.getElem?_set]
  split
  · rename_i e
    subst e
    rw [h]
    have : i < l.length := by
      by_contra hn
      rw [List.getElem?_eq_none (by omega)] at h
      cases h
    simp [this, hf]
  · rfl

theorem modifyNet_frame {H H' : Hypergraph} {e : Nat} {f : Net → Net} (hf : ∀ n, (f n).id = n.id ∧ (f n).cost = n.cost)
    (h : H.modifyNet e f = .ok H') : Frame H H' := by
  unfold Hypergraph.modifyNet at h
  split at h
  · cases h
  · split at h
    · rename_i n hn
      cases h
      refine ⟨rfl, ?_, rfl, rfl⟩
      exact map_set_same hn (by rw [(hf n).1, (hf n).2])
    · cases h

theorem moveSorted_frame {H H' : Hypergraph} {v : Nat} {C : List Cnt} (h : H.moveSorted v C = .ok H') : Frame H H' := by
  unfold Hypergraph.moveSorted at h
  simp only [bind_eq_ok] at h
  obtain ⟨i, -, x, hx, h⟩ := h
  have h0 : Frame H (H.setVertex i { x with part := other x.part }) :=
    ⟨map_set_same (vget_eq_ok.1 hx) rfl, rfl, rfl, rfl⟩
  refine foldlM_okInv (fun G => Frame H G) ?_ h0 h
  intro G e G' _ hG hs
  simp only [bind_eq_ok] at hs
  obtain ⟨n, -, j, -, c, -, l, -, hs⟩ := hs
  refine hG.trans (modifyNet_frame ?_ hs)
  intro m
  exact ⟨rfl, rfl⟩

theorem moveLoc_frame {H : Hypergraph} {v : Nat} {C L : List Cnt} {r : Hypergraph × List Cnt × List Cnt}
    (h : H.moveLoc v C L = .ok r) : Frame H r.1 := by
  unfold Hypergraph.moveLoc at h
  simp only [bind_eq_ok] at h
  obtain ⟨i, -, x, -, H1, h1, v1, -, ⟨C1, L1⟩, -, h⟩ := h
  cases h
  exact moveSorted_frame h1

theorem sortVertices_frame {H H' : Hypergraph} {C : List Cnt} (h : H.sortVerticesOnPart C = .ok H') : Frame H H' := by
  unfold Hypergraph.sortVerticesOnPart at h
  rw [bind_eq_ok] at h
  obtain ⟨nets, h1, h⟩ := h
  cases h
  refine ⟨rfl, ?_, rfl, rfl⟩
  show nets.map _ = _
  have := mapM_map_eq (g := fun n : Net => (n.id, n.cost)) (g' := fun x : Net × Nat => (x.1.id, x.1.cost)) (by
    rintro ⟨n, i⟩ b hb
    simp only [bind_eq_ok] at hb
    obtain ⟨c, -, p, -, hb⟩ := hb
    cases hb
    rfl) h1
  rw [this]
  have e : H.nets.zipIdx.map (fun x : Net × Nat => (x.1.id, x.1.cost)) = (H.nets.zipIdx.map (·.1)).map (fun n => (n.id, n.cost)) := by
    rw [List.map_map]; rfl
  rw [e]
  simp

theorem localId_frame {A B : Hypergraph} (h : Frame A B) (u : Nat) : B.localId u = A.localId u := by
  unfold Hypergraph.localId
  rw [h.vm, h.vlen]

theorem vertexOf_weight {A : Hypergraph} {u : Nat} {y : Vertex} (h : A.vertexOf u = .ok y) :
    ∃ i, A.localId u = .ok i ∧ A.vertices[i]? = some y ∧ (A.vertices.map (·.weight))[i]? = some y.weight := by
  unfold Hypergraph.vertexOf at h
  rw [bind_eq_ok] at h
  obtain ⟨i, hi, h⟩ := h
  unfold Hypergraph.vertexAt at h
  split at h
  · rename_i v hv
    cases h
    exact ⟨i, hi, hv, by rw [List.getElem?_map, hv]; rfl⟩
  · cases h

/-! ### Sums over two lists -/

theorem zipWith_set_sum {α β : Type} (F : α → β → Int) : ∀ (ws : List α) (gs : List β) (i : Nat) (a : α) (o b : β),
    ws[i]? = some a → gs[i]? = some o →
    (List.zipWith F ws (gs.set i b)).sum = (List.zipWith F ws gs).sum - F a o + F a b := by
  intro ws
  induction ws with
  | nil => intro gs i a o b h; simp at h
  | cons x ws ih =>
    intro gs i a o b h k
    cases gs with
    | nil => simp at k
    | cons g gs =>
      cases i with
      | zero =>
        simp at h k
        subst h; subst k
        rw [List.set_cons_zero, List.zipWith_cons_cons, List.zipWith_cons_cons, List.sum_cons, List.sum_cons]
        omega
      | succ i =>
        rw [List.set_cons_succ, List.zipWith_cons_cons, List.zipWith_cons_cons, List.sum_cons, List.sum_cons,
          ih gs i a o b (by simpa using h) (by simpa using k)]
        omega

theorem zipWith_set_none {α β : Type} (F : α → β → Int) : ∀ (ws : List α) (gs : List β) (i : Nat) (b : β),
    ws[i]? = none → (List.zipWith F ws (gs.set i b)).sum = (List.zipWith F ws gs).sum := by
  intro ws
  induction ws with
  | nil => intro gs i b _; simp
  | cons x ws ih =>
    intro gs i b h
    cases gs with
    | nil => simp
    | cons g gs =>
      cases i with
      | zero => simp at h
      | succ i =>
        rw [List.set_cons_succ, List.zipWith_cons_cons, List.zipWith_cons_cons, List.sum_cons, List.sum_cons,
          ih gs i b (by simpa using h)]

theorem zipWith_sum_range {α : Type} {c : Int → α → Bool} : ∀ (ws : List Int) (gs : List α), (∀ w ∈ ws, 0 ≤ w) →
    0 ≤ (List.zipWith (fun w g => if c w g then w else 0) ws gs).sum ∧
      (List.zipWith (fun w g => if c w g then w else 0) ws gs).sum ≤ ws.sum := by
  intro ws
  induction ws with
  | nil => intro gs _; simp
  | cons x ws ih =>
    intro gs h
    have h0 := h x (by simp)
    have hn : 0 ≤ ws.sum := sum_nonneg' (fun y hy => h y (by simp [hy]))
    cases gs with
    | nil =>
      rw [List.zipWith_nil_right, List.sum_nil, List.sum_cons]
      omega
    | cons g gs =>
      have := ih gs (fun y hy => h y (by simp [hy]))
      rw [List.zipWith_cons_cons, List.sum_cons, List.sum_cons]
      split <;> omega

/-! ### Vertices that may still move -/

/-- The weight of the vertices that are not locked. -/
def openW (ws : List Int) (gains : List (Option Int)) : Int :=
  (List.zipWith (fun w g => if Option.isSome g then w else 0) ws gains).sum

theorem openW_range {ws : List Int} (h : ∀ w ∈ ws, 0 ≤ w) (gains : List (Option Int)) :
    0 ≤ openW ws gains ∧ openW ws gains ≤ ws.sum :=
  zipWith_sum_range (c := fun _ g => Option.isSome g) ws gains h

theorem openW_same (ws : List Int) {gains : List (Option Int)} {i : Nat} {g g' : Int} (h : gains[i]? = some (some g)) :
    openW ws (gains.set i (some g')) = openW ws gains := by
  unfold openW
  cases hw : ws[i]? with
  | none => exact zipWith_set_none _ ws gains i _ hw
  | some w => rw [zipWith_set_sum _ ws gains i w (some g) (some g') hw h]; simp

theorem openW_lock {ws : List Int} {gains : List (Option Int)} {i : Nat} {g w : Int} (h : gains[i]? = some (some g))
    (hw : ws[i]? = some w) : openW ws (gains.set i none) = openW ws gains - w := by
  unfold openW
  rw [zipWith_set_sum _ ws gains i w (some g) none hw h]; simp

/-- The hypergraph and the vertices that may still move are the same. -/
def Keeps (s s' : GainStructure) : Prop := s'.H = s.H ∧ ∀ ws, openW ws s'.gains = openW ws s.gains

theorem Keeps.refl (s : GainStructure) : Keeps s s := ⟨rfl, fun _ => rfl⟩

theorem Keeps.trans {a b c : GainStructure} (h : Keeps a b) (k : Keeps b c) : Keeps a c :=
  ⟨k.1.trans h.1, fun ws => (k.2 ws).trans (h.2 ws)⟩

theorem setBucket_gains {s s' : GainStructure} {p : Int} {b : Buckets} (h : s.setBucket p b = .ok s') :
    s'.gains = s.gains := by
  unfold GainStructure.setBucket at h
  split at h
  · cases h; rfl
  · split at h
    · cases h; rfl
    · cases h

theorem setBucket_keeps {s s' : GainStructure} {p : Int} {b : Buckets} (h : s.setBucket p b = .ok s') : Keeps s s' :=
  ⟨(setBucket_C h).2, fun ws => by rw [setBucket_gains h]⟩

theorem next_keeps {s : GainStructure} {p : Int} {r : Rng} {x : Option Nat × GainStructure × Rng}
    (h : s.next p r = .ok x) : Keeps s x.2.1 := by
  unfold GainStructure.next at h
  simp only [bind_eq_ok] at h
  obtain ⟨b, -, ⟨u, b', r'⟩, -, s', h2, h⟩ := h
  cases h
  exact setBucket_keeps h2

theorem gainNext_keeps {s : GainStructure} {p : Int} {x : Option Int × GainStructure}
    (h : s.gainNext p = .ok x) : Keeps s x.2 := by
  unfold GainStructure.gainNext at h
  simp only [bind_eq_ok] at h
  obtain ⟨b, -, ⟨u, b'⟩, -, s', h2, h⟩ := h
  cases h
  exact setBucket_keeps h2

theorem done_keeps {s : GainStructure} {x : Bool × GainStructure} (h : s.done = .ok x) : Keeps s x.2 := by
  unfold GainStructure.done at h
  rw [bind_eq_ok] at h
  obtain ⟨⟨i0, b0⟩, -, h⟩ := h
  cases i0 with
  | some i => cases h; exact ⟨rfl, fun _ => rfl⟩
  | none =>
    dsimp only at h
    rw [bind_eq_ok] at h
    obtain ⟨⟨i1, b1⟩, -, h⟩ := h
    cases h
    exact ⟨rfl, fun _ => rfl⟩

theorem runGain_keeps {c : Prop} [Decidable c] {s : GainStructure} {p : Int} {x : Option Int × GainStructure}
    (h : runIf c (s.gainNext p) (none, s) = .ok x) : Keeps s x.2 := by
  unfold runIf at h
  split at h
  · exact gainNext_keeps h
  · cases h; exact Keeps.refl _

theorem partNext_keeps {s : GainStructure} {e0 e1 : Int} {r : Rng} {x : Int × GainStructure × Rng}
    (h : s.partNext e0 e1 r = .ok x) : Keeps s x.2.1 := by
  unfold GainStructure.partNext at h
  rw [bind_eq_ok] at h
  obtain ⟨⟨v0, s1, r1⟩, k1, h⟩ := h
  rw [bind_eq_ok] at h
  obtain ⟨⟨v1, s2, r2⟩, k2, h⟩ := h
  have q := (next_keeps k1).trans (next_keeps k2)
  cases v0 with
  | none => cases h; exact q
  | some v0 =>
    cases v1 with
    | none => cases h; exact q
    | some v1 =>
      dsimp only at h
      rw [bind_eq_ok] at h
      obtain ⟨x0, -, h⟩ := h
      rw [bind_eq_ok] at h
      obtain ⟨⟨g0, s3⟩, k3, h⟩ := h
      rw [bind_eq_ok] at h
      obtain ⟨x1, -, h⟩ := h
      rw [bind_eq_ok] at h
      obtain ⟨⟨g1, s4⟩, k4, h⟩ := h
      have q' := (q.trans (runGain_keeps k3)).trans (runGain_keeps k4)
      dsimp only at h
      split at h
      · cases h; exact q'
      · split at h
        · cases h; exact q'
        · cases h; exact q'

theorem addGain_keeps {s s' : GainStructure} {u : Nat} {d : Int} (h : s.addGain u d = .ok s') : Keeps s s' := by
  refine ⟨(addGain_C h).2, fun ws => ?_⟩
  unfold GainStructure.addGain at h
  rw [bind_eq_ok] at h
  obtain ⟨i, -, h⟩ := h
  rw [bind_eq_ok] at h
  obtain ⟨old, ho, h⟩ := h
  cases old with
  | none => cases h; rfl
  | some g =>
    simp only [bind_eq_ok] at h
    obtain ⟨v, -, b, -, ⟨f, b1⟩, -, b2, -, s1, h3, gs, h4, h⟩ := h
    cases h
    have e := setBucket_gains h3
    rw [e] at h4
    show openW ws gs = _
    rw [(vset_eq_ok' h4).2]
    exact openW_same ws (vget_eq_ok.1 ho)

theorem addGainList_keeps {l : List Nat} {d : Int} {s s' : GainStructure}
    (h : l.foldlM (fun s u => s.addGain u d) s = .ok s') : Keeps s s' := by
  refine foldlM_okInv (fun t => Keeps s t) ?_ (Keeps.refl s) h
  intro t a t' _ ht hs
  exact ht.trans (addGain_keeps hs)

theorem addGainAll_keeps {s s' : GainStructure} {e : Nat} {d : Int} (h : s.addGainAll e d = .ok s') : Keeps s s' := by
  unfold GainStructure.addGainAll at h
  rw [bind_eq_ok] at h
  obtain ⟨n, -, h⟩ := h
  exact addGainList_keeps h

theorem addGainEnd_keeps {s s' : GainStructure} {e : Nat} {p d : Int} (h : s.addGainEnd e p d = .ok s') : Keeps s s' := by
  unfold GainStructure.addGainEnd at h
  simp only [bind_eq_ok] at h
  obtain ⟨n, -, u, -, h⟩ := h
  exact addGain_keeps h

theorem runIf_keepsG {c : Prop} [Decidable c] {s s' : GainStructure} {a : Res GainStructure}
    (h : runIf c a s = .ok s') (ha : ∀ s', a = .ok s' → Keeps s s') : Keeps s s' := by
  unfold runIf at h
  split at h
  · exact ha _ h
  · cases h; exact Keeps.refl _

/-! ### Moving a vertex -/

theorem moveNetLoc_sim {p q : Int} {st st' : GainStructure × List Cnt} (hs : SmallG st.1) (hf : CostsFit st.1.H) {e : Nat}
    (h : GainStructure.moveNetLoc p q st e = .ok st') :
    GainStructure.moveNetLoc64 p q st e = .ok st' ∧ SmallG st'.1 ∧ Keeps st.1 st'.1 := by
  obtain ⟨s, L⟩ := st
  unfold GainStructure.moveNetLoc at h
  simp only [bind_eq_ok] at h
  obtain ⟨j, hj, n, hn, t, ht, s1, h1, tl, htl, s2, h2, C1, hC1, C2, hC2, L1, hL1, L2, hL2, f, hff, s3, h3, fl, hfl, s4, h4, h⟩ := h
  cases h
  obtain ⟨hc0, hc1⟩ := hf e n hn
  have hneg : long (-1 * n.cost) = .ok (-1 * n.cost) := long_ok (by omega) (by omega)
  have e1 := runIf_keepsG h1 (fun _ => addGainAll_keeps)
  have e2 := runIf_keepsG h2 (fun _ => addGainEnd_keeps)
  have e3 := runIf_keepsG h3 (fun _ => addGainAll_keeps)
  have e4 := runIf_keepsG h4 (fun _ => addGainEnd_keeps)
  have k1 := runIf_sim hs h1 (fun _ => addGainAll_sim hs)
  have k2 := runIf_sim k1.2 h2 (fun _ => addGainEnd_sim k1.2)
  have hs2 : SmallG { s2 with C := C2 } := k2.2
  have k3 := runIf_sim hs2 h3 (fun _ => addGainAll_sim hs2)
  have k4 := runIf_sim k3.2 h4 (fun _ => addGainEnd_sim k3.2)
  have e2' : Keeps s2 { s2 with C := C2 } := ⟨rfl, fun _ => rfl⟩
  refine ⟨?_, k4.2, (((e1.trans e2).trans e2').trans e3).trans e4⟩
  unfold GainStructure.moveNetLoc64
  dsimp only at hj hn ht ⊢
  rw [hj]; simp only [ok_bind]
  rw [hn]; simp only [ok_bind]
  rw [ht]; simp only [ok_bind]
  rw [k1.1]; simp only [ok_bind]
  rw [htl]; simp only [ok_bind]
  rw [hneg]; simp only [ok_bind]
  rw [k2.1]; simp only [ok_bind]
  rw [hC1]; simp only [ok_bind]
  rw [hC2]; simp only [ok_bind]
  rw [hL1]; simp only [ok_bind]
  rw [hL2]; simp only [ok_bind]
  rw [hff]; simp only [ok_bind]
  rw [k3.1]; simp only [ok_bind]
  rw [hfl]; simp only [ok_bind]
  rw [k4.1]
  rfl

theorem moveNetLocLoop_sim {p q : Int} {l : List Nat} {st st' : GainStructure × List Cnt} (hs : SmallG st.1)
    (hf : CostsFit st.1.H) (h : l.foldlM (GainStructure.moveNetLoc p q) st = .ok st') :
    l.foldlM (GainStructure.moveNetLoc64 p q) st = .ok st' ∧ SmallG st'.1 ∧ Keeps st.1 st'.1 := by
  induction l generalizing st with
  | nil => cases h; exact ⟨rfl, hs, Keeps.refl _⟩
  | cons a l ih =>
    rw [List.foldlM_cons, bind_eq_ok] at h
    obtain ⟨s1, h1, h2⟩ := h
    obtain ⟨h3, h4, h5⟩ := moveNetLoc_sim hs hf h1
    rw [List.foldlM_cons, h3]
    obtain ⟨a1, a2, a3⟩ := ih h4 (by rw [h5.1]; exact hf) h2
    exact ⟨a1, a2, h5.trans a3⟩

theorem moveAndLock_open {s s' : GainStructure} {v : Nat} {Cs : List Cnt} {x : Vertex} (hx : s.H.vertexOf v = .ok x)
    (h : s.moveAndLock v Cs = .ok s') : Frame s.H s'.H ∧
      openW (s.H.vertices.map (·.weight)) s'.gains = openW (s.H.vertices.map (·.weight)) s.gains - x.weight := by
  unfold GainStructure.moveAndLock at h
  rw [bind_eq_ok] at h
  obtain ⟨x', hx', h⟩ := h
  rw [bind_eq_ok] at h
  obtain ⟨H1, hH, h⟩ := h
  simp only [bind_eq_ok] at h
  obtain ⟨i, hi, g, hg, h⟩ := h
  have hfr := moveSorted_frame hH
  cases g with
  | none => cases h
  | some g =>
    simp only [bind_eq_ok] at h
    obtain ⟨b, -, ⟨f, b'⟩, -, s1, h2, gs, h3, h⟩ := h
    cases h
    have e := setBucket_gains h2
    have eH := (setBucket_C h2).2
    rw [e] at h3
    refine ⟨by show Frame s.H s1.H; rw [eH]; exact hfr, ?_⟩
    show openW _ gs = _
    rw [(vset_eq_ok' h3).2]
    obtain ⟨k, hk, -, hw⟩ := vertexOf_weight hx
    rw [localId_frame hfr, hk] at hi
    cases hi
    exact openW_lock (vget_eq_ok.1 hg) hw

/-- Costs and weights of the processor's hypergraph fit. -/
structure FitP (H0 : Hypergraph) : Prop where
  hc : CostsNonneg H0
  hw : WeightsNonneg H0
  costs : (H0.nets.map (·.cost)).sum ≤ 2 ^ 60
  weights : (H0.vertices.map (·.weight)).sum ≤ 2 ^ 60

theorem FitP.wsNonneg {H0 : Hypergraph} (F : FitP H0) : ∀ w ∈ H0.vertices.map (·.weight), 0 ≤ w := by
  intro w hw
  obtain ⟨v, hv, rfl⟩ := List.mem_map.1 hw
  exact F.hw v hv

theorem FitP.csNonneg {H0 : Hypergraph} (F : FitP H0) : ∀ c ∈ H0.nets.map (·.cost), 0 ≤ c := by
  intro w hw
  obtain ⟨v, hv, rfl⟩ := List.mem_map.1 hw
  exact F.hc v hv

theorem FitP.cost {H0 H : Hypergraph} (F : FitP H0) (hf : Frame H0 H) {n : Net} (hn : n ∈ H.nets) :
    0 ≤ n.cost ∧ n.cost ≤ 2 ^ 60 := by
  have h1 : n.cost ∈ H0.nets.map (·.cost) := by rw [← hf.costs]; exact List.mem_map_of_mem hn
  have h2 := entry_le_sum F.csNonneg h1
  have h3 := F.costs
  exact ⟨F.csNonneg _ h1, by omega⟩

theorem FitP.weight {H0 H : Hypergraph} (F : FitP H0) (hf : Frame H0 H) {v : Vertex} (hv : v ∈ H.vertices) :
    0 ≤ v.weight ∧ v.weight ≤ 2 ^ 60 := by
  have h1 : v.weight ∈ H0.vertices.map (·.weight) := by rw [← hf.weights]; exact List.mem_map_of_mem hv
  have h2 := entry_le_sum F.wsNonneg h1
  have h3 := F.weights
  exact ⟨F.wsNonneg _ h1, by omega⟩

theorem FitP.costsFit {H0 H : Hypergraph} (F : FitP H0) (hf : Frame H0 H) : CostsFit H := by
  intro e n h
  have := F.cost hf (netOf_mem' h)
  omega

theorem FitP.weightsFit {H0 H : Hypergraph} (F : FitP H0) (hf : Frame H0 H) : WeightsFit H := by
  intro u y h
  have := F.weight hf (vertexOf_mem' h)
  omega

/-- The gain structure of a processor whose hypergraph was `H0`; `o` is the weight of the vertices that may still move. -/
structure OpenInv (H0 : Hypergraph) (o : Int) (s : GainStructure) : Prop where
  small : SmallG s
  frame : Frame H0 s.H
  op : openW (H0.vertices.map (·.weight)) s.gains = o

theorem OpenInv.keeps {H0 : Hypergraph} {o : Int} {s s' : GainStructure} (h : OpenInv H0 o s) (hs : SmallG s') (k : Keeps s s') :
    OpenInv H0 o s' := ⟨hs, by rw [k.1]; exact h.frame, by rw [k.2]; exact h.op⟩

theorem gmoveLoc_sim {H0 : Hypergraph} (F : FitP H0) {o : Int} {s : GainStructure} (hs : OpenInv H0 o s) {v : Nat} {L : List Cnt}
    {x : Vertex} (hx : s.H.vertexOf v = .ok x) {r : GainStructure × List Cnt} (h : s.moveLoc v L = .ok r) :
    s.moveLoc64 v L = .ok r ∧ OpenInv H0 (o - x.weight) r.1 := by
  unfold GainStructure.moveLoc at h
  rw [hx] at h
  simp only [ok_bind] at h
  rw [bind_eq_ok] at h
  obtain ⟨s1, h1, h⟩ := h
  have k1 := moveAndLock_sim hs.small h1
  obtain ⟨f1, o1⟩ := moveAndLock_open hx h1
  have f2 := hs.frame.trans f1
  obtain ⟨k2, k3, k4⟩ := moveNetLocLoop_sim (st := (s1, L)) k1.2 (F.costsFit f2) h
  unfold GainStructure.moveLoc64
  rw [hx]; simp only [ok_bind]
  rw [k1.1]; simp only [ok_bind]
  refine ⟨k2, k3, by rw [k4.1]; exact f2, ?_⟩
  rw [k4.2]
  dsimp only
  rw [hs.frame.weights] at o1
  rw [o1, hs.op]

theorem gremove_open {H0 : Hypergraph} (F : FitP H0) {o : Int} {s s' : GainStructure} (hs : OpenInv H0 o s) {v : Nat}
    (h : s.remove v = .ok s') : s.remove64 v = .ok s' ∧ ∃ o', 0 ≤ o' ∧ o' ≤ o ∧ OpenInv H0 o' s' := by
  have k := gremove_sim hs.small h
  refine ⟨k.1, ?_⟩
  unfold GainStructure.remove at h
  simp only [bind_eq_ok] at h
  obtain ⟨i, hi, x, hx, g, hg, h⟩ := h
  cases g with
  | none => cases h
  | some g =>
    simp only [bind_eq_ok] at h
    obtain ⟨b, -, ⟨f, b'⟩, -, s1, h2, gs, h3, h⟩ := h
    cases h
    have e := setBucket_gains h2
    have eH := (setBucket_C h2).2
    rw [e] at h3
    have hw : (H0.vertices.map (·.weight))[i]? = some x.weight := by
      rw [← hs.frame.weights, List.getElem?_map]
      unfold Hypergraph.vertexAt at hx
      split at hx
      · rename_i y hy
        cases hx
        rw [hy]; rfl
      · cases hx
    have ho : openW (H0.vertices.map (·.weight)) gs = o - x.weight := by
      rw [(vset_eq_ok' h3).2, openW_lock (vget_eq_ok.1 hg) hw, hs.op]
    have hpos := F.wsNonneg _ (List.mem_of_getElem? hw)
    have hr := (openW_range F.wsNonneg gs).1
    refine ⟨o - x.weight, by omega, by omega, k.2, ?_, ho⟩
    show Frame H0 s1.H
    rw [eH]; exact hs.frame

/-! ### `update_gains` -/

theorem addGainSide_sim {s s' : GainStructure} (hs : SmallG s) {n : Net} {p d : Int} (h : addGainSide s n p d = .ok s') :
    addGainSide64 s n p d = .ok s' ∧ SmallG s' ∧ Keeps s s' := by
  unfold addGainSide at h
  simp only [bind_eq_ok] at h
  obtain ⟨u, hu, x, hx, h⟩ := h
  unfold addGainSide64
  rw [hu]; simp only [ok_bind]
  rw [hx]; simp only [ok_bind]
  have k := runIf_sim hs h (fun _ => addGain_sim hs)
  exact ⟨k.1, k.2, runIf_keepsG h (fun _ => addGain_keeps)⟩

theorem runIf_step {c : Prop} [Decidable c] {s s' : GainStructure} {a a' : Res GainStructure} (hs : SmallG s)
    (h : runIf c a s = .ok s') (ha : ∀ s', a = .ok s' → a' = .ok s' ∧ SmallG s' ∧ Keeps s s') :
    runIf c a' s = .ok s' ∧ SmallG s' ∧ Keeps s s' := by
  have k := runIf_sim hs h (fun t ht => ⟨(ha t ht).1, (ha t ht).2.1⟩)
  exact ⟨k.1, k.2, runIf_keepsG h (fun t ht => (ha t ht).2.2)⟩

theorem updateGains_sim {s s' : GainStructure} (hs : SmallG s) {n : Net} (hn : 0 ≤ n.cost ∧ n.cost ≤ 2 ^ 60) {a b : Cnt}
    (h : updateGains s n a b = .ok s') : updateGains64 s n a b = .ok s' ∧ SmallG s' ∧ Keeps s s' := by
  have hneg : long (-1 * n.cost) = .ok (-1 * n.cost) := long_ok (by omega) (by omega)
  unfold updateGains at h
  simp only [bind_eq_ok] at h
  obtain ⟨s1, h1, s2, h2, s3, h3, s4, h4, s5, h5, h6⟩ := h
  have list : ∀ {t t' : GainStructure} {d : Int}, SmallG t → n.vertices.foldlM (fun s u => s.addGain u d) t = .ok t' →
      n.vertices.foldlM (fun s u => s.addGain64 u d) t = .ok t' ∧ SmallG t' ∧ Keeps t t' := by
    intro t t' d ht h
    have k := addGainList_sim ht h
    exact ⟨k.1, k.2, addGainList_keeps h⟩
  obtain ⟨a1, b1, c1⟩ := runIf_step hs h1 (fun _ => list hs)
  obtain ⟨a2, b2, c2⟩ := runIf_step b1 h2 (fun _ => addGainSide_sim b1)
  obtain ⟨a3, b3, c3⟩ := runIf_step b2 h3 (fun _ => addGainSide_sim b2)
  obtain ⟨a4, b4, c4⟩ := runIf_step b3 h4 (fun _ => list b3)
  obtain ⟨a5, b5, c5⟩ := runIf_step b4 h5 (fun _ => addGainSide_sim b4)
  obtain ⟨a6, b6, c6⟩ := runIf_step b5 h6 (fun _ => addGainSide_sim b5)
  refine ⟨?_, b6, ((((c1.trans c2).trans c3).trans c4).trans c5).trans c6⟩
  unfold updateGains64
  rw [hneg]; simp only [ok_bind]
  rw [a1]; simp only [ok_bind]
  rw [a2]; simp only [ok_bind]
  rw [a3]; simp only [ok_bind]
  rw [a4]; simp only [ok_bind]
  rw [a5]; simp only [ok_bind]
  exact a6

theorem refreshGains_sim {H0 : Hypergraph} (F : FitP H0) {o : Int} {s s' : GainStructure} (hs : OpenInv H0 o s)
    {prev0 : List Int} (h : refreshGains s prev0 = .ok s') :
    refreshGains64 s prev0 = .ok s' ∧ OpenInv H0 o s' := by
  unfold refreshGains at h
  unfold refreshGains64
  generalize List.range s.H.nets.length = l at h ⊢
  induction l generalizing s with
  | nil => cases h; exact ⟨rfl, hs⟩
  | cons i l ih =>
    rw [List.foldlM_cons, bind_eq_ok] at h
    obtain ⟨s1, h1, h2⟩ := h
    have step : refreshStep64 prev0 s i = .ok s1 ∧ OpenInv H0 o s1 := by
      unfold refreshStep at h1
      simp only [bind_eq_ok] at h1
      obtain ⟨c0, hc0, c, hc, n, hn, h1⟩ := h1
      have hcost := F.cost hs.frame (List.mem_of_getElem? (vget_eq_ok.1 hn))
      obtain ⟨k1, k2, k3⟩ := runIf_step hs.small h1 (fun _ => updateGains_sim hs.small hcost)
      unfold refreshStep64
      rw [hc0]; simp only [ok_bind]
      rw [hc]; simp only [ok_bind]
      rw [hn]; simp only [ok_bind]
      exact ⟨k1, hs.keeps k2 k3⟩
    rw [List.foldlM_cons, step.1]
    exact ih step.2 h2

end PMondriaan
