import Verif.Model.Settings
import Verif.Props.Report
import Verif.Props.Reader

/-
C101: the settings of the main program come from the command line and the file with settings.
-/

namespace PMondriaan

open Spec

/-- `t` is the first text given for one of the names `ns`. -/
def FirstGiven (ns : List String) (l : Given) (t : List Char) : Prop :=
  ∃ a n b, l = a ++ (n, t) :: b ∧ n ∈ ns ∧ ∀ x ∈ a, x.1 ∉ ns

/-- No text is given for the names `ns`. -/
def NotGiven (ns : List String) (l : Given) : Prop := ∀ x ∈ l, x.1 ∉ ns

/-- `t` is the text that counts: that of the command line, or that of the file when the command line has none. -/
def TextCounts (ns : List String) (args conf : Given) (t : List Char) : Prop :=
  FirstGiven ns args t ∨ (NotGiven ns args ∧ FirstGiven ns conf t)

/-- `t` is a number without sign that fits in 64 bits. -/
def SizeText (t : List Char) (n : Nat) : Prop := Decimal t n ∧ n < 2 ^ 64

/-- `t` is a number, with or without a minus, that fits in `b` bits. -/
def IntText (b : Nat) (t : List Char) (z : Int) : Prop :=
  (∃ n : Nat, Decimal t n ∧ z = n ∧ n < 2 ^ (b - 1)) ∨
    ∃ d, ∃ n : Nat, t = '-' :: d ∧ Decimal d n ∧ z = -(n : Int) ∧ n ≤ 2 ^ (b - 1)

/-- `t` is the word `w` in any case, or the number `c`. -/
def WordText (w c : String) (t : List Char) : Prop := t.map Char.toLower = w.toList ∨ t = c.toList

/-- What the text `t` of an option has to be, and what it means for the settings. -/
def OptMeans (dbl : List Char → Option ℚ) (isFile : List Char → Bool) (S : Settings) (t : List Char) : Opt → Prop
  | .file => isFile t = true ∧ S.file = t
  | .procs => IntText 32 t S.p
  | .parts => IntText 64 t S.k
  | .eps => dbl t = some S.eps
  | .eta => dbl t = some S.eta
  | .weights => (t = "one".toList ∨ t = "degree".toList) ∧ S.weights = t
  | .bisect => (WordText "random" "0" t ∧ S.opts.bisectionRandom = true) ∨
      (WordText "multilevel" "1" t ∧ S.opts.bisectionRandom = false)
  | .sampling => (WordText "random" "0" t ∧ S.opts.samplingLp = false) ∨
      (WordText "label_propagation" "1" t ∧ S.opts.samplingLp = true)
  | .metric => (WordText "cutnet" "0" t ∧ S.opts.metric = .cutNet) ∨
      (WordText "lambda_minus_one" "1" t ∧ S.opts.metric = .lambdaMinusOne)
  | .sampleSize => SizeText t S.opts.sampleSize
  | .maxCluster => SizeText t S.opts.maxClustersize
  | .lpIter => SizeText t S.opts.lpMaxIterations
  | .nrVertices => SizeText t S.opts.coarseningNrvertices
  | .maxRounds => SizeText t S.opts.coarseningMaxrounds
  | .passes => SizeText t S.opts.klfmMaxPasses
  | .noGain => SizeText t S.opts.klfmMaxNoGainMoves
  | .sendMoves => SizeText t S.opts.klfmParSendMoves

/-- The names of the options, as in the README and the help of the program. -/
def optNames : Opt → List String
  | .file => ["f", "file"]
  | .procs => ["p", "processors"]
  | .parts => ["k", "parts"]
  | .eps => ["eps", "epsilon"]
  | .eta => ["eta"]
  | .weights => ["weights"]
  | .bisect => ["bisect"]
  | .sampling => ["sampling"]
  | .metric => ["metric"]
  | .sampleSize => ["sample_size"]
  | .maxCluster => ["max_cluster_size"]
  | .lpIter => ["lp_max_iter"]
  | .nrVertices => ["coarsening_nrvertices"]
  | .maxRounds => ["coarsening_max_rounds"]
  | .passes => ["KLFM_max_passes"]
  | .noGain => ["KLFM_max_no_gain_moves"]
  | .sendMoves => ["KLFM_par_send_moves"]

/-- The command line has only names of options, each option at most once. -/
def GoodArgs (args : Given) : Prop :=
  (∀ x ∈ args, ∃ o, x.1 ∈ optNames o) ∧
    args.Pairwise (fun x y => ∀ o, ¬(x.1 ∈ optNames o ∧ y.1 ∈ optNames o))

theorem mem_names (o : Opt) (n : String) : n ∈ o.names ↔ n ∈ optNames o := by
  cases o <;> simp [Opt.names, Opt.longName, optNames, or_comm]

theorem opt_all (o : Opt) : o ∈ Opt.all := by cases o <;> decide

theorem decimal_of_digits {d : List Char} (h0 : d ≠ []) (h : ∀ c ∈ d, c.isDigit = true) : Decimal d (digitsValue d) := by
  have hc : ∀ c : Char, c.isDigit = true → ∃ (i : Nat) (hi : i < 10), c = digitChars[i]'hi := by
    intro c hc
    obtain ⟨i, hi, h⟩ := List.mem_iff_getElem.1 ((isDigit_iff c).1 hc)
    exact ⟨i, hi, h.symm⟩
  have hi : ∀ {i : Nat} (h : i < 10), (digitChars[i]'h).toNat - 48 = i := by
    intro i h
    interval_cases i <;> rfl
  induction d using List.reverseRecOn with
  | nil => exact absurd rfl h0
  | append_singleton d c ih =>
    obtain ⟨i, hi', rfl⟩ := hc c (h c (by simp))
    rw [digitsValue_snoc, hi]
    rcases d with _ | ⟨c', d⟩
    · have h1 : 10 * digitsValue [] + i = i := by simp [digitsValue]
      rw [h1]
      exact .one hi'
    · exact .snoc (ih (List.cons_ne_nil _ _) (fun c hc => h c (List.mem_append_left _ hc))) hi'

theorem digits_iff (d : List Char) (n : Nat) :
    Decimal d n ↔ (d ≠ [] ∧ d.all Char.isDigit = true) ∧ digitsValue d = n := by
  constructor
  · intro h
    obtain ⟨h1, h2, h3⟩ := decimal_facts h
    refine ⟨⟨h1, ?_⟩, h3⟩
    rw [List.all_eq_true]
    intro c hc
    have h4 : ∀ c ∈ digitChars, c.isDigit = true := by decide
    exact h4 c (h2 c hc)
  · rintro ⟨⟨h1, h2⟩, rfl⟩
    exact decimal_of_digits h1 (List.all_eq_true.1 h2)

theorem natText_iff (t : List Char) (n : Nat) : natText t = some n ↔ SizeText t n := by
  unfold natText SizeText
  rw [digits_iff]
  split
  · rename_i h
    constructor
    · intro h'
      obtain rfl := Option.some.inj h'
      exact ⟨⟨⟨h.1, h.2.1⟩, rfl⟩, h.2.2⟩
    · rintro ⟨⟨-, rfl⟩, -⟩
      rfl
  · rename_i h
    constructor
    · intro h'
      exact absurd h' (by simp)
    · rintro ⟨⟨⟨h1, h2⟩, rfl⟩, h3⟩
      exact absurd ⟨h1, h2, h3⟩ h

theorem intText_iff (b : Nat) (t : List Char) (z : Int) : intText b t = some z ↔ IntText b t z := by
  unfold intText IntText
  split
  · rename_i d
    have hnot : ∀ n, ¬ Decimal ('-' :: d) n := by
      intro n h
      have := (decimal_facts h).2.1 '-' (List.mem_cons_self ..)
      exact absurd this (by decide)
    constructor
    · intro h
      split at h
      · rename_i hd
        obtain rfl := Option.some.inj h
        exact Or.inr ⟨d, _, rfl, decimal_of_digits hd.1 (List.all_eq_true.1 hd.2.1), rfl, hd.2.2⟩
      · exact absurd h (by simp)
    · rintro (⟨n, h, -⟩ | ⟨d', n, h, hd, rfl, hn⟩)
      · exact absurd h (hnot n)
      · obtain rfl := (List.cons.inj h).2
        obtain ⟨⟨h1, h2⟩, rfl⟩ := (digits_iff _ _).1 hd
        rw [if_pos ⟨h1, h2, hn⟩]
  · rename_i hneg
    constructor
    · intro h
      split at h
      · rename_i hd
        obtain rfl := Option.some.inj h
        exact Or.inl ⟨_, decimal_of_digits hd.1 (List.all_eq_true.1 hd.2.1), rfl, hd.2.2⟩
      · exact absurd h (by simp)
    · rintro (⟨n, h, rfl, hn⟩ | ⟨d', n, h, -⟩)
      · obtain ⟨⟨h1, h2⟩, rfl⟩ := (digits_iff _ _).1 h
        rw [if_pos ⟨h1, h2, hn⟩]
      · exact absurd h (hneg d')

theorem givenFor_iff (o : Opt) (l : Given) (t : List Char) : givenFor o l = some t ↔ FirstGiven (optNames o) l t := by
  unfold givenFor FirstGiven
  rw [Option.map_eq_some_iff]
  constructor
  · rintro ⟨⟨n, t'⟩, h, rfl⟩
    rw [List.find?_eq_some_iff_append] at h
    obtain ⟨h1, a, b, rfl, h2⟩ := h
    refine ⟨a, n, b, rfl, (mem_names o n).1 (of_decide_eq_true h1), fun x hx hx' => ?_⟩
    have := h2 x hx
    rw [decide_eq_true ((mem_names o x.1).2 hx')] at this
    exact absurd this (by decide)
  · rintro ⟨a, n, b, rfl, h1, h2⟩
    refine ⟨(n, t), ?_, rfl⟩
    rw [List.find?_eq_some_iff_append]
    refine ⟨decide_eq_true ((mem_names o n).2 h1), a, b, rfl, fun x hx => ?_⟩
    rw [decide_eq_false (fun h => h2 x hx ((mem_names o x.1).1 h))]
    rfl

theorem givenFor_none (o : Opt) (l : Given) : givenFor o l = none ↔ NotGiven (optNames o) l := by
  unfold givenFor NotGiven
  rw [Option.map_eq_none_iff, List.find?_eq_none]
  refine forall₂_congr fun x _ => ?_
  rw [decide_eq_true_eq, mem_names]

theorem chosenFor_iff (o : Opt) (args conf : Given) (t : List Char) :
    chosenFor args conf o = some t ↔ TextCounts (optNames o) args conf t := by
  unfold chosenFor TextCounts
  rw [Option.or_eq_some_iff, givenFor_iff, givenFor_none, givenFor_iff]

theorem filter_le_one {α : Type} (p : α → Bool) (l : List α) :
    (l.filter p).length ≤ 1 ↔ l.Pairwise (fun x y => ¬(p x = true ∧ p y = true)) := by
  induction l with
  | nil => simp
  | cons a l ih =>
    rw [List.pairwise_cons, List.filter_cons]
    split
    · rename_i ha
      rw [List.length_cons]
      constructor
      · intro h
        have h0 : l.filter p = [] := List.length_eq_zero_iff.1 (by omega)
        have h1 : ∀ x ∈ l, ¬ p x = true := List.filter_eq_nil_iff.1 h0
        exact ⟨fun x hx hp => h1 x hx hp.2, ih.1 (by rw [h0]; exact Nat.zero_le _)⟩
      · rintro ⟨h, -⟩
        have h0 : l.filter p = [] := List.filter_eq_nil_iff.2 (fun x hx hp => h x hx ⟨ha, hp⟩)
        rw [h0]
        exact Nat.le_refl _
    · rename_i ha
      rw [ih]
      exact ⟨fun h => ⟨fun x _ hp => ha hp.1, h⟩, fun h => h.2⟩

theorem argsKnown_iff (args : Given) : argsKnown args = true ↔ GoodArgs args := by
  unfold argsKnown GoodArgs
  rw [Bool.and_eq_true, List.all_eq_true, List.all_eq_true]
  refine and_congr (forall₂_congr fun x _ => ?_) ?_
  · rw [List.any_eq_true]
    constructor
    · rintro ⟨o, -, h⟩
      exact ⟨o, (mem_names o x.1).1 (of_decide_eq_true h)⟩
    · rintro ⟨o, h⟩
      exact ⟨o, opt_all o, decide_eq_true ((mem_names o x.1).2 h)⟩
  · constructor
    · intro h
      have h' := fun o => (filter_le_one _ _).1 (of_decide_eq_true (h o (opt_all o)))
      rw [List.pairwise_iff_getElem]
      intro i j hi hj hij o hb
      refine List.pairwise_iff_getElem.1 (h' o) i j hi hj hij ⟨?_, ?_⟩
      · exact decide_eq_true ((mem_names o _).2 hb.1)
      · exact decide_eq_true ((mem_names o _).2 hb.2)
    · intro h o _
      refine decide_eq_true ((filter_le_one _ _).2 (h.imp fun {x y} hb hc => hb o ?_))
      exact ⟨(mem_names o _).1 (of_decide_eq_true hc.1), (mem_names o _).1 (of_decide_eq_true hc.2)⟩

theorem transformed_two {w1 c1 w2 c2 t r : List Char} (h1 : w1 ≠ w2) (h3 : c2.map Char.toLower ≠ w1) (h4 : c1.map Char.toLower ≠ w2)
    (h5 : c1.map Char.toLower ≠ w1) (h6 : c2.map Char.toLower ≠ w2) :
    transformed [(w1, c1), (w2, c2)] t = some r ↔
      ((t.map Char.toLower = w1 ∨ t = c1) ∧ r = c1) ∨ ((t.map Char.toLower = w2 ∨ t = c2) ∧ r = c2) := by
  unfold transformed
  by_cases e1 : t.map Char.toLower = w1
  · have n1 : t ≠ c1 := fun h => h5 (h ▸ e1)
    have n2 : t ≠ c2 := fun h => h3 (h ▸ e1)
    have n3 : t.map Char.toLower ≠ w2 := fun h => h1 (e1.symm.trans h)
    simp only [List.find?_cons, e1, decide_true]
    constructor
    · intro h
      exact Or.inl ⟨Or.inl trivial, (Option.some.inj h).symm⟩
    · rintro (⟨-, rfl⟩ | ⟨h | h, -⟩)
      · rfl
      · exact absurd h h1
      · exact absurd h n2
  · by_cases e2 : t.map Char.toLower = w2
    · have n1 : t ≠ c1 := fun h => h4 (h ▸ e2)
      have n2 : t ≠ c2 := fun h => h6 (h ▸ e2)
      simp only [List.find?_cons, e2, decide_true, decide_eq_false (Ne.symm fun h => h1 h.symm : ¬ w1 = w2)]
      constructor
      · intro h
        exact Or.inr ⟨Or.inl trivial, (Option.some.inj h).symm⟩
      · rintro (⟨h | h, -⟩ | ⟨-, rfl⟩)
        · exact absurd h.symm h1
        · exact absurd h n1
        · rfl
    · have f1 : decide (w1 = t.map Char.toLower) = false := decide_eq_false fun h => e1 h.symm
      have f2 : decide (w2 = t.map Char.toLower) = false := decide_eq_false fun h => e2 h.symm
      simp only [List.find?_cons, f1, f2, List.find?_nil, List.map_cons, List.map_nil, List.mem_cons, List.not_mem_nil,
        or_false]
      constructor
      · intro h
        split at h
        · rename_i hm
          obtain rfl := Option.some.inj h
          exact hm.imp (fun h => ⟨Or.inr h, h⟩) (fun h => ⟨Or.inr h, h⟩)
        · exact absurd h (by simp)
      · rintro (⟨h | h, rfl⟩ | ⟨h | h, rfl⟩)
        · exact absurd h e1
        · rw [if_pos (Or.inl h), h]
        · exact absurd h e2
        · rw [if_pos (Or.inr h), h]

theorem textFor_iff (isFile : List Char → Bool) (args conf : Given) (o : Opt) (r : List Char) :
    textFor isFile args conf o = some r ↔
      ∃ t, TextCounts (optNames o) args conf t ∧ checkedText isFile o t = some r := by
  unfold textFor
  rw [Option.bind_eq_some_iff]
  simp only [chosenFor_iff]

theorem bisect_iff (isFile : List Char → Bool) (t r : List Char) : checkedText isFile .bisect t = some r ↔
    (WordText "random" "0" t ∧ r = "0".toList) ∨ (WordText "multilevel" "1" t ∧ r = "1".toList) :=
  transformed_two (by decide) (by decide) (by decide) (by decide) (by decide)

theorem sampling_iff (isFile : List Char → Bool) (t r : List Char) : checkedText isFile .sampling t = some r ↔
    (WordText "random" "0" t ∧ r = "0".toList) ∨ (WordText "label_propagation" "1" t ∧ r = "1".toList) :=
  transformed_two (by decide) (by decide) (by decide) (by decide) (by decide)

theorem metric_iff (isFile : List Char → Bool) (t r : List Char) : checkedText isFile .metric t = some r ↔
    (WordText "cutnet" "0" t ∧ r = "0".toList) ∨ (WordText "lambda_minus_one" "1" t ∧ r = "1".toList) :=
  transformed_two (by decide) (by decide) (by decide) (by decide) (by decide)

theorem bind_text {α : Type} {isFile : List Char → Bool} {args conf : Given} {o : Opt} {f : List Char → Option α} {v : α}
    (ho : ∀ t, checkedText isFile o t = some t) :
    (textFor isFile args conf o).bind f = some v ↔ ∃ t, TextCounts (optNames o) args conf t ∧ f t = some v := by
  rw [Option.bind_eq_some_iff]
  simp only [textFor_iff, ho, Option.some.injEq]
  exact ⟨fun ⟨r, ⟨t, h1, h2⟩, h3⟩ => ⟨t, h1, h2 ▸ h3⟩, fun ⟨t, h1, h2⟩ => ⟨t, ⟨t, h1, rfl⟩, h2⟩⟩

/-- C101: the program accepts its settings exactly when every option is given, on the command line or else in the file,
with a text of the right form, and then every setting is what that text means. -/
theorem C101_settings (dbl : List Char → Option ℚ) (isFile : List Char → Bool) (args conf : Given) (S : Settings) :
    settingsOf dbl isFile args conf = some S ↔
      GoodArgs args ∧ ∀ o, ∃ t, TextCounts (optNames o) args conf t ∧ OptMeans dbl isFile S t o := by
  have hnum : ∀ (o : Opt) (n : Nat), (∀ t, checkedText isFile o t = some t) →
      ((textFor isFile args conf o).bind natText = some n ↔
        ∃ t, TextCounts (optNames o) args conf t ∧ SizeText t n) := by
    intro o n ho
    rw [bind_text ho]
    simp only [natText_iff]
  have hint : ∀ (o : Opt) (b : Nat) (z : Int), (∀ t, checkedText isFile o t = some t) →
      ((textFor isFile args conf o).bind (intText b) = some z ↔
        ∃ t, TextCounts (optNames o) args conf t ∧ IntText b t z) := by
    intro o b z ho
    rw [bind_text ho]
    simp only [intText_iff]
  unfold settingsOf
  dsimp only
  constructor
  · intro h
    split at h
    · exact absurd h (by simp)
    · rename_i hk
      rw [Bool.not_eq_true', Bool.not_eq_false, argsKnown_iff] at hk
      refine ⟨hk, ?_⟩
      obtain ⟨v0, h0, h⟩ := Option.bind_eq_some_iff.1 h
      obtain ⟨v1, h1, h⟩ := Option.bind_eq_some_iff.1 h
      obtain ⟨v2, h2, h⟩ := Option.bind_eq_some_iff.1 h
      obtain ⟨v3, h3, h⟩ := Option.bind_eq_some_iff.1 h
      obtain ⟨v4, h4, h⟩ := Option.bind_eq_some_iff.1 h
      obtain ⟨v5, h5, h⟩ := Option.bind_eq_some_iff.1 h
      obtain ⟨v6, h6, h⟩ := Option.bind_eq_some_iff.1 h
      obtain ⟨v7, h7, h⟩ := Option.bind_eq_some_iff.1 h
      obtain ⟨v8, h8, h⟩ := Option.bind_eq_some_iff.1 h
      obtain ⟨v9, h9, h⟩ := Option.bind_eq_some_iff.1 h
      obtain ⟨v10, h10, h⟩ := Option.bind_eq_some_iff.1 h
      obtain ⟨v11, h11, h⟩ := Option.bind_eq_some_iff.1 h
      obtain ⟨v12, h12, h⟩ := Option.bind_eq_some_iff.1 h
      obtain ⟨v13, h13, h⟩ := Option.bind_eq_some_iff.1 h
      obtain ⟨v14, h14, h⟩ := Option.bind_eq_some_iff.1 h
      obtain ⟨v15, h15, h⟩ := Option.bind_eq_some_iff.1 h
      obtain ⟨v16, h16, h⟩ := Option.bind_eq_some_iff.1 h
      obtain rfl := Option.some.inj h
      intro o
      cases o with
      | file =>
        obtain ⟨t, ht, hc⟩ := (textFor_iff _ _ _ _ _).1 h0
        refine ⟨t, ht, ?_⟩
        change (if isFile t = true then some t else none) = some v0 at hc
        split at hc
        · rename_i hf
          exact ⟨hf, (Option.some.inj hc).symm⟩
        · exact absurd hc (by simp)
      | procs => exact (hint .procs 32 _ (fun _ => rfl)).1 h1
      | parts => exact (hint .parts 64 _ (fun _ => rfl)).1 h2
      | eps => exact (bind_text (fun _ => rfl)).1 h3
      | eta => exact (bind_text (fun _ => rfl)).1 h4
      | weights =>
        obtain ⟨t, ht, hc⟩ := (textFor_iff _ _ _ _ _).1 h5
        refine ⟨t, ht, ?_⟩
        change (if t = "one".toList ∨ t = "degree".toList then some t else none) = some v5 at hc
        split at hc
        · rename_i hf
          exact ⟨hf, (Option.some.inj hc).symm⟩
        · exact absurd hc (by simp)
      | bisect =>
        obtain ⟨t, ht, hc⟩ := (textFor_iff _ _ _ _ _).1 h6
        refine ⟨t, ht, ?_⟩
        rcases (bisect_iff _ _ _).1 hc with ⟨hw, rfl⟩ | ⟨hw, rfl⟩
        · exact Or.inl ⟨hw, rfl⟩
        · exact Or.inr ⟨hw, rfl⟩
      | sampling =>
        obtain ⟨t, ht, hc⟩ := (textFor_iff _ _ _ _ _).1 h7
        refine ⟨t, ht, ?_⟩
        rcases (sampling_iff _ _ _).1 hc with ⟨hw, rfl⟩ | ⟨hw, rfl⟩
        · exact Or.inl ⟨hw, rfl⟩
        · exact Or.inr ⟨hw, rfl⟩
      | metric =>
        obtain ⟨t, ht, hc⟩ := (textFor_iff _ _ _ _ _).1 h8
        refine ⟨t, ht, ?_⟩
        rcases (metric_iff _ _ _).1 hc with ⟨hw, rfl⟩ | ⟨hw, rfl⟩
        · exact Or.inl ⟨hw, rfl⟩
        · exact Or.inr ⟨hw, rfl⟩
      | sampleSize => exact (hnum .sampleSize _ (fun _ => rfl)).1 h9
      | maxCluster => exact (hnum .maxCluster _ (fun _ => rfl)).1 h10
      | lpIter => exact (hnum .lpIter _ (fun _ => rfl)).1 h11
      | nrVertices => exact (hnum .nrVertices _ (fun _ => rfl)).1 h12
      | maxRounds => exact (hnum .maxRounds _ (fun _ => rfl)).1 h13
      | passes => exact (hnum .passes _ (fun _ => rfl)).1 h14
      | noGain => exact (hnum .noGain _ (fun _ => rfl)).1 h15
      | sendMoves => exact (hnum .sendMoves _ (fun _ => rfl)).1 h16
  · rintro ⟨hk, h⟩
    have e0 : textFor isFile args conf .file = some S.file := by
      obtain ⟨t, ht, hf, hS⟩ := h .file
      rw [hS]
      exact (textFor_iff _ _ _ _ _).2 ⟨t, ht, if_pos hf⟩
    have e5 : textFor isFile args conf .weights = some S.weights := by
      obtain ⟨t, ht, hf, hS⟩ := h .weights
      rw [hS]
      exact (textFor_iff _ _ _ _ _).2 ⟨t, ht, if_pos hf⟩
    obtain ⟨b, e6, hb⟩ : ∃ b, textFor isFile args conf .bisect = some b ∧
        decide (b = "0".toList) = S.opts.bisectionRandom := by
      obtain ⟨t, ht, ⟨hw, hS⟩ | ⟨hw, hS⟩⟩ := h .bisect
      · exact ⟨_, (textFor_iff _ _ _ _ _).2 ⟨t, ht, (bisect_iff _ _ _).2 (Or.inl ⟨hw, rfl⟩)⟩, by rw [hS]; decide⟩
      · exact ⟨_, (textFor_iff _ _ _ _ _).2 ⟨t, ht, (bisect_iff _ _ _).2 (Or.inr ⟨hw, rfl⟩)⟩, by rw [hS]; decide⟩
    obtain ⟨sa, e7, hsa⟩ : ∃ b, textFor isFile args conf .sampling = some b ∧
        decide (b = "1".toList) = S.opts.samplingLp := by
      obtain ⟨t, ht, ⟨hw, hS⟩ | ⟨hw, hS⟩⟩ := h .sampling
      · exact ⟨_, (textFor_iff _ _ _ _ _).2 ⟨t, ht, (sampling_iff _ _ _).2 (Or.inl ⟨hw, rfl⟩)⟩, by rw [hS]; decide⟩
      · exact ⟨_, (textFor_iff _ _ _ _ _).2 ⟨t, ht, (sampling_iff _ _ _).2 (Or.inr ⟨hw, rfl⟩)⟩, by rw [hS]; decide⟩
    obtain ⟨me, e8, hme⟩ : ∃ b, textFor isFile args conf .metric = some b ∧
        (if b = "0".toList then Metric.cutNet else Metric.lambdaMinusOne) = S.opts.metric := by
      obtain ⟨t, ht, ⟨hw, hS⟩ | ⟨hw, hS⟩⟩ := h .metric
      · exact ⟨_, (textFor_iff _ _ _ _ _).2 ⟨t, ht, (metric_iff _ _ _).2 (Or.inl ⟨hw, rfl⟩)⟩, by rw [hS]; decide⟩
      · exact ⟨_, (textFor_iff _ _ _ _ _).2 ⟨t, ht, (metric_iff _ _ _).2 (Or.inr ⟨hw, rfl⟩)⟩, by rw [hS]; decide⟩
    have e1 := (hint .procs 32 S.p (fun _ => rfl)).2 (h .procs)
    have e2 := (hint .parts 64 S.k (fun _ => rfl)).2 (h .parts)
    have e3 := (bind_text (isFile := isFile) (f := dbl) (v := S.eps) (o := .eps) (fun _ => rfl)).2 (h .eps)
    have e4 := (bind_text (isFile := isFile) (f := dbl) (v := S.eta) (o := .eta) (fun _ => rfl)).2 (h .eta)
    have e9 := (hnum .sampleSize _ (fun _ => rfl)).2 (h .sampleSize)
    have e10 := (hnum .maxCluster _ (fun _ => rfl)).2 (h .maxCluster)
    have e11 := (hnum .lpIter _ (fun _ => rfl)).2 (h .lpIter)
    have e12 := (hnum .nrVertices _ (fun _ => rfl)).2 (h .nrVertices)
    have e13 := (hnum .maxRounds _ (fun _ => rfl)).2 (h .maxRounds)
    have e14 := (hnum .passes _ (fun _ => rfl)).2 (h .passes)
    have e15 := (hnum .noGain _ (fun _ => rfl)).2 (h .noGain)
    have e16 := (hnum .sendMoves _ (fun _ => rfl)).2 (h .sendMoves)
    rw [(argsKnown_iff args).2 hk, if_neg (by decide)]
    refine Option.bind_eq_some_iff.2 ⟨_, e0, ?_⟩
    refine Option.bind_eq_some_iff.2 ⟨_, e1, ?_⟩
    refine Option.bind_eq_some_iff.2 ⟨_, e2, ?_⟩
    refine Option.bind_eq_some_iff.2 ⟨_, e3, ?_⟩
    refine Option.bind_eq_some_iff.2 ⟨_, e4, ?_⟩
    refine Option.bind_eq_some_iff.2 ⟨_, e5, ?_⟩
    refine Option.bind_eq_some_iff.2 ⟨_, e6, ?_⟩
    refine Option.bind_eq_some_iff.2 ⟨_, e7, ?_⟩
    refine Option.bind_eq_some_iff.2 ⟨_, e8, ?_⟩
    refine Option.bind_eq_some_iff.2 ⟨_, e9, ?_⟩
    refine Option.bind_eq_some_iff.2 ⟨_, e10, ?_⟩
    refine Option.bind_eq_some_iff.2 ⟨_, e11, ?_⟩
    refine Option.bind_eq_some_iff.2 ⟨_, e12, ?_⟩
    refine Option.bind_eq_some_iff.2 ⟨_, e13, ?_⟩
    refine Option.bind_eq_some_iff.2 ⟨_, e14, ?_⟩
    refine Option.bind_eq_some_iff.2 ⟨_, e15, ?_⟩
    refine Option.bind_eq_some_iff.2 ⟨_, e16, ?_⟩
    rw [hb, hsa, hme]

/-- C101: an option that is neither on the command line nor in the file makes the program stop. -/
theorem C101_missing {dbl : List Char → Option ℚ} {isFile : List Char → Bool} {args conf : Given} {o : Opt}
    (ha : NotGiven (optNames o) args) (hc : NotGiven (optNames o) conf) : settingsOf dbl isFile args conf = none := by
  rcases h : settingsOf dbl isFile args conf with _ | S
  · rfl
  · have hnot : ∀ (l : Given) (t : List Char), NotGiven (optNames o) l → ¬ FirstGiven (optNames o) l t := by
      rintro l t h ⟨a, n, b, rfl, hn, -⟩
      exact h (n, t) (by simp) hn
    obtain ⟨t, ht | ⟨-, ht⟩, -⟩ := ((C101_settings _ _ _ _ _).1 h).2 o
    · exact absurd ht (hnot _ _ ha)
    · exact absurd ht (hnot _ _ hc)

/-- C101: the file does not matter for an option that is on the command line. -/
theorem C101_overrules {dbl : List Char → Option ℚ} {isFile : List Char → Bool} {args conf conf' : Given}
    (h : ∀ o, (∃ t, FirstGiven (optNames o) args t) ∨ ∀ t, FirstGiven (optNames o) conf t ↔ FirstGiven (optNames o) conf' t) :
    settingsOf dbl isFile args conf = settingsOf dbl isFile args conf' := by
  have hnot : ∀ (o : Opt) (l : Given) (t : List Char), NotGiven (optNames o) l → ¬ FirstGiven (optNames o) l t := by
    rintro o l t h ⟨a, n, b, rfl, hn, -⟩
    exact h (n, t) (by simp) hn
  have hcount : ∀ o t, TextCounts (optNames o) args conf t ↔ TextCounts (optNames o) args conf' t := by
    intro o t
    rcases h o with ⟨t', ht'⟩ | h
    · unfold TextCounts
      refine or_congr_right ?_
      exact ⟨fun h => absurd ht' (hnot _ _ _ h.1), fun h => absurd ht' (hnot _ _ _ h.1)⟩
    · unfold TextCounts
      rw [h]
  ext S
  show _ = some S ↔ _ = some S
  rw [C101_settings, C101_settings]
  simp only [hcount]

/-- C101: the way in which the weights are computed is one that the reader of the matrix knows. -/
theorem C101_mode {dbl : List Char → Option ℚ} {isFile : List Char → Bool} {args conf : Given} {S : Settings}
    (h : settingsOf dbl isFile args conf = some S) : ∃ wt, ModeMeans (String.ofList S.weights) wt := by
  obtain ⟨t, -, ht, hS⟩ := ((C101_settings _ _ _ _ _).1 h).2 .weights
  rw [hS]
  rcases ht with rfl | rfl
  · exact ⟨_, Or.inl ⟨by decide, rfl⟩⟩
  · exact ⟨_, Or.inr ⟨by decide, rfl⟩⟩

theorem checkedText_again {isFile : List Char → Bool} {o : Opt} {t r : List Char} (h : checkedText isFile o t = some r) :
    checkedText isFile o r = some r := by
  have hsame : ∀ {P : Prop} [Decidable P], (if P then some t else none) = some r → r = t := by
    intro P _ h
    split at h
    · exact (Option.some.inj h).symm
    · exact absurd h (by simp)
  cases o with
  | file => obtain rfl := hsame h; exact h
  | weights => obtain rfl := hsame h; exact h
  | bisect =>
    rcases (bisect_iff _ _ _).1 h with ⟨-, rfl⟩ | ⟨-, rfl⟩
    · exact (bisect_iff _ _ _).2 (Or.inl ⟨Or.inr rfl, rfl⟩)
    · exact (bisect_iff _ _ _).2 (Or.inr ⟨Or.inr rfl, rfl⟩)
  | sampling =>
    rcases (sampling_iff _ _ _).1 h with ⟨-, rfl⟩ | ⟨-, rfl⟩
    · exact (sampling_iff _ _ _).2 (Or.inl ⟨Or.inr rfl, rfl⟩)
    · exact (sampling_iff _ _ _).2 (Or.inr ⟨Or.inr rfl, rfl⟩)
  | metric =>
    rcases (metric_iff _ _ _).1 h with ⟨-, rfl⟩ | ⟨-, rfl⟩
    · exact (metric_iff _ _ _).2 (Or.inl ⟨Or.inr rfl, rfl⟩)
    · exact (metric_iff _ _ _).2 (Or.inr ⟨Or.inr rfl, rfl⟩)
  | _ => rfl

theorem givenFor_written (r : Opt → List Char) (o : Opt) :
    givenFor o (Opt.all.map (fun o => (o.longName, r o))) = some (r o) := by
  cases o <;> simp [givenFor, Opt.all, Opt.names, Opt.longName]

theorem mapM_all {α : Type} {f : Opt → Option α} {g : Opt → α} (h : ∀ o, f o = some (g o)) (l : List Opt) :
    l.mapM f = some (l.map g) := by
  induction l with
  | nil => rfl
  | cons a l ih => simp [List.mapM_cons, h a, ih]

theorem textFor_accepted {dbl : List Char → Option ℚ} {isFile : List Char → Bool} {args conf : Given} {S : Settings}
    (h : settingsOf dbl isFile args conf = some S) (o : Opt) : ∃ r, textFor isFile args conf o = some r := by
  obtain ⟨t, ht, hm⟩ := ((C101_settings _ _ _ _ _).1 h).2 o
  suffices h : ∃ r, checkedText isFile o t = some r by
    obtain ⟨r, hr⟩ := h
    exact ⟨r, (textFor_iff _ _ _ _ _).2 ⟨t, ht, hr⟩⟩
  cases o with
  | file => exact ⟨t, if_pos hm.1⟩
  | weights => exact ⟨t, if_pos hm.1⟩
  | bisect =>
    rcases hm with ⟨hw, -⟩ | ⟨hw, -⟩
    · exact ⟨_, (bisect_iff _ _ _).2 (Or.inl ⟨hw, rfl⟩)⟩
    · exact ⟨_, (bisect_iff _ _ _).2 (Or.inr ⟨hw, rfl⟩)⟩
  | sampling =>
    rcases hm with ⟨hw, -⟩ | ⟨hw, -⟩
    · exact ⟨_, (sampling_iff _ _ _).2 (Or.inl ⟨hw, rfl⟩)⟩
    · exact ⟨_, (sampling_iff _ _ _).2 (Or.inr ⟨hw, rfl⟩)⟩
  | metric =>
    rcases hm with ⟨hw, -⟩ | ⟨hw, -⟩
    · exact ⟨_, (metric_iff _ _ _).2 (Or.inl ⟨hw, rfl⟩)⟩
    · exact ⟨_, (metric_iff _ _ _).2 (Or.inr ⟨hw, rfl⟩)⟩
  | _ => exact ⟨t, rfl⟩

/-- C101: a run writes its settings, every option once; a run that gets that file and an empty command line has the same
settings and writes the same file. -/
theorem C101_again {dbl : List Char → Option ℚ} {isFile : List Char → Bool} {args conf : Given} {S : Settings}
    (h : settingsOf dbl isFile args conf = some S) :
    ∃ W, writtenSettings isFile args conf = some W ∧ (∀ o, ∃! x, x ∈ W ∧ x.1 ∈ optNames o) ∧
      settingsOf dbl isFile [] W = some S ∧ writtenSettings isFile [] W = some W := by
  choose r hr using textFor_accepted h
  have hW : writtenSettings isFile args conf = some (Opt.all.map (fun o => (o.longName, r o))) := by
    unfold writtenSettings
    refine mapM_all (fun o => ?_) _
    rw [hr]
    rfl
  have hsame : ∀ o, textFor isFile [] (Opt.all.map (fun o => (o.longName, r o))) o = textFor isFile args conf o := by
    intro o
    obtain ⟨t, -, ht⟩ := (textFor_iff _ _ _ _ _).1 (hr o)
    rw [hr]
    unfold textFor chosenFor
    rw [givenFor_written]
    exact checkedText_again ht
  refine ⟨_, hW, ?_, ?_, ?_⟩
  · intro o
    refine ⟨(o.longName, r o), ⟨List.mem_map.2 ⟨o, opt_all o, rfl⟩, ?_⟩, ?_⟩
    · cases o <;> simp [Opt.longName, optNames]
    · rintro x ⟨hx, hx'⟩
      obtain ⟨o', -, rfl⟩ := List.mem_map.1 hx
      have : o' = o := by
        cases o <;> cases o' <;> first | rfl | exact absurd hx' (by simp [Opt.longName, optNames])
      rw [this]
  · have h1 : argsKnown args = true := (argsKnown_iff _).2 ((C101_settings _ _ _ _ _).1 h).1
    rw [← h]
    unfold settingsOf
    dsimp only
    rw [h1]
    simp only [hsame]
    rfl
  · rw [← hW]
    unfold writtenSettings
    simp only [hsame]

/-- Reads the floating-point numbers of the examples. -/
def exampleDouble (t : List Char) : Option ℚ :=
  if t = "0.03".toList then some (3 / 100) else if t = "-7".toList then some (-7) else none

/-- C101: the file of the repository is accepted, and gives the settings of the other file of the repository. -/
theorem C101_defaults : writtenSettings (fun _ => true) [] defaultsFile = some runFile ∧
    (settingsOf exampleDouble (fun _ => true) [] defaultsFile).map (fun S => (S.p, S.k, S.eps, S.eta)) =
      some (32, 2, 3 / 100, 3 / 100) ∧
    (settingsOf exampleDouble (fun _ => true) [] defaultsFile).map
        (fun S => (S.opts.sampleSize, S.opts.metric, S.opts.samplingLp, S.opts.bisectionRandom)) =
      some (5000, .lambdaMinusOne, false, false) := by
  decide +kernel

/-- C101, false: the ranges of the README are not checked. -/
theorem C101_ranges_false : ∃ args S, settingsOf exampleDouble (fun _ => true) args defaultsFile = some S ∧
    S.p = 0 ∧ S.k = -5 ∧ S.eps = -7 ∧ S.opts.sampleSize = 0 ∧ S.opts.maxClustersize = 0 ∧ S.opts.klfmParSendMoves = 0 := by
  have h : (settingsOf exampleDouble (fun _ => true)
      [("p", "0".toList), ("parts", "-5".toList), ("epsilon", "-7".toList), ("sample_size", "0".toList),
        ("max_cluster_size", "0".toList), ("KLFM_par_send_moves", "0".toList)] defaultsFile).map
      (fun S => (S.p, S.k, S.eps, S.opts.sampleSize, S.opts.maxClustersize, S.opts.klfmParSendMoves)) =
      some (0, -5, -7, 0, 0, 0) := by decide +kernel
  obtain ⟨S, hS, h⟩ := Option.map_eq_some_iff.1 h
  simp only [Prod.mk.injEq] at h
  exact ⟨_, S, hS, h⟩

/-- Texts that are not accepted: a word of another list, a number that does not fit, a name twice, an unknown name. -/
example : ∀ x ∈ ([[("metric", "random".toList)], [("p", "2147483648".toList)], [("k", "2".toList), ("parts", "2".toList)],
      [("q", "1".toList)], [("weights", "One".toList)], [("sample_size", "-1".toList)]] : List Given),
    (settingsOf exampleDouble (fun _ => true) x defaultsFile).isSome = false := by
  decide +kernel

/-- Accepted: another case, and a name from the file overruled. -/
example : (settingsOf exampleDouble (fun _ => true) [("metric", "CutNet".toList), ("k", "-2147483649".toList)]
    defaultsFile).map (fun S => (S.opts.metric, S.k)) = some (.cutNet, -2147483649) := by
  decide +kernel

end PMondriaan
