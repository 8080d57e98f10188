import Verif.Split.Lemmas

/-! # Properties of the splitting of sections -/

namespace Verif.Split

open Verif.Fst Verif.Compiler

section
variable {W : Type} [LinearOrder W] [Zero W] {N : Type} [LinearOrder N]

theorem tags_keep (s : Settings) (tags : List UString) (ps : List (N × List (CEntry N W))) (c c' : Comp N W)
    (h : procNodes s (tags.map .sdef ++ ps.flatMap parNodes) c = .ok c') : c'.sect = c.sect := by
  have key : ∀ (ns : List (Node N W)) (c c' : Comp N W), (∀ n ∈ ns, (∀ k, n ≠ .secOpen k) ∧ n ≠ .secClose) → procNodes s ns c = .ok c' → c'.sect = c.sect := by
    intro ns
    induction ns with
    | nil => intro c c' _ h; cases h; rfl
    | cons n ns ih =>
      intro c c' hn h
      rw [procNodes] at h
      obtain ⟨c1, h1, h2⟩ := Res.bind_eq_ok.1 h
      refine (ih c1 c' (fun n h => hn n (List.mem_cons_of_mem _ h)) h2).trans ?_
      have hn0 := hn n List.mem_cons_self
      cases n with
      | sdef t => cases h1; rfl
      | parOpen t => cases h1; rfl
      | parClose =>
        simp only [procNode, closePar] at h1
        split at h1
        · cases h1; rfl
        · split at h1
          · cases h1; rfl
          · obtain ⟨t, -, h3⟩ := Res.bind_eq_ok.1 h1
            obtain ⟨t', -, h4⟩ := Res.bind_eq_ok.1 h3
            cases h4; rfl
      | secOpen k => exact absurd rfl (hn0.1 k)
      | secClose => exact absurd rfl hn0.2
      | entry e => exact (procEntry_keeps s e h1).1
  refine key _ c c' (fun n hn => ?_) h
  rcases List.mem_append.1 hn with hn | hn
  · obtain ⟨t, -, rfl⟩ := List.mem_map.1 hn
    simp
  · obtain ⟨p, -, hn⟩ := List.mem_flatMap.1 hn
    simp only [parNodes, List.mem_append, List.mem_cons, List.mem_map, List.not_mem_nil, or_false] at hn
    rcases hn with (rfl | ⟨e, -, rfl⟩) | rfl <;> simp

/-- **C97** Compiling with a limit on the entries of a section is the same as compiling the dictionary in which the entries were put into sections of
their own by the author, whatever the dictionary, with the same result also when it fails. -/
theorem C97_as_written (s : Settings) (m : Nat) (f : File N W) : parseMax s m f.nodes = parse s (split m f).nodes := by
  unfold parseMax parse
  have h1 : procNodesMax s m f.nodes ({} : Comp N W) 0 = procNodes s (split m f).nodes {} >>= fun c => pure (c, 0) := by
    show procNodesMax s m (f.tags.map .sdef ++ (f.pars.flatMap parNodes ++ f.secs.flatMap secNodes)) _ 0 =
      procNodes s (f.tags.map .sdef ++ (f.pars.flatMap parNodes ++ (f.secs.flatMap fun p => singles m p.1 0 p.2).flatMap secNodes)) _ >>= _
    rw [← List.append_assoc, ← List.append_assoc, nodes_append, nodesMax_append, others_run]
    cases h : procNodes s (f.tags.map .sdef ++ f.pars.flatMap parNodes) ({} : Comp N W) with
    | ok c =>
      simp only [Res.bind_ok, Res.pure_eq]
      have := sections_run s m f.secs c (tags_keep s f.tags f.pars _ _ h)
      simpa only [Res.pure_eq] using this
    | exit => rfl
    | exception => rfl
    | ub => rfl
  rw [h1]
  cases procNodes s (split m f).nodes ({} : Comp N W) with
  | ok c => rfl
  | exit => rfl
  | exception => rfl
  | ub => rfl

end

theorem singles_mem {N W : Type} {m : Nat} {k : UString} {ents : List (CEntry N W)} {i0 : Nat} {p : UString × List (CEntry N W)} :
    p ∈ singles m k i0 ents ↔ ∃ i e, ents[i]? = some e ∧ p = (plus ((i0 + i + 1) / m) k, [e]) := by
  induction ents generalizing i0 with
  | nil => simp [singles]
  | cons e ents ih =>
    rw [singles, List.mem_cons, ih]
    constructor
    · rintro (rfl | ⟨i, d, h1, h2⟩)
      · exact ⟨0, e, rfl, rfl⟩
      · exact ⟨i + 1, d, by simpa using h1, by rw [h2]; congr 3; omega⟩
    · rintro ⟨i, d, h1, h2⟩
      cases i with
      | zero => cases h1; exact .inl h2
      | succ i => exact .inr ⟨i, d, by simpa using h1, by rw [h2]; congr 3; omega⟩

theorem split_mem {N W : Type} {m : Nat} {f : File N W} {k' : UString} {ents' : List (CEntry N W)} :
    (k', ents') ∈ (split m f).secs ↔ ∃ k ents, (k, ents) ∈ f.secs ∧ ∃ i e, ents[i]? = some e ∧ k' = plus ((i + 1) / m) k ∧ ents' = [e] := by
  show (k', ents') ∈ f.secs.flatMap (fun p => singles m p.1 0 p.2) ↔ _
  rw [List.mem_flatMap]
  constructor
  · rintro ⟨⟨k, ents⟩, h1, h2⟩
    obtain ⟨i, e, h3, h4⟩ := singles_mem.1 h2
    rw [Nat.zero_add] at h4
    cases h4
    exact ⟨k, ents, h1, i, e, h3, rfl, rfl⟩
  · rintro ⟨k, ents, h1, i, e, h3, rfl, rfl⟩
    exact ⟨(k, ents), h1, singles_mem.2 ⟨i, e, h3, by rw [Nat.zero_add]⟩⟩

theorem split_gives {N W : Type} {s : Settings} {m : Nat} {f : File N W} {es : List (Token N)} {l r : List Int} :
    Gives s (split m f) es l r ↔ Gives s f es l r := by
  constructor <;> intro h
  · induction h with
    | nil => exact .nil
    | text _ ih => exact .text ih
    | re hv hm _ ih => exact .re hv hm ih
    | par hp hu _ _ ih1 ih2 => exact .par hp hu ih1 ih2
  · induction h with
    | nil => exact .nil
    | text _ ih => exact .text ih
    | re hv hm _ ih => exact .re hv hm ih
    | par hp hu _ _ ih1 ih2 => exact .par (f := split m f) hp hu ih1 ih2

theorem split_uses {N W : Type} {s : Settings} {m : Nat} {f : File N W} {k' : UString} {ents' : List (CEntry N W)} (h : (k', ents') ∈ (split m f).secs)
    {es : List (Token N)} (hu : Uses s ents' es) : ∃ k ents, (k, ents) ∈ f.secs ∧ Uses s ents es := by
  obtain ⟨k, ents, h1, i, e, h2, -, rfl⟩ := split_mem.1 h
  obtain ⟨e', h3, h4⟩ := hu
  rw [List.mem_singleton] at h3
  subst h3
  exact ⟨k, ents, h1, e', List.mem_of_getElem? h2, h4⟩

theorem split_regular {N W : Type} {s : Settings} {f : File N W} {closed : N → Bool} (m : Nat) (h : Regular s f closed) : Regular s (split m f) closed where
  acx := h.acx
  names := h.names
  order := h.order
  refs := fun k' ents' hm es hu n hn => by
    obtain ⟨k, ents, h1, h2⟩ := split_uses hm hu
    exact h.refs k ents h1 es h2 n hn
  parFits := h.parFits
  secFits := fun k' ents' hm es hu => by
    obtain ⟨k, ents, h1, h2⟩ := split_uses hm hu
    exact h.secFits k ents h1 es h2
  parClosed := h.parClosed
  last := fun ps n ents he => by
    obtain ⟨l, r, hg⟩ := h.last ps n ents he
    exact ⟨l, r, split_gives.2 hg⟩

theorem plus_inj {j j' : Nat} {k k' : UString} (h : k.head? ≠ some 0x2b) (h' : k'.head? ≠ some 0x2b) (e : plus j k = plus j' k') : j = j' ∧ k = k' := by
  induction j generalizing j' with
  | zero =>
    cases j' with
    | zero => exact ⟨rfl, e⟩
    | succ j' =>
      rw [plus, plus, List.replicate_succ] at e
      simp only [List.replicate_zero, List.nil_append] at e
      rw [e] at h
      exact absurd rfl h
  | succ j ih =>
    cases j' with
    | zero =>
      rw [plus, plus, List.replicate_succ] at e
      simp only [List.replicate_zero, List.nil_append] at e
      rw [← e] at h'
      exact absurd rfl h'
    | succ j' =>
      rw [plus, plus, List.replicate_succ, List.replicate_succ] at e
      simp only [List.cons_append, List.cons.injEq, true_and] at e
      obtain ⟨rfl, rfl⟩ := ih e
      exact ⟨rfl, rfl⟩

theorem secGives_split {N W : Type} {s : Settings} {f : File N W} {m : Nat} {k' : UString} {l r : List Int} :
    SecGives s (split m f) k' l r ↔ ∃ k j, k' = plus j k ∧ PartGives s f m j k l r := by
  constructor
  · rintro ⟨ents', h1, es, ⟨e', h3, h4, h5⟩, h6⟩
    obtain ⟨k, ents, g1, i, e, g2, g3, rfl⟩ := split_mem.1 h1
    rw [List.mem_singleton] at h3
    subst h3
    exact ⟨k, _, g3, ents, g1, i, e', es, g2, rfl, h4, h5, split_gives.1 h6⟩
  · rintro ⟨k, j, rfl, ents, g1, i, e, es, g2, rfl, g4, g5, g6⟩
    exact ⟨[e], split_mem.2 ⟨k, ents, g1, i, e, g2, rfl, rfl⟩, es, ⟨e, List.mem_singleton.2 rfl, g4, g5⟩, split_gives.2 g6⟩

theorem secGives_parts {N W : Type} {s : Settings} {f : File N W} {m : Nat} {k : UString} {l r : List Int} :
    SecGives s f k l r ↔ ∃ j, PartGives s f m j k l r := by
  constructor
  · rintro ⟨ents, h1, es, ⟨e, h3, h4, h5⟩, h6⟩
    obtain ⟨i, hi⟩ := List.getElem?_of_mem h3
    exact ⟨_, ents, h1, i, e, es, hi, rfl, h4, h5, h6⟩
  · rintro ⟨j, ents, h1, i, e, es, h2, -, h4, h5, h6⟩
    exact ⟨ents, h1, es, ⟨e, List.mem_of_getElem? h2, h4, h5⟩, h6⟩

section
variable {N W : Type} [LinearOrder N] [AddMonoid W] [LinearOrder W]

/-- **C97** With a limit of `m` entries (none if `m` is 0), a dictionary compiles as without one. The sections are parts of the old ones: the part of name
`+…+k` with `j` marks relates exactly the pairs of the entries of `k` whose numbers divided by `m` are `j`, parts that stand for nothing are left out, and
together the parts of `k` relate exactly the pairs that the section `k` stands for. A part is of the same kind as its section. Names of sections do not begin
with `+`.

Missing: what is missing of `C69`. -/
theorem C97_parts_partial (s : Settings) (m : Nat) (f : File N W) (closed : N → Bool) (hreg : Regular s f closed)
    (hok : ∀ k l r, SecGives s f k l r → (sides s l r).1 ≠ [] ∧ (sides s l r).1.head? ≠ some 0x20)
    (hplus : ∀ k ents, (k, ents) ∈ f.secs → k.head? ≠ some 0x2b) :
    ∃ A secs, parseMax s m f.nodes = .ok (A, secs) ∧ (secs.map (·.1)).Nodup ∧
      (∀ k', k' ∈ secs.map (·.1) ↔ ∃ k j, k' = plus j k ∧ ∃ l r, PartGives s f m j k l r) ∧
      (∀ k ents, (k, ents) ∈ f.secs → ∀ j t, (plus j k, t) ∈ secs → WF t ∧
        ∀ l r, (∃ w, Relates A t (sides s l r).1 (sides s l r).2 w) ↔ PartGives s f m j k l r) ∧
      (∀ k ents, (k, ents) ∈ f.secs → ∀ l r, SecGives s f k l r ↔
        ∃ j t w, (plus j k, t) ∈ secs ∧ Relates A t (sides s l r).1 (sides s l r).2 w) ∧
      ∀ j k κ, Load.HasKind k κ → Load.HasKind (plus j k) κ := by
  obtain ⟨A, secs, h1, h2, h3, h4⟩ := C69_dictionary_partial s (split m f) closed (split_regular m hreg) (fun k' l r h => by
    obtain ⟨k, j, -, h⟩ := secGives_split.1 h
    exact hok k l r (secGives_parts.2 ⟨j, h⟩))
  have hone : ∀ k ents, (k, ents) ∈ f.secs → ∀ j l r, SecGives s (split m f) (plus j k) l r ↔ PartGives s f m j k l r := by
    intro k ents hk j l r
    rw [secGives_split]
    constructor
    · rintro ⟨k', j', e, h⟩
      have h' := h
      obtain ⟨ents', hk', -⟩ := h'
      obtain ⟨rfl, rfl⟩ := plus_inj (hplus k ents hk) (hplus k' ents' hk') e
      exact h
    · exact fun h => ⟨k, j, rfl, h⟩
  refine ⟨A, secs, by rw [C97_as_written, h1], h2, fun k' => ?_, fun k ents hk j t ht => ?_, fun k ents hk l r => ?_, ?_⟩
  · rw [h3]
    constructor
    · rintro ⟨l, r, h⟩
      obtain ⟨k, j, e, h⟩ := secGives_split.1 h
      exact ⟨k, j, e, l, r, h⟩
    · rintro ⟨k, j, e, l, r, h⟩
      exact ⟨l, r, secGives_split.2 ⟨k, j, e, h⟩⟩
  · obtain ⟨i1, i2⟩ := h4 _ t ht
    exact ⟨i1, fun l r => by rw [i2, hone k ents hk]⟩
  · rw [secGives_parts (m := m)]
    refine exists_congr fun j => ?_
    rw [← hone k ents hk]
    constructor
    · intro h
      obtain ⟨⟨k', t⟩, ht, e⟩ := List.mem_map.1 ((h3 (plus j k)).2 ⟨l, r, h⟩)
      simp only at e
      subst e
      obtain ⟨w, hw⟩ := ((h4 _ t ht).2 l r).2 h
      exact ⟨t, w, ht, hw⟩
    · rintro ⟨t, w, ht, hw⟩
      exact ((h4 _ t ht).2 l r).1 ⟨w, hw⟩
  · rintro j k κ ⟨p, rfl⟩
    exact ⟨List.replicate j 0x2b ++ p, by simp [plus]⟩

/-- **C97** So with a limit and without it the sections of a name relate the same pairs. -/
theorem C97_unchanged_partial (s : Settings) (m : Nat) (f : File N W) (closed : N → Bool) (hreg : Regular s f closed)
    (hok : ∀ k l r, SecGives s f k l r → (sides s l r).1 ≠ [] ∧ (sides s l r).1.head? ≠ some 0x20)
    (hplus : ∀ k ents, (k, ents) ∈ f.secs → k.head? ≠ some 0x2b) :
    ∃ A secs A' secs', parse s f.nodes = .ok (A, secs) ∧ parseMax s m f.nodes = .ok (A', secs') ∧
      ∀ k ents, (k, ents) ∈ f.secs → ∀ l r, (∃ t w, (k, t) ∈ secs ∧ Relates A t l r w) ↔ ∃ j t w, (plus j k, t) ∈ secs' ∧ Relates A' t l r w := by
  obtain ⟨A, secs, h1, -, h3, h4⟩ := C69_dictionary_partial s f closed hreg hok
  obtain ⟨A', secs', g1, -, -, -, g5, -⟩ := C97_parts_partial s m f closed hreg hok hplus
  refine ⟨A, secs, A', secs', h1, g1, fun k ents hk l r => ?_⟩
  have h5 := g5 k ents hk (sides s l r).1 (sides s l r).2
  rw [sides_sides] at h5
  rw [← h5]
  constructor
  · rintro ⟨t, w, ht, hw⟩
    have := (h4 k t ht).2 (sides s l r).1 (sides s l r).2
    rw [sides_sides] at this
    exact this.1 ⟨w, hw⟩
  · intro h
    obtain ⟨⟨k', t⟩, ht, e⟩ := List.mem_map.1 ((h3 k).2 ⟨_, _, h⟩)
    simp only at e
    subst e
    have := (h4 _ t ht).2 (sides s l r).1 (sides s l r).2
    rw [sides_sides] at this
    obtain ⟨w, hw⟩ := this.2 h
    exact ⟨t, w, ht, hw⟩

end

/-- The hypotheses hold of the example of `C69` with a limit of two entries: the first entry stays in its section, the second begins a new one. -/
example : Regular {} exFile (fun _ => true) ∧ (∀ k l r, SecGives {} exFile k l r → (sides {} l r).1 ≠ [] ∧ (sides {} l r).1.head? ≠ some 0x20) ∧
    (∀ k ents, (k, ents) ∈ exFile.secs → k.head? ≠ some 0x2b) ∧ PartGives {} exFile 2 0 [109] [97, 120, 115] [98, 120, -1] ∧
    PartGives {} exFile 2 1 [109] [118] [118] := by
  have hleft : ∀ k l r, SecGives {} exFile k l r → (sides {} l r).1 ≠ [] ∧ (sides {} l r).1.head? ≠ some 0x20 := by
    intro k l r h
    rcases exFile_left k l r h with h | rfl | rfl
    · have : (sides {} l r).1 = l := rfl
      rw [this]
      cases l with
      | nil => cases h
      | cons x l => cases h; simp
    · simp [sides]
    · simp [sides]
  refine ⟨exFile_regular, hleft, fun k ents h => ?_, ?_, ?_⟩
  · simp only [exFile, List.mem_singleton, Prod.mk.injEq] at h
    rw [h.1]; decide
  · refine ⟨_, List.mem_singleton.2 rfl, 0, _, _, rfl, rfl, visible_plain _, rfl, ?_⟩
    refine Gives.text (l := [97]) (r := [98]) (l' := [120, 115]) (r' := [120, -1]) ?_
    refine Gives.par (l := [120, 115]) (r := [120, -1]) (l' := []) (r' := []) (List.mem_cons_of_mem _ (List.mem_cons_self ..))
      ⟨_, List.mem_cons_self .., visible_plain _, rfl⟩ ?_ .nil
    refine Gives.text (l := [120]) (r := [120]) (l' := [115]) (r' := [-1]) ?_
    refine Gives.par (l := [115]) (r := [-1]) (l' := []) (r' := []) (List.mem_cons_self ..) ⟨_, List.mem_cons_self .., visible_plain _, rfl⟩ ?_ .nil
    exact Gives.text (l := [115]) (r := [-1]) (l' := []) (r' := []) .nil
  · refine ⟨_, List.mem_singleton.2 rfl, 1, _, _, rfl, rfl, visible_plain _, rfl, ?_⟩
    refine Gives.re (e := exClass) (u := [118]) (l' := []) (r' := []) exClass_valid ?_ .nil
    exact ⟨118, ⟨.one 118, by simp, rfl⟩, rfl⟩

/-- Its sections. -/
example : (outcome (parseMax {} 2 exFile.nodes)).map (·.2.map (·.1)) = some [[0x2b, 109], [109]] := by decide +kernel

/-- Two entries for `a` with the weights 0 and 5. -/
def exWeights : File Nat Nat := weighted [] [entry [.text [97] [97]], entry [.text [97] [97]] 5]

/-- **C97** does not hold of weights: of two entries `a` with weights 0 and 5 the second is dropped without a limit, and is kept with a limit of two
entries. So the option of lt-comp for threads, which sets a limit, can change weights. -/
theorem C97_weights_false : (∃ A t, parse {} exWeights.nodes = .ok (A, [([109], t)]) ∧ ¬ Relates A t [97] [97] 5) ∧
    ∃ A t t', parseMax {} 2 exWeights.nodes = .ok (A, [([0x2b, 109], t'), ([109], t)]) ∧ Relates A t' [97] [97] 5 := by
  constructor
  · obtain ⟨A, h, hA⟩ := of_outcome (r := parse {} exWeights.nodes) (ps := [(0, 0), (97, 97)])
      (ts := [([109], ⟨0, [(1, 0)], [(0, [(1, 1, 0)]), (1, [])]⟩)]) (by decide +kernel)
    refine ⟨A, _, h, fun h => ?_⟩
    have := relates_weight (fun q w => w = 0) ?_ ?_ h
    · exact absurd this (by decide)
    · intro q l p h w hw
      unfold Edge at h
      match q, h with
      | 0, h => simp [row, mapFind] at h; simp_all
      | 1, h => simp [row, mapFind] at h
      | q + 2, h => simp [row, mapFind] at h
    · intro p fw h
      unfold Final at h
      simp only [List.mem_cons, Prod.mk.injEq, List.not_mem_nil, or_false] at h
      exact h.2
  · obtain ⟨A, h, hA⟩ := of_outcome (r := parseMax {} 2 exWeights.nodes) (ps := [(0, 0), (97, 97)])
      (ts := [([0x2b, 109], ⟨0, [(1, 0)], [(0, [(1, 1, 5)]), (1, [])]⟩), ([109], ⟨0, [(1, 0)], [(0, [(1, 1, 0)]), (1, [])]⟩)]) (by decide +kernel)
    refine ⟨A, _, _, h, [((97, 97), 5)], 0, ⟨1, .cons ⟨1, decode_of hA 1 _ rfl, ?_⟩ (.nil _), ?_⟩, rfl, rfl, rfl⟩
    · unfold Edge; decide
    · unfold Final; decide

/-- **C97** Without threads and without the variable there is no limit, and `lt-comp` does what `parse` does. -/
theorem C97_no_limit {W : Type} [LinearOrder W] [Zero W] {N : Type} [LinearOrder N] (s : Settings) (f : File N W) :
    parseMax s (maxEntries false none) f.nodes = parse s f.nodes := by
  have hz : ∀ ns (c : Comp N W) n, ∃ k, procNodesMax s 0 ns c n = procNodes s ns c >>= fun c => pure (c, k) := by
    intro ns
    induction ns with
    | nil => intro c n; exact ⟨n, rfl⟩
    | cons nd ns ih =>
      intro c n
      have h1 : ∃ k, procNodeMax s 0 nd c n = procNode s nd c >>= fun c => pure (c, k) := by
        cases nd with
        | entry e =>
          have : ∃ k, countEntry 0 c n = (c, k) := by
            unfold countEntry
            cases c.current with
            | none => exact ⟨n + 1, by simp⟩
            | some _ => exact ⟨n, rfl⟩
          obtain ⟨k, hk⟩ := this
          exact ⟨k, by simp only [procNodeMax, hk, procNode]⟩
        | sdef t => exact ⟨n, rfl⟩
        | parOpen t => exact ⟨n, rfl⟩
        | parClose => exact ⟨n, rfl⟩
        | secOpen t => exact ⟨0, rfl⟩
        | secClose => exact ⟨0, rfl⟩
      obtain ⟨k, hk⟩ := h1
      rw [procNodesMax, procNodes, hk]
      cases procNode s nd c with
      | ok c1 => exact ih c1 k
      | exit => exact ⟨0, rfl⟩
      | exception => exact ⟨0, rfl⟩
      | ub => exact ⟨0, rfl⟩
  have : maxEntries false none = 0 := rfl
  rw [this]
  unfold parseMax parse
  obtain ⟨k, hk⟩ := hz f.nodes {} 0
  rw [hk]
  cases procNodes s f.nodes ({} : Comp N W) with
  | ok c => rfl
  | exit => rfl
  | exception => rfl
  | ub => rfl

theorem singles_small {N W : Type} {m : Nat} (k : UString) (ents : List (CEntry N W)) (i : Nat) (h : i + ents.length < m) :
    singles m k i ents = singles 0 k i ents := by
  induction ents generalizing i with
  | nil => rfl
  | cons e es ih =>
    rw [List.length_cons] at h
    rw [singles, singles, ih (i + 1) (by omega), Nat.div_eq_of_lt (by omega), Nat.div_zero]

theorem split_small {N W : Type} {m : Nat} (f : File N W) (hf : ∀ p ∈ f.secs, p.2.length < m) : split m f = split 0 f := by
  unfold split
  congr 1
  have key : ∀ ps : List (UString × List (CEntry N W)), (∀ p ∈ ps, p.2.length < m) →
      (ps.flatMap fun p => singles m p.1 0 p.2) = ps.flatMap fun p => singles 0 p.1 0 p.2 := by
    intro ps h
    induction ps with
    | nil => rfl
    | cons p ps ih =>
      rw [List.flatMap_cons, List.flatMap_cons, ih fun p hp => h p (List.mem_cons_of_mem _ hp),
        singles_small p.1 p.2 0 (by have := h p List.mem_cons_self; omega)]
  exact key f.secs hf

/-- **C97** The limit of `lt-comp`: with threads and without the variable, dictionaries whose sections have less than 50000 entries are compiled as ever; with the
variable it is those whose sections have less entries than it says, and all dictionaries if it is zero or negative (no section has 2^63 entries), with threads or
without. -/
theorem C97_limit {W : Type} [LinearOrder W] [Zero W] {N : Type} [LinearOrder N] (s : Settings) (f : File N W) :
    ((∀ p ∈ f.secs, p.2.length < 50000) → parseMax s (maxEntries true none) f.nodes = parse s f.nodes) ∧
    ∀ (jobs : Bool) (k : Int), -2 ^ 63 ≤ k → k < 2 ^ 63 → (∀ p ∈ f.secs, p.2.length < 2 ^ 63) → (0 < k → ∀ p ∈ f.secs, (p.2.length : Int) < k) →
      parseMax s (maxEntries jobs (some k)) f.nodes = parse s f.nodes := by
  have h0 : parseMax s 0 f.nodes = parse s f.nodes := C97_no_limit s f
  have key : ∀ m, (∀ p ∈ f.secs, p.2.length < m) → parseMax s m f.nodes = parse s f.nodes := by
    intro m hm
    rw [C97_as_written, split_small f hm, ← C97_as_written, h0]
  refine ⟨fun h => key 50000 h, fun jobs k h1 h2 h3 h4 => ?_⟩
  have hk : maxEntries jobs (some k) = (k % 2 ^ 64).toNat := rfl
  rw [hk]
  rcases lt_trichotomy k 0 with hn | rfl | hp
  · refine key _ fun p hp => ?_
    have := h3 p hp
    have e : k % 2 ^ 64 = k + 2 ^ 64 := by omega
    rw [e]
    omega
  · exact h0
  · refine key _ fun p hm => ?_
    have := h4 hp p hm
    omega

/-- **C97** The limit is exact: a section with as many entries as it says is split. -/
theorem C97_limit_reached {N W : Type} (f : File N W) (k : UString) (ents : List (CEntry N W)) (hs : (k, ents) ∈ f.secs) (hl : ents.length = 50000) :
    ∃ e, (0x2b :: k, [e]) ∈ (split (maxEntries true none) f).secs := by
  have hlt : 49999 < ents.length := by omega
  exact ⟨ents[49999], split_mem.2 ⟨k, ents, hs, 49999, ents[49999], List.getElem?_eq_getElem hlt, rfl, rfl⟩⟩

/-- The hypotheses hold of the examples above. -/
example : (∀ p ∈ exWeights.secs, p.2.length < 50000) ∧ ∀ p ∈ exWeights.secs, (p.2.length : Int) < 3 := by decide

end Verif.Split
