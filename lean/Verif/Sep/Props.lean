import Verif.Sep.Parse
import Verif.Compiler.Props

/-!
# C98: compiling separable dictionaries

The vocabulary is in `Spec`: the pairs of an entry, and its runs, in which a wildcard stands for any number of itself.
-/

namespace Verif.Sep

open Verif.Fst Verif.Compiler Verif.Alphabet

section
variable {N W : Type} [LinearOrder N] [AddMonoid W] [LinearOrder W]

/-- **C98** A separable dictionary whose entries are texts compiles, and the section of each name relates what its entries stand for, with and without a
word boundary after it. Each wildcard stands for one or more of itself; wildcards that follow each other without anything between them count as one.
Sections that stand for nothing are left out, and each name comes once.

Missing: an entry that goes on with a boundary where another one ends (`C98_shared_false`), paradigms and regular expressions, equivalent characters, weights. -/
theorem C98_sections_partial (s : Settings) (f : File N W) (hf : Texts s f) (hends : Ends s f)
    (hok : ∀ k ps, Likely s f k ps → lefts ps ≠ [] ∧ (lefts ps).head? ≠ some 0x20) :
    ∃ A secs, parse s f.nodes = .ok (A, secs) ∧ (secs.map (·.1)).Nodup ∧ (∀ k, k ∈ secs.map (·.1) ↔ ∃ ps, Likely s f k ps) ∧
      ∀ k t, (k, t) ∈ secs → WF t ∧ ∀ x y, (∃ w, Relates A t x y w) ↔
        ∃ ps, Likely s f k ps ∧ ((x = lefts ps ∧ y = rights ps) ∨ (x = lefts ps ++ [wild.boundary] ∧ y = rights ps ++ [wild.boundary])) := by
  obtain ⟨A, ts, hA, h1, h2, h3, h4⟩ := parse_spec hf hends
  have hrel : ∀ k t, (k, t) ∈ ts → ∀ x y, AccRel A t t.initial x y ↔
      ∃ ps, Likely s f k ps ∧ ((x = lefts ps ∧ y = rights ps) ∨ (x = lefts ps ++ [wild.boundary] ∧ y = rights ps ++ [wild.boundary])) := by
    intro k t ht x y
    obtain ⟨-, -, -, i4⟩ := h4 k t ht
    have hl : ∀ ps, lefts (ps ++ [boundary]) = lefts ps ++ [wild.boundary] := fun ps => by simp [lefts, boundary, wild_eq]
    have hr : ∀ ps, rights (ps ++ [boundary]) = rights ps ++ [wild.boundary] := fun ps => by simp [rights, boundary, wild_eq]
    constructor
    · rintro ⟨ls, j1, rfl, rfl⟩
      rw [lft_prs, rgt_prs]
      rcases (i4 _).1 ⟨ls, j1, rfl⟩ with h | ⟨ps, h, e⟩
      · exact ⟨_, h, .inl ⟨rfl, rfl⟩⟩
      · exact ⟨ps, h, .inr ⟨by rw [e, hl], by rw [e, hr]⟩⟩
    · rintro ⟨ps, h, ⟨rfl, rfl⟩ | ⟨rfl, rfl⟩⟩
      · obtain ⟨ls, j1, rfl⟩ := (i4 _).2 (.inl h)
        exact ⟨ls, j1, lft_prs ls, rgt_prs ls⟩
      · obtain ⟨ls, j1, j2⟩ := (i4 _).2 (.inr ⟨ps, h, rfl⟩)
        exact ⟨ls, j1, by rw [lft_prs, j2, hl], by rw [rgt_prs, j2, hr]⟩
  have hv : valid A ts = true := by
    by_contra hno
    simp only [Bool.not_eq_true] at hno
    unfold valid at hno
    rw [List.all_eq_false] at hno
    obtain ⟨⟨k, t⟩, ht, hc⟩ := hno
    obtain ⟨i1, i2, i3, -⟩ := h4 k t ht
    obtain ⟨x, y, k1, k2⟩ := check_false hA i1 i2 i3 (by simpa [check] using hc)
    obtain ⟨ps, h, e⟩ := (hrel k t ht x y).1 k1
    obtain ⟨g1, g2⟩ := hok k ps h
    rcases e with ⟨rfl, -⟩ | ⟨rfl, -⟩
    · rcases k2 with k2 | k2
      · exact g1 k2
      · exact g2 k2
    · cases hp : lefts ps with
      | nil => exact g1 hp
      | cons z zs =>
        rw [hp] at k2 g2
        rcases k2 with k2 | k2
        · cases k2
        · exact g2 k2
  refine ⟨A, ts, by rw [h1, if_pos hv], ?_, h3, fun k t ht => ?_⟩
  · rw [List.nodup_iff_pairwise_ne, List.pairwise_map]
    exact h2.imp fun h => ne_of_lt h
  · obtain ⟨i1, i2, i3, -⟩ := h4 k t ht
    refine ⟨i1, fun x y => ?_⟩
    rw [← hrel k t ht]
    constructor
    · rintro ⟨w, h⟩
      obtain ⟨ls, p, fw, j1, j2, j3, j4, -⟩ := (relates_iff (.refl A) i3 _ _ w).1 h
      exact ⟨ls, ⟨p, fw, j1, j2⟩, j3, j4⟩
    · rintro ⟨ls, ⟨p, fw, j1, j2⟩, j3, j4⟩
      exact ⟨_, (relates_iff (.refl A) i3 _ _ _).2 ⟨ls, p, fw, j1, j2, j3, j4, rfl⟩⟩

/-- **C98** If no entry has two equal wildcards directly after each other, the sections stand for exactly what is written in the entries.

Missing: entries with two equal wildcards after each other (`C98_adjacent_false`), and what `C98_sections_partial` misses. -/
theorem C98_separable_partial (s : Settings) (f : File N W) (hf : Texts s f) (hends : Ends s f)
    (hsep : ∀ k ents, (k, ents) ∈ f.secs → ∀ es, Uses s ents es → Separate (pairsOf s es))
    (hok : ∀ k ps, Given s f k ps → lefts ps ≠ [] ∧ (lefts ps).head? ≠ some 0x20) :
    ∃ A secs, parse s f.nodes = .ok (A, secs) ∧ (secs.map (·.1)).Nodup ∧ (∀ k, k ∈ secs.map (·.1) ↔ ∃ ps, Given s f k ps) ∧
      ∀ k t, (k, t) ∈ secs → WF t ∧ ∀ x y, (∃ w, Relates A t x y w) ↔
        ∃ ps, Given s f k ps ∧ ((x = lefts ps ∧ y = rights ps) ∨ (x = lefts ps ++ [wild.boundary] ∧ y = rights ps ++ [wild.boundary])) := by
  have e : ∀ k ps, Likely s f k ps ↔ Given s f k ps := by
    intro k ps
    constructor
    · rintro ⟨ents, h1, es, h2, h3⟩
      exact ⟨ents, h1, es, h2, (hsep k ents h1 es h2).runs_iff.1 h3⟩
    · rintro ⟨ents, h1, es, h2, h3⟩
      exact ⟨ents, h1, es, h2, (hsep k ents h1 es h2).runs_iff.2 h3⟩
  have := C98_sections_partial s f hf hends (fun k ps h => hok k ps ((e k ps).1 h))
  simp only [e] at this
  exact this

/-- The number of spaces on the side that is read. -/
def spaces (ps : List Pair) : Nat := (lefts ps).count 0x20

theorem spaces_collapse (ps : List Pair) : spaces (collapse ps) = spaces ps := by
  have hs : ∀ (us vs : List Pair), spaces (us ++ vs) = spaces us + spaces vs := fun us vs => by simp [spaces, lefts]
  induction ps using List.reverseRecOn with
  | nil => rfl
  | append_singleton ps p ih =>
    rw [collapse_snoc, put, hs]
    split
    · next h =>
      have : spaces [p] = 0 := by
        have hp : p ∈ wildcards := by simpa [isLoop] using h.1
        simp only [wildcards, wild_eq, List.mem_cons, List.not_mem_nil, or_false] at hp
        rcases hp with rfl | rfl | rfl | rfl <;> decide
      rw [ih, this]
      rfl
    · rw [hs, ih]

omit [AddMonoid W] [LinearOrder N] [LinearOrder W] in
theorem spaces_bound (s : Settings) (f : File N W) : ∃ n, ∀ k ps, Likely s f k ps → spaces ps ≤ n := by
  have hb : ∀ l : List Nat, ∃ n, ∀ x ∈ l, x ≤ n := by
    intro l
    induction l with
    | nil => exact ⟨0, by simp⟩
    | cons x l ih =>
      obtain ⟨n, hn⟩ := ih
      refine ⟨x + n, fun y hy => ?_⟩
      rcases List.mem_cons.1 hy with rfl | hy
      · omega
      · have := hn y hy; omega
  obtain ⟨n, hn⟩ := hb (f.secs.flatMap fun p => p.2.map fun e => spaces (pairsOf s (e.content.getD [])))
  refine ⟨n, fun k ps h => ?_⟩
  obtain ⟨ents, h1, es, ⟨e, h2, -, h3⟩, h4⟩ := h
  rw [← spaces_collapse, like_iff.1 h4, spaces_collapse]
  refine hn _ (List.mem_flatMap.2 ⟨(k, ents), h1, List.mem_map.2 ⟨e, h2, by rw [h3]; rfl⟩⟩)

/-- **C98** Such a dictionary is refused exactly if it has a pair that begins with a space or is empty on the side that is read; else it is compiled, and nothing
else can happen. -/
theorem C98_refused (s : Settings) (f : File N W) (hf : Texts s f) (hends : Ends s f) :
    (parse s f.nodes = .exit ↔ ∃ k ps, Likely s f k ps ∧ (lefts ps = [] ∨ (lefts ps).head? = some 0x20)) ∧
    (parse s f.nodes ≠ .exit → ∃ x, parse s f.nodes = .ok x) := by
  obtain ⟨A, ts, hA, h1, h2, h3, h4⟩ := parse_spec hf hends
  have hout : parse s f.nodes ≠ .exit → ∃ x, parse s f.nodes = .ok x := by
    rw [h1]
    split
    · exact fun _ => ⟨_, rfl⟩
    · exact fun h => absurd rfl h
  refine ⟨⟨fun hex => ?_, ?_⟩, hout⟩
  · by_contra hno
    obtain ⟨A, ts, h, -⟩ := C98_sections_partial s f hf hends fun k ps h => ⟨fun e => hno ⟨k, ps, h, .inl e⟩, fun e => hno ⟨k, ps, h, .inr e⟩⟩
    rw [hex] at h
    cases h
  · rintro ⟨k, ps, hps, hbad⟩
    obtain ⟨⟨k', t⟩, ht, rfl⟩ := List.mem_map.1 ((h3 k).2 ⟨ps, hps⟩)
    obtain ⟨i1, i2, i3, i4⟩ := h4 k' t ht
    obtain ⟨ls, hls, e⟩ := (i4 ps).2 (.inl hps)
    have hacc : AccRel A t t.initial (lefts ps) (rights ps) := ⟨ls, hls, by rw [lft_prs, e], by rw [rgt_prs, e]⟩
    have hc : check A t = false := by
      rcases hbad with hbad | hbad
      · rw [hbad] at hacc
        exact check_nil hA i1 i2 i3 hacc
      · cases hl : lefts ps with
        | nil => rw [hl] at hbad; cases hbad
        | cons x xs =>
          rw [hl] at hbad hacc
          cases hbad
          by_contra hno
          simp only [Bool.not_eq_false] at hno
          obtain ⟨n, hn⟩ := spaces_bound s f
          obtain ⟨x', y', ls', j1, j2, -⟩ := check_space hA i1 i2 i3 hno hacc (n + 1)
          rw [lft_prs] at j2
          have hcount : n + 1 ≤ spaces (prs A ls') := by
            unfold spaces
            rw [j2, List.count_append, List.count_replicate_self]
            omega
          rcases (i4 _).1 ⟨ls', j1, rfl⟩ with h | ⟨ps', h, e'⟩
          · have := hn _ _ h; omega
          · have := hn _ _ h
            have e2 : spaces (ps' ++ [boundary]) = spaces ps' := by simp [spaces, lefts, boundary, wild_eq]
            rw [e', e2] at hcount
            omega
    rw [h1, if_neg]
    intro hv
    unfold valid at hv
    rw [List.all_eq_true] at hv
    have h' : check A t = true := hv _ ht
    rw [hc] at h'
    cases h'

end

/-! ## The hypotheses are met -/

theorem oneSection_texts {ess : List (List (Token Nat))} (h : ∀ es ∈ ess, ∀ e ∈ es, ∃ l r, e = .text l r ∧ ¬ (l = [] ∧ r = []) ∧ 0 ∉ l ∧ 0 ∉ r) :
    Texts {} (oneSection ess) := by
  refine ⟨rfl, rfl, fun k ents hk es hu => ?_⟩
  simp only [oneSection, List.mem_singleton, Prod.mk.injEq] at hk
  obtain ⟨rfl, rfl⟩ := hk
  have := uses_mem hu
  exact h es (by simpa [entry] using this)

theorem oneSection_likely {ess : List (List (Token Nat))} {k : UString} {ps : List Pair} :
    Likely {} (oneSection ess) k ps ↔ k = [109] ∧ ∃ es ∈ ess, collapse ps = collapse (pairsOf {} es) := by
  constructor
  · rintro ⟨ents, hk, es, hu, h⟩
    simp only [oneSection, List.mem_singleton, Prod.mk.injEq] at hk
    obtain ⟨rfl, rfl⟩ := hk
    have := uses_mem hu
    exact ⟨rfl, es, by simpa [entry] using this, like_iff.1 h⟩
  · rintro ⟨rfl, es, hes, h⟩
    exact ⟨_, List.mem_singleton.2 rfl, es, ⟨entry es, List.mem_map_of_mem hes, visible_plain _, rfl⟩, like_iff.2 h⟩

/-- `a` with any tags becomes `b` with these tags. -/
def exSep : File Nat Nat := oneSection [[.text [97, wild.anyTag] [98, wild.anyTag]]]

theorem exSep_runs (ps : List Pair) (h : collapse ps = [(97, 98), (-1, -1)]) : ∃ n, ps = (97, 98) :: List.replicate (n + 1) (-1, -1) := by
  have h' : ∀ ps : List Pair, (collapse ps = [(97, 98)] → ps = [(97, 98)]) ∧
      (collapse ps = [] → ps = []) := by
    intro ps
    have h0 : ∀ ps : List Pair, collapse ps = [] → ps = [] := by
      intro ps
      induction ps using List.reverseRecOn with
      | nil => intro; rfl
      | append_singleton ps p ih =>
        intro h
        rw [collapse_snoc, put] at h
        split at h
        · next hc => rw [h] at hc; simp at hc
        · simp at h
    refine ⟨?_, h0 ps⟩
    induction ps using List.reverseRecOn with
    | nil => intro h; cases h
    | append_singleton ps p ih =>
      intro h
      rw [collapse_snoc, put] at h
      split at h
      · next hc =>
        rw [h] at hc
        have : p = (97, 98) := by simpa using hc.2.symm
        rw [this] at hc
        exact absurd hc.1 (by simp [isLoop, wildcards, wild_eq])
      · have := List.append_inj' (s₂ := []) (t₂ := [(97, 98)]) h rfl
        rw [h0 ps this.1, this.2]
        rfl
  induction ps using List.reverseRecOn with
  | nil => cases h
  | append_singleton ps p ih =>
    rw [collapse_snoc, put] at h
    split at h
    · next hc =>
      obtain ⟨n, rfl⟩ := ih h
      rw [h] at hc
      have : p = (-1, -1) := by simpa using hc.2.symm
      exact ⟨n + 1, by rw [this, List.replicate_succ' (n := n + 1)]; simp⟩
    · have := List.append_inj' (s₂ := [(97, 98)]) (t₂ := [(-1, -1)]) h rfl
      rw [(h' ps).1 this.1, this.2]
      exact ⟨0, rfl⟩

theorem exSep_likely {k : UString} {ps : List Pair} (h : Likely {} exSep k ps) : ∃ n, ps = (97, 98) :: List.replicate (n + 1) (-1, -1) := by
  obtain ⟨-, es, hes, h⟩ := oneSection_likely.1 h
  rw [List.mem_singleton] at hes
  subst hes
  exact exSep_runs ps (h.trans (by decide +kernel))

/-- The hypotheses of the theorems hold of `exSep`, and it stands for `a` with two tags. -/
example : Texts {} exSep ∧ Ends {} exSep ∧ (∀ k ents, (k, ents) ∈ exSep.secs → ∀ es, Uses {} ents es → Separate (pairsOf {} es)) ∧
    (∀ k ps, Likely {} exSep k ps → lefts ps ≠ [] ∧ (lefts ps).head? ≠ some 0x20) ∧
    (∀ k ps, Given {} exSep k ps → lefts ps ≠ [] ∧ (lefts ps).head? ≠ some 0x20) ∧ Given {} exSep [109] [(97, 98), (-1, -1), (-1, -1)] := by
  have hsep : ∀ k ents, (k, ents) ∈ exSep.secs → ∀ es, Uses {} ents es → Separate (pairsOf {} es) := by
    intro k ents hk es hu
    simp only [exSep, oneSection, List.mem_singleton, Prod.mk.injEq] at hk
    obtain ⟨rfl, rfl⟩ := hk
    have hes := uses_mem hu
    simp only [entry, List.map_cons, List.map_nil, List.mem_singleton, Option.some.injEq] at hes
    subst hes
    have e : pairsOf ({} : Settings) [(.text [97, wild.anyTag] [98, wild.anyTag] : Token Nat)] = [(97, 98), (-1, -1)] := by decide +kernel
    rw [e]
    intro v p w h
    have hl := congrArg List.length h
    simp only [List.length_append, List.length_cons, List.length_nil] at hl
    have hv : v = [] := List.length_eq_zero_iff.1 (by omega)
    have hw : w = [] := List.length_eq_zero_iff.1 (by omega)
    subst hv hw
    simp only [List.nil_append, List.append_nil, List.cons.injEq] at h
    rw [← h.1] at h
    exact absurd h.2.1 (by decide)
  have hlik : ∀ k ps, Likely {} exSep k ps → lefts ps ≠ [] ∧ (lefts ps).head? ≠ some 0x20 := by
    intro k ps h
    obtain ⟨n, rfl⟩ := exSep_likely h
    simp [lefts]
  have hg : ∀ k ps, Given {} exSep k ps → Likely {} exSep k ps := by
    rintro k ps ⟨ents, h1, es, h2, h3⟩
    exact ⟨ents, h1, es, h2, (hsep k ents h1 es h2).runs_iff.2 h3⟩
  refine ⟨oneSection_texts ?_, ?_, hsep, hlik, fun k ps h => hlik k ps (hg k ps h), ?_⟩
  · intro es hes e he
    rw [List.mem_singleton] at hes
    subst hes
    rw [List.mem_singleton] at he
    subst he
    exact ⟨_, _, rfl, by simp, by decide +kernel, by decide +kernel⟩
  · intro k ps vs h1 h2
    obtain ⟨n, rfl⟩ := exSep_likely h1
    obtain ⟨m, h⟩ := exSep_likely h2
    have : boundary ∈ (97, 98) :: List.replicate (m + 1) ((-1, -1) : Pair) := h ▸ (by simp)
    simp [boundary, wild_eq] at this
  · refine ⟨_, List.mem_singleton.2 rfl, _, ⟨_, List.mem_cons_self .., visible_plain _, rfl⟩, ?_⟩
    have e : pairsOf ({} : Settings) [(.text [97, wild.anyTag] [98, wild.anyTag] : Token Nat)] = [(97, 98)] ++ [(-1, -1)] := by decide +kernel
    rw [e]
    refine Runs.more (ps := [(97, 98), (-1, -1)]) (by simp [wildcards, wild_eq]) ?_
    exact Runs.one (u := [(97, 98)]) (ps := [(97, 98)]) _ (Runs.one (u := []) (ps := []) _ .nil)

/-- Both outcomes of `C98_refused`: an entry that begins with a space, and `exSep`. -/
example : Likely {} (oneSection [[.text [32, 97] [98]]]) [109] [(32, 98), (97, 0)] ∧ (lefts [((32 : Int), (98 : Int)), (97, 0)]).head? = some 0x20 :=
  ⟨oneSection_likely.2 ⟨rfl, _, List.mem_singleton.2 rfl, by decide +kernel⟩, rfl⟩

/-! ## Refutations -/

/-- **C98** does not hold with two equal wildcards after each other: the entry `a<t/><t/>` stands for `a` with at least two tags, and it is compiled to `a` with
at least one. -/
theorem C98_adjacent_false : ¬ (∃ ps, Given {} (oneSection [[.text [97, wild.anyTag, wild.anyTag] [97, wild.anyTag, wild.anyTag]]]) [109] ps ∧ lefts ps = [97, -1]) ∧
    ∃ A t, parse {} (oneSection [[.text [97, wild.anyTag, wild.anyTag] [97, wild.anyTag, wild.anyTag]]]).nodes = .ok (A, [([109], t)]) ∧
      Relates A t [97, -1] [97, -1] 0 := by
  constructor
  · rintro ⟨ps, ⟨ents, hk, es, hu, h⟩, hl⟩
    have hlen : ∀ {u ps : List Pair}, Runs u ps → (∀ p ∈ u, p.1 ≠ 0) → u.length ≤ (lefts ps).length := by
      intro u ps h
      induction h with
      | nil => simp
      | one p _ ih =>
        intro hu
        have := ih fun p hp => hu p (List.mem_append_left _ hp)
        have hp := hu p (by simp)
        simp only [lefts, List.map_append, List.filter_append, List.length_append, List.length_cons, List.length_nil, List.map_cons, List.map_nil] at *
        simp [hp]
        simpa using this
      | more _ _ ih =>
        intro hu
        have := ih hu
        simp only [lefts, List.map_append, List.filter_append, List.length_append] at *
        omega
    simp only [oneSection, List.map_cons, List.map_nil, List.mem_singleton, Prod.mk.injEq, true_and] at hk
    subst hk
    have hes := uses_mem hu
    simp only [entry, List.map_cons, List.map_nil, List.mem_singleton, Option.some.injEq] at hes
    subst hes
    have e : pairsOf ({} : Settings) [(.text [97, wild.anyTag, wild.anyTag] [97, wild.anyTag, wild.anyTag] : Token Nat)] =
      [(97, 97), (-1, -1), (-1, -1)] := by decide +kernel
    rw [e] at h
    have := hlen h (by decide)
    rw [hl] at this
    exact absurd this (by decide)
  · obtain ⟨A, h, hA⟩ := of_outcome (r := parse {} (oneSection [[.text [97, wild.anyTag, wild.anyTag] [97, wild.anyTag, wild.anyTag]]]).nodes)
      (ps := [(0, 0), (97, 97), (0, -1), (0, -2), (-1, -1), (-2, -2), (-1, 0), (-2, 0), (-3, -3)])
      (ts := [([109], ⟨0, [(2, 0), (3, 0)], [(0, [(1, 1, 0)]), (1, [(4, 2, 0)]), (2, [(4, 2, 0), (8, 3, 0)]), (3, [])]⟩)]) (by decide +kernel)
    refine ⟨A, _, h, [((97, 97), 0), ((-1, -1), 0)], 0, ⟨2, .cons (r := 1) ⟨1, decode_of hA 1 _ rfl, ?_⟩
      (.cons ⟨4, decode_of hA 4 _ rfl, ?_⟩ (.nil _)), ?_⟩, rfl, rfl, rfl⟩
    · unfold Edge; decide
    · unfold Edge; decide
    · unfold Final; decide

/-- The entries `a`, `a<d/>b` and `c<d/>b`. -/
def exShared : File Nat Nat := oneSection [[.text [97] [97]], [.text [97, wild.boundary, 98] [97, wild.boundary, 98]],
  [.text [99, wild.boundary, 98] [99, wild.boundary, 98]]]

/-- **C98** does not hold when an entry goes on with a boundary where another one ends: the states after the boundary of `exShared` are one state after minimising.
It is made final for the entry `a`, and then `c` with a boundary is accepted too, though no entry is `c`. -/
theorem C98_shared_false : Texts {} exShared ∧ (∀ ps, Given {} exShared [109] ps → lefts ps ≠ [99] ∧ lefts ps ≠ [99, wild.boundary]) ∧
    ∃ A t, parse {} exShared.nodes = .ok (A, [([109], t)]) ∧ Relates A t [99, wild.boundary] [99, wild.boundary] 0 := by
  refine ⟨oneSection_texts ?_, ?_, ?_⟩
  · intro es hes e he
    simp only [List.mem_cons, List.not_mem_nil, or_false] at hes
    rcases hes with rfl | rfl | rfl <;>
    · rw [List.mem_singleton] at he
      subst he
      exact ⟨_, _, rfl, by simp, by decide +kernel, by decide +kernel⟩
  · rintro ps ⟨ents, hk, es, hu, h⟩
    simp only [exShared, oneSection, List.map_cons, List.map_nil, List.mem_singleton, Prod.mk.injEq, true_and] at hk
    subst hk
    have hes := uses_mem hu
    have hrun : ∀ {u ps : List Pair}, Runs u ps → (∀ p ∈ u, p ∉ wildcards) → ps = u := by
      intro u ps h
      induction h with
      | nil => intro; rfl
      | one p _ ih => intro hu; rw [ih fun p hp => hu p (List.mem_append_left _ hp)]
      | more hp _ _ => intro hu; exact absurd hp (hu _ (by simp))
    simp only [entry, List.map_cons, List.map_nil, List.mem_cons, List.not_mem_nil, or_false, Option.some.injEq] at hes
    rcases hes with rfl | rfl | rfl <;>
    · rw [hrun h (by decide +kernel)]
      decide +kernel
  · obtain ⟨A, h, hA⟩ := of_outcome (r := parse {} exShared.nodes)
      (ps := [(0, 0), (97, 97), (0, -1), (0, -2), (-1, -1), (-2, -2), (-1, 0), (-2, 0), (-3, -3), (98, 98), (99, 99)])
      (ts := [([109], ⟨0, [(1, 0), (3, 0), (4, 0), (5, 0)], [(0, [(1, 1, 0), (10, 2, 0)]), (1, [(8, 3, 0)]), (2, [(8, 3, 0)]), (3, [(9, 4, 0)]),
        (4, [(8, 5, 0)]), (5, [])]⟩)]) (by decide +kernel)
    refine ⟨A, _, h, [((99, 99), 0), ((-3, -3), 0)], 0, ⟨3, .cons (r := 2) ⟨10, decode_of hA 10 _ rfl, ?_⟩
      (.cons ⟨8, decode_of hA 8 _ rfl, ?_⟩ (.nil _)), ?_⟩, ?_, ?_, rfl⟩
    · unfold Edge; decide
    · unfold Edge; decide
    · unfold Final; decide
    · rw [wild_eq]; rfl
    · rw [wild_eq]; rfl

end Verif.Sep
