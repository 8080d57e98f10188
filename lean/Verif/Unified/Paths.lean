import Verif.Unified.Gives
import Verif.Tools.Restrict
import Verif.Tools.Files

/-! # From the paths of the file with marks to the dictionary -/

namespace Verif.Unified

open Verif.Fst Verif.Compiler Verif.Alphabet
open Verif.Compression (Dbl)
open Verif.Expander (Attrs)
open Verif.Tools (Choice mark preR preAlt preV preVl preVr Marked Chosen Dropped Erased eraseMark NamedPair turn)

set_option linter.unusedSectionVars false

variable {N W : Type} {f : File N W} {A : Alphabet} {s : Settings} {ch : Choice}

theorem named_own (hk : Knows f A) (hf : Fit s ch f) {c : Int} {n : Name} (h : -(f.tags.length : Int) ≤ c) (hn : Named A c n) : n = nameOf f c := by
  unfold nameOf
  rcases hn with ⟨h0, rfl⟩ | ⟨h0, t, ht, rfl⟩
  · rw [if_neg (by omega)]
  · rw [if_pos h0]
    rw [Chain.tagText_of hf.tags hk.tags h0 h] at ht
    cases ht
    rfl

theorem tagName_plain (hf : Fit s ch f) {c : Int} (h0 : c < 0) (h : -(f.tags.length : Int) ≤ c) : ¬ Dropped ch (Chain.tagName f c) ∧ ¬ Erased ch (Chain.tagName f c) := by
  have hi : (-c - 1).toNat < f.tags.length := by omega
  unfold Chain.tagName
  rw [List.getElem?_eq_getElem hi]
  exact plain_tag (hf.unmarked f.tags[(-c - 1).toNat] (List.getElem_mem _))

/-- One arc. -/
theorem arc_own (hk : Knows f A) (hf : Fit s ch f) {p : Pair × Dbl} {l : (Name × Name) × Dbl} (hp : NamedPair A p l) (h1 : -(f.tags.length : Int) ≤ p.1.1)
    (h2 : -(f.tags.length : Int) ≤ p.1.2) :
    l.1 = (nameOf f p.1.1, nameOf f p.1.2) ∧ (∀ m, l.1 = (.tag m, .tag m) → ¬ Dropped ch m) ∧ eraseMark ch l = l := by
  obtain ⟨g1, g2, -⟩ := hp
  have e1 := named_own hk hf h1 g1
  have e2 := named_own hk hf h2 g2
  have ht : ∀ m, l.1.1 = .tag m → ¬ Dropped ch m ∧ ¬ Erased ch m := by
    intro m hm
    rw [e1] at hm
    unfold nameOf at hm
    split at hm
    · next h0 =>
      cases hm
      exact tagName_plain hf h0 h1
    · cases hm
  refine ⟨Prod.ext e1 e2, fun m hm => (ht m (by rw [hm])).1, ?_⟩
  unfold eraseMark
  rw [if_neg]
  rintro ⟨t, hl, he⟩
  exact (ht t (by rw [hl])).2 he

theorem nameOf_zero {c : Int} : nameOf f c = .letter 0 ↔ c = 0 := by
  unfold nameOf
  split
  · next h => simp; omega
  · simp

/-- A whole path. -/
theorem path_names (hk : Knows f A) (hf : Fit s ch f) {ps : List (Pair × Dbl)} {ls : List ((Name × Name) × Dbl)} (h : List.Forall₂ (NamedPair A) ps ls)
    (hfine : ∀ p ∈ ps, Fine (-(f.tags.length : Int)) p.1) (hmix : Mixed f A ((ps.map (·.1.1)).filter (· ≠ 0))) :
    ((∀ l ∈ ls, ∀ m, l.1 = (.tag m, .tag m) → ¬ Dropped ch m) ↔ Stays A ch ((ps.map (·.1.1)).filter (· ≠ 0))) ∧
      (Stays A ch ((ps.map (·.1.1)).filter (· ≠ 0)) →
        ((ls.map (eraseMark ch)).map (·.1.1)).filter (· ≠ .letter 0) = (strip f ((ps.map (·.1.1)).filter (· ≠ 0))).map (nameOf f) ∧
        ((ls.map (eraseMark ch)).map (·.1.2)).filter (· ≠ .letter 0) = (strip f ((ps.map (·.1.2)).filter (· ≠ 0))).map (nameOf f)) := by
  induction h with
  | nil => exact ⟨⟨fun _ c hc => (by cases hc), fun _ l hl => (by cases hl)⟩, fun _ => ⟨rfl, rfl⟩⟩
  | @cons p l ps ls hp _ ih =>
    have e1 : ∀ (g : Pair → Int) (q : Pair × Dbl) (qs : List (Pair × Dbl)), ((q :: qs).map fun x => g x.1).filter (· ≠ 0) =
        (if g q.1 = 0 then [] else [g q.1]) ++ (qs.map fun x => g x.1).filter (· ≠ 0) := by
      intro g q qs
      by_cases h0 : g q.1 = 0 <;> simp [h0]
    have e2 : ∀ (g : Name × Name → Name) (x : (Name × Name) × Dbl) (xs : List ((Name × Name) × Dbl)), (((x :: xs).map (eraseMark ch)).map fun y => g y.1).filter (· ≠ .letter 0) =
        (if g (eraseMark ch x).1 = .letter 0 then [] else [g (eraseMark ch x).1]) ++ ((xs.map (eraseMark ch)).map fun y => g y.1).filter (· ≠ .letter 0) := by
      intro g x xs
      by_cases h0 : g (eraseMark ch x).1 = .letter 0 <;> simp [h0]
    rw [e1 (·.1)] at hmix ⊢
    rw [e1 (·.2), e2 (·.1), e2 (·.2)]
    obtain ⟨i1, i2⟩ := ih (fun q hq => hfine q (List.mem_cons_of_mem _ hq)) (fun c hc => hmix c (List.mem_append_right _ hc))
    have hfp := hfine p (by simp)
    have hstep : ((∀ m, l.1 = (.tag m, .tag m) → ¬ Dropped ch m) ↔ Stays A ch (if p.1.1 = 0 then [] else [p.1.1])) ∧
        (Stays A ch (if p.1.1 = 0 then [] else [p.1.1]) →
          (if (eraseMark ch l).1.1 = .letter 0 then [] else [(eraseMark ch l).1.1]) = (strip f (if p.1.1 = 0 then [] else [p.1.1])).map (nameOf f) ∧
          (if (eraseMark ch l).1.2 = .letter 0 then [] else [(eraseMark ch l).1.2]) = (strip f (if p.1.2 = 0 then [] else [p.1.2])).map (nameOf f)) := by
      have hown : -(f.tags.length : Int) ≤ p.1.1 ∨ ∃ e m, Entry f e ∧ e.attrs.ignore ≠ Expander.YES ∧ m ∈ entryMarks e.attrs ∧ HasTag A p.1.1 m := by
        by_cases h0 : p.1.1 = 0
        · left; rw [h0]; omega
        · exact hmix p.1.1 (List.mem_append_left _ (by simp [h0]))
      have hside : ∀ c : Int, -(f.tags.length : Int) ≤ c → (if nameOf f c = .letter 0 then [] else [nameOf f c]) = (strip f (if c = 0 then [] else [c])).map (nameOf f) := by
        intro c hc
        by_cases h0 : c = 0
        · rw [if_pos h0, if_pos (nameOf_zero.2 h0)]; rfl
        · rw [if_neg h0, if_neg (fun h => h0 (nameOf_zero.1 h)), strip_own (by simpa using hc)]
          rfl
      rcases hown with ho | ⟨e, m, he, hi, hm, hx⟩
      · have ho2 : -(f.tags.length : Int) ≤ p.1.2 := by
          rcases hfp with h | h
          · rw [← h]; exact ho
          · exact h.2
        obtain ⟨a1, a2, a3⟩ := arc_own hk hf hp ho ho2
        refine ⟨⟨fun _ => stays_own hk hf ?_, fun _ => a2⟩, fun _ => ?_⟩
        · intro c hc
          split at hc
          · cases hc
          · rw [List.mem_singleton] at hc; rw [hc]; exact ho
        · rw [a3, a1]
          exact ⟨hside _ ho, hside _ ho2⟩
      · have hlt : p.1.1 < -(f.tags.length : Int) := by
          have := (mark_code hk hf he hi hm)
          rw [← symCode_of_hasTag hk.ok hx]
          exact this.2
        have heq : p.1.1 = p.1.2 := by
          rcases hfp with h | h
          · exact h
          · omega
        have h0 : p.1.1 ≠ 0 := by omega
        obtain ⟨g1, g2, -⟩ := hp
        have hnm : Named A p.1.1 (.tag m) := .inr ⟨hx.neg, m, (tagText_iff hx.neg).2 hx, rfl⟩
        have n1 := Tools.named_unique g1 hnm
        have n2 := Tools.named_unique (heq ▸ g2) hnm
        have hl : l.1 = (.tag m, .tag m) := Prod.ext n1 n2
        rw [if_neg h0, ← heq, if_neg h0]
        have hs1 : Stays A ch [p.1.1] ↔ ¬ Dropped ch m := by
          constructor
          · exact fun h => h _ (by simp) m hx
          · intro h c hc m' hm'
            rw [List.mem_singleton] at hc
            subst hc
            rw [hm'.tag_unique hx]; exact h
        refine ⟨?_, fun hst => ?_⟩
        · rw [hs1, hl]
          constructor
          · exact fun h => h m rfl
          · intro h m' hm'
            cases hm'; exact h
        · have her := erased_of_not_dropped hm (hs1.1 hst)
          have hem : eraseMark ch l = ((.letter 0, .letter 0), l.2) := by
            unfold eraseMark
            rw [if_pos ⟨m, hl, her⟩]
          have hz : strip f [p.1.1] = [] := by
            unfold strip
            rw [List.filter_eq_nil_iff]
            intro c hc
            rw [List.mem_singleton] at hc
            simp only [decide_eq_true_eq]
            omega
          rw [hem, hz]
          exact ⟨rfl, rfl⟩
    obtain ⟨s1, s2⟩ := hstep
    refine ⟨?_, fun hst => ?_⟩
    · rw [List.forall_mem_cons, s1, i1]
      constructor
      · exact fun h => h.1.append h.2
      · exact fun h => ⟨h.left, h.right⟩
    · obtain ⟨t1, t2⟩ := s2 hst.left
      obtain ⟨t3, t4⟩ := i2 hst.right
      rw [t1, t2, t3, t4]
      simp only [strip_append, List.map_append, and_self]

variable [LinearOrder N] [AddMonoid W] [LinearOrder W] {parname : Attrs → N} {closed : N → Bool} {secs : List (UString × Transducer W)}

/-- What `lt-comp u` makes of the file. -/
theorem unified_parse (hf : Fit s ch f) (hreg : Regular {} (bareFile f) closed) (hp : parse parname {} f.nodes = .ok (A, secs)) :
    Knows f A ∧ Chain.Compiled {} (trFile A f) A secs ∧ ∀ p ∈ A.spairinv, Fine (-(f.tags.length : Int)) p := by
  have hn : -(f.tags.length : Int) ≤ 0 := by omega
  have hgood : ∀ e, .entry e ∈ f.nodes → Good (-(f.tags.length : Int)) e := goodNodes fun e he =>
    ⟨hf.single e he, fun es hes l r hm => .inr (hf.own e he es hes _ hm)⟩
  unfold parse at hp
  obtain ⟨c, h1, h2⟩ := Res.bind_eq_ok.1 hp
  obtain ⟨ts, h3, h4⟩ := Res.bind_eq_ok.1 h2
  have h1 : procNodes parname {} f.nodes ({} : Comp N W) = .ok c := h1
  split at h4
  case isFalse => cases h4
  cases h4
  have hgo := goes_nodes hn _ hgood ok_empty h1
  have hk : Knows f c.alphabet := by
    refine ⟨hgo.ok, ?_, fun e he hi m hm => marks_nodes hn _ hgood ok_empty h1 e ?_ hi m hm⟩
    · have h1' := h1
      rw [File.nodes] at h1'
      obtain ⟨d, k1, k2⟩ := procNodes_append _ _ _ _ _ h1'
      rw [tags_ok] at k1
      cases k1
      exact (goes_nodes (c := { alphabet := tagsOf f }) hn _ (fun e he => hgood e (by rw [File.nodes]; exact List.mem_append_right _ he))
        (tags_spec (s := {}) f.tags ({} : Comp N W) ok_empty).2 k2).ext
    · rw [File.nodes]
      rcases he with ⟨n, ents, hm, he⟩ | ⟨n, ents, hm, he⟩
      · refine List.mem_append_right _ (List.mem_append_left _ (List.mem_flatMap.2 ⟨_, hm, ?_⟩))
        simp [parNodes, he]
      · refine List.mem_append_right _ (List.mem_append_right _ (List.mem_flatMap.2 ⟨_, hm, ?_⟩))
        simp [secNodes, he]
  obtain ⟨hst, hfine⟩ := nodes_spec hn hgood (regular_tr hk hf hreg) h1
  obtain ⟨ts', k1, k2, k3, k4⟩ := stage_spec hst
  rw [h3] at k1
  cases k1
  exact ⟨hk, ⟨hst.ok, hst.tags, k2, k3, fun e he => (k4 _ _ he).1, fun e he => (k4 _ _ he).2.1, fun e he => (k4 _ _ he).2.2.1, fun e he => (k4 _ _ he).2.2.2.1,
      fun e he => (k4 _ _ he).2.2.2.2.1, fun e he => (k4 _ _ he).2.2.2.2.2⟩, hfine⟩

/-- The paths of a written file. -/
theorem says_paths {s' : Settings} {f' : File N W} (h : Chain.Compiled s' f' A secs) {g : W → Dbl} {bs : List UInt8} {L : List UInt32}
    (hd : Tools.Dictionary bs L A ((Chain.storedAll g secs).map fun e => (e.1, BinIO.cut e.2))) (k : UString) (ls : List ((Name × Name) × Dbl)) :
    (∃ fw, Tools.Says bs k ls fw) ↔ ∃ e ∈ secs, e.1 = k ∧ ∃ zs, Acc e.2 e.2.initial zs ∧
      List.Forall₂ (NamedPair A) (Chain.spell A (fun w => Compression.cut30 (g w)) zs) ls := by
  constructor
  · rintro ⟨fw, hs⟩
    obtain ⟨t, ht, hsp⟩ := (Tools.says_iff hd.stored k ls fw).1 hs
    obtain ⟨e', he', hEq⟩ := List.mem_map.1 ht
    obtain ⟨e, he, rfl⟩ := List.mem_map.1 he'
    cases hEq
    rw [Chain.cut_stored] at hsp
    obtain ⟨ps, ⟨p, h1, h2⟩, h3⟩ := Tools.spellsNames_iff.1 hsp
    obtain ⟨zs, h4, rfl⟩ := (Chain.path_stored _ (h.known e he)).1 h1
    obtain ⟨v, h5, -⟩ := (Chain.final_stored ..).1 h2
    exact ⟨e, he, rfl, zs, ⟨p, v, h4, h5⟩, h3⟩
  · rintro ⟨e, he, rfl, zs, ⟨p, v, h4, h5⟩, h3⟩
    refine ⟨Compression.cut30 (g v), (Tools.says_iff hd.stored e.1 ls _).2 ⟨_, List.mem_map.2 ⟨_, List.mem_map.2 ⟨e, he, rfl⟩, rfl⟩, ?_⟩⟩
    simp only
    rw [Chain.cut_stored]
    exact Tools.spellsNames_iff.2 ⟨_, ⟨p, (Chain.path_stored _ (h.known e he)).2 ⟨zs, h4, rfl⟩, (Chain.final_stored ..).2 ⟨v, h5, rfl⟩⟩, h3⟩

theorem spell_right' (A : Alphabet) (g : W → Dbl) (ms : List (Int × W)) : ((Chain.spell A g ms).map (·.1.2)).filter (· ≠ 0) = rgt A ms := by
  unfold Chain.spell rgt
  rw [List.map_map]
  rfl

theorem spell_fine {s' : Settings} {f' : File N W} (h : Chain.Compiled s' f' A secs) {P : Pair → Prop} (hP : ∀ p ∈ A.spairinv, P p) (g : W → Dbl) {e : UString × Transducer W}
    (he : e ∈ secs) {zs : List (Int × W)} (hz : Acc e.2 e.2.initial zs) : ∀ p ∈ Chain.spell A g zs, P p.1 := by
  intro p hp
  obtain ⟨z, hz', rfl⟩ := List.mem_map.1 hp
  obtain ⟨q, fw, hpath, -⟩ := hz
  obtain ⟨q1, q2, hE⟩ := Tools.path_edges hpath z hz'
  obtain ⟨pr, hpr⟩ := h.known e he _ _ _ hE
  show P (dec A z.1)
  rw [dec_eq hpr]
  exact hP _ (Tools.mem_of_hasPair hpr)

/-- The names of all pairs exist. -/
theorem spell_named (hs : ∀ p ∈ A.spairinv, Tools.Symbol A p.1 ∧ Tools.Symbol A p.2) {ps : List (Pair × Dbl)} (h : ∀ p ∈ ps, p.1 ∈ A.spairinv) :
    ∃ ls, List.Forall₂ (NamedPair A) ps ls := by
  induction ps with
  | nil => exact ⟨[], .nil⟩
  | cons p ps ih =>
    obtain ⟨ls, hls⟩ := ih fun q hq => h q (List.mem_cons_of_mem _ hq)
    obtain ⟨h1, h2⟩ := hs _ (h p (by simp))
    obtain ⟨n1, h1⟩ := Tools.symbol_named h1
    obtain ⟨n2, h2⟩ := Tools.symbol_named h2
    exact ⟨((n1, n2), p.2) :: ls, .cons ⟨h1, h2, rfl⟩ hls⟩

/-- What `lt-restrict` leaves of the written file. -/
theorem restricted (hs : Same s ch) (hk : Knows f A) (hf : Fit s ch f) (h : Chain.Compiled {} (trFile A f) A secs) (hfine : ∀ p ∈ A.spairinv, Fine (-(f.tags.length : Int)) p)
    (hsy : ∀ p ∈ A.spairinv, Tools.Symbol A p.1 ∧ Tools.Symbol A p.2) {g : W → Dbl} {bs bs' : List UInt8} {L : List UInt32}
    (hd : Tools.Dictionary bs L A ((Chain.storedAll g secs).map fun e => (e.1, BinIO.cut e.2)))
    (hr : ∀ k ls fw, Tools.Says bs' k ls fw ↔ ∃ ls', Tools.Says bs k ls' fw ∧ (∀ l ∈ ls', ∀ s, l.1 = (.tag s, .tag s) → ¬ Dropped ch s) ∧
      (if ch.dir = Tools.RL then turn ls else ls) = ls'.map (eraseMark ch)) (k : UString) (x y : List Name) :
    Pairs bs' k x y ↔ Meant s f k x y := by
  have hrl : ch.dir = Tools.RL ↔ s.rl = true := by
    rw [hs.dir]
    cases s.rl <;> simp [Tools.RL, Tools.LR]
  have hturn : ∀ ls : List ((Name × Name) × Dbl), turn (turn ls) = ls := fun ls => by simp [turn, Function.comp_def]
  have hturn1 : ∀ ls : List ((Name × Name) × Dbl), (turn ls).map (·.1.1) = ls.map (·.1.2) := fun ls => by simp [turn, Function.comp_def]
  have hturn2 : ∀ ls : List ((Name × Name) × Dbl), (turn ls).map (·.1.2) = ls.map (·.1.1) := fun ls => by simp [turn, Function.comp_def]
  -- what the sections of the file with marks have
  have key : Pairs bs' k x y ↔ ∃ u v, SecGives {} (trFile A f) k u v ∧ Stays A ch u ∧
      sides s x y = ((strip f u).map (nameOf f), (strip f v).map (nameOf f)) := by
    constructor
    · rintro ⟨ls, fw, hsay, hx, hy⟩
      obtain ⟨ls', h1, h2, h3⟩ := (hr k ls fw).1 hsay
      obtain ⟨e, he, rfl, zs, hz, hn⟩ := (says_paths h hd k ls').1 ⟨fw, h1⟩
      have hsec : SecGives {} (trFile A f) e.1 (lft A zs) (rgt A zs) := (h.rel e he _ _).1 ⟨zs, hz, rfl, rfl⟩
      obtain ⟨p1, p2⟩ := path_names (s := s) (ch := ch) hk hf hn (spell_fine h hfine _ he hz) (by rw [Chain.spell_left]; exact secGives_mixed hs hk hf hsec)
      rw [Chain.spell_left] at p1 p2
      rw [spell_right'] at p2
      have hst := p1.1 h2
      obtain ⟨q1, q2⟩ := p2 hst
      refine ⟨_, _, hsec, hst, ?_⟩
      rw [← q1, ← q2, ← h3, ← hx, ← hy]
      unfold sides
      by_cases hb : s.rl = true
      · rw [if_pos hb, if_pos (hrl.2 hb), hturn1, hturn2]
      · rw [if_neg hb, if_neg (fun h => hb (hrl.1 h))]
    · rintro ⟨u, v, hsec, hst, hxy⟩
      obtain ⟨e, he, rfl, zs, hz, rfl, rfl⟩ := (h.says k u v).1 hsec
      obtain ⟨ls', hn⟩ := spell_named hsy (spell_fine h (fun p hp => hp) (fun w => Compression.cut30 (g w)) he hz)
      obtain ⟨fw, hsay⟩ := (says_paths h hd e.1 ls').2 ⟨e, he, rfl, zs, hz, hn⟩
      obtain ⟨p1, p2⟩ := path_names (s := s) (ch := ch) hk hf hn (spell_fine h hfine _ he hz) (by rw [Chain.spell_left]; exact secGives_mixed hs hk hf hsec)
      rw [Chain.spell_left] at p1 p2
      rw [spell_right'] at p2
      obtain ⟨q1, q2⟩ := p2 hst
      rw [← q1, ← q2] at hxy
      unfold sides at hxy
      by_cases hb : s.rl = true
      · rw [if_pos hb] at hxy
        cases hxy
        refine ⟨turn (ls'.map (eraseMark ch)), fw, (hr _ _ _).2 ⟨ls', hsay, p1.2 hst, by rw [if_pos (hrl.2 hb), hturn]⟩, ?_, ?_⟩
        · rw [hturn1]
        · rw [hturn2]
      · rw [if_neg hb] at hxy
        cases hxy
        exact ⟨ls'.map (eraseMark ch), fw, (hr _ _ _).2 ⟨ls', hsay, p1.2 hst, by rw [if_neg (fun h => hb (hrl.1 h))]⟩, rfl, rfl⟩
  rw [key]
  constructor
  · rintro ⟨u, v, h1, h2, h3⟩
    have := (secGives_iff hs hk hf k (strip f u) (strip f v)).2 ⟨u, v, h1, secGives_mixed hs hk hf h1, h2, rfl, rfl⟩
    unfold Meant Chain.Says
    unfold sides at h3 ⊢
    cases hb : s.rl
    · rw [hb] at h3
      cases h3
      exact ⟨_, _, this, rfl, rfl⟩
    · rw [hb] at h3
      cases h3
      exact ⟨_, _, this, rfl, rfl⟩
  · rintro ⟨u, v, h1, rfl, rfl⟩
    unfold Chain.Says at h1
    obtain ⟨u', v', g1, -, g3, g4, g5⟩ := (secGives_iff hs hk hf k _ _).1 h1
    refine ⟨u', v', g1, g3, ?_⟩
    rw [g4, g5]
    unfold sides
    cases s.rl <;> rfl

/-! ## Direct compilation -/

theorem gives_own (hf : Fit s ch f) {es : List (Token N)} {l r : List Int} (h : Gives s f es l r) (ho : ∀ k ∈ es, Own f k) :
    (∀ c ∈ l, -(f.tags.length : Int) ≤ c) ∧ ∀ c ∈ r, -(f.tags.length : Int) ≤ c := by
  have app : ∀ {u v : List Int}, (∀ c ∈ u, -(f.tags.length : Int) ≤ c) → (∀ c ∈ v, -(f.tags.length : Int) ≤ c) → ∀ c ∈ u ++ v, -(f.tags.length : Int) ≤ c :=
    fun h h' c hc => (List.mem_append.1 hc).elim (h c) (h' c)
  induction h with
  | nil => exact ⟨fun c hc => (by cases hc), fun c hc => (by cases hc)⟩
  | text h ih =>
    obtain ⟨h1, h2⟩ := ih fun k hk => ho k (List.mem_cons_of_mem _ hk)
    obtain ⟨o1, o2⟩ := ho _ (List.mem_cons_self ..)
    exact ⟨app o1 h1, app o2 h2⟩
  | re hv hm h ih =>
    obtain ⟨h1, h2⟩ := ih fun k hk => ho k (List.mem_cons_of_mem _ hk)
    have o := ho _ (List.mem_cons_self ..) _ hv rfl _ hm
    exact ⟨app o h1, app o h2⟩
  | par hp hu h1 h2 ih1 ih2 =>
    obtain ⟨e, he, hv, hc⟩ := hu
    obtain ⟨g1, g2⟩ := ih1 (hf.own e (.inl ⟨_, _, hp, he⟩) _ hc)
    obtain ⟨g3, g4⟩ := ih2 fun k hk => ho k (List.mem_cons_of_mem _ hk)
    exact ⟨app g1 g3, app g2 g4⟩

theorem says_own (hf : Fit s ch f) {k : UString} {u v : List Int} (h : Chain.Says s f k u v) :
    (∀ c ∈ u, -(f.tags.length : Int) ≤ c) ∧ ∀ c ∈ v, -(f.tags.length : Int) ≤ c := by
  obtain ⟨ents, hm, es, ⟨e, he, hv, hc⟩, hg⟩ := h
  have := gives_own hf hg (hf.own e (.inr ⟨_, _, hm, he⟩) es hc)
  unfold sides at this
  cases hb : s.rl
  · rw [hb] at this; exact this
  · rw [hb] at this; exact this.symm

theorem names_own (htags : f.tags.Nodup) (hx : Ext (tagsOf f) A) {ps : List (Pair × Dbl)} {ls : List ((Name × Name) × Dbl)} (h : List.Forall₂ (NamedPair A) ps ls)
    (h1 : ∀ c ∈ (ps.map (·.1.1)).filter (· ≠ 0), -(f.tags.length : Int) ≤ c) (h2 : ∀ c ∈ (ps.map (·.1.2)).filter (· ≠ 0), -(f.tags.length : Int) ≤ c) :
    (ls.map (·.1.1)).filter (· ≠ .letter 0) = ((ps.map (·.1.1)).filter (· ≠ 0)).map (nameOf f) ∧
      (ls.map (·.1.2)).filter (· ≠ .letter 0) = ((ps.map (·.1.2)).filter (· ≠ 0)).map (nameOf f) := by
  have hone : ∀ {c : Int} {n : Name}, (c ≠ 0 → -(f.tags.length : Int) ≤ c) → Named A c n → n = nameOf f c := by
    intro c n hc hn
    unfold nameOf
    rcases hn with ⟨h0, rfl⟩ | ⟨h0, t, ht, rfl⟩
    · rw [if_neg (by omega)]
    · rw [if_pos h0]
      rw [Chain.tagText_of htags hx h0 (hc (by omega))] at ht
      cases ht
      rfl
  induction h with
  | nil => exact ⟨rfl, rfl⟩
  | @cons p l ps ls hp _ ih =>
    obtain ⟨i1, i2⟩ := ih (fun c hc => h1 c (by
      rw [List.map_cons, List.filter_cons]; split
      · exact List.mem_cons_of_mem _ hc
      · exact hc)) (fun c hc => h2 c (by
      rw [List.map_cons, List.filter_cons]; split
      · exact List.mem_cons_of_mem _ hc
      · exact hc))
    obtain ⟨g1, g2, -⟩ := hp
    have e1 := hone (fun h0 => h1 p.1.1 (by simp [h0])) g1
    have e2 := hone (fun h0 => h2 p.1.2 (by simp [h0])) g2
    rw [List.map_cons, List.map_cons, List.map_cons, List.map_cons, List.filter_cons, List.filter_cons, List.filter_cons, List.filter_cons, i1, i2, e1, e2]
    constructor
    · by_cases h0 : p.1.1 = 0
      · simp [h0, nameOf_zero]
      · simp [h0, nameOf_zero]
    · by_cases h0 : p.1.2 = 0
      · simp [h0, nameOf_zero]
      · simp [h0, nameOf_zero]

theorem direct (hf : Fit s ch f) (h : Chain.Compiled s f A secs) (hsy : ∀ p ∈ A.spairinv, Tools.Symbol A p.1 ∧ Tools.Symbol A p.2) {g : W → Dbl} {bs : List UInt8}
    {L : List UInt32} (hd : Tools.Dictionary bs L A ((Chain.storedAll g secs).map fun e => (e.1, BinIO.cut e.2))) (k : UString) (x y : List Name) :
    Pairs bs k x y ↔ Meant s f k x y := by
  constructor
  · rintro ⟨ls, fw, hsay, rfl, rfl⟩
    obtain ⟨e, he, rfl, zs, hz, hn⟩ := (says_paths h hd k ls).1 ⟨fw, hsay⟩
    have hsec : Chain.Says s f e.1 (lft A zs) (rgt A zs) := (h.rel e he _ _).1 ⟨zs, hz, rfl, rfl⟩
    obtain ⟨o1, o2⟩ := says_own hf hsec
    obtain ⟨n1, n2⟩ := names_own hf.tags h.tags hn (by rw [Chain.spell_left]; exact o1) (by rw [spell_right']; exact o2)
    rw [Chain.spell_left] at n1
    rw [spell_right'] at n2
    exact ⟨_, _, hsec, n1, n2⟩
  · rintro ⟨u, v, hsec, rfl, rfl⟩
    obtain ⟨o1, o2⟩ := says_own hf hsec
    obtain ⟨e, he, rfl, zs, hz, rfl, rfl⟩ := (h.says k u v).1 hsec
    obtain ⟨ls, hn⟩ := spell_named hsy (spell_fine h (fun p hp => hp) (fun w => Compression.cut30 (g w)) he hz)
    obtain ⟨fw, hsay⟩ := (says_paths h hd e.1 ls).2 ⟨e, he, rfl, zs, hz, hn⟩
    obtain ⟨n1, n2⟩ := names_own hf.tags h.tags hn (by rw [Chain.spell_left]; exact o1) (by rw [spell_right']; exact o2)
    rw [Chain.spell_left] at n1
    rw [spell_right'] at n2
    exact ⟨ls, fw, hsay, n1, n2⟩

end Verif.Unified
