import Verif.Chain.FormSpec
import Verif.Chain.Lemmas
import Verif.Gen.Lemmas
import Mathlib.Data.Finite.Prod

/-! # The loaded graph and the forms of the dictionary -/

namespace Verif.Chain.Forms

open Verif.Fst Verif.Alphabet Verif.Compiler
open Verif.State (Arc inputs written Label)
open Verif.Compression (Dbl cut30)
open Verif.Gen (Setting Mode Folded formText pieces whole stem secondUpper firstUpper way)
open Verif.Walk (Walk)
open Verif.Stream

set_option linter.unusedSectionVars false

variable {N V W : Type}

/-! ## Walks -/

theorem inputs_snoc (ls : List (Label W)) (l : Label W) : inputs (ls ++ [l]) = inputs ls ++ (if l.1 = 0 then [] else [l.1]) := by
  by_cases h : l.1 = 0 <;> simp [inputs, h]

theorem written_read (ls : List (Label W)) {l : Label W} (h : l.1 ≠ 0) : written (ls ++ [l]) = written ls ++ [l.2.2] := by
  simp [written, h]

theorem forall2_snoc {α β : Type} {R : α → β → Prop} {as : List α} {bs : List β} {b : β} :
    List.Forall₂ R as (bs ++ [b]) ↔ ∃ as' a, as = as' ++ [a] ∧ List.Forall₂ R as' bs ∧ R a b := by
  constructor
  · intro h
    have hl := h.length_eq
    rw [List.length_append, List.length_singleton] at hl
    have hne : as ≠ [] := by rintro rfl; simp at hl
    refine ⟨as.dropLast, as.getLast hne, (List.dropLast_append_getLast hne).symm, ?_⟩
    have e := (List.dropLast_append_getLast hne).symm
    rw [e] at h
    have hlen : as.dropLast.length = bs.length := by rw [List.length_dropLast]; omega
    have h1 := List.forall₂_take bs.length h
    have h2 := List.forall₂_drop bs.length h
    rw [List.take_left' hlen, List.take_left' rfl] at h1
    rw [List.drop_left' hlen, List.drop_left' rfl] at h2
    cases h2 with
    | cons h2 _ => exact ⟨h1, h2⟩
  · rintro ⟨as', a, rfl, h1, h2⟩
    exact List.rel_append (R := R) h1 (.cons h2 .nil)

/-- A walk is a path whose symbols may stand for those of the text. -/
theorem walk_iff {σ : Setting W} {xs : List Int} {ls : List (Label W)} {wr : List (Int × W)} {ch : Bool} {p : Nat} :
    Walk σ.graph σ.root (way σ false) xs ls wr ch p ↔
      Path (Arc σ.graph) σ.root ls p ∧ List.Forall₂ (fun x z => x ≠ 0 ∧ Folds σ x z) xs (inputs ls) ∧ wr = written ls ∧ ch = decide (inputs ls ≠ xs) := by
  have hallow : ∀ q x z, (way σ false).allow q x z ↔ x ≠ 0 ∧ Folds σ x z := by
    intro q x z
    simp [way, Folds]
  constructor
  · intro h
    induction h with
    | start => exact ⟨.nil _, .nil, rfl, rfl⟩
    | empty h h0 ha ih =>
      obtain ⟨h1, h2, h3, h4⟩ := ih
      refine ⟨h1.append (.cons ha (.nil _)), ?_, ?_, ?_⟩
      · rw [inputs_snoc, if_pos h0, List.append_nil]; exact h2
      · rw [Walk.written_snoc _ h0, h3]
      · rw [inputs_snoc, if_pos h0, List.append_nil]; exact h4
    | read h h0 hy ha ih =>
      obtain ⟨h1, h2, h3, h4⟩ := ih
      refine ⟨h1.append (.cons ha (.nil _)), ?_, ?_, ?_⟩
      · rw [inputs_snoc, if_neg h0]
        exact forall2_snoc.2 ⟨_, _, rfl, h2, (hallow _ _ _).1 hy⟩
      · rw [written_read _ h0, h3]; rfl
      · rw [inputs_snoc, if_neg h0, h4, Bool.eq_iff_iff, Bool.or_eq_true]
        simp only [decide_eq_true_eq]
        rw [← not_and_or]
        refine not_congr ⟨fun ⟨a, b⟩ => by rw [a, b], fun e => ?_⟩
        have := List.append_inj' e rfl
        exact ⟨this.1, by simpa using this.2⟩
  · rintro ⟨h1, h2, rfl, rfl⟩
    induction ls using List.reverseRecOn generalizing xs p with
    | nil =>
      cases h1
      have : xs = [] := List.forall₂_nil_right_iff.1 h2
      subst this
      exact .start
    | append_singleton ls l ih =>
      obtain ⟨q, g1, g2⟩ := Fst.Path.split h1
      obtain ⟨q', g3, g4⟩ := path_cons_iff.1 g2
      cases g4
      by_cases h0 : l.1 = 0
      · rw [inputs_snoc, if_pos h0, List.append_nil] at h2 ⊢
        rw [Walk.written_snoc _ h0]
        exact .empty (ih g1 h2) h0 g3
      · rw [inputs_snoc, if_neg h0] at h2 ⊢
        rw [written_read _ h0]
        obtain ⟨xs', x, rfl, h3, h4⟩ := forall2_snoc.1 h2
        have := Walk.read (ih g1 h3) h0 ((hallow _ _ _).2 h4) g3
        have e : (decide (inputs ls ≠ xs') || decide (l.1 ≠ x)) = decide (inputs ls ++ [l.1] ≠ xs' ++ [x]) := by
          rw [Bool.eq_iff_iff, Bool.or_eq_true]
          simp only [decide_eq_true_eq]
          rw [← not_and_or]
          refine not_congr ⟨fun ⟨a, b⟩ => by rw [a, b], fun e => ?_⟩
          have := List.append_inj' e rfl
          exact ⟨this.1, by simpa using this.2⟩
        rw [e] at this
        exact this

/-! ## Symbols -/

/-- The settings agree on characters and output. -/
structure Alike (σ o : Setting W) : Prop where
  upper : σ.isUpper = o.isUpper
  lower : σ.toLower = o.toLower
  toUpper : σ.toUpper = o.toUpper
  weights : σ.showWeight = o.showWeight
  folding : σ.caseSensitive = o.caseSensitive
  keep : σ.dictionaryCase = o.dictionaryCase

theorem alike_folds {σ o : Setting W} (ha : Alike σ o) : Folds σ = Folds o := by
  funext x z
  unfold Folds Folded
  rw [ha.upper, ha.lower, ha.folding]

theorem formText_filter (o : Setting W) (name : Int → UString) (u fi b : Bool) (seq : List (Int × W)) (z : W) :
    formText o name u fi b seq = formText o name u fi b (((seq.map (·.1)).filter (· ≠ 0)).map fun c => (c, z)) := by
  unfold formText
  rw [mapText_filter name _ Gen.escapedCps (by decide) z seq]

theorem alike_formText {σ o : Setting W} (ha : Alike σ o) (name : Int → UString) (u fi b : Bool) (seq : List (Int × W)) :
    formText σ name u fi b seq = formText o name u fi b seq := by
  unfold formText
  rw [ha.toUpper]

section
variable [LinearOrder N] [AddMonoid V] [LinearOrder V] [AddMonoid W] [LinearOrder W]
variable {s : Settings} {f : File N V} {A : Alphabet} {secs : List (UString × Transducer V)}

theorem Compiled.nonzero (h : Compiled s f A secs) {k : UString} {x y : List Int} (hs : Says s f k x y) : 0 ∉ x := by
  obtain ⟨e, -, -, ms, -, rfl, -⟩ := (h.says k x y).1 hs
  simp [lft]

/-- The graph reads what the dictionary reads. -/
theorem form_iff (h : Compiled s f A secs) (g : V → Dbl) (v : Dbl → W) {σ o : Setting W} {name : Int → UString} (hal : Alike σ o)
    (h1 : ∀ xs ys w, Load.Accepts σ.graph σ.root σ.finals xs ys w ↔ Load.Together v A (storedAll g secs) (fun _ => True) xs ys w)
    (u fi : Bool) (xs : List Int) (t : UString) :
    (∃ w, Gen.Form σ name (way σ false) u fi xs t w) ↔ (∀ x ∈ xs, x ≠ 0) ∧ Form o name s f u fi xs t := by
  have hfo : ∀ xs x : List Int, List.Forall₂ (fun x z => x ≠ 0 ∧ Folds σ x z) xs x ↔ (∀ x ∈ xs, x ≠ 0) ∧ List.Forall₂ (Folds o) xs x := by
    intro xs x
    rw [alike_folds hal, List.forall₂_and_left]
  unfold Gen.Form Form
  simp only [walk_iff, hfo]
  constructor
  · rintro ⟨w, ls, wr, ch, p, w0, ⟨g1, ⟨g0, g2⟩, rfl, rfl⟩, g3, -, g4⟩
    obtain ⟨k, -, g6⟩ := (h.together g v (fun _ => True) (inputs ls) _).1 ⟨written ls, w0, (h1 _ _ _).1 ⟨ls, p, g1, rfl, rfl, g3⟩, rfl⟩
    refine ⟨g0, k, _, _, g6, g2, ?_⟩
    rw [g4, alike_formText hal, formText_filter o name u fi _ _ 0]
  · rintro ⟨g0, k, x, y, g1, g2, g3⟩
    obtain ⟨ys, w, g5, g6⟩ := (h.together g v (fun _ => True) x y).2 ⟨k, trivial, g1⟩
    obtain ⟨ls, p, g7, rfl, g9, g10⟩ := (h1 _ _ _).2 g5
    refine ⟨_, ls, _, _, p, w, ⟨g7, ⟨g0, g2⟩, rfl, rfl⟩, g10, rfl, ?_⟩
    rw [g3, alike_formText hal, formText_filter o name u fi _ (written ls) 0, g9, g6]

/-- What is known about the symbol of a piece. -/
theorem symbol_of {B : Alphabet} (hB : Ok B) (he : Ext (Compiler.tagsOf f) B) (hn : f.tags.Nodup) {r : RTok} {x : Int} (h : SymOf false B r x) :
    x = symbol f r ∨ (symbol f r = 0 ∧ (x = 0 ∨ x < -(f.tags.length : Int))) := by
  match r with
  | .tok (.raw c) => exact .inl h
  | .tok (.esc c) => exact .inl h
  | .chunk _ => exact absurd h (by simp [SymOf])
  | .tag ts =>
    unfold symbol
    simp only
    cases hi : f.tags.findIdx? fun n => decide (0x3c :: n ++ [0x3e] = enc (blockText '<'.toNat '>'.toNat ts)) with
    | some i =>
      rw [List.findIdx?_eq_some_iff_getElem] at hi
      obtain ⟨hlt, hi, -⟩ := hi
      simp only [decide_eq_true_eq] at hi
      have h1 := (tagText_iff (by omega : -(i : Int) - 1 < 0)).1 (tagText_of hn he (by omega) (by omega))
      have e : tagName f (-(i : Int) - 1) = enc (blockText '<'.toNat '>'.toNat ts) := by
        unfold tagName
        rw [show (-(-(i : Int) - 1) - 1).toNat = i by omega, List.getElem?_eq_getElem hlt]
        exact hi
      rw [e] at h1
      left
      rcases h with h | ⟨-, h, -⟩
      · exact h.code_unique hB h1
      · obtain ⟨j, hj, -⟩ := h1
        exact absurd (List.mem_of_getElem? hj) h
    | none =>
      rw [List.findIdx?_eq_none_iff] at hi
      right
      refine ⟨rfl, ?_⟩
      rcases h with h | ⟨-, -, h⟩
      · right
        by_contra hno
        have hneg : x < 0 := by
          obtain ⟨j, -, rfl⟩ := h
          unfold tagNo; omega
        have h1 := (tagText_iff hneg).1 (tagText_of hn he hneg (by omega))
        have e : tagName f x = enc (blockText '<'.toNat '>'.toNat ts) := by
          obtain ⟨j, hj, e1⟩ := h
          obtain ⟨j', hj', e2⟩ := h1
          have : j = j' := by unfold tagNo at e1 e2; omega
          subst this
          rw [hj] at hj'
          exact (Option.some.inj hj').symm
        have hlt : (-x - 1).toNat < f.tags.length := by omega
        unfold tagName at e
        rw [List.getElem?_eq_getElem hlt] at e
        have := hi _ (List.getElem_mem hlt)
        simp only [decide_eq_false_iff_not] at this
        exact this e
      · exact .inl h

theorem symbols_of {B : Alphabet} (hB : Ok B) (he : Ext (Compiler.tagsOf f) B) (hn : f.tags.Nodup) {rs : List RTok} {xs : List Int} (h : List.Forall₂ (SymOf false B) rs xs) :
    xs = rs.map (symbol f) ∨ (0 ∈ rs.map (symbol f) ∧ ∃ x ∈ xs, x = 0 ∨ x < -(f.tags.length : Int)) := by
  induction h with
  | nil => exact .inl rfl
  | cons h _ ih =>
    rcases symbol_of hB he hn h with h | ⟨h1, h2⟩
    · rcases ih with ih | ⟨ih1, x, ih2, ih3⟩
      · exact .inl (by rw [List.map_cons, ← h, ← ih])
      · exact .inr ⟨List.mem_cons_of_mem _ ih1, x, List.mem_cons_of_mem _ ih2, ih3⟩
    · exact .inr ⟨by rw [List.map_cons, h1]; exact List.mem_cons_self, _, List.mem_cons_self, h2⟩

/-- With an unknown symbol there is no form. -/
theorem no_form (h : Compiled s f A secs) (ht : Tame s f) {o : Setting W} (h0 : o.isUpper 0 = false) {name : Int → UString} {u fi : Bool} {xs : List Int} {x : Int} (hx : x ∈ xs)
    (hbad : x = 0 ∨ x < -(f.tags.length : Int)) (t : UString) : ¬ Form o name s f u fi xs t := by
  rintro ⟨k, z, y, h1, h2, -⟩
  obtain ⟨c, hc, hf⟩ := Proc.forall₂_mem h2 hx
  rcases hf with rfl | ⟨⟨h3, h4, -⟩, -⟩
  · rcases hbad with rfl | hb
    · exact Compiled.nonzero h h1 hc
    · have := ht.reads _ _ _ h1 c hc
      omega
  · rcases hbad with rfl | hb
    · rw [h0] at h4; cases h4
    · omega

/-- Fewer paths than 65536 are finitely many. -/
theorem least_form {σ : Setting W} {name : Int → UString} (hn : (σ.finals.map (·.1)).Nodup) {k : Nat} (hf : Walk.Fewer σ.graph σ.root (way σ false) k) {u fi : Bool} {xs : List Int} {t : UString}
    (h : ∃ w, Gen.Form σ name (way σ false) u fi xs t w) :
    ∃ w, Gen.Form σ name (way σ false) u fi xs t w ∧ ∀ w', Gen.Form σ name (way σ false) u fi xs t w' → w ≤ w' := by
  have hfin : {ls : List (Label W) | ∃ wr ch p, Walk σ.graph σ.root (way σ false) xs ls wr ch p}.Finite := by
    by_contra hno
    obtain ⟨S, h1, h2⟩ := Set.Infinite.exists_subset_card_eq hno k
    have := hf xs S.toList S.nodup_toList fun e he => h1 (by simpa using he)
    rw [Finset.length_toList, h2] at this
    omega
  have hfin2 : {w | Gen.Form σ name (way σ false) u fi xs t w}.Finite := by
    have hfin3 : ({w : W | ∃ p, (p, w) ∈ σ.finals}).Finite := by
      refine (σ.finals.map (·.2)).toFinset.finite_toSet.subset ?_
      rintro w ⟨p, hp⟩
      simp only [Finset.mem_coe, List.mem_toFinset, List.mem_map]
      exact ⟨_, hp, rfl⟩
    refine ((hfin.prod hfin3).image fun e => e.2 + ((written e.1).map (·.2)).sum).subset ?_
    rintro w ⟨ls, wr, ch, p, w0, h1, h2, h3, -⟩
    refine ⟨(ls, w0), ⟨⟨wr, ch, p, h1⟩, p, h2⟩, ?_⟩
    rw [h3, (walk_iff.1 h1).2.2.1]
  obtain ⟨w, h1, h2⟩ := Set.exists_min_image _ id hfin2 h
  exact ⟨w, h1, h2⟩

theorem Compiled.named (h : Compiled s f A secs) (g : V → Dbl) (ht : Tame s f) : Load.Named A (storedAll g secs) (tagName f) := by
  intro e he q c w p hE i o hd
  obtain ⟨e, he', rfl⟩ := List.mem_map.1 he
  clear he
  rename' he' => he
  obtain ⟨v, hE, -⟩ := (edge_stored ..).1 hE
  by_cases h0 : o = 0
  · subst h0
    exact ⟨by decide, fun h => absurd h (by decide)⟩
  · obtain ⟨x, y, h1, h2⟩ := h.writes he hE (decode_iff.1 hd) h0
    obtain ⟨h3, h4⟩ := ht.writes _ _ _ h1 o h2
    exact ⟨h3, fun hc => tagText_of ht.tags h.tags hc h4⟩

theorem Compiled.accepted {closed : N → Bool} (hreg : Regular s f closed) (hp : parse s f.nodes = .ok (A, secs)) (g : V → Dbl) (v : Dbl → W) (ht : Tame s f) :
    ¬ Load.Refused v A (storedAll g secs) := by
  have h := compiled hreg hp
  rintro (⟨ys, w, h1⟩ | h1)
  · obtain ⟨k, -, hs⟩ := (h.together g v (fun _ => True) [] _).1 ⟨ys, w, h1, rfl⟩
    have := C69_refused_empty s f closed hreg k _ _ hs (by rw [sides_sides])
    rw [hp] at this
    cases this
  · rcases (h.begins g _).1 h1 with h1 | ⟨k, zs, y, h1⟩
    · cases h1
    · exact ht.start k zs y h1

/-- What is written with the loaded file is what is written by the dictionary. -/
theorem generates_of (h : Compiled s f A secs) (ht : Tame s f) (g : V → Dbl) (v : Dbl → W) {σ o : Setting W} (hr : Gen.Regular σ (tagName f)) (hal : Alike σ o)
    (hA : Ext A σ.alphabet) (h1 : ∀ xs ys w, Load.Accepts σ.graph σ.root σ.finals xs ys w ↔ Load.Together v A (storedAll g secs) (fun _ => True) xs ys w)
    (hf : Walk.Fewer σ.graph σ.root (way σ false) 65536) {mode : Mode} (hm : mode ≠ .carefulcase) {r : RSyn} {out : UString}
    (hg : Gen.Generates σ (tagName f) mode r out) : Generates o (tagName f) s f mode r out := by
  obtain ⟨xs, hx, hg⟩ := hg
  have hm' : decide (mode = .carefulcase) = false := by simp [hm]
  rw [hm'] at hg
  simp only at hg
  have hu : secondUpper σ (whole r) = secondUpper o (whole r) := by unfold secondUpper; rw [hal.keep, hal.upper]
  have hfi : firstUpper σ (whole r) = firstUpper o (whole r) := by unfold firstUpper; rw [hal.keep, hal.upper]
  rw [hu, hfi] at hg
  have h0 : o.isUpper 0 = false := by rw [← hal.upper]; exact hr.zeroUpper
  have key : ∀ t, (∃ w, Gen.Form σ (tagName f) (way σ false) (secondUpper o (whole r)) (firstUpper o (whole r)) xs t w) ↔
      Form o (tagName f) s f (secondUpper o (whole r)) (firstUpper o (whole r)) ((pieces r).map (symbol f)) t := by
    intro t
    rw [form_iff h g v hal h1]
    rcases symbols_of hr.alphabet (h.tags.trans hA) ht.tags hx with e | ⟨e1, x, e2, e3⟩
    · rw [e]
      refine and_iff_right_of_imp fun hfo => ?_
      rintro x hx rfl
      exact no_form h ht h0 hx (.inl rfl) t hfo
    · refine ⟨fun hfo => absurd hfo.2 (no_form h ht h0 e2 e3 t), fun hfo => absurd hfo (no_form h ht h0 e1 (.inl rfl) t)⟩
  unfold Generates
  simp only
  rcases hg with ⟨rs, hne, hb, ho⟩ | ⟨hno, ho⟩
  · left
    refine ⟨rs, hne, hb.1, hb.2.1, fun t => ?_, by rw [ho, hal.weights]⟩
    rw [← key]
    constructor
    · intro hm
      obtain ⟨⟨t', w⟩, h5, rfl⟩ := List.mem_map.1 hm
      exact ⟨w, ((hb.2.2 _ _).1 h5).1⟩
    · intro hm
      obtain ⟨w, h5⟩ := least_form hr.finals hf hm
      exact List.mem_map.2 ⟨(t, w), (hb.2.2 _ _).2 h5, rfl⟩
  · right
    refine ⟨fun t hfo => ?_, ho⟩
    obtain ⟨w, hw⟩ := (key t).2 hfo
    exact hno t w hw

end

/-! ## Directions -/

section
variable {s : Settings} {f : File N V}

theorem back_back (s : Settings) : back (back s) = s := by simp [back]

theorem visible_back {a : Expander.Attrs} (h : a.r = [] ∧ a.vl = [] ∧ a.vr = []) (hv : Visible s a) : Visible (back s) a :=
  ⟨.inl h.1, hv.ignore, hv.alt, hv.v, fun _ => .inl h.2.1, fun _ => .inl h.2.2⟩

theorem gives_back (hf : Free f) {es : List (Token N)} {l r : List Int} (h : Gives s f es l r) : Gives (back s) f es l r := by
  induction h with
  | nil => exact .nil
  | text _ ih => exact .text ih
  | re hv hm _ ih => exact .re hv hm ih
  | par hp hu _ _ ih1 ih2 =>
    obtain ⟨e, he, hv, hc⟩ := hu
    exact .par hp ⟨e, he, visible_back (hf e (.inl ⟨_, _, hp, he⟩)) hv, hc⟩ ih1 ih2

theorem sides_back (s : Settings) (x y : List Int) : sides (back s) y x = sides s x y := by
  unfold sides back
  cases s.rl <;> simp

theorem says_back (hf : Free f) {k : UString} {x y : List Int} (h : Says s f k x y) : Says (back s) f k y x := by
  unfold Says at h ⊢
  rw [sides_back]
  obtain ⟨ents, hk, es, ⟨e, he, hv, hc⟩, hg⟩ := h
  exact ⟨ents, hk, es, ⟨e, he, visible_back (hf e (.inr ⟨_, _, hk, he⟩)) hv, hc⟩, gives_back hf hg⟩

theorem says_back_iff (hf : Free f) {k : UString} {x y : List Int} : Says (back s) f k y x ↔ Says s f k x y :=
  ⟨fun h => by have := says_back hf h; rwa [back_back] at this, says_back hf⟩

theorem uses_back (hf : Free f) {ents : List (CEntry N V)} (hm : (∃ n, (n, ents) ∈ f.pars) ∨ ∃ k, (k, ents) ∈ f.secs) {es : List (Token N)}
    (h : Uses (back s) ents es) : Uses s ents es := by
  obtain ⟨e, he, hv, hc⟩ := h
  refine ⟨e, he, ?_, hc⟩
  have := visible_back (hf e (hm.imp (fun ⟨n, h⟩ => ⟨n, _, h, he⟩) fun ⟨n, h⟩ => ⟨n, _, h, he⟩)) hv
  rwa [back_back] at this

theorem regular_back {closed : N → Bool} (hf : Free f) (h : Regular s f closed) : Regular (back s) f closed where
  acx := h.acx
  names := h.names
  order ps n ents qs e es hu := h.order ps n ents qs e es (uses_back hf (.inl ⟨n, by rw [e]; simp⟩) hu)
  refs k ents hk es hu := h.refs k ents hk es (uses_back hf (.inr ⟨k, hk⟩) hu)
  parFits n ents hn es hu := h.parFits n ents hn es (uses_back hf (.inl ⟨n, hn⟩) hu)
  secFits k ents hk es hu := h.secFits k ents hk es (uses_back hf (.inr ⟨k, hk⟩) hu)
  parClosed n ents hn hc es hu := h.parClosed n ents hn hc es (uses_back hf (.inl ⟨n, hn⟩) hu)
  last ps n ents e := by
    obtain ⟨l, r, hg⟩ := h.last ps n ents e
    exact ⟨l, r, gives_back hf hg⟩

/-! ## Readings -/

theorem enc_append (a b : List Nat) : enc (a ++ b) = enc a ++ enc b := by simp [enc]

variable {names : List (List Nat)}

theorem toksText_raw (n : List Nat) : toksText (n.map .raw) = n := by
  induction n with
  | nil => rfl
  | cons c n ih =>
    unfold toksText at ih ⊢
    rw [List.map_cons, List.flatMap_cons, ih]
    rfl

theorem tag_text (hn : Names f names) {c : Int} (h1 : c < 0) (h2 : -(f.tags.length : Int) ≤ c) :
    enc (blockText '<'.toNat '>'.toNat ((names.getD (-c - 1).toNat []).map .raw)) = tagName f c := by
  have hl : f.tags.length = names.length := by rw [hn.same, List.length_map]
  have hi : (-c - 1).toNat < names.length := by omega
  unfold blockText tagName
  rw [toksText_raw, hn.same, List.getElem?_map, List.getElem?_eq_getElem hi, List.getD_eq_getElem?_getD, List.getElem?_eq_getElem hi]
  simp only [Option.getD_some, Option.map_some]
  rw [enc_append]
  rfl

theorem reading_text (hn : Names f names) {y : List Int} (hy : Nice f y) : enc (reading names y).text = symbolsText f y := by
  have hy1 := hy.tags
  have hy2 := hy.chars
  clear hy
  simp only [RSyn.text, reading, Option.toList, List.nil_append]
  induction y with
  | nil => rfl
  | cons c y ih =>
    have ih := ih (fun c hc => hy1 c (List.mem_cons_of_mem _ hc)) (fun c hc => hy2 c (List.mem_cons_of_mem _ hc))
    unfold symbolsText at ih ⊢
    rw [List.map_cons, List.flatMap_cons, List.flatMap_cons, enc_append, ih]
    congr 1
    by_cases hc : c < 0
    · rw [if_pos hc, if_pos hc]
      exact tag_text hn hc (hy1 c List.mem_cons_self)
    · rw [if_neg hc, if_neg hc]
      by_cases he : c ∈ Gen.escapedCps
      · rw [if_pos he, if_pos he]
        show enc (['\\'.toNat] ++ [c.toNat]) = _
        rw [enc_append]
        rfl
      · rw [if_neg he, if_neg he]
        rfl

theorem reading_pieces (y : List Int) : pieces (reading names y) = (reading names y).toks := by
  unfold Gen.pieces
  rw [List.filter_eq_self]
  intro t ht
  obtain ⟨c, -, rfl⟩ := List.mem_map.1 ht
  split <;> [rfl; skip]
  split <;> rfl

theorem reading_symbols (hn : Names f names) (ht : f.tags.Nodup) {y : List Int} (hy : Nice f y) : (pieces (reading names y)).map (symbol f) = y := by
  rw [reading_pieces]
  simp only [reading, List.map_map]
  conv_rhs => rw [← List.map_id y]
  refine List.map_congr_left fun c hc => ?_
  simp only [Function.comp_apply, id]
  by_cases h : c < 0
  · rw [if_pos h]
    simp only [symbol]
    rw [tag_text hn h (hy.tags c hc)]
    have hlt : (-c - 1).toNat < f.tags.length := by have := hy.tags c hc; omega
    have : f.tags.findIdx? (fun n => decide (0x3c :: n ++ [0x3e] = tagName f c)) = some (-c - 1).toNat := by
      rw [List.findIdx?_eq_some_iff_getElem]
      unfold tagName
      rw [List.getElem?_eq_getElem hlt]
      refine ⟨hlt, by simp, fun j hj => ?_⟩
      simp only [Option.getD_some, List.cons_append, List.cons.injEq, List.append_cancel_right_eq, true_and, decide_eq_true_eq]
      intro e
      have := (List.Nodup.getElem_inj_iff ht).1 e
      omega
    rw [this]
    simp only
    omega
  · rw [if_neg h]
    have hp : ((c.toNat : Nat) : Int) = c := by omega
    split <;> simp only [symbol] <;> exact hp

theorem reading_wf (hn : Names f names) {y : List Int} (hy : Nice f y) : (reading names y).WF where
  toks t ht := by
    obtain ⟨c, hc, rfl⟩ := List.mem_map.1 ht
    by_cases h : c < 0
    · rw [if_pos h]
      intro t ht
      obtain ⟨d, hd, rfl⟩ := List.mem_map.1 ht
      have hl : f.tags.length = names.length := by rw [hn.same, List.length_map]
      have hi : (-c - 1).toNat < names.length := by have := hy.tags c hc; omega
      rw [List.getD_eq_getElem?_getD, List.getElem?_eq_getElem hi] at hd
      exact hn.plain _ (List.getElem_mem hi) d hd
    · rw [if_neg h]
      obtain ⟨h1, h2⟩ := hy.chars c hc (by omega)
      by_cases he : c ∈ Gen.escapedCps
      · rw [if_pos he]
        exact h1
      · rw [if_neg he]
        have hne : ∀ d : Nat, (d : Int) ∈ Gen.escapedCps → c.toNat ≠ d := by
          rintro d hd e
          refine he ?_
          rw [show c = (d : Int) by omega]
          exact hd
        exact ⟨h1, hne _ (by decide), hne _ (by decide), hne _ (by decide), hne _ (by decide), hne _ (by decide), by omega⟩
  mark m hm := by cases hm
  unmarked _ c hc e := by
    cases y with
    | nil => cases e
    | cons d y =>
      obtain ⟨h1, h2, h3, h4, h5⟩ := hy.start d rfl
      simp only [reading, List.map_cons, List.head?_cons, Option.some.injEq] at e
      rw [if_neg (by omega)] at e
      by_cases he : d ∈ Gen.escapedCps
      · rw [if_pos he] at e; cases e
      · rw [if_neg he] at e
        simp only [RTok.tok.injEq, Tok.raw.injEq] at e
        have h6 : d ≠ 0x40 := by rintro rfl; exact he (by decide)
        simp only [marks, List.mem_cons, List.not_mem_nil, or_false] at hc
        rcases hc with rfl | rfl | rfl | rfl | rfl <;> simp only [Char.reduceToNat] at e <;> omega

theorem takeWhile_last {α : Type} (p : α → Bool) : ∀ (l : List α) (a : α), (l.takeWhile p).getLast? = some a → l.dropWhile p = [] ∨ ∃ u b v, l = u ++ a :: b :: v ∧ p b = false ∧ l.dropWhile p = b :: v := by
  intro l a h
  cases hd : l.dropWhile p with
  | nil => exact .inl rfl
  | cons b v =>
    right
    obtain ⟨u, hu⟩ := List.getLast?_eq_some_iff.1 h
    refine ⟨u, b, v, ?_, ?_, rfl⟩
    · conv_lhs => rw [← List.takeWhile_append_dropWhile (p := p) (l := l), hu, hd]
      simp
    · have := List.head?_dropWhile_not p l
      rw [hd] at this
      simpa using this

theorem reading_tidy {y : List Int} (hy : Nice f y) : Gen.Tidy (reading names y) where
  start ts := by
    rw [reading_pieces]
    cases y with
    | nil => simp [reading]
    | cons d y =>
      obtain ⟨h1, -⟩ := hy.start d rfl
      simp only [reading, List.map_cons, List.head?_cons]
      rw [if_neg (by omega)]
      split <;> simp
  before h := by
    unfold Gen.tags
    rw [reading_pieces] at h ⊢
    rcases takeWhile_last _ _ _ h with h | ⟨u, b, v, h1, h2, -⟩
    · rw [h]; rfl
    · exfalso
      simp only [reading] at h1
      obtain ⟨y1, y2, rfl, -, h4⟩ := List.map_eq_append_iff.1 h1
      obtain ⟨c1, y3, rfl, h5, h6⟩ := List.map_eq_cons_iff.1 h4
      obtain ⟨c2, y4, rfl, h7, -⟩ := List.map_eq_cons_iff.1 h6
      have e1 : c1 = 0x5c := by
        split at h5
        · cases h5
        · split at h5
          · simp only [RTok.tok.injEq, Tok.esc.injEq, Char.reduceToNat] at h5
            omega
          · cases h5
      subst e1
      rcases hy.before y1 y4 c2 with h | h
      · exact h rfl
      · rw [if_neg (by omega)] at h7
        subst h7
        revert h2
        split <;> simp [Gen.isTagPiece]

theorem mapText_symbols {W' : Type} (f : File N V) (z : W') (y : List Int) (h0 : (0 : Int) ∉ y) :
    State.mapText (tagName f) id Gen.escapedCps (y.map fun c => (c, z)) = symbolsText f y := by
  unfold State.mapText symbolsText
  rw [List.flatMap_map]
  refine List.flatMap_congr fun c hc => ?_
  have hc0 : c ≠ 0 := fun e => h0 (e ▸ hc)
  simp only [if_neg hc0, id]
  by_cases h : c < 0
  · rw [if_pos h, if_pos h, if_neg (by unfold Gen.escapedCps; simp; omega)]
    rfl
  · rw [if_neg h, if_neg h]
    simp [enc]

end

end Verif.Chain.Forms
