import Verif.Paradigm.Build
import Verif.Alphabet.Format
import Verif.Str.Props

/-! # The pieces of a pattern -/

namespace Verif.Paradigm

open Verif.Fst Verif.Alphabet Verif.Compiler
open Verif.Tools (Sane Symbol)

/-! ## Names and codes -/

theorem named_congr {a a' : Alphabet} (h : a'.slexicinv = a.slexicinv) {x : Int} {n : Name} : Named a' x n ↔ Named a x n := by
  unfold Named Alphabet.tagText
  rw [h]

theorem named_tag_iff {a : Alphabet} {x : Int} {s : UString} : Named a x (.tag s) ↔ HasTag a x s := by
  constructor
  · rintro (⟨-, h⟩ | ⟨h1, s', h2, h3⟩)
    · cases h
    · cases h3; exact (tagText_iff h1).1 h2
  · intro h
    have h0 : x < 0 := by obtain ⟨i, -, rfl⟩ := h; unfold tagNo; omega
    exact .inr ⟨h0, s, (tagText_iff h0).2 h, rfl⟩

theorem named_letter_iff {a : Alphabet} {x c : Int} : Named a x (.letter c) ↔ 0 ≤ x ∧ x = c := by
  constructor
  · rintro (⟨h1, h⟩ | ⟨h1, s', h2, h3⟩)
    · cases h; exact ⟨h1, rfl⟩
    · cases h3
  · rintro ⟨h, rfl⟩; exact .inl ⟨h, rfl⟩

theorem hasTag_neg {a : Alphabet} {c : Int} {s : UString} (h : HasTag a c s) : c < 0 := by
  obtain ⟨i, -, rfl⟩ := h; unfold tagNo; omega

theorem hasTag_unique {a : Alphabet} {c : Int} {s s' : UString} (h : HasTag a c s) (h' : HasTag a c s') : s = s' := by
  have := Product.named_unique (named_tag_iff.2 h) (named_tag_iff.2 h')
  cases this; rfl

theorem hasTag_code {a : Alphabet} (ho : Ok a) {c c' : Int} {s : UString} (h : HasTag a c s) (h' : HasTag a c' s) : c = c' := by
  rw [← hasTag_find ho] at h h'
  rw [h] at h'; exact Option.some.inj h'

theorem hasTag_mem {a : Alphabet} {s : UString} : (∃ c, HasTag a c s) ↔ s ∈ a.slexicinv := by
  constructor
  · rintro ⟨c, i, h, -⟩; exact List.mem_of_getElem? h
  · intro h
    obtain ⟨i, hi⟩ := List.mem_iff_getElem?.1 h
    exact ⟨_, i, hi, rfl⟩

theorem symCode_tag {a : Alphabet} (ho : Ok a) {c : Int} {s : UString} (h : HasTag a c s) : a.symCode s = c := by
  unfold Alphabet.symCode
  rw [(hasTag_find ho).2 h]; rfl

theorem symCode_zero {a : Alphabet} (ho : Ok a) {s : UString} (h : s ∉ a.slexicinv) : a.symCode s = 0 := by
  unfold Alphabet.symCode
  cases hf : mapFind s a.slexic with
  | none => rfl
  | some c => exact absurd (hasTag_mem.1 ⟨c, (hasTag_find ho).1 hf⟩) h

theorem hasTag_symbol {a : Alphabet} {c : Int} {s : UString} (h : HasTag a c s) : Symbol a c :=
  .inr ⟨hasTag_neg h, s, (tagText_iff (hasTag_neg h)).2 h⟩

/-! ## The names in a special tag -/

theorem mem_splitTag {a : Alphabet} (ho : Ok a) {sym : UString} {pre : Nat} {sep : UInt16} {ns : List UString}
    (h : Str.splitEscaped ((sym.drop (pre + 1)).take (sym.length - pre - 2)) sep = ns) (c : Int) :
    c ∈ splitTag sym a pre sep ↔ ∃ n ∈ ns, HasTag a c (tagOf n) := by
  unfold splitTag
  rw [h]
  have key : ∀ (l : List UString) (r : List Int), c ∈ l.foldl (fun ret tag => if a.isSymbolDefined tag then setInsert (a.symCode tag) ret else ret) r ↔
      c ∈ r ∨ ∃ s ∈ l, HasTag a c s := by
    intro l
    induction l with
    | nil => simp
    | cons s l ih =>
      intro r
      rw [List.foldl_cons, ih]
      by_cases hd : a.isSymbolDefined s
      · rw [if_pos hd, mem_setInsert]
        obtain ⟨d, hd'⟩ := Option.isSome_iff_exists.1 hd
        have ht := (hasTag_find ho).1 hd'
        rw [symCode_tag ho ht]
        constructor
        · rintro ((rfl | h) | ⟨s', h1, h2⟩)
          · exact .inr ⟨s, by simp, ht⟩
          · exact .inl h
          · exact .inr ⟨s', by simp [h1], h2⟩
        · rintro (h | ⟨s', h1, h2⟩)
          · exact .inl (.inr h)
          · rcases List.mem_cons.1 h1 with rfl | h1
            · exact .inl (.inl (hasTag_code ho h2 ht))
            · exact .inr ⟨s', h1, h2⟩
      · rw [if_neg hd]
        have hn : ∀ d, ¬ HasTag a d s := by
          intro d hd'
          apply hd
          unfold Alphabet.isSymbolDefined
          rw [(hasTag_find ho).2 hd']; rfl
        constructor
        · rintro (h | ⟨s', h1, h2⟩)
          · exact .inl h
          · exact .inr ⟨s', by simp [h1], h2⟩
        · rintro (h | ⟨s', h1, h2⟩)
          · exact .inl h
          · rcases List.mem_cons.1 h1 with rfl | h1
            · exact absurd h2 (hn _)
            · exact .inr ⟨s', h1, h2⟩
  rw [key]
  simp only [List.not_mem_nil, false_or, List.mem_map]
  constructor
  · rintro ⟨s, ⟨n, h1, rfl⟩, h2⟩; exact ⟨n, h1, h2⟩
  · rintro ⟨n, h1, h2⟩; exact ⟨_, ⟨n, h1, rfl⟩, h2⟩

theorem split_names {sep : UInt16} (h5 : sep ≠ 0x5c) {ns : List UString} (h : ∀ n ∈ ns, Clean sep n) :
    Str.splitEscaped (([sep] : UString).intercalate ns) sep = ns := by
  have he : ns.map (Str.escape sep) = ns := by
    conv_rhs => rw [← List.map_id ns]
    apply List.map_congr_left
    intro n hn
    obtain ⟨-, h1, -, h2⟩ := h n hn
    unfold Str.escape
    have : ∀ m : UString, sep ∉ m → 0x5c ∉ m → (m.flatMap fun u => if u = sep ∨ u = 0x5c then [0x5c, u] else [u]) = m := by
      intro m
      induction m with
      | nil => intros; rfl
      | cons u m ih =>
        intro g1 g2
        simp only [List.mem_cons, not_or] at g1 g2
        rw [List.flatMap_cons, ih g1.2 g2.2, if_neg (by rintro (e | e); exact g1.1 e.symm; exact g2.1 e.symm)]
        rfl
    exact this n h1 h2
  have hj := Str.C51_escape_split sep h5 ns fun n hn => (h n hn).1
  rw [he, Str.C51_join] at hj
  have hdw : ns.dropWhile (· = []) = ns := by
    cases ns with
    | nil => rfl
    | cons n ns => rw [List.dropWhile_cons_of_neg (by simpa using (h n (by simp)).1)]
  rw [hdw] at hj
  exact hj

theorem split_lead {sep : UInt16} (h5 : sep ≠ 0x5c) (s : UString) : Str.splitEscaped (sep :: s) sep = Str.splitEscaped s sep := by
  rw [Str.C51_split_escaped _ _ h5, Str.C51_split_escaped _ _ h5]
  have : Str.tokens (sep :: s) = [sep] :: Str.tokens s := by
    cases s with
    | nil => rfl
    | cons v s => rw [Str.tokens, if_neg h5]
  rw [this, Str.cutTokens_eq]
  rfl

theorem flatMap_lead (sep : UInt16) : ∀ (ns : List UString), ns ≠ [] → ns.flatMap (sep :: ·) = sep :: ([sep] : UString).intercalate ns
  | [], h => absurd rfl h
  | [n], _ => by simp [List.intercalate]
  | n :: m :: ns, _ => by
    rw [List.flatMap_cons, flatMap_lead sep (m :: ns) (by simp)]
    simp [List.intercalate, List.intersperse]

theorem inner_one (ns : List UString) : ((Item.one ns).text.drop (1 + 1)).take ((Item.one ns).text.length - 1 - 2) = ([0x7c] : UString).intercalate ns := by
  simp only [Item.text, tagOf]
  simp
theorem inner_some (ns : List UString) : ((Item.some ns).text.drop (2 + 1)).take ((Item.some ns).text.length - 2 - 2) = ([0x7c] : UString).intercalate ns := by
  simp only [Item.text, tagOf]
  simp
theorem inner_but (ns : List UString) : ((Item.but ns).text.drop (1 + 1)).take ((Item.but ns).text.length - 1 - 2) = ns.flatMap (0x2d :: ·) := by
  simp only [Item.text, tagOf]
  simp

/-! ## Parts as pieces -/

/-- The symbol of a part of a pattern. -/
def Item.sym : Item → Sym
  | .letter u e => .letter u e
  | .star => .letter 0x2a false
  | i => .tag i.text

theorem Item.sym_text (i : Item) : i.sym.text = i.text := by cases i <;> rfl

theorem not_mem_intercalate {u sep : UInt16} (hs : u ≠ sep) {ns : List UString} (h : ∀ n ∈ ns, u ∉ n) : u ∉ ([sep] : UString).intercalate ns := by
  intro hm
  unfold List.intercalate at hm
  obtain ⟨l, h1, h2⟩ := List.mem_flatten.1 hm
  have : ∀ (ms : List UString), l ∈ ms.intersperse [sep] → l = [sep] ∨ l ∈ ms := by
    intro ms
    induction ms with
    | nil => intro h; simp at h
    | cons m ms ih =>
      cases ms with
      | nil => intro h; simp at h; simp [h]
      | cons m' ms =>
        intro h
        rw [List.intersperse_cons₂] at h
        simp only [List.mem_cons] at h
        rcases h with h | h | h
        · simp [h]
        · simp [h]
        · rcases ih (by simpa using h) with h | h
          · exact .inl h
          · exact .inr (by simp [h])
  rcases this ns h1 with rfl | h3
  · exact hs (by simpa using h2)
  · exact h l h3 h2

theorem Item.sym_writable {known : List UString} {i : Item} (h : i.Proper known) : i.sym.Writable := by
  cases i with
  | letter u e => exact ⟨h.1, h.2.1, h.2.2.1⟩
  | star => exact ⟨by decide, by decide, by decide⟩
  | tag n => exact ⟨n, rfl, h.1⟩
  | one ns =>
    refine ⟨_, rfl, ?_⟩
    simp only [List.mem_cons, not_or]
    exact ⟨by decide, not_mem_intercalate (by decide) fun n hn => (h.1 n hn).2.2.1⟩
  | some ns =>
    refine ⟨_, rfl, ?_⟩
    simp only [List.mem_cons, not_or]
    exact ⟨by decide, by decide, not_mem_intercalate (by decide) fun n hn => (h.1 n hn).2.2.1⟩
  | but ns =>
    refine ⟨_, rfl, ?_⟩
    simp only [List.mem_cons, not_or]
    refine ⟨by decide, ?_⟩
    intro hm
    obtain ⟨n, h1, h2⟩ := List.mem_flatMap.1 hm
    rcases List.mem_cons.1 h2 with h2 | h2
    · exact absurd h2 (by decide)
    · exact (h.1 n h1).2.2.1 h2

/-- The piece of a part of a pattern. -/
def Item.piece (i : Item) : UString := i.sym.piece

theorem pieces_items {known : List UString} {is : List Item} (h : ∀ i ∈ is, i.Proper known) :
    Alphabet.pieces 0 (is.flatMap Item.text) = .ok (is.map Item.piece) := by
  have e : is.flatMap Item.text = (is.map Item.sym).flatMap Sym.text := by
    rw [List.flatMap_map]
    congr 1
    funext i
    exact (Item.sym_text i).symm
  have := pieces_syms 0 (by decide) (is.map Item.sym) (by
    intro x hx
    obtain ⟨i, hi, rfl⟩ := List.mem_map.1 hx
    exact Item.sym_writable (h i hi)) ((is.map Item.sym).flatMap Sym.text).length (Nat.le_refl _)
  rw [e]
  unfold Alphabet.pieces
  rw [this]
  simp [Item.piece, Function.comp_def]

/-! ## What a part adds -/

/-- What is read after a part: the codes of what it stands for. -/
def Codes (a : Alphabet) (R : List Name → Prop) (A B : Int → Prop) : Prop :=
  ∀ y : List Int, (∀ c ∈ y, c ≠ 0) →
    ((∃ (c : Int) (x2 : List Int), A c ∧ (∀ d ∈ x2, B d) ∧ y = [c].filter (· ≠ 0) ++ x2.filter (· ≠ 0)) ↔ ∃ Y, R Y ∧ List.Forall₂ (Named a) y Y)

theorem codes_one {a : Alphabet} {A : Int → Prop} {R : List Name → Prop} {N : Name → Prop} (hA : ∀ c, A c → c ≠ 0) (hN : ∀ Y, R Y ↔ ∃ m, N m ∧ Y = [m])
    (h : ∀ d, d ≠ 0 → (A d ↔ ∃ m, N m ∧ Named a d m)) : Codes a R A (fun _ => False) := by
  intro y hy
  constructor
  · rintro ⟨c, x2, h1, h2, rfl⟩
    have : x2 = [] := by
      cases x2 with
      | nil => rfl
      | cons d x2 => exact (h2 d (by simp)).elim
    subst this
    obtain ⟨m, h3, h4⟩ := (h c (hA c h1)).1 h1
    refine ⟨[m], (hN _).2 ⟨m, h3, rfl⟩, ?_⟩
    have : ([c].filter (· ≠ 0) : List Int) = [c] := by simp [hA c h1]
    rw [this]
    exact .cons h4 .nil
  · rintro ⟨Y, h1, h2⟩
    obtain ⟨m, h3, rfl⟩ := (hN _).1 h1
    cases h2 with
    | @cons d _ y _ g gs =>
      cases gs
      have hd := hy d (by simp)
      exact ⟨d, [], (h d hd).2 ⟨m, h3, g⟩, by simp, by simp [hd]⟩

theorem codes_loops {a : Alphabet} {B : Int → Prop} {R : List Name → Prop} {N : Name → Prop} (hN : ∀ Y, R Y ↔ ∀ m ∈ Y, N m)
    (h : ∀ d, d ≠ 0 → (B d ↔ ∃ m, N m ∧ Named a d m)) : Codes a R (· = 0) B := by
  intro y hy
  have key : (∃ Y, (∀ m ∈ Y, N m) ∧ List.Forall₂ (Named a) y Y) ↔ ∀ d ∈ y, B d := by
    clear hN
    induction y with
    | nil => exact ⟨fun _ => by simp, fun _ => ⟨[], by simp, .nil⟩⟩
    | cons d y ih =>
      have ih' := ih fun c hc => hy c (by simp [hc])
      have hd := h d (hy d (by simp))
      constructor
      · rintro ⟨Y, h1, h2⟩
        cases h2 with
        | @cons _ m _ Y g gs =>
          intro e he
          rcases List.mem_cons.1 he with rfl | he
          · exact hd.2 ⟨m, h1 m (by simp), g⟩
          · exact ih'.1 ⟨Y, fun m hm => h1 m (by simp [hm]), gs⟩ e he
      · intro hB
        obtain ⟨m, h1, h2⟩ := hd.1 (hB d (by simp))
        obtain ⟨Y, h3, h4⟩ := ih'.2 fun e he => hB e (by simp [he])
        refine ⟨m :: Y, ?_, .cons h2 h4⟩
        intro m' hm'
        rcases List.mem_cons.1 hm' with rfl | hm'
        · exact h1
        · exact h3 m' hm'
  have key' : (∃ Y, R Y ∧ List.Forall₂ (Named a) y Y) ↔ ∀ d ∈ y, B d := by
    rw [← key]
    constructor
    · rintro ⟨Y, h1, h2⟩; exact ⟨Y, (hN Y).1 h1, h2⟩
    · rintro ⟨Y, h1, h2⟩; exact ⟨Y, (hN Y).2 h1, h2⟩
  rw [key']
  constructor
  · rintro ⟨c, x2, rfl, h2, rfl⟩ d hd
    simp only [List.mem_append, List.mem_filter] at hd
    rcases hd with ⟨hd, h0⟩ | ⟨hd, -⟩
    · rw [List.mem_singleton.1 hd] at h0; simp at h0
    · exact h2 d hd
  · intro hB
    refine ⟨0, y, rfl, hB, ?_⟩
    have : y.filter (· ≠ 0) = y := List.filter_eq_self.2 fun c hc => by simpa using hy c hc
    simp only [this]
    simp

/-- The tags that `lt-paradigm` allows. -/
def Allowed (a : Alphabet) (exclude : List UString) (tags : List Int) : Prop := ∀ c, c ∈ tags ↔ ∃ s, HasTag a c s ∧ s ∉ exclude

variable {W : Type} [Zero W]

theorem step_added {a : Alphabet} {t : Transducer W} {p : Nat} (hs : Sane a) (hw : WF t) (hp : p < Fst.size t) (hk : ∀ q l r, Edge t q l r → KA a l.1)
    {known exclude : List UString} {L : List UInt32} {tags : List Int} (hn : ∀ s, s ∈ a.slexicinv ↔ s ∈ known ∨ s = ANY) (hL : ∀ c ∈ L, c.toNat < 0x10000)
    (ht : Allowed a exclude tags) {i : Item} (hi : i.Proper known) :
    ∃ s A B, step L tags i.piece { a, t, q := p } = .ok s ∧ Added a t p s A B ∧ (∃ c, A c) ∧ Codes a (i.Fits L exclude) A B := by
  obtain ⟨any, hany⟩ := hasTag_mem.2 ((hn ANY).2 (.inr rfl))
  have hcany : a.symCode ANY = any := symCode_tag hs.ok hany
  have hneg := hasTag_neg hany
  have htags : ∀ c ∈ tags, Symbol a c := fun c hc => by
    obtain ⟨s, h, -⟩ := (ht c).1 hc
    exact hasTag_symbol h
  unfold step
  simp only
  rw [hcany]
  -- the code of a tag that is not known
  have hcode : ∀ n : UString, code a (tagOf n) = a.symCode (tagOf n) := by
    intro n
    cases n <;> rfl
  cases i with
  | letter u e =>
    have hu : code a (Item.letter u e).piece = u.toNat := rfl
    obtain ⟨-, -, -, h4, h5⟩ := hi
    have n1 : (u.toNat : Int) ≠ 0x2a := by
      intro h; apply h4; apply UInt16.toNat_inj.1
      have : (0x2a : UInt16).toNat = 0x2a := rfl
      omega
    have n2 : (u.toNat : Int) ≠ 0 := by
      intro h; apply h5; apply UInt16.toNat_inj.1
      have : (0 : UInt16).toNat = 0 := rfl
      omega
    rw [hu, if_neg n1, if_neg (by omega), if_neg (fun h => n2 h.1), if_neg (fun h => n2 h.1), if_neg (fun h => n2 h.1)]
    have hlt := UInt16.toNat_lt u
    refine ⟨_, _, _, rfl, chain_added hs hw hp hk (.inl ⟨by omega, by omega⟩), ⟨_, rfl⟩, ?_⟩
    refine codes_one (N := (· = .letter u.toNat)) (fun c h => by rw [h]; exact n2) (fun Y => ?_) ?_
    · show Y = _ ↔ _
      constructor
      · intro h; exact ⟨_, rfl, h⟩
      · rintro ⟨m, rfl, h⟩; exact h
    · intro d hd
      constructor
      · rintro rfl; exact ⟨_, rfl, named_letter_iff.2 ⟨by omega, rfl⟩⟩
      · rintro ⟨m, rfl, h⟩; exact (named_letter_iff.1 h).2
  | star =>
    have hu : code a Item.star.piece = 0x2a := rfl
    rw [hu, if_pos rfl]
    obtain ⟨s, h1, h2⟩ := loops_added hs hw hp hk (L.map fun c => (c.toNat : Int)) (by
      intro c hc
      obtain ⟨u, h, rfl⟩ := List.mem_map.1 hc
      have := hL u h
      exact .inl ⟨by omega, by omega⟩)
    refine ⟨s, _, _, h1, h2, ⟨_, rfl⟩, codes_loops (N := fun m => ∃ c ∈ L, m = .letter c.toNat) (fun Y => Iff.rfl) ?_⟩
    intro d hd
    rw [List.mem_map]
    constructor
    · rintro ⟨c, h, rfl⟩; exact ⟨_, ⟨c, h, rfl⟩, named_letter_iff.2 ⟨by omega, rfl⟩⟩
    · rintro ⟨m, ⟨c, h, rfl⟩, h3⟩; exact ⟨c, h, (named_letter_iff.1 h3).2.symm⟩
  | tag n =>
    obtain ⟨-, h2, h3⟩ := hi
    obtain ⟨c, hc⟩ := hasTag_mem.2 ((hn _).2 (.inl h2))
    have hu : code a (Item.tag n).piece = c := (hcode n).trans (symCode_tag hs.ok hc)
    have hcn := hasTag_neg hc
    have hne : c ≠ any := by
      rintro rfl
      have := hasTag_unique hc hany
      unfold tagOf ANY at this
      apply h3
      have e : n ++ [0x3e] = [0x2a] ++ [0x3e] := (List.cons.inj this).2
      exact List.append_cancel_right e
    have hne0 : c ≠ 0 := by omega
    rw [hu, if_neg (by omega), if_neg hne, if_neg (fun h => hne0 h.1), if_neg (fun h => hne0 h.1), if_neg (fun h => hne0 h.1)]
    refine ⟨_, _, _, rfl, chain_added hs hw hp hk (hasTag_symbol hc), ⟨_, rfl⟩, ?_⟩
    refine codes_one (N := (· = .tag (tagOf n))) (fun d h => by rw [h]; omega) (fun Y => ?_) ?_
    · show Y = _ ↔ _
      constructor
      · intro h; exact ⟨_, rfl, h⟩
      · rintro ⟨m, rfl, h⟩; exact h
    · intro d hd
      constructor
      · rintro rfl; exact ⟨_, rfl, named_tag_iff.2 hc⟩
      · rintro ⟨m, rfl, h⟩; exact hasTag_code hs.ok (named_tag_iff.1 h) hc
  | one ns =>
    obtain ⟨h1, ⟨n0, g1, g2⟩, h3⟩ := hi
    have hne : (Item.one ns).text ≠ ANY := by
      intro h
      have := congrArg (fun s : UString => s[1]?) h
      exact absurd this (by simp [Item.text, tagOf, ANY])
    have hu : code a (Item.one ns).piece = 0 :=
      (hcode _).trans (symCode_zero hs.ok fun h => ((hn _).1 h).elim h3 hne)
    rw [hu, if_neg (by decide), if_neg (by omega), if_neg (by simp [Item.piece, Item.sym, Sym.piece, Item.text, tagOf]),
      if_neg (by simp [Item.piece, Item.sym, Sym.piece, Item.text, tagOf]), if_pos ⟨rfl, by simp [Item.piece, Item.sym, Sym.piece, Item.text, tagOf]⟩]
    have hm := mem_splitTag (sym := (Item.one ns).text) (pre := 1) (sep := 0x7c) hs.ok ((congrArg (Str.splitEscaped · 0x7c) (inner_one ns)).trans (split_names (by decide) h1))
    have hp' : (Item.one ns).piece = (Item.one ns).text := rfl
    rw [hp']
    obtain ⟨c0, hc0⟩ := hasTag_mem.2 ((hn _).2 (.inl g2))
    have hc0m := (hm c0).2 ⟨n0, g1, hc0⟩
    obtain ⟨s, k1, k2⟩ := oneOf_added hs hw hp hk (splitTag (Item.one ns).text a 1 0x7c) (List.ne_nil_of_mem hc0m) (by
      intro c hc
      obtain ⟨n, -, h⟩ := (hm c).1 hc
      exact hasTag_symbol h)
    refine ⟨s, _, _, k1, k2, ⟨c0, hc0m⟩, codes_one (N := fun m => ∃ n ∈ ns, m = .tag (tagOf n)) ?_ ?_ ?_⟩
    · intro c hc
      obtain ⟨n, -, h⟩ := (hm c).1 hc
      have := hasTag_neg h
      omega
    · intro Y
      show (∃ n ∈ ns, Y = _) ↔ _
      constructor
      · rintro ⟨n, h, rfl⟩; exact ⟨_, ⟨n, h, rfl⟩, rfl⟩
      · rintro ⟨m, ⟨n, h, rfl⟩, rfl⟩; exact ⟨n, h, rfl⟩
    · intro d hd
      rw [hm]
      constructor
      · rintro ⟨n, h, h'⟩; exact ⟨_, ⟨n, h, rfl⟩, named_tag_iff.2 h'⟩
      · rintro ⟨m, ⟨n, h, rfl⟩, h'⟩; exact ⟨n, h, named_tag_iff.1 h'⟩
  | some ns =>
    obtain ⟨h1, h3⟩ := hi
    have hne : (Item.some ns).text ≠ ANY := by
      intro h
      have := congrArg (fun s : UString => s[2]?) h
      exact absurd this (by simp [Item.text, tagOf, ANY])
    have hu : code a (Item.some ns).piece = 0 :=
      (hcode _).trans (symCode_zero hs.ok fun h => ((hn _).1 h).elim h3 hne)
    rw [hu, if_neg (by decide), if_neg (by omega), if_pos ⟨rfl, by simp [Item.piece, Item.sym, Sym.piece, Item.text, tagOf]⟩]
    have hm := mem_splitTag (sym := (Item.some ns).text) (pre := 2) (sep := 0x7c) hs.ok ((congrArg (Str.splitEscaped · 0x7c) (inner_some ns)).trans (split_names (by decide) h1))
    have hp' : (Item.some ns).piece = (Item.some ns).text := rfl
    rw [hp']
    obtain ⟨s, k1, k2⟩ := loops_added hs hw hp hk (splitTag (Item.some ns).text a 2 0x7c) (by
      intro c hc
      obtain ⟨n, -, h⟩ := (hm c).1 hc
      exact hasTag_symbol h)
    refine ⟨s, _, _, k1, k2, ⟨_, rfl⟩, codes_loops (N := fun m => ∃ n ∈ ns, m = .tag (tagOf n)) (fun Y => Iff.rfl) ?_⟩
    intro d hd
    rw [hm]
    constructor
    · rintro ⟨n, h, h'⟩; exact ⟨_, ⟨n, h, rfl⟩, named_tag_iff.2 h'⟩
    · rintro ⟨m, ⟨n, h, rfl⟩, h'⟩; exact ⟨n, h, named_tag_iff.1 h'⟩
  | but ns =>
    by_cases hns : ns = []
    · subst hns
      have hu : code a (Item.but []).piece = any := (hcode _).trans hcany
      rw [hu, if_neg (by omega), if_pos rfl]
      obtain ⟨s, k1, k2⟩ := loops_added hs hw hp hk tags htags
      refine ⟨s, _, _, k1, k2, ⟨_, rfl⟩, codes_loops (N := fun m => ∃ s, m = .tag s ∧ s ∉ exclude ∧ ∀ n ∈ ([] : List UString), s ≠ tagOf n) (fun Y => Iff.rfl) ?_⟩
      intro d hd
      rw [ht]
      constructor
      · rintro ⟨s, h, h'⟩; exact ⟨_, ⟨s, rfl, h', by simp⟩, named_tag_iff.2 h⟩
      · rintro ⟨m, ⟨s, rfl, h', -⟩, h⟩; exact ⟨s, named_tag_iff.1 h, h'⟩
    · obtain ⟨h1, h3⟩ := hi
      have h3 := h3 hns
      have htext := flatMap_lead 0x2d ns hns
      have hne : (Item.but ns).text ≠ ANY := by
        intro h
        have := congrArg (fun s : UString => s[2]?) h
        simp only [Item.text, htext] at this
        exact absurd this (by simp [tagOf, ANY])
      have hu : code a (Item.but ns).piece = 0 :=
        (hcode _).trans (symCode_zero hs.ok fun h => ((hn _).1 h).elim h3 hne)
      have hp' : (Item.but ns).piece = (Item.but ns).text := rfl
      have np : ¬ [0x3c, 0x2a, 0x7c] <+: (Item.but ns).piece := by
        rw [hp']
        simp only [Item.text, htext]
        simp [tagOf]
      rw [hu, if_neg (by decide), if_neg (by omega), if_neg (fun h => np h.2), if_pos ⟨rfl, by simp [Item.piece, Item.sym, Sym.piece, Item.text, tagOf]⟩]
      have hm := mem_splitTag (sym := (Item.but ns).text) (pre := 1) (sep := 0x2d) hs.ok ((congrArg (Str.splitEscaped · 0x2d) ((inner_but ns).trans htext)).trans
        ((split_lead (by decide) _).trans (split_names (by decide) h1)))
      rw [hp']
      obtain ⟨s, k1, k2⟩ := loops_added hs hw hp hk (tags.filter (· ∉ splitTag (Item.but ns).text a 1 0x2d)) (fun c hc => htags c (List.mem_filter.1 hc).1)
      refine ⟨s, _, _, k1, k2, ⟨_, rfl⟩, codes_loops (N := fun m => ∃ s, m = .tag s ∧ s ∉ exclude ∧ ∀ n ∈ ns, s ≠ tagOf n) (fun Y => Iff.rfl) ?_⟩
      intro d hd
      rw [List.mem_filter, ht]
      simp only [decide_eq_true_eq, hm]
      constructor
      · rintro ⟨⟨s, h, h'⟩, h4⟩
        exact ⟨_, ⟨s, rfl, h', fun n hn e => h4 ⟨n, hn, e ▸ h⟩⟩, named_tag_iff.2 h⟩
      · rintro ⟨m, ⟨s, rfl, h', h4⟩, h⟩
        refine ⟨⟨s, named_tag_iff.1 h, h'⟩, ?_⟩
        rintro ⟨n, hn, h5⟩
        exact h4 n hn (hasTag_unique (named_tag_iff.1 h) h5)

end Verif.Paradigm
