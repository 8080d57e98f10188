import Verif.Merge.Model
import Verif.Stream.Props
import Verif.Str.Props

/-!
# C53: escaping is reversible, and what `lt-merge` and its inverse do to a stream
-/

namespace Verif.Merge

open Verif.Stream Verif.Input

/-! ## Escaping -/

/-- A text in which every reserved character is escaped: a plain character, or a backslash and any character. -/
inductive Protected : UString → Prop
  | nil : Protected []
  | plain {c s} : c ∉ ([0x5b, 0x5d, 0x7b, 0x7d, 0x5e, 0x24, 0x2f, 0x5c, 0x40, 0x3c, 0x3e] : List UInt16) → Protected s → Protected (c :: s)
  | escaped {c s} : Protected s → Protected (0x5c :: c :: s)

/-- The text of which every reserved character is preceded by a backslash. -/
def quoted (s : UString) : UString := s.flatMap fun c => if c ∈ escapedChars then [0x5c, c] else [c]

theorem appendEscaped_eq (t s : UString) : appendEscaped t s = t ++ quoted s := by
  induction s generalizing t with
  | nil => simp [appendEscaped, quoted]
  | cons c s ih =>
    rw [appendEscaped, ih]
    by_cases h : c ∈ escapedChars <;> simp [quoted, h]

theorem quoted_append (s t : UString) : quoted (s ++ t) = quoted s ++ quoted t := by simp [quoted]

/-- One level of escaping, removed. -/
def unescape (s : UString) : UString := unescapeLoop false [] s

theorem unescapeLoop_acc (b : Bool) (t s : UString) : unescapeLoop b t s = t ++ unescapeLoop b [] s := by
  induction s generalizing b t with
  | nil => cases b <;> simp [unescapeLoop]
  | cons c s ih =>
    cases b with
    | true => rw [unescapeLoop, unescapeLoop, ih, ih false ([] ++ [c])]; simp
    | false =>
      rw [unescapeLoop, unescapeLoop]
      split
      · rw [ih]
      · rw [ih, ih false ([] ++ [c])]; simp

theorem unescape_cons_plain {c : UInt16} (h : c ≠ 0x5c) (s : UString) : unescape (c :: s) = c :: unescape s := by
  rw [unescape, unescapeLoop, if_neg h, unescapeLoop_acc]; rfl

theorem unescape_cons_escaped (c : UInt16) (s : UString) : unescape (0x5c :: c :: s) = c :: unescape s := by
  rw [unescape, unescapeLoop, if_pos rfl, unescapeLoop, unescapeLoop_acc]; rfl

theorem unescape_quoted_append (s t : UString) : unescape (quoted s ++ t) = s ++ unescape t := by
  induction s with
  | nil => rfl
  | cons c s ih =>
    by_cases h : c ∈ escapedChars
    · have : quoted (c :: s) = 0x5c :: c :: quoted s := by simp [quoted, h]
      rw [this, List.cons_append, List.cons_append, unescape_cons_escaped, ih, List.cons_append]
    · have : quoted (c :: s) = c :: quoted s := by simp [quoted, h]
      have h2 : c ≠ 0x5c := by rintro rfl; exact h (by decide)
      rw [this, List.cons_append, unescape_cons_plain h2, ih, List.cons_append]

theorem unescape_plain_append (s t : UString) (h : 0x5c ∉ s) : unescape (s ++ t) = s ++ unescape t := by
  induction s with
  | nil => rfl
  | cons c s ih =>
    rw [List.cons_append, unescape_cons_plain (by rintro rfl; exact h (List.mem_cons_self ..)),
      ih (fun hm => h (List.mem_cons_of_mem _ hm)), List.cons_append]

/-- No reserved character is left unescaped. -/
theorem C53_protected (s : UString) : Protected (appendEscaped [] s) := by
  rw [appendEscaped_eq, List.nil_append]
  induction s with
  | nil => exact .nil
  | cons c s ih =>
    by_cases h : c ∈ escapedChars
    · have : quoted (c :: s) = 0x5c :: c :: quoted s := by simp [quoted, h]
      rw [this]; exact .escaped ih
    · have : quoted (c :: s) = c :: quoted s := by simp [quoted, h]
      rw [this]; exact .plain h ih

/-- The loop of `quoteUnmerge` gives the text back. -/
theorem C53_unescape (s : UString) : unescapeLoop false [] (appendEscaped [] s) = s := by
  rw [appendEscaped_eq, List.nil_append]
  have := unescape_quoted_append s []
  rw [List.append_nil] at this
  rw [show unescapeLoop false [] (quoted s) = unescape (quoted s) from rfl, this]
  simp [unescape, unescapeLoop]

example : appendEscaped [] (ascii "a<b\\/") = ascii "a\\<b\\\\\\/" := by decide +kernel

/-! ## Streams -/

/-- The text `pat` occurs in a reading, chunks apart. -/
def Mentions (pat : UString) (r : RSyn) : Prop := pat <:+: enc (contentText r.toks)

instance (pat : UString) (r : RSyn) : Decidable (Mentions pat r) := by unfold Mentions; infer_instance

/-- The text `pat` occurs in a reading of the unit. -/
def Item.Mentions (pat : UString) : Item → Prop
  | .unit _ _ rs => ∃ r ∈ rs, Merge.Mentions pat r
  | .null _ => False

/-- No reading has a chunk. -/
def Item.NoChunk : Item → Prop
  | .unit _ _ rs => ∀ r ∈ rs, ∀ t ∈ r.toks, t.isChunk = false
  | .null _ => True

/-- The form of a unit: its first reading, without the mark. -/
def Item.form : Item → UString
  | .unit _ _ (r :: _) => enc (contentText r.toks)
  | _ => []

def Item.blank : Item → UString
  | .unit b _ _ => enc (blankText b)
  | .null b => enc (blankText b)

def Item.wblank : Item → UString
  | .unit _ (some w) _ => enc (wblankText w)
  | _ => []

def Item.isUnit : Item → Bool
  | .unit _ _ _ => true
  | .null _ => false

/-- A stream divided into units to be copied and spans to be merged. -/
inductive Seg
  | copy (i : Item)
  | span (i : Item) (is : List Item)

/-- A copied item does not open a span and has no chunks. The first unit of a span opens it and has a form; the last unit closes
it and no other does. -/
def Seg.WF : Seg → Prop
  | .copy i => ¬ Item.Mentions MERGE_BEG i ∧ Item.NoChunk i
  | .span i is => (∀ j ∈ i :: is, Item.isUnit j = true) ∧ Item.Mentions MERGE_BEG i ∧ Item.form i ≠ [] ∧
      (∀ j ∈ (i :: is).dropLast, ¬ Item.Mentions MERGE_END j) ∧ ∀ j, (i :: is).getLast? = some j → Item.Mentions MERGE_END j

def Seg.items : Seg → List Item
  | .copy i => [i]
  | .span i is => i :: is

/-- The form of a merged span: forms and word-bound blanks quoted, blanks as they are. -/
def spanForm (i : Item) (is : List Item) : UString :=
  quoted (Item.form i) ++ is.flatMap fun j =>
    Item.blank j ++ quoted (Item.wblank j) ++ (if Item.wblank j = [] then [] else quoted (ascii "^$")) ++ quoted (Item.form j)

/-- What the program is to write for a part of the stream. -/
def Seg.out : Seg → UString
  | .copy i => enc (Item.text i)
  | .span i is => Item.blank i ++ Item.wblank i ++ ascii "^" ++ spanForm i is ++ ascii "/" ++ spanForm i is ++ ascii "<MERGED>$"

/-! ### Lemmas -/

theorem hasText_iff (pat s : UString) : hasText pat s = true ↔ pat <:+: s := by
  unfold hasText Str.find
  simp only [Nat.not_lt_zero, gt_iff_lt, if_false, List.drop_zero, Option.isSome_map]
  induction s with
  | nil =>
    rw [Str.findIn]
    cases pat <;> simp
  | cons u s ih =>
    rw [Str.findIn]
    split
    · rename_i h
      simp only [Option.isSome_some, true_iff]
      exact (List.isPrefixOf_iff_prefix.1 h).isInfix
    · rename_i h
      rw [Option.isSome_map, ih, List.infix_cons_iff]
      constructor
      · exact Or.inr
      · rintro (h' | h')
        · exact absurd (List.isPrefixOf_iff_prefix.2 h') h
        · exact h'

theorem any_mentions {add : Bool} {al : Option Alphabet} {rs : List RSyn} {xs : List Reading} (pat : UString)
    (h : List.Forall₂ (fun s (x : Reading) => ReadsAs add al s x.mark x.content x.symbols) rs xs) :
    (xs.any fun r => hasText pat r.content) = true ↔ ∃ r ∈ rs, Mentions pat r := by
  induction h with
  | nil => simp
  | cons h hs ih =>
    rw [List.any_cons, Bool.or_eq_true, ih, hasText_iff, h.content]
    simp [Mentions]

theorem any_shows {add : Bool} {al : Option Alphabet} {i : Item} {o : Out} (pat : UString) (h : Shows add al i o) :
    (o.readings.any fun r => hasText pat r.content) = true ↔ Item.Mentions pat i := by
  cases i with
  | unit b w rs => exact any_mentions pat h.2.2.1
  | null b => rw [show o = _ from h]; simp [Item.Mentions]

theorem contentText_eq {ts : List RTok} (h : ∀ t ∈ ts, t.isChunk = false) : contentText ts = ts.flatMap RTok.text := by
  rw [contentText, List.filter_eq_self.2 fun t ht => by simp [h t ht]]

theorem enc_append (a b : List Nat) : enc (a ++ b) = enc a ++ enc b := by simp [enc]
theorem enc_cons (a : Nat) (b : List Nat) : enc (a :: b) = utf16 a ++ enc b := by simp [enc]

theorem mark_text {add : Bool} {al : Option Alphabet} {s : RSyn} {x : Reading} (hw : s.WF)
    (h : ReadsAs add al s x.mark x.content x.symbols) (hc : ∀ t ∈ s.toks, t.isChunk = false) :
    (if x.mark ≠ 0 then utf16 x.mark else []) ++ x.content = enc s.text := by
  rw [h.content, h.mark, contentText_eq hc, RSyn.text, enc_append]
  cases hm : s.mark with
  | none => simp [enc]
  | some m =>
    have : m ≠ 0 := by
      rintro rfl
      have := hw.mark 0 hm
      revert this; decide
    simp [this, enc]

theorem copy_go {add : Bool} {al : Option Alphabet} {rs : List RSyn} {xs : List Reading} (hw : ∀ r ∈ rs, r.WF)
    (h : List.Forall₂ (fun s (x : Reading) => ReadsAs add al s x.mark x.content x.symbols) rs xs) (hne : rs ≠ [])
    (hc : ∀ r ∈ rs, ∀ t ∈ r.toks, t.isChunk = false) (b : Bool) :
    copyUnit.go b xs ++ [0x24] = (if b then [0x2f] else []) ++ enc (readingsText rs) := by
  induction h generalizing b with
  | nil => exact absurd rfl hne
  | @cons s x rs xs h hs ih =>
    have hx := mark_text (hw s (List.mem_cons_self ..)) h (hc s (List.mem_cons_self ..))
    rw [copyUnit.go]
    cases hs with
    | nil =>
      rw [copyUnit.go, readingsText, readingsTo, enc_append, ← hx]
      simp [enc]
      decide
    | @cons s2 x2 rs2 xs2 h2 hs2 =>
      have := ih (fun r hr => hw r (List.mem_cons_of_mem _ hr)) (by simp) (fun r hr => hc r (List.mem_cons_of_mem _ hr)) true
      rw [List.append_assoc, this, if_pos rfl]
      rw [show readingsText (s :: s2 :: rs2) = s.text ++ '/'.toNat :: readingsText (s2 :: rs2) from rfl, enc_append, enc_cons, ← hx]
      have e : utf16 '/'.toNat = [0x2f] := by decide
      rw [e]
      simp

theorem copyUnit_shows {add : Bool} {al : Option Alphabet} {i : Item} {o : Out} (hw : i.WF) (h : Shows add al i o)
    (hc : Item.NoChunk i) :
    o.blank ++ o.wblank ++ copyUnit o.readings ++ (if o.atNull then [0] else []) = enc i.text := by
  cases i with
  | null b =>
    rw [show o = _ from h]
    simp only [copyUnit, Item.text, enc_append]
    have : enc [0] = [0] := by decide
    simp [this]
  | unit b w rs =>
    obtain ⟨h1, h2, h3, h4, h5, h6⟩ := h
    obtain ⟨w1, w2, w3, w4, w5⟩ := hw
    have hl : o.readings.length > 0 := by
      rw [← h3.length_eq]
      exact List.length_pos_of_ne_nil w4
    have := copy_go w5 h3 w4 hc false
    simp only [Bool.false_eq_true, if_false, List.nil_append] at this
    rw [copyUnit, if_pos hl, List.append_assoc [0x5e], this, h1, h2, h5, Item.text, enc_append, enc_append, enc_cons]
    have e : utf16 '^'.toNat = [0x5e] := by decide
    rw [e]
    cases w <;> simp [enc]

theorem shows_parts {add : Bool} {al : Option Alphabet} {i : Item} {o : Out} (h : Shows add al i o) :
    o.blank = Item.blank i ∧ o.wblank = Item.wblank i := by
  cases i with
  | null b => rw [show o = _ from h]; exact ⟨rfl, rfl⟩
  | unit b w rs =>
    obtain ⟨h1, h2, _⟩ := h
    refine ⟨h1, h2.trans ?_⟩
    cases w <;> rfl

theorem shows_form {add : Bool} {al : Option Alphabet} {i : Item} {o : Out} (hw : i.WF) (hu : Item.isUnit i = true)
    (h : Shows add al i o) : ∃ r rs, o.readings = r :: rs ∧ r.content = Item.form i ∧ o.atNull = false := by
  cases i with
  | null b => cases hu
  | unit b w rs =>
    obtain ⟨h1, h2, h3, h4, h5, h6⟩ := h
    obtain ⟨w1, w2, w3, w4, w5⟩ := hw
    generalize o.readings = xs at h3
    cases h3 with
    | nil => exact absurd rfl w4
    | cons a as => exact ⟨_, _, rfl, a.content, h5⟩

/-- A fold over the values of the calls. -/
def mergeOuts : MSt → List Out → UString
  | _, [] => []
  | s, o :: os => (mergeStep o s).1 ++ mergeOuts (mergeStep o s).2 os

theorem forall₂_right {α β : Type} {R : α → β → Prop} {xs : List α} {ys : List β} (h : List.Forall₂ R xs ys) {y : β} (hy : y ∈ ys) :
    ∃ x, R x y := by
  induction h with
  | nil => cases hy
  | cons hab _ ih =>
    rcases List.mem_cons.1 hy with rfl | hy
    · exact ⟨_, hab⟩
    · exact ih hy

theorem forall₂_split {α β : Type} {R : α → β → Prop} {xs xs' : List α} {ys : List β} (h : List.Forall₂ R (xs ++ xs') ys) :
    ∃ y1 y2, List.Forall₂ R xs y1 ∧ List.Forall₂ R xs' y2 ∧ ys = y1 ++ y2 := by
  induction xs generalizing ys with
  | nil => exact ⟨[], ys, .nil, h, rfl⟩
  | cons x xs ih =>
    cases h with
    | cons hab hs =>
      obtain ⟨y1, y2, h1, h2, rfl⟩ := ih hs
      exact ⟨_ :: y1, y2, .cons hab h1, h2, rfl⟩

theorem mergeLoop_of_nexts (os : List Out) (last : Out) (r r' : Reader) (s : MSt) (turns : Nat) (ht : os.length + 1 ≤ turns)
    (he : r.atEof = false) (ho : ∀ o ∈ os, o.atEof = false) (hl : last.atEof = true)
    (h : nexts (os.length + 1) r = .ok (os ++ [last], r')) :
    mergeLoop turns r s = .ok (mergeOuts s (os ++ [last])) := by
  induction os generalizing r s turns with
  | nil =>
    obtain ⟨t, rfl⟩ : ∃ t, turns = t + 1 := ⟨turns - 1, by simp at ht; omega⟩
    rw [List.length_nil, nexts] at h
    obtain ⟨r1, h1, h⟩ := Res.bind_eq_ok.1 h
    cases h
    rw [mergeLoop, he]
    simp only [Bool.false_eq_true, if_false, h1, Res.bind_ok]
    have hl : r'.atEof = true := hl
    unfold mergeLoop
    simp [hl, mergeOuts]
  | cons o os ih =>
    obtain ⟨t, rfl⟩ : ∃ t, turns = t + 1 := ⟨turns - 1, by simp at ht; omega⟩
    rw [List.length_cons, nexts] at h
    obtain ⟨r1, h1, h⟩ := Res.bind_eq_ok.1 h
    obtain ⟨⟨os1, r2⟩, h2, h⟩ := Res.bind_eq_ok.1 h
    simp only [List.cons_append, Res.ok.injEq, Prod.mk.injEq, List.cons.injEq] at h
    obtain ⟨⟨rfl, rfl⟩, rfl⟩ := h
    rw [mergeLoop, he]
    simp only [Bool.false_eq_true, if_false, h1, Res.bind_ok]
    rw [ih r1 _ t (by simp at ht; omega) (ho _ (List.mem_cons_self ..)) (fun o ho' => ho o (List.mem_cons_of_mem _ ho')) h2]
    rfl

theorem unmergeLoop_of_nexts (os : List Out) (last : Out) (r r' : Reader) (turns : Nat) (ht : os.length + 1 ≤ turns)
    (he : r.atEof = false) (ho : ∀ o ∈ os, o.atEof = false) (hl : last.atEof = true)
    (h : nexts (os.length + 1) r = .ok (os ++ [last], r')) :
    unmergeLoop turns r = .ok ((os ++ [last]).flatMap unmergeStep) := by
  induction os generalizing r turns with
  | nil =>
    obtain ⟨t, rfl⟩ : ∃ t, turns = t + 1 := ⟨turns - 1, by simp at ht; omega⟩
    rw [List.length_nil, nexts] at h
    obtain ⟨r1, h1, h⟩ := Res.bind_eq_ok.1 h
    cases h
    rw [unmergeLoop, he]
    simp only [Bool.false_eq_true, if_false, h1, Res.bind_ok]
    have hl : r'.atEof = true := hl
    unfold unmergeLoop
    simp [hl]
  | cons o os ih =>
    obtain ⟨t, rfl⟩ : ∃ t, turns = t + 1 := ⟨turns - 1, by simp at ht; omega⟩
    rw [List.length_cons, nexts] at h
    obtain ⟨r1, h1, h⟩ := Res.bind_eq_ok.1 h
    obtain ⟨⟨os1, r2⟩, h2, h⟩ := Res.bind_eq_ok.1 h
    simp only [List.cons_append, Res.ok.injEq, Prod.mk.injEq, List.cons.injEq] at h
    obtain ⟨⟨rfl, rfl⟩, rfl⟩ := h
    rw [unmergeLoop, he]
    simp only [Bool.false_eq_true, if_false, h1, Res.bind_ok]
    rw [ih r1 t (by simp at ht; omega) (ho _ (List.mem_cons_self ..)) (fun o ho' => ho o (List.mem_cons_of_mem _ ho')) h2]
    rfl

theorem utf8_ne_nil (c : Nat) : utf8 c ≠ [] := by unfold utf8; split <;> (try split) <;> (try split) <;> simp

theorem item_bytes_pos (i : Item) : 1 ≤ (bytes i.text).length := by
  have h : ∀ a : Nat, ∀ x y : List Nat, 1 ≤ (bytes (x ++ a :: y)).length := by
    intro a x y
    have := List.length_pos_of_ne_nil (utf8_ne_nil a)
    simp only [bytes, List.flatMap_append, List.flatMap_cons, List.length_append]
    omega
  cases i with
  | unit b w rs => exact h _ _ _
  | null b => exact h _ _ _

theorem items_le_bytes (items : List Item) (last : List BTok) : items.length ≤ (bytes (streamText items last)).length := by
  induction items with
  | nil => simp
  | cons i items ih =>
    have := item_bytes_pos i
    rw [show streamText (i :: items) last = i.text ++ streamText items last by simp [streamText]]
    simp only [bytes, List.flatMap_append, List.length_append, List.length_cons] at *
    omega

/-- The values that the reader of both programs gives for a stream. -/
theorem outs_of_stream (a : Alphabet) (ha : a.Ok) (items : List Item) (last : List BTok) (hi : ∀ i ∈ items, i.WF)
    (hl : ∀ b ∈ last, b.WF) :
    ∃ os r' al, nexts (os.length + 1) (readerOf a (bytes (streamText items last))) =
        .ok (os ++ [⟨enc (blankText last), [], [], [], false, true⟩], r') ∧
      List.Forall₂ (Shows true al) items os ∧ (∀ o ∈ os, o.atEof = false) ∧ os.length + 1 ≤ (bytes (streamText items last)).length + 1 := by
  obtain ⟨os, r', h1, h2, _⟩ := C54_stream items last hi hl (some a) (fun b hb => by cases hb; exact ha) true 0
  have hlen := h2.length_eq
  refine ⟨os, r', r'.alpha, ?_, h2, ?_, ?_⟩
  · rw [← hlen]
    simpa [readerOf] using h1
  · intro o ho
    obtain ⟨i, hs⟩ := forall₂_right h2 ho
    cases i with
    | unit b w rs => exact hs.2.2.2.2.2
    | null b => rw [show o = _ from hs]
  · have := items_le_bytes items last
    omega

theorem step_copy {al : Option Alphabet} {i : Item} {o : Out} (hw : i.WF) (h : Shows true al i o) (hs : (Seg.copy i).WF) :
    mergeStep o {} = (enc i.text, {}) := by
  have hb : (o.readings.any fun r => hasText MERGE_BEG r.content) = false := by
    rw [← Bool.not_eq_true, any_shows _ h]; exact hs.1
  have hc := copyUnit_shows hw h hs.2
  unfold mergeStep
  simp only [hb, Bool.or_self, Bool.false_eq_true, if_false]
  split
  · rw [← hc]; simp
  · rename_i hn
    have : o.atNull = false := by
      cases ho : o.atNull <;> simp [ho] at hn ⊢
    rw [← hc]; simp [this]

/-- A unit inside a span. -/
def spanAdd (j : Item) : UString :=
  Item.blank j ++ quoted (Item.wblank j) ++ (if Item.wblank j = [] then [] else quoted (ascii "^$")) ++ quoted (Item.form j)

theorem step_inner {al : Option Alphabet} {i : Item} {o : Out} (hw : i.WF) (hu : Item.isUnit i = true) (h : Shows true al i o)
    {s : UString} (hs : s ≠ []) :
    mergeStep o ⟨true, s⟩ = if (o.readings.any fun r => hasText MERGE_END r.content) then
        (ascii "^" ++ (s ++ spanAdd i) ++ ascii "/" ++ (s ++ spanAdd i) ++ ascii "<MERGED>$", {})
      else ([], ⟨true, s ++ spanAdd i⟩) := by
  obtain ⟨hb, hwb⟩ := shows_parts h
  obtain ⟨r, rs, hr, hc, hn⟩ := shows_form hw hu h
  have hl : s.length > 0 := List.length_pos_of_ne_nil hs
  have e1 : ascii "^$" = [0x5e, 0x24] := by decide
  have e2 : ascii "<MERGED>$" = MERGED ++ [0x24] := by decide
  have e3 : ascii "^" = [0x5e] := by decide
  have e4 : ascii "/" = [0x2f] := by decide
  unfold mergeStep
  simp only [Bool.true_or, if_true, hl, hn, Bool.or_false, Bool.false_eq_true, if_false, appendEscaped_eq, e2, e3, e4]
  rw [hr]
  simp only [hb, hwb, hc, spanAdd, e1]
  by_cases hwn : Item.wblank i = [] <;> simp [hwn, quoted]

theorem step_first {al : Option Alphabet} {i : Item} {o : Out} (hw : i.WF) (hu : Item.isUnit i = true) (h : Shows true al i o)
    (hbeg : Item.Mentions MERGE_BEG i) :
    mergeStep o {} = if (o.readings.any fun r => hasText MERGE_END r.content) then
        (Item.blank i ++ Item.wblank i ++ ascii "^" ++ quoted (Item.form i) ++ ascii "/" ++ quoted (Item.form i) ++ ascii "<MERGED>$", {})
      else (Item.blank i ++ Item.wblank i, ⟨true, quoted (Item.form i)⟩) := by
  obtain ⟨hb, hwb⟩ := shows_parts h
  obtain ⟨r, rs, hr, hc, hn⟩ := shows_form hw hu h
  have hbeg' := (any_shows MERGE_BEG h).2 hbeg
  have e2 : ascii "<MERGED>$" = MERGED ++ [0x24] := by decide
  have e3 : ascii "^" = [0x5e] := by decide
  have e4 : ascii "/" = [0x2f] := by decide
  unfold mergeStep
  simp only [hbeg', Bool.false_or, if_true, hn, Bool.or_false, Bool.false_eq_true, if_false, appendEscaped_eq, e2, e3, e4]
  rw [hr]
  simp [hb, hwb, hc]

theorem spanForm_eq (i : Item) (is : List Item) : spanForm i is = quoted (Item.form i) ++ is.flatMap spanAdd := rfl

theorem outs_span_tail {al : Option Alphabet} (is : List Item) (hne : is ≠ []) {os : List Out} (hf : List.Forall₂ (Shows true al) is os)
    (hw : ∀ i ∈ is, i.WF) (hu : ∀ i ∈ is, Item.isUnit i = true) (hin : ∀ j ∈ is.dropLast, ¬ Item.Mentions MERGE_END j)
    (hlast : ∀ j, is.getLast? = some j → Item.Mentions MERGE_END j) (s : UString) (hs : s ≠ []) (rest : List Out) :
    mergeOuts ⟨true, s⟩ (os ++ rest) =
      ascii "^" ++ (s ++ is.flatMap spanAdd) ++ ascii "/" ++ (s ++ is.flatMap spanAdd) ++ ascii "<MERGED>$" ++ mergeOuts {} rest := by
  induction hf generalizing s with
  | nil => exact absurd rfl hne
  | @cons i o is os h hs' ih =>
    rw [List.cons_append, mergeOuts, step_inner (hw i (List.mem_cons_self ..)) (hu i (List.mem_cons_self ..)) h hs]
    cases his : is with
    | nil =>
      subst his
      cases hs'
      rw [if_pos ((any_shows MERGE_END h).2 (hlast i rfl))]
      simp
    | cons i2 is2 =>
      rw [his] at hin hlast
      have hno : ¬ Item.Mentions MERGE_END i := hin i (by simp)
      rw [if_neg (by rw [any_shows MERGE_END h]; exact hno)]
      rw [ih (by rw [his]; simp) (fun j hj => hw j (List.mem_cons_of_mem _ hj)) (fun j hj => hu j (List.mem_cons_of_mem _ hj))
        (fun j hj => hin j (by rw [his] at hj; simp only [List.dropLast_cons_cons] at hj ⊢; exact List.mem_cons_of_mem _ hj))
        (fun j hj => hlast j (by rw [his] at hj; simpa using hj)) (s ++ spanAdd i) (by simp [hs]), his]
      simp

theorem quoted_ne_nil {s : UString} (h : s ≠ []) : quoted s ≠ [] := by
  cases s with
  | nil => exact absurd rfl h
  | cons c s => simp only [quoted, List.flatMap_cons]; split <;> simp

theorem outs_seg {al : Option Alphabet} (g : Seg) (hg : g.WF) (hw : ∀ i ∈ g.items, i.WF) {os : List Out}
    (hf : List.Forall₂ (Shows true al) g.items os) (rest : List Out) :
    mergeOuts {} (os ++ rest) = g.out ++ mergeOuts {} rest := by
  cases g with
  | copy i =>
    cases hf with
    | cons h hs =>
      cases hs
      rw [List.cons_append, mergeOuts, step_copy (hw i (List.mem_cons_self ..)) h hg]
      rfl
  | span i is =>
    obtain ⟨h1, h2, h3, h4, h5⟩ := hg
    cases hf with
    | @cons _ o _ os h hs =>
      rw [List.cons_append, mergeOuts, step_first (hw i (List.mem_cons_self ..)) (h1 i (List.mem_cons_self ..)) h h2]
      cases his : is with
      | nil =>
        subst his
        cases hs
        rw [if_pos ((any_shows MERGE_END h).2 (h5 i rfl))]
        simp [Seg.out, spanForm]
      | cons i2 is2 =>
        have hno : ¬ Item.Mentions MERGE_END i := h4 i (by rw [his]; simp)
        rw [if_neg (by rw [any_shows MERGE_END h]; exact hno)]
        rw [outs_span_tail is (by rw [his]; simp) hs (fun j hj => hw j (List.mem_cons_of_mem _ hj))
          (fun j hj => h1 j (List.mem_cons_of_mem _ hj))
          (fun j hj => h4 j (by rw [his] at hj ⊢; simp only [List.dropLast_cons_cons] at hj ⊢; exact List.mem_cons_of_mem _ hj))
          (fun j hj => h5 j (by rw [his] at hj ⊢; simpa using hj)) _ (quoted_ne_nil h3) rest, ← his]
        simp [Seg.out, spanForm_eq]

/-- **C53 (merge).** For a stream divided into units and spans, the program copies the text of the units exactly and writes
each span as one unit whose form is the quoted text of the span. -/
theorem C53_merge (a : Alphabet) (ha : a.Ok) (segs : List Seg) (last : List BTok) (hs : ∀ g ∈ segs, g.WF)
    (hi : ∀ g ∈ segs, ∀ i ∈ g.items, i.WF) (hl : ∀ b ∈ last, b.WF) :
    merge a (bytes (streamText (segs.flatMap Seg.items) last)) = .ok (segs.flatMap Seg.out ++ enc (blankText last)) := by
  obtain ⟨os, r', al, h1, h2, h3, h4⟩ := outs_of_stream a ha (segs.flatMap Seg.items) last
    (fun i hi' => by
      obtain ⟨g, hg, hig⟩ := List.mem_flatMap.1 hi'
      exact hi g hg i hig) hl
  rw [merge, mergeLoop_of_nexts os _ _ r' {} _ h4 rfl h3 rfl h1]
  congr 1
  have hend : mergeOuts {} [⟨enc (blankText last), [], [], [], false, true⟩] = enc (blankText last) := by
    simp [mergeOuts, mergeStep, copyUnit]
  suffices h : ∀ lastOut, mergeOuts {} (os ++ [lastOut]) = segs.flatMap Seg.out ++ mergeOuts {} [lastOut] by rw [h, hend]
  intro lastOut
  clear h1 h3 h4 hl hend
  induction segs generalizing os with
  | nil => cases h2; rfl
  | cons g segs ih =>
    rw [List.flatMap_cons] at h2
    obtain ⟨o1, o2, f1, f2, rfl⟩ := forall₂_split h2
    rw [List.append_assoc, outs_seg g (hs g (List.mem_cons_self ..)) (hi g (List.mem_cons_self ..)) f1,
      ih (fun g' hg' => hs g' (List.mem_cons_of_mem _ hg')) (fun g' hg' => hi g' (List.mem_cons_of_mem _ hg')) o2 f2]
    simp

/-- What the inverse is to write: for a unit with `<MERGED>`, the last reading with one level of escaping removed. -/
def unmergedText : Item → UString
  | .unit b w rs => if ∃ r ∈ rs, Mentions MERGED r then
      Item.blank (.unit b w rs) ++ Item.wblank (.unit b w rs) ++ unescape (enc (contentText ((rs.getLast?.map RSyn.toks).getD [])))
      else enc (Item.text (.unit b w rs))
  | .null b => enc (Item.text (.null b))

theorem forall₂_getLast {α β : Type} {R : α → β → Prop} {xs : List α} {ys : List β} (h : List.Forall₂ R xs ys) (hne : xs ≠ []) :
    ∃ x y, xs.getLast? = some x ∧ ys.getLast? = some y ∧ R x y := by
  induction h with
  | nil => exact absurd rfl hne
  | @cons a b as bs hab hs ih =>
    cases hs with
    | nil => exact ⟨a, b, rfl, rfl, hab⟩
    | cons h2 hs2 =>
      obtain ⟨x, y, h3, h4, h5⟩ := ih (by simp)
      exact ⟨x, y, by simpa using h3, by simpa using h4, h5⟩

theorem unmergeStep_shows {al : Option Alphabet} {i : Item} {o : Out} (hw : i.WF) (h : Shows true al i o) (hc : Item.NoChunk i) :
    unmergeStep o = unmergedText i := by
  have hcopy := copyUnit_shows hw h hc
  obtain ⟨hb, hwb⟩ := shows_parts h
  have hm := any_shows MERGED h
  unfold unmergeStep
  cases i with
  | null b =>
    have : (o.readings.any fun r => hasText MERGED r.content) = false := by
      rw [← Bool.not_eq_true, hm]; exact id
    rw [this, unmergedText]
    simpa using hcopy
  | unit b w rs =>
    rw [unmergedText]
    by_cases hx : ∃ r ∈ rs, Mentions MERGED r
    · rw [if_pos (hm.2 hx), if_pos hx]
      obtain ⟨h1, h2, h3, h4, h5, h6⟩ := h
      obtain ⟨x, y, e1, e2, e3⟩ := forall₂_getLast h3 hw.2.2.2.1
      rw [e1, e2, h5, hb, hwb]
      simp [e3.content, unescape]
    · rw [if_neg (by rw [hm]; exact hx), if_neg hx]
      exact hcopy

/-- **C53 (unmerge).** Units without `<MERGED>` are copied; of the others the last reading is written, one level of escaping
less. -/
theorem C53_unmerge (a : Alphabet) (ha : a.Ok) (items : List Item) (last : List BTok)
    (hi : ∀ i ∈ items, i.WF ∧ Item.NoChunk i) (hl : ∀ b ∈ last, b.WF) :
    unmerge a (bytes (streamText items last)) = .ok (items.flatMap unmergedText ++ enc (blankText last)) := by
  obtain ⟨os, r', al, h1, h2, h3, h4⟩ := outs_of_stream a ha items last (fun i h => (hi i h).1) hl
  rw [unmerge, unmergeLoop_of_nexts os _ _ r' _ h4 rfl h3 rfl h1]
  congr 1
  rw [List.flatMap_append]
  congr 1
  · clear h1 h3 h4
    induction h2 with
    | nil => rfl
    | @cons i o is os h hs ih =>
      rw [List.flatMap_cons, List.flatMap_cons, ih (fun i h => hi i (List.mem_cons_of_mem _ h)),
        unmergeStep_shows (hi i (List.mem_cons_self ..)).1 h (hi i (List.mem_cons_self ..)).2]
  · simp [unmergeStep, copyUnit]

/-- **C53 (round trip).** What `lt-unmerge` makes of the form of a merged span is the text of the span: the forms, with the blanks
and word-bound blanks between them, if the blanks have no backslash. -/
theorem C53_roundtrip (i : Item) (is : List Item) (h : ∀ j ∈ is, 0x5c ∉ Item.blank j) :
    unescape (spanForm i is) = Item.form i ++ is.flatMap fun j =>
      Item.blank j ++ Item.wblank j ++ (if Item.wblank j = [] then [] else ascii "^$") ++ Item.form j := by
  rw [spanForm_eq, unescape_quoted_append]
  congr 1
  induction is with
  | nil => rfl
  | cons j is ih =>
    rw [List.flatMap_cons, List.flatMap_cons, ← ih fun k hk => h k (List.mem_cons_of_mem _ hk)]
    generalize is.flatMap spanAdd = t
    simp only [spanAdd, List.append_assoc]
    rw [unescape_plain_append _ _ (h j (List.mem_cons_self ..)), unescape_quoted_append]
    split
    · rw [List.nil_append, List.nil_append, unescape_quoted_append]
    · rw [unescape_quoted_append, unescape_quoted_append]

/-! ### Cases and counterexamples -/

def word (s : String) (tags : List String) : RSyn :=
  ⟨none, (s.toList.map fun c => RTok.tok (.raw c.toNat)) ++ tags.map fun t => .tag (t.toList.map fun c => .raw c.toNat)⟩

/-- `^a/a<MERGE_BEG>$ ^b/b<MERGE_END>$` and a copied unit. -/
def exSegs : List Seg :=
  [.copy (.unit [] none [word "x" [], word "y" ["n"]]),
   .span (.unit [.tok (.raw 32)] none [word "a" [], word "a" ["MERGE_BEG"]])
     [.unit [.tok (.raw 32)] none [word "b" [], word "b" ["MERGE_END"]]]]

example : enc (streamText (exSegs.flatMap Seg.items) []) = ascii "^x/y<n>$ ^a/a<MERGE_BEG>$ ^b/b<MERGE_END>$" := by decide +kernel

example : exSegs.flatMap Seg.out = ascii "^x/y<n>$ ^a b/a b<MERGED>$" := by decide +kernel

instance (i : Item) : Decidable (Item.Mentions MERGE_BEG i) := by cases i <;> (unfold Item.Mentions; infer_instance)
instance (i : Item) : Decidable (Item.Mentions MERGE_END i) := by cases i <;> (unfold Item.Mentions; infer_instance)
instance (i : Item) : Decidable (Item.NoChunk i) := by cases i <;> (unfold Item.NoChunk; infer_instance)

example : ∀ g ∈ exSegs, g.WF := by
  intro g hg
  simp only [exSegs, List.mem_cons, List.not_mem_nil, or_false] at hg
  rcases hg with rfl | rfl
  · exact ⟨by decide +kernel, by decide +kernel⟩
  · refine ⟨by decide, by decide +kernel, by decide +kernel, by decide +kernel, ?_⟩
    intro j hj
    cases hj
    decide +kernel

example : ∀ g ∈ exSegs, ∀ i ∈ g.items, i.WF := by
  intro g hg i hi
  simp only [exSegs, List.mem_cons, List.not_mem_nil, or_false] at hg
  have hw : ∀ s ts, (∀ c ∈ s.toList.map Char.toNat, RTok.WF (.tok (.raw c)) ∧ c ∉ marks) →
      (∀ t ∈ ts.map String.toList, ∀ c ∈ t.map Char.toNat, Tok.Inside '>'.toNat (.raw c)) → (word s ts).WF := by
    intro s ts h1 h2
    refine ⟨?_, by simp [word], ?_⟩
    · intro t ht
      simp only [word, List.mem_append, List.mem_map] at ht
      rcases ht with ⟨c, hc, rfl⟩ | ⟨t, ht, rfl⟩
      · exact (h1 _ (List.mem_map_of_mem hc)).1
      · intro x hx
        obtain ⟨c, hc, rfl⟩ := List.mem_map.1 hx
        exact h2 _ (List.mem_map_of_mem ht) _ (List.mem_map_of_mem hc)
    · intro _ c hc hh
      simp only [word] at hh
      cases hs : s.toList with
      | nil =>
        rw [hs] at hh
        cases ts <;> simp at hh
      | cons x xs =>
        rw [hs] at hh
        simp only [List.map_cons, List.cons_append, List.head?_cons, Option.some.injEq, RTok.tok.injEq, Tok.raw.injEq] at hh
        subst hh
        exact (h1 x.toNat (by rw [hs]; simp)).2 hc
  have hsp : ∀ b ∈ [BTok.tok (.raw 32)], b.WF := by simp [BTok.WF, Scalar]
  have tag : ∀ t ∈ ["n", "MERGE_BEG", "MERGE_END"].map String.toList, ∀ c ∈ t.map Char.toNat, Tok.Inside '>'.toNat (.raw c) := by
    simp [Tok.Inside, Scalar]
  have lets : ∀ s ∈ ["a", "b", "x", "y"].map String.toList, ∀ c ∈ s.map Char.toNat, RTok.WF (.tok (.raw c)) ∧ c ∉ marks := by
    simp [RTok.WF, Scalar, marks]
  have hw' : ∀ s ∈ ["a", "b", "x", "y"], ∀ ts, (∀ t ∈ ts, t ∈ ["n", "MERGE_BEG", "MERGE_END"]) → (word s ts).WF := by
    intro s hs ts hts
    refine hw s ts (lets _ (List.mem_map_of_mem hs)) ?_
    intro t ht
    obtain ⟨t', ht', rfl⟩ := List.mem_map.1 ht
    exact tag _ (List.mem_map_of_mem (hts t' ht'))
  rcases hg with rfl | rfl
  · simp only [Seg.items, List.mem_cons, List.not_mem_nil, or_false] at hi
    subst hi
    refine ⟨by simp, by simp, by simp, by simp, ?_⟩
    simp only [List.mem_cons, List.not_mem_nil, or_false, forall_eq_or_imp, forall_eq]
    exact ⟨hw' _ (by simp) _ (by simp), hw' _ (by simp) _ (by simp)⟩
  · simp only [Seg.items, List.mem_cons, List.not_mem_nil, or_false] at hi
    rcases hi with rfl | rfl <;>
    · refine ⟨hsp, by simp, by simp, by simp, ?_⟩
      simp only [List.mem_cons, List.not_mem_nil, or_false, forall_eq_or_imp, forall_eq]
      exact ⟨hw' _ (by simp) _ (by simp), hw' _ (by simp) _ (by simp)⟩

/-- A backslash in a blank between merged units is lost: the blank is not quoted, but unquoted later. -/
theorem C53_blank_false : ∃ i is, (Seg.span i is).WF ∧ unescape (spanForm i is) ≠
    Item.form i ++ is.flatMap fun j =>
      Item.blank j ++ Item.wblank j ++ (if Item.wblank j = [] then [] else ascii "^$") ++ Item.form j := by
  refine ⟨.unit [] none [word "a" ["MERGE_BEG"]], [.unit [.super [.esc 93]] none [word "b" ["MERGE_END"]]],
    ⟨by decide, by decide +kernel, by decide +kernel, by decide +kernel, ?_⟩, by decide +kernel⟩
  intro j hj
  cases hj
  decide +kernel

/-- A span that is still open at the end of the file is lost: `^a<MERGE_BEG>$` gives nothing. -/
theorem C53_unclosed_false : merge Alphabet.empty (bytes ("^a<MERGE_BEG>$".toList.map Char.toNat)) = .ok [] := by decide +kernel

/-- Chunks are not copied: `^a{b}$` gives `^a$`. -/
theorem C53_chunk_false : merge Alphabet.empty (bytes ("^a{b}$".toList.map Char.toNat)) = .ok (ascii "^a$") := by decide +kernel

end Verif.Merge
