import Verif.Stream.Lemmas

/-! # Reading lexical units and streams -/

namespace Verif.Stream

open Verif.Input Verif.Alphabet

theorem AlphaStep.trans {add : Bool} {x y z : Option Alphabet} (h : AlphaStep add x y) (h' : AlphaStep add y z) : AlphaStep add x z := by
  cases x <;> cases y <;> cases z <;> simp only [AlphaStep] at *
  exact ⟨h'.1, h.2.1.trans h'.2.1, fun e => (h'.2.2 e).trans (h.2.2 e)⟩

/-- The reader's alphabet is well formed. -/
def AlphaOk : Option Alphabet → Prop
  | none => True
  | some a => Ok a

theorem AlphaStep.refl {add : Bool} {x : Option Alphabet} (h : AlphaOk x) : AlphaStep add x x := by
  cases x
  · exact trivial
  · exact ⟨h, Ext.refl _, fun _ => rfl⟩

theorem AlphaStep.ok {add : Bool} {x y : Option Alphabet} (h : AlphaStep add x y) : AlphaOk y := by
  cases x <;> cases y <;> simp only [AlphaStep] at h
  · exact trivial
  · exact h.1

theorem SymOf.mono {add : Bool} {a b : Alphabet} (h : AlphaStep add (some a) (some b)) {t : RTok} {s : Int} (hs : SymOf add a t s) :
    SymOf add b t s := by
  rcases t with (c | c) | ts | ts
  · exact hs
  · exact hs
  · rcases hs with hs | ⟨h1, h2⟩
    · exact .inl (hs.mono h.2.1)
    · exact .inr ⟨h1, by rw [h.2.2 h1]; exact h2⟩
  · exact hs

theorem SymsOf.mono {add : Bool} {x y : Option Alphabet} (h : AlphaStep add x y) {ts : List RTok} {ss : List Int} (hs : SymsOf add x ts ss) :
    SymsOf add y ts ss := by
  cases x <;> cases y <;> simp only [AlphaStep] at h
  · exact hs
  · exact List.Forall₂.imp (fun t s hts => SymOf.mono h hts) hs

theorem SymsOf.cons {add : Bool} {x : Option Alphabet} {t : RTok} {ts : List RTok} {s ss : List Int} (h1 : SymsOf add x [t] s)
    (h2 : SymsOf add x ts ss) : SymsOf add x (t :: ts) (s ++ ss) := by
  cases x with
  | none => simp only [SymsOf] at *; rw [h1, h2]; rfl
  | some a =>
    simp only [SymsOf] at *
    rw [show (t :: ts).filter (fun t => !t.isChunk) = [t].filter (fun t => !t.isChunk) ++ ts.filter (fun t => !t.isChunk) by
      rw [← List.filter_append]; rfl]
    exact List.rel_append h1 h2

theorem tagSymbol_ok (add : Bool) (al : Option Alphabet) (h : AlphaOk al) (ts : List Tok) :
    SymsOf add (tagSymbol add al (enc (blockText '<'.toNat '>'.toNat ts))).2 [.tag ts]
      (tagSymbol add al (enc (blockText '<'.toNat '>'.toNat ts))).1 ∧
    AlphaStep add al (tagSymbol add al (enc (blockText '<'.toNat '>'.toNat ts))).2 := by
  generalize ht : enc (blockText '<'.toNat '>'.toNat ts) = t
  cases al with
  | none => exact ⟨rfl, trivial⟩
  | some a =>
    cases add with
    | true =>
      obtain ⟨h1, h2, ⟨c, h3⟩, _, _⟩ := includeSymbol_spec h t
      refine ⟨?_, h1, h2, fun e => by cases e⟩
      simp only [SymsOf, tagSymbol, if_true]
      refine List.Forall₂.cons ?_ List.Forall₂.nil
      rw [symCode_of_hasTag h1 h3]
      exact .inl (by rw [ht]; exact h3)
    | false =>
      refine ⟨?_, h, Ext.refl _, fun _ => rfl⟩
      simp only [SymsOf, tagSymbol]
      refine List.Forall₂.cons ?_ List.Forall₂.nil
      simp only [SymOf, ht]
      cases hf : mapFind t a.slexic with
      | none =>
        right
        exact ⟨trivial, (h.tags.mem t).1 hf, by simp [symCode, hf]⟩
      | some c =>
        left
        have := (hasTag_find h).1 hf
        simp only [Bool.false_eq_true, if_false]
        rw [symCode_of_hasTag h this]; exact this

theorem letterSymbol_ok (add : Bool) (al : Option Alphabet) (t : RTok) (c : Nat) (ht : t = .tok (.raw c) ∨ t = .tok (.esc c)) :
    SymsOf add al [t] (if al.isSome then [(c : Int)] else []) := by
  cases al with
  | none => rfl
  | some a =>
    simp only [SymsOf, Option.isSome_some, if_true]
    rcases ht with rfl | rfl
    · exact List.Forall₂.cons rfl List.Forall₂.nil
    · exact List.Forall₂.cons rfl List.Forall₂.nil

theorem chunkSymbol_ok (add : Bool) (al : Option Alphabet) (ts : List Tok) : SymsOf add al [.chunk ts] [] := by
  cases al with
  | none => rfl
  | some a => exact List.Forall₂.nil

theorem RTok.length_text (t : RTok) : 1 ≤ t.text.length := by
  rcases t with (c | c) | ts | ts <;> simp [RTok.text, Tok.text, blockText]

theorem length_rtext (ts : List RTok) : ts.length ≤ (ts.flatMap RTok.text).length := by
  induction ts with
  | nil => simp
  | cons t ts ih =>
    have := t.length_text
    simp only [List.flatMap_cons, List.length_append, List.length_cons]; omega

theorem readingLoop_ok (add : Bool) (d : Nat) (hd : d = '/'.toNat ∨ d = '$'.toNat ∨ d = 0) (cs : List Nat) :
    ∀ (ts : List RTok) (turns c : Nat) (cs1 : List Nat) (cur : Reading) (chunk : UString) (al : Option Alphabet) (f : InFile),
    (∀ t ∈ ts, t.WF) → ts.flatMap RTok.text ++ d :: cs = c :: cs1 → Holds f cs1 → AlphaOk al → ts.length ≤ turns →
    ∃ syms al' g, readingLoop add turns c cur chunk al f = .ok (d,
        { cur with content := cur.content ++ enc (contentText ts), symbols := cur.symbols ++ syms }, chunk ++ enc (chunkText ts), al', g) ∧ Holds g cs ∧ AlphaStep add al al' ∧ SymsOf add al' ts syms := by
  intro ts
  induction ts with
  | nil =>
    intro turns c cs1 cur chunk al f _ he hf hal _
    simp only [List.flatMap_nil, List.nil_append] at he
    obtain ⟨rfl, rfl⟩ := List.cons.inj he
    refine ⟨[], al, f, ?_, hf, .refl hal, ?_⟩
    · unfold readingLoop
      rw [if_neg (by rintro ⟨h1, h2, h3, _⟩; exact hd.elim h1 fun h => h.elim h2 h3)]
      simp [chunkText, contentText, enc]
    · cases al with
      | none => rfl
      | some a => exact List.Forall₂.nil
  | cons t ts ih =>
    intro turns c cs1 cur chunk al f hin he hf hal ht
    rw [List.length_cons] at ht
    obtain ⟨turns, rfl⟩ : ∃ k, turns = k + 1 := ⟨turns - 1, by omega⟩
    have hin' : ∀ u ∈ ts, u.WF := fun u hu => hin u (by simp [hu])
    have htw := hin t (by simp)
    rw [List.flatMap_cons, List.append_assoc] at he
    have hne : ∃ c' cs', ts.flatMap RTok.text ++ d :: cs = c' :: cs' := by
      cases h : ts.flatMap RTok.text ++ d :: cs with
      | nil => simp at h
      | cons a b => exact ⟨a, b, rfl⟩
    obtain ⟨c', cs', hcs'⟩ := hne
    rcases t with (x | x) | bs | bs
    · simp only [RTok.text, Tok.text, List.cons_append, List.nil_append] at he
      obtain ⟨rfl, rfl⟩ := List.cons.inj he
      obtain ⟨-, h1, h2, h3, h4, h5, h6⟩ := htw
      rw [hcs'] at hf
      obtain ⟨g, e, hg, -⟩ := hf.get
      obtain ⟨syms, al', g', e', hg', st, sy⟩ := ih turns c' cs' { cur with content := cur.content ++ utf16 x, symbols := cur.symbols ++ if al.isSome then [(x : Int)] else [] } chunk al g hin' hcs' hg hal (by omega)
      refine ⟨(if al.isSome then [(x : Int)] else []) ++ syms, al', g', ?_, hg', st, ?_⟩
      · unfold readingLoop
        rw [if_pos ⟨h4, h5, h6, hf.eof⟩]
        simp only []
        rw [if_neg h1, if_neg h2, if_neg h3]
        simp only [e, Res.bind_ok]
        rw [e']
        simp [contentText, chunkText, RTok.isChunk, RTok.text, Tok.text, enc]
      · exact SymsOf.cons (SymsOf.mono st (letterSymbol_ok add al _ x (.inl rfl))) sy
    · simp only [RTok.text, Tok.text, List.cons_append, List.nil_append] at he
      obtain ⟨rfl, rfl⟩ := List.cons.inj he
      rw [hcs'] at hf
      obtain ⟨g, e, hg, -⟩ := hf.get
      obtain ⟨g1, e1, hg1, -⟩ := hg.get
      obtain ⟨syms, al', g', e', hg', st, sy⟩ := ih turns c' cs' { cur with content := cur.content ++ utf16 '\\'.toNat ++ utf16 x, symbols := cur.symbols ++ if al.isSome then [(x : Int)] else [] } chunk al g1 hin' hcs' hg1 hal (by omega)
      refine ⟨(if al.isSome then [(x : Int)] else []) ++ syms, al', g', ?_, hg', st, ?_⟩
      · unfold readingLoop
        rw [if_pos ⟨by decide, by decide, by decide, hf.eof⟩]
        simp only []
        rw [if_neg (by decide), if_neg (by decide), if_pos trivial]
        simp only [e, e1, Res.bind_ok]
        rw [e']
        simp [contentText, chunkText, RTok.isChunk, RTok.text, Tok.text, enc]
      · exact SymsOf.cons (SymsOf.mono st (letterSymbol_ok add al _ x (.inr rfl))) sy
    · simp only [RTok.text, blockText, List.cons_append] at he
      obtain ⟨rfl, rfl⟩ := List.cons.inj he
      have heof := hf.eof
      rw [List.append_assoc] at hf
      obtain ⟨g, e, hg⟩ := readBlock_ok '<'.toNat '>'.toNat (by decide) (by decide) _ bs f htw hf
      change Holds g (ts.flatMap RTok.text ++ d :: cs) at hg
      rw [hcs'] at hg
      obtain ⟨g1, e1, hg1, -⟩ := hg.get
      obtain ⟨ts1, ts2⟩ := tagSymbol_ok add al hal bs
      obtain ⟨syms, al', g', e', hg', st, sy⟩ := ih turns c' cs' { cur with content := cur.content ++ enc (blockText '<'.toNat '>'.toNat bs), symbols := cur.symbols ++ (tagSymbol add al (enc (blockText '<'.toNat '>'.toNat bs))).1 } chunk _ g1 hin' hcs' hg1 ts2.ok (by omega)
      refine ⟨(tagSymbol add al (enc (blockText '<'.toNat '>'.toNat bs))).1 ++ syms, al', g', ?_, hg', ts2.trans st, ?_⟩
      · unfold readingLoop
        rw [if_pos ⟨by decide, by decide, by decide, heof⟩]
        simp only []
        rw [if_pos trivial]
        simp only [e, e1, Res.bind_ok]
        rw [e']
        simp [contentText, chunkText, RTok.isChunk, RTok.text, enc]
      · exact SymsOf.cons (SymsOf.mono st ts1) sy
    · simp only [RTok.text, blockText, List.cons_append] at he
      obtain ⟨rfl, rfl⟩ := List.cons.inj he
      have heof := hf.eof
      rw [List.append_assoc] at hf
      obtain ⟨g, e, hg⟩ := readBlock_ok '{'.toNat '}'.toNat (by decide) (by decide) _ bs f htw hf
      change Holds g (ts.flatMap RTok.text ++ d :: cs) at hg
      rw [hcs'] at hg
      obtain ⟨g1, e1, hg1, -⟩ := hg.get
      obtain ⟨syms, al', g', e', hg', st, sy⟩ := ih turns c' cs' cur (chunk ++ enc (blockText '{'.toNat '}'.toNat bs)) al g1 hin' hcs' hg1 hal (by omega)
      refine ⟨syms, al', g', ?_, hg', st, ?_⟩
      · unfold readingLoop
        rw [if_pos ⟨by decide, by decide, by decide, heof⟩]
        simp only []
        rw [if_neg (by decide), if_pos trivial]
        simp only [e, e1, Res.bind_ok]
        rw [e', show chunkText (.chunk bs :: ts) = blockText '{'.toNat '}'.toNat bs ++ chunkText ts from rfl,
          show contentText (.chunk bs :: ts) = contentText ts from rfl]
        simp [enc]
      · exact SymsOf.cons (chunkSymbol_ok add al' bs) sy

theorem isMark_iff (c : Nat) : isMark c = true ↔ c ∈ marks := by simp [isMark, marks, or_assoc]

theorem RTok.head (t : RTok) : ∃ c cs, t.text = c :: cs ∧ (t.WF → c ≠ '/'.toNat ∧ c ≠ '$'.toNat ∧ c ≠ 0 ∧ (c ∈ marks → t = .tok (.raw c))) := by
  rcases t with (c | c) | ts | ts
  · exact ⟨c, [], rfl, fun h => ⟨h.2.2.2.2.1, h.2.2.2.2.2.1, h.2.2.2.2.2.2, fun _ => rfl⟩⟩
  · exact ⟨'\\'.toNat, _, rfl, fun _ => ⟨by decide, by decide, by decide, fun h => absurd h (by decide)⟩⟩
  · exact ⟨'<'.toNat, _, rfl, fun _ => ⟨by decide, by decide, by decide, fun h => absurd h (by decide)⟩⟩
  · exact ⟨'{'.toNat, _, rfl, fun _ => ⟨by decide, by decide, by decide, fun h => absurd h (by decide)⟩⟩

/-- One turn of the outer loop. -/
theorem readingsLoop_step (add : Bool) (d : Nat) (hd : d = '/'.toNat ∨ d = '$'.toNat ∨ d = 0) (cs : List Nat) (r : RSyn) (hr : r.WF)
    (turns c : Nat) (hc1 : c ≠ '$'.toNat) (hc0 : c ≠ 0) (acc : List Reading) (chunk : UString) (al : Option Alphabet) (f : InFile)
    (hf : Holds f (r.text ++ d :: cs)) (hal : AlphaOk al) :
    ∃ o al' g, readingsLoop add (turns + 1) c acc chunk al f =
        readingsLoop add turns d (acc ++ [o]) (chunk ++ enc (chunkText r.toks)) al' g ∧ Holds g cs ∧ AlphaStep add al al' ∧
      ReadsAs add al' r o.mark o.content o.symbols := by
  have hne : ∃ c' cs', r.toks.flatMap RTok.text ++ d :: cs = c' :: cs' := by
    cases h : r.toks.flatMap RTok.text ++ d :: cs with
    | nil => simp at h
    | cons a b => exact ⟨a, b, rfl⟩
  obtain ⟨c', cs', hcs'⟩ := hne
  have body : ∀ m f', m = r.mark.getD 0 → Holds f' (r.toks.flatMap RTok.text ++ d :: cs) →
      ∃ o al' g, (do
        let (c, f) ← Input.get f'
        let (c, cur, chunk, alpha, f) ← readingLoop add (turnsOf f) c { mark := m } chunk al f
        readingsLoop add turns c (acc ++ [cur]) chunk alpha f) =
          readingsLoop add turns d (acc ++ [o]) (chunk ++ enc (chunkText r.toks)) al' g ∧ Holds g cs ∧ AlphaStep add al al' ∧
      ReadsAs add al' r o.mark o.content o.symbols := by
    intro m f' hm hf'
    have hlen := congrArg List.length hcs'
    rw [hcs'] at hf'
    obtain ⟨g, e, hg, -⟩ := hf'.get
    have hlr := length_rtext r.toks
    have htn := hg.turns
    simp only [List.length_append, List.length_cons] at hlen
    obtain ⟨syms, al', g', e', hg', st, sy⟩ := readingLoop_ok add d hd cs r.toks (turnsOf g) c' cs' { mark := m } chunk al g
      hr.toks hcs' hg hal (by omega)
    refine ⟨{ mark := m, content := [] ++ enc (contentText r.toks), symbols := [] ++ syms }, al', g', ?_, hg', st, ⟨hm, ?_, ?_⟩⟩
    · simp only [e, e', Res.bind_ok]
    · simp
    · simpa using sy
  cases hmk : r.mark with
  | none =>
    have htext : r.text = r.toks.flatMap RTok.text := by simp [RSyn.text, hmk]
    rw [htext] at hf
    have hf' := hf
    rw [hcs'] at hf
    obtain ⟨g, e, hg⟩ := hf.peek
    have hnm : isMark c' = false := by
      rw [Bool.eq_false_iff, Ne, isMark_iff]
      intro hm
      cases htk : r.toks with
      | nil =>
        rw [htk] at hcs'
        obtain ⟨rfl, -⟩ := List.cons.inj hcs'
        rcases hd with rfl | rfl | rfl <;> revert hm <;> decide
      | cons t ts =>
        obtain ⟨x, xs, ht, hx⟩ := RTok.head t
        have htw := hr.toks t (by rw [htk]; simp)
        rw [htk, List.flatMap_cons, ht] at hcs'
        obtain ⟨rfl, -⟩ := List.cons.inj hcs'
        have := (hx htw).2.2.2 hm
        exact hr.unmarked hmk x hm (by rw [htk, this]; rfl)
    rw [← hcs'] at hg
    obtain ⟨o, al', g', e', rest⟩ := body 0 g (by rw [hmk]; rfl) hg
    refine ⟨o, al', g', ?_, rest⟩
    rw [readingsLoop, if_pos ⟨hc1, hc0, hf.eof⟩]
    simp only [e, Res.bind_ok, hnm]
    exact e'
  | some m =>
    have htext : r.text = m :: r.toks.flatMap RTok.text := by simp [RSyn.text, hmk]
    rw [htext, List.cons_append] at hf
    obtain ⟨g, e, hg⟩ := hf.peek
    obtain ⟨g1, e1, hg1, -⟩ := hg.get
    obtain ⟨o, al', g', e', rest⟩ := body m g1 (by rw [hmk]; rfl) hg1
    refine ⟨o, al', g', ?_, rest⟩
    rw [readingsLoop, if_pos ⟨hc1, hc0, hf.eof⟩]
    simp only [e, Res.bind_ok, (isMark_iff m).2 (hr.mark m hmk), if_true, e1]
    exact e'

theorem readingsLoop_ok (add : Bool) (d : Nat) (hd : d = '$'.toNat ∨ d = 0) (cs : List Nat) : ∀ (rs : List RSyn) (turns c : Nat) (acc : List Reading) (chunk : UString)
    (al : Option Alphabet) (f : InFile), rs ≠ [] → (∀ r ∈ rs, r.WF) → Holds f (readingsTo d rs ++ cs) → AlphaOk al →
    c ≠ '$'.toNat → c ≠ 0 → rs.length ≤ turns →
    ∃ os al' g, readingsLoop add turns c acc chunk al f =
        .ok (d, acc ++ os, chunk ++ enc (rs.flatMap fun r => chunkText r.toks), al', g) ∧ Holds g cs ∧ AlphaStep add al al' ∧
      List.Forall₂ (fun r (o : Reading) => ReadsAs add al' r o.mark o.content o.symbols) rs os := by
  intro rs
  induction rs with
  | nil => intro _ _ _ _ _ _ h; exact absurd rfl h
  | cons r rs ih =>
    intro turns c acc chunk al f _ hw hf hal hc1 hc0 ht
    rw [List.length_cons] at ht
    obtain ⟨turns, rfl⟩ : ∃ k, turns = k + 1 := ⟨turns - 1, by omega⟩
    cases rs with
    | nil =>
      simp only [readingsTo, List.append_assoc, List.cons_append, List.nil_append] at hf
      obtain ⟨o, al', g, e, hg, st, ro⟩ := readingsLoop_step add d (.inr hd) cs r (hw r (by simp)) turns c hc1 hc0 acc chunk al f hf hal
      refine ⟨[o], al', g, ?_, hg, st, .cons ro .nil⟩
      rw [e]
      unfold readingsLoop
      rw [if_neg (by rintro ⟨h1, h2, _⟩; exact hd.elim h1 h2)]
      simp
    | cons r2 rs =>
      rw [readingsTo, List.append_assoc, List.cons_append] at hf
      obtain ⟨o, al', g, e, hg, st, ro⟩ := readingsLoop_step add '/'.toNat (.inl rfl) _ r (hw r (by simp)) turns c hc1 hc0 acc chunk al f hf hal
      obtain ⟨os, al2, g2, e2, hg2, st2, ros⟩ := ih turns '/'.toNat (acc ++ [o]) (chunk ++ enc (chunkText r.toks)) al' g (by simp)
        (fun x hx => hw x (by simp [hx])) hg st.ok (by decide) (by decide) (by simp only [List.length_cons] at ht ⊢; omega)
      refine ⟨o :: os, al2, g2, ?_, hg2, st.trans st2, .cons ⟨ro.mark, ro.content, ro.symbols.mono st2⟩ ros⟩
      rw [e, e2]
      simp [enc]
      · intro h; cases h

theorem exists_wb (bs : List BTok) : (∀ b ∈ bs, b.isWb = false) ∨ ∃ pre w post, bs = pre ++ .wb w :: post ∧ ∀ b ∈ pre, b.isWb = false := by
  induction bs with
  | nil => exact .inl (by simp)
  | cons b bs ih =>
    rcases b with t | ts | ts
    · rcases ih with ih | ⟨pre, w, post, rfl, hp⟩
      · exact .inl fun x hx => by rcases List.mem_cons.1 hx with rfl | hx; exacts [rfl, ih x hx]
      · exact .inr ⟨.tok t :: pre, w, post, rfl, fun x hx => by rcases List.mem_cons.1 hx with rfl | hx; exacts [rfl, hp x hx]⟩
    · rcases ih with ih | ⟨pre, w, post, rfl, hp⟩
      · exact .inl fun x hx => by rcases List.mem_cons.1 hx with rfl | hx; exacts [rfl, ih x hx]
      · exact .inr ⟨.super ts :: pre, w, post, rfl, fun x hx => by rcases List.mem_cons.1 hx with rfl | hx; exacts [rfl, hp x hx]⟩
    · exact .inr ⟨[], ts, bs, rfl, by simp⟩

theorem BTok.head (b : BTok) (hb : b.WF) : ∃ c cs, b.text = c :: cs ∧ c ≠ '^'.toNat := by
  rcases b with (c | c) | ts | ts
  · exact ⟨c, [], rfl, hb.2.1⟩
  · exact ⟨'\\'.toNat, _, rfl, by decide⟩
  · exact ⟨'['.toNat, _, rfl, by decide⟩
  · exact ⟨'['.toNat, _, rfl, by decide⟩

theorem readBlank_ok (cs : List Nat) (bs : List BTok) (f : InFile) (hw : ∀ b ∈ bs, b.WF ∧ b.isWb = false)
    (hf : Holds f (blankText bs ++ cs)) :
    (Stops cs → ∃ g, readBlank false f = .ok (enc (blankText bs), g) ∧ Holds g cs) ∧
    (cs = [] → readBlank false f = .ok (enc (blankText bs), ended)) := by
  have ht := hf.turns
  have := length_blankText bs
  rw [List.length_append] at ht
  exact readBlankLoop_ok cs bs (turnsOf f) [] f hw hf (by omega)

/-- The fields that `next` clears. -/
def cleared (r : Reader) (f : InFile) (blank wblank : UString) : Reader :=
  { r with inp := f, blank := blank, wblank := wblank, readings := [], chunk := [], atNull := false }

/-- The reader starts at a blank with a word-bound blank that belongs to no unit. -/
theorem nextLoop_strip (T : List Nat) (pre post : List BTok) (w : List Tok) (hw : ∀ b ∈ pre ++ .wb w :: post, b.WF)
    (hpre : ∀ b ∈ pre, b.isWb = false) (hpost : post = [] → T.head? ≠ some '^'.toNat) (turns : Nat) (r : Reader) (he : r.atEof = false)
    (hf : Holds r.inp (blankText (pre ++ .wb w :: post) ++ T)) :
    ∃ g, (Holds g (blankText post ++ T) ∨ (post = [] ∧ T = [] ∧ g = ended)) ∧
      nextLoop (turns + 1) r = (do
        let r' ← nextLoop turns (cleared r g (enc (blankText pre)) (enc (wblankText w)))
        .ok { r' with blank := enc (blankText pre) ++ enc (wblankText w) ++ r'.blank }) := by
  rw [show blankText (pre ++ .wb w :: post) ++ T = blankText pre ++ ('['.toNat :: '['.toNat :: (toksText w ++ ']'.toNat :: ']'.toNat ::
    (blankText post ++ T))) by simp [blankText, BTok.text, wblankText]] at hf
  obtain ⟨g, e, hg⟩ := (readBlank_ok _ pre r.inp (fun b hb => ⟨hw b (by simp [hb]), hpre b hb⟩) hf).1 (.wblank _)
  obtain ⟨g1, e1, hg1, -⟩ := hg.get
  obtain ⟨g2, e2, hg2, -⟩ := hg1.get
  have hwb : WBody w := hw (.wb w) (by simp)
  obtain ⟨g3, e3, hg3⟩ := finishWBlank_ok _ w g2 hwb hg2
  have hpk : ∃ p g4, Input.peek g3 = .ok (p, g4) ∧ p ≠ '^'.toNat ∧ (Holds g4 (blankText post ++ T) ∨ (post = [] ∧ T = [] ∧ g4 = ended)) := by
    cases hT : blankText post ++ T with
    | nil =>
      rw [hT] at hg3
      obtain rfl := hg3.nil
      have hp : post = [] := by
        cases post with
        | nil => rfl
        | cons b bs =>
          have h1 := b.length_text
          have h2 := congrArg List.length hT
          simp only [blankText_cons, List.length_append, List.length_nil] at h2
          omega
      subst hp
      exact ⟨uEOF, ended, rfl, by decide, .inr ⟨rfl, by simpa [blankText] using hT, rfl⟩⟩
    | cons c cs =>
      rw [hT] at hg3
      obtain ⟨g4, e4, hg4⟩ := hg3.peek
      refine ⟨c, g4, e4, ?_, .inl hg4⟩
      cases post with
      | nil =>
        have := hpost rfl
        simp only [blankText, List.flatMap_nil, List.nil_append] at hT
        rw [hT] at this
        simpa using this
      | cons b bs =>
        obtain ⟨x, xs, hx, hne⟩ := BTok.head b (hw b (by simp))
        rw [blankText_cons, hx] at hT
        obtain ⟨rfl, -⟩ := List.cons.inj hT
        exact hne
  obtain ⟨p, g4, e4, hp, hg4⟩ := hpk
  refine ⟨g4, hg4, ?_⟩
  rw [nextLoop]
  simp only [he, e, e1, e2, e3, e4, Res.bind_ok, cleared]
  rw [if_neg (by simp), if_pos trivial, if_pos hp]

/-- What a call of `next` gives. -/
structure Gives (r r' : Reader) (blank wblank : UString) (rs : List RSyn) (chunk : UString) (atNull atEof : Bool) : Prop where
  blank : r'.blank = blank
  wblank : r'.wblank = wblank
  chunk : r'.chunk = chunk
  atNull : r'.atNull = atNull
  atEof : r'.atEof = atEof
  add : r'.addUnknowns = r.addUnknowns
  step : AlphaStep r.addUnknowns r.alpha r'.alpha
  readings : List.Forall₂ (fun s (o : Reading) => ReadsAs r.addUnknowns r'.alpha s o.mark o.content o.symbols) rs r'.readings

/-- After the word-bound blanks that belong to no unit. -/
theorem nextLoop_induct (T : List Nat) (Q : InFile → Prop) (wb : UString) (rs : List RSyn) (chunk : UString) (an ae : Bool)
    (base : ∀ (bs : List BTok) (turns : Nat) (r : Reader), (∀ b ∈ bs, b.WF ∧ b.isWb = false) → r.atEof = false → AlphaOk r.alpha →
      Holds r.inp (blankText bs ++ T) → ∃ r', nextLoop turns r = .ok r' ∧ Q r'.inp ∧ Gives r r' (enc (blankText bs)) wb rs chunk an ae)
    (atEnd : T = [] → ∀ (turns : Nat) (r : Reader), r.atEof = false → AlphaOk r.alpha → r.inp = ended →
      ∃ r', nextLoop turns r = .ok r' ∧ Q r'.inp ∧ Gives r r' [] wb rs chunk an ae) :
    ∀ (n : Nat) (bs : List BTok) (turns : Nat) (r : Reader), bs.length ≤ n → (∀ b ∈ bs, b.WF) →
      (T.head? = some '^'.toNat → ∀ w, bs.getLast? ≠ some (.wb w)) → r.atEof = false → AlphaOk r.alpha → bs.length ≤ turns →
      Holds r.inp (blankText bs ++ T) →
      ∃ r', nextLoop turns r = .ok r' ∧ Q r'.inp ∧ Gives r r' (enc (blankText bs)) wb rs chunk an ae := by
  intro n
  induction n with
  | zero =>
    intro bs turns r hn hw _ he hal _ hf
    have : bs = [] := List.length_eq_zero_iff.1 (by omega)
    subst this
    exact base [] turns r (by simp) he hal hf
  | succ n ih =>
    intro bs turns r hn hw hlast he hal ht hf
    rcases exists_wb bs with hnw | ⟨pre, w, post, rfl, hpre⟩
    · exact base bs turns r (fun b hb => ⟨hw b hb, hnw b hb⟩) he hal hf
    · simp only [List.length_append, List.length_cons] at hn ht
      obtain ⟨turns, rfl⟩ : ∃ k, turns = k + 1 := ⟨turns - 1, by omega⟩
      obtain ⟨g, hg, e⟩ := nextLoop_strip T pre post w hw hpre (by
        rintro rfl hh
        exact hlast hh w (by simp)) turns r he hf
      have fin : ∀ (b2 : UString), (∃ r', nextLoop turns (cleared r g (enc (blankText pre)) (enc (wblankText w))) = .ok r' ∧ Q r'.inp ∧
          Gives (cleared r g (enc (blankText pre)) (enc (wblankText w))) r' b2 wb rs chunk an ae) → b2 = enc (blankText post) →
          ∃ r', nextLoop (turns + 1) r = .ok r' ∧ Q r'.inp ∧ Gives r r' (enc (blankText (pre ++ .wb w :: post))) wb rs chunk an ae := by
        rintro b2 ⟨r', e', hq, hg'⟩ rfl
        rw [e, e']
        refine ⟨_, rfl, hq, ⟨?_, hg'.wblank, hg'.chunk, hg'.atNull, hg'.atEof, hg'.add, hg'.step, hg'.readings⟩⟩
        simp only [hg'.blank]
        simp [blankText, enc, BTok.text]
      rcases hg with hg | ⟨rfl, hT0, rfl⟩
      · exact fin _ (ih post turns (cleared r g (enc (blankText pre)) (enc (wblankText w))) (by omega) (fun b hb => hw b (by simp [hb]))
          (fun hh w' => by
            cases post with
            | nil => simp
            | cons b bs =>
              have := hlast hh w'
              rwa [List.getLast?_append_of_ne_nil _ (by simp), List.getLast?_cons_cons] at this) he hal (by omega) hg) rfl
      · exact fin _ (atEnd hT0 turns _ he hal rfl) rfl

theorem length_readingsTo (d : Nat) (rs : List RSyn) : rs.length ≤ (readingsTo d rs).length := by
  induction rs with
  | nil => simp
  | cons x xs ih =>
    cases xs with
    | nil => simp [readingsTo]
    | cons y ys =>
      rw [readingsTo]
      · simp only [List.length_append, List.length_cons] at ih ⊢; omega
      · intro h; cases h

theorem nextLoop_unit (d : Nat) (hd : d = '$'.toNat ∨ d = 0) (wb : Option (List Tok)) (hwb : ∀ w, wb = some w → WBody w) (rs : List RSyn) (hrs : rs ≠ []) (hrw : ∀ r ∈ rs, r.WF)
    (cs : List Nat) (bs : List BTok) (turns : Nat) (r : Reader) (hw : ∀ b ∈ bs, b.WF) (hlast : wb = none → ∀ w, bs.getLast? ≠ some (.wb w))
    (he : r.atEof = false) (hal : AlphaOk r.alpha) (ht : bs.length ≤ turns)
    (hf : Holds r.inp (blankText bs ++ (wb.elim [] wblankText ++ '^'.toNat :: (readingsTo d rs ++ cs)))) :
    ∃ r', nextLoop turns r = .ok r' ∧ Holds r'.inp cs ∧
      Gives r r' (enc (blankText bs)) (wb.elim [] fun w => enc (wblankText w)) rs (enc (rs.flatMap fun r => chunkText r.toks)) (d == 0) false := by
  have unit : ∀ (r r0 : Reader) (b w : UString) (f : InFile), r.atEof = false → AlphaOk r.alpha → Holds f (readingsTo d rs ++ cs) →
      r0.addUnknowns = r.addUnknowns → r0.alpha = r.alpha → r0.atEof = false → r0.atNull = false → r0.chunk = [] → r0.blank = b → r0.wblank = w →
      ∃ r', nextLoop.unit r0 '^'.toNat f = .ok r' ∧ Holds r'.inp cs ∧
        Gives r r' b w rs (enc (rs.flatMap fun r => chunkText r.toks)) (d == 0) false := by
    intro r r0 b w f he hal hf h1 h2 h3 h4 h5 h6 h7
    have ht := hf.turns
    have hl := length_readingsTo d rs
    rw [List.length_append] at ht
    obtain ⟨os, al', g, e, hg, st, ro⟩ := readingsLoop_ok r0.addUnknowns d hd cs rs (turnsOf f) '^'.toNat [] r0.chunk r0.alpha f hrs hrw hf (by rw [h2]; exact hal)
      (by decide) (by decide) (by omega)
    refine ⟨{ r0 with readings := [] ++ os, chunk := r0.chunk ++ enc (rs.flatMap fun r => chunkText r.toks), alpha := al', inp := g, atNull := d == 0 }, ?_, ?_⟩
    · unfold nextLoop.unit
      rw [if_neg (by decide), if_neg (by simp [hf.eof])]
      simp only [e, Res.bind_ok]
      rcases hd with rfl | rfl
      · rw [if_neg (by decide), if_neg (by simp [hg.eof, uEOF]), h4]
        rfl
      · rw [if_pos rfl]
        rfl
    · refine ⟨hg, h6, h7, ?_, rfl, h3, h1, ?_, ?_⟩
      · simp [h5]
      · rw [h1, h2] at st; exact st
      · rw [h1] at ro; simpa using ro
  refine nextLoop_induct _ (fun f => Holds f cs) _ rs _ (d == 0) false ?_ ?_ bs.length bs turns r (Nat.le_refl _) hw ?_ he hal ht hf
  · intro bs turns r hw he hal hf
    cases wb with
    | none =>
      simp only [Option.elim_none, List.nil_append] at hf
      obtain ⟨g, e, hg⟩ := (readBlank_ok _ bs r.inp hw hf).1 (.caret _)
      obtain ⟨g1, e1, hg1, -⟩ := hg.get
      obtain ⟨r', e', hq⟩ := unit r { r with blank := enc (blankText bs), wblank := [], readings := [], chunk := [], atNull := false } (enc (blankText bs)) [] g1 he hal hg1 rfl rfl he rfl rfl rfl rfl
      refine ⟨r', ?_, hq⟩
      unfold nextLoop
      simp only [he, e, e1, Res.bind_ok]
      rw [if_neg (by simp), if_neg (by decide)]
      rw [← e', he]
    | some w =>
      rw [show blankText bs ++ ((some w).elim [] wblankText ++ '^'.toNat :: (readingsTo d rs ++ cs)) = blankText bs ++
        ('['.toNat :: '['.toNat :: (toksText w ++ ']'.toNat :: ']'.toNat :: '^'.toNat :: (readingsTo d rs ++ cs))) by simp [wblankText]] at hf
      obtain ⟨g, e, hg⟩ := (readBlank_ok _ bs r.inp hw hf).1 (.wblank _)
      obtain ⟨g1, e1, hg1, -⟩ := hg.get
      obtain ⟨g2, e2, hg2, -⟩ := hg1.get
      obtain ⟨g3, e3, hg3⟩ := finishWBlank_ok _ w g2 (hwb w rfl) hg2
      obtain ⟨g4, e4, hg4⟩ := hg3.peek
      obtain ⟨g5, e5, hg5, -⟩ := hg4.get
      obtain ⟨r', e', hq⟩ := unit r { r with blank := enc (blankText bs), wblank := enc (wblankText w), readings := [], chunk := [], atNull := false } (enc (blankText bs)) (enc (wblankText w)) g5 he hal hg5 rfl rfl he rfl rfl rfl rfl
      refine ⟨r', ?_, hq⟩
      unfold nextLoop
      simp only [he, e, e1, e2, e3, e4, Res.bind_ok]
      rw [if_neg (by simp), if_pos trivial, if_neg (by simp)]
      simp only [e5, Res.bind_ok]
      rw [← e', he]
  · intro h
    exfalso
    cases wb <;> simp at h
  · intro hh
    cases wb with
    | none => exact hlast rfl
    | some w => simp [wblankText] at hh

theorem nextLoop_null (cs : List Nat) (bs : List BTok) (turns : Nat) (r : Reader) (hw : ∀ b ∈ bs, b.WF)
    (he : r.atEof = false) (hal : AlphaOk r.alpha) (ht : bs.length ≤ turns) (hf : Holds r.inp (blankText bs ++ 0 :: cs)) :
    ∃ r', nextLoop turns r = .ok r' ∧ Holds r'.inp cs ∧ Gives r r' (enc (blankText bs)) [] [] [] true false := by
  refine nextLoop_induct _ (fun f => Holds f cs) _ [] _ true false ?_ ?_ bs.length bs turns r (Nat.le_refl _) hw ?_ he hal ht hf
  · intro bs turns r hw he hal hf
    obtain ⟨g, e, hg⟩ := (readBlank_ok _ bs r.inp hw hf).1 (.nul _)
    obtain ⟨g1, e1, hg1, -⟩ := hg.get
    refine ⟨{ r with inp := g1, blank := enc (blankText bs), wblank := [], readings := [], chunk := [], atNull := true, atEof := false }, ?_, ?_⟩
    · unfold nextLoop
      simp only [he, e, e1, Res.bind_ok]
      rw [if_neg (by simp), if_neg (by decide)]
      unfold nextLoop.unit
      rw [if_pos rfl]
    · exact ⟨hg1, rfl, rfl, rfl, rfl, rfl, rfl, .refl hal, .nil⟩
  · intro h; cases h
  · intro hh; simp at hh

theorem nextLoop_eof (bs : List BTok) (turns : Nat) (r : Reader) (hw : ∀ b ∈ bs, b.WF)
    (he : r.atEof = false) (hal : AlphaOk r.alpha) (ht : bs.length ≤ turns) (hf : Holds r.inp (blankText bs)) :
    ∃ r', nextLoop turns r = .ok r' ∧ Gives r r' (enc (blankText bs)) [] [] [] false true := by
  have hf' : Holds r.inp (blankText bs ++ []) := by rw [List.append_nil]; exact hf
  suffices ∃ r', nextLoop turns r = .ok r' ∧ True ∧ Gives r r' (enc (blankText bs)) [] [] [] false true by
    obtain ⟨r', h1, _, h2⟩ := this
    exact ⟨r', h1, h2⟩
  refine nextLoop_induct [] (fun _ => True) [] [] [] false true ?_ ?_ bs.length bs turns r (Nat.le_refl _) hw ?_ he hal ht hf'
  · intro bs turns r hw he hal hf
    have e := (readBlank_ok _ bs r.inp hw hf).2 rfl
    have e1 : Input.get ended = .ok (uEOF, ⟨[], true, []⟩) := rfl
    refine ⟨{ r with inp := ⟨[], true, []⟩, blank := enc (blankText bs), wblank := [], readings := [], chunk := [], atNull := false, atEof := true }, ?_, ?_⟩
    · unfold nextLoop
      simp only [he, e, e1, Res.bind_ok]
      rw [if_neg (by simp), if_neg (by decide)]
      unfold nextLoop.unit
      rw [if_neg (by decide), if_pos rfl]
    · exact ⟨trivial, rfl, rfl, rfl, rfl, rfl, rfl, .refl hal, .nil⟩
  · intro _ turns r he hal hi
    have e : readBlank false r.inp = .ok ([], ended) := by rw [hi]; rfl
    have e1 : Input.get ended = .ok (uEOF, ⟨[], true, []⟩) := rfl
    refine ⟨{ r with inp := ⟨[], true, []⟩, blank := [], wblank := [], readings := [], chunk := [], atNull := false, atEof := true }, ?_, ?_⟩
    · unfold nextLoop
      simp only [he, e, e1, Res.bind_ok]
      rw [if_neg (by simp), if_neg (by decide)]
      unfold nextLoop.unit
      rw [if_neg (by decide), if_pos rfl]
    · exact ⟨trivial, rfl, rfl, rfl, rfl, rfl, rfl, .refl hal, .nil⟩
  · intro hh; simp at hh

end Verif.Stream
