import Verif.Stream.Lemmas2

/-! # Properties of the stream reader (C54, C67) -/

namespace Verif.Stream

open Verif.Input

/-! ## Texts in the stream format consist of characters -/

theorem scalar_toks {P : Tok → Prop} (hP : ∀ t, P t → ∀ c ∈ t.text, Scalar c) {ts : List Tok} (h : ∀ t ∈ ts, P t) :
    ∀ c ∈ toksText ts, Scalar c := by
  intro c hc
  obtain ⟨t, ht, hc⟩ := List.mem_flatMap.1 hc
  exact hP t (h t ht) c hc

theorem scalar_ascii {c : Nat} (h : c < 128) : Scalar c := .inl (by omega)

theorem scalar_inside {stop : Nat} {t : Tok} (h : t.Inside stop) : ∀ c ∈ t.text, Scalar c := by
  intro c hc
  cases t with
  | raw d => simp only [Tok.text, List.mem_singleton] at hc; subst hc; exact h.1
  | esc d =>
    simp only [Tok.text, List.mem_cons, List.not_mem_nil, or_false] at hc
    rcases hc with rfl | rfl
    · exact scalar_ascii (by decide)
    · exact h

theorem scalar_block {start stop : Nat} (h1 : Scalar start) (h2 : Scalar stop) {ts : List Tok} (h : ∀ t ∈ ts, t.Inside stop) :
    ∀ c ∈ blockText start stop ts, Scalar c := by
  intro c hc
  simp only [blockText, List.mem_append, List.mem_cons, List.not_mem_nil, or_false] at hc
  rcases hc with (rfl | hc) | rfl
  · exact h1
  · exact scalar_toks (fun t => scalar_inside) h c hc
  · exact h2

theorem scalar_wbody {ts : List Tok} (h : WBody ts) : ∀ c ∈ toksText ts, Scalar c := by
  induction ts with
  | nil => intro c hc; cases hc
  | cons t ts ih =>
    obtain ⟨h1, h2⟩ := h
    intro c hc
    rw [show toksText (t :: ts) = t.text ++ toksText ts from rfl, List.mem_append] at hc
    rcases hc with hc | hc
    · cases t with
      | raw d => simp only [Tok.text, List.mem_singleton] at hc; subst hc; exact h1.1
      | esc d =>
        simp only [Tok.text, List.mem_cons, List.not_mem_nil, or_false] at hc
        rcases hc with rfl | rfl
        · exact scalar_ascii (by decide)
        · exact h1
    · exact ih h2 c hc

theorem scalar_wblank {ts : List Tok} (h : WBody ts) : ∀ c ∈ wblankText ts, Scalar c := by
  intro c hc
  simp only [wblankText, List.mem_append, List.mem_cons, List.not_mem_nil, or_false] at hc
  rcases hc with (rfl | rfl | hc) | rfl | rfl
  · exact scalar_ascii (by decide)
  · exact scalar_ascii (by decide)
  · exact scalar_wbody h c hc
  · exact scalar_ascii (by decide)
  · exact scalar_ascii (by decide)

theorem scalar_blank {bs : List BTok} (h : ∀ b ∈ bs, b.WF) : ∀ c ∈ blankText bs, Scalar c := by
  intro c hc
  obtain ⟨b, hb, hc⟩ := List.mem_flatMap.1 hc
  have hw := h b hb
  match b, hw, hc with
  | .tok (.raw d), hw, hc => simp only [BTok.text, Tok.text, List.mem_singleton] at hc; subst hc; exact hw.1
  | .tok (.esc d), hw, hc =>
    simp only [BTok.text, Tok.text, List.mem_cons, List.not_mem_nil, or_false] at hc
    rcases hc with rfl | rfl
    · exact scalar_ascii (by decide)
    · exact hw.1
  | .super ts, hw, hc => exact scalar_block (scalar_ascii (by decide)) (scalar_ascii (by decide)) hw.1 c hc
  | .wb ts, hw, hc => exact scalar_wblank hw c hc

theorem scalar_rtok {t : RTok} (hw : t.WF) : ∀ c ∈ t.text, Scalar c := by
  intro c hc
  match t, hw, hc with
  | .tok (.raw d), hw, hc => simp only [RTok.text, Tok.text, List.mem_singleton] at hc; subst hc; exact hw.1
  | .tok (.esc d), hw, hc =>
    simp only [RTok.text, Tok.text, List.mem_cons, List.not_mem_nil, or_false] at hc
    rcases hc with rfl | rfl
    · exact scalar_ascii (by decide)
    · exact hw
  | .tag ts, hw, hc => exact scalar_block (scalar_ascii (by decide)) (scalar_ascii (by decide)) hw c hc
  | .chunk ts, hw, hc => exact scalar_block (scalar_ascii (by decide)) (scalar_ascii (by decide)) hw c hc

theorem scalar_rsyn {r : RSyn} (h : r.WF) : ∀ c ∈ r.text, Scalar c := by
  intro c hc
  rcases List.mem_append.1 hc with hc | hc
  · have := h.mark c (by simpa using hc)
    simp only [marks, List.mem_cons, List.not_mem_nil, or_false] at this
    rcases this with rfl | rfl | rfl | rfl | rfl <;> exact scalar_ascii (by decide)
  · obtain ⟨t, ht, hc⟩ := List.mem_flatMap.1 hc
    exact scalar_rtok (h.toks t ht) c hc

theorem scalar_readings {d : Nat} (hd : d < 128) {rs : List RSyn} (h : ∀ r ∈ rs, r.WF) : ∀ c ∈ readingsTo d rs, Scalar c := by
  induction rs with
  | nil => intro c hc; cases hc
  | cons r rs ih =>
    intro c hc
    cases rs with
    | nil =>
      simp only [readingsTo, List.mem_append, List.mem_singleton] at hc
      rcases hc with hc | rfl
      · exact scalar_rsyn (h r (by simp)) c hc
      · exact scalar_ascii hd
    | cons y ys =>
      have e : readingsTo d (r :: y :: ys) = r.text ++ '/'.toNat :: readingsTo d (y :: ys) := by
        rw [readingsTo]; intro h; cases h
      rw [e, List.mem_append, List.mem_cons] at hc
      rcases hc with hc | rfl | hc
      · exact scalar_rsyn (h r (by simp)) c hc
      · exact scalar_ascii (by decide)
      · exact ih (fun r hr => h r (by simp [hr])) c hc

theorem scalar_item {i : Item} (h : i.WF) : ∀ c ∈ i.text, Scalar c := by
  intro c hc
  cases i with
  | unit bs wb rs =>
    obtain ⟨h1, h2, _, _, h3⟩ := h
    simp only [Item.text, List.mem_append, List.mem_cons] at hc
    rcases hc with (hc | hc) | rfl | hc
    · exact scalar_blank h1 c hc
    · cases wb with
      | none => cases hc
      | some w => exact scalar_wblank (h2 w rfl) c hc
    · exact scalar_ascii (by decide)
    · exact scalar_readings (by decide) h3 c hc
  | null bs =>
    simp only [Item.text, List.mem_append, List.mem_singleton] at hc
    rcases hc with hc | rfl
    · exact scalar_blank h c hc
    · exact scalar_ascii (by decide)

theorem scalar_stream {items : List Item} {last : List BTok} (h : ∀ i ∈ items, i.WF) (hl : ∀ b ∈ last, b.WF) :
    ∀ c ∈ streamText items last, Scalar c := by
  intro c hc
  rcases List.mem_append.1 hc with hc | hc
  · obtain ⟨i, hi, hc⟩ := List.mem_flatMap.1 hc
    exact scalar_item (h i hi) c hc
  · exact scalar_blank hl c hc

/-! ## C54 -/

/-- What a program is to see of an item: the text of the blanks before the unit, the word-bound blank of the unit, the readings
and the text of the chunks, each as written. -/
def Shows (add : Bool) (al : Option Alphabet) : Item → Out → Prop
  | .unit bs wb rs, o => o.blank = enc (blankText bs) ∧ o.wblank = (wb.elim [] fun w => enc (wblankText w)) ∧
      List.Forall₂ (fun s (x : Reading) => ReadsAs add al s x.mark x.content x.symbols) rs o.readings ∧
      o.chunk = enc (rs.flatMap fun r => chunkText r.toks) ∧ o.atNull = false ∧ o.atEof = false
  | .null bs, o => o = ⟨enc (blankText bs), [], [], [], true, false⟩

theorem Shows.mono {add : Bool} {x y : Option Alphabet} (h : AlphaStep add x y) {i : Item} {o : Out} (hs : Shows add x i o) : Shows add y i o := by
  cases i with
  | null _ => exact hs
  | unit _ _ _ =>
    obtain ⟨h1, h2, h3, h4⟩ := hs
    exact ⟨h1, h2, h3.imp fun a b hab => ⟨hab.mark, hab.content, hab.symbols.mono h⟩, h4⟩

theorem next_item (i : Item) (hi : i.WF) (cs : List Nat) (r : Reader) (he : r.atEof = false) (hal : AlphaOk r.alpha)
    (hf : Holds r.inp (i.text ++ cs)) :
    ∃ r', next r = .ok r' ∧ Holds r'.inp cs ∧ r'.atEof = false ∧ r'.addUnknowns = r.addUnknowns ∧
      AlphaStep r.addUnknowns r.alpha r'.alpha ∧ Shows r.addUnknowns r'.alpha i r'.out := by
  have ht := hf.turns
  rw [List.length_append] at ht
  cases i with
  | unit bs wb rs =>
    obtain ⟨h1, h2, h3, h4, h5⟩ := hi
    have hl := length_blankText bs
    have : bs.length ≤ turnsOf r.inp := by simp only [Item.text, List.length_append] at ht; omega
    rw [show (Item.unit bs wb rs).text ++ cs = blankText bs ++ (wb.elim [] wblankText ++ '^'.toNat :: (readingsText rs ++ cs)) by
      simp [Item.text]] at hf
    obtain ⟨r', e, hq, g⟩ := nextLoop_unit _ (.inl rfl) wb h2 rs h4 h5 cs bs (turnsOf r.inp) r h1 h3 he hal this hf
    exact ⟨r', e, hq, g.atEof, g.add, g.step, g.blank, g.wblank, g.readings, g.chunk, g.atNull, g.atEof⟩
  | null bs =>
    have hl := length_blankText bs
    have : bs.length ≤ turnsOf r.inp := by simp only [Item.text, List.length_append] at ht; omega
    rw [show (Item.null bs).text ++ cs = blankText bs ++ 0 :: cs by simp [Item.text]] at hf
    obtain ⟨r', e, hq, g⟩ := nextLoop_null cs bs (turnsOf r.inp) r hi he hal this hf
    refine ⟨r', e, hq, g.atEof, g.add, g.step, ?_⟩
    have hr : r'.readings = [] := List.forall₂_nil_left_iff.1 g.readings
    simp only [Shows, Reader.out, g.blank, g.wblank, g.chunk, g.atNull, g.atEof, hr]

theorem nexts_eof (n : Nat) (r : Reader) (he : r.atEof = true) (hn : r.atNull = false) :
    ∃ r', nexts n r = .ok (List.replicate n ⟨[], [], [], [], false, true⟩, r') ∧ r'.alpha = r.alpha := by
  induction n generalizing r with
  | zero => exact ⟨r, rfl, rfl⟩
  | succ n ih =>
    have e : next r = .ok { r with blank := [], wblank := [], readings := [], chunk := [] } := by
      unfold next nextLoop; simp only [he, if_true]
    obtain ⟨r', e', h'⟩ := ih { r with blank := [], wblank := [], readings := [], chunk := [] } he hn
    refine ⟨r', ?_, h'⟩
    rw [nexts, e]
    simp only [Res.bind_ok]
    rw [e']
    simp [List.replicate_succ, Reader.out, he, hn]

theorem nexts_items (items : List Item) (last : List BTok) (hl : ∀ b ∈ last, b.WF) (n : Nat) :
    ∀ r : Reader, (∀ i ∈ items, i.WF) → r.atEof = false → AlphaOk r.alpha → Holds r.inp (streamText items last) →
    ∃ os r', nexts (items.length + 1 + n) r =
        .ok (os ++ ⟨enc (blankText last), [], [], [], false, true⟩ :: List.replicate n ⟨[], [], [], [], false, true⟩, r') ∧
      List.Forall₂ (Shows r.addUnknowns r'.alpha) items os ∧ AlphaStep r.addUnknowns r.alpha r'.alpha := by
  induction items with
  | nil =>
    intro r _ he hal hf
    rw [show streamText [] last = blankText last from rfl] at hf
    have ht := hf.turns
    have hb := length_blankText last
    obtain ⟨r1, e1, g⟩ := nextLoop_eof last (turnsOf r.inp) r hl he hal (by omega) hf
    obtain ⟨r2, e2, ha⟩ := nexts_eof n r1 g.atEof g.atNull
    have hr : r1.readings = [] := List.forall₂_nil_left_iff.1 g.readings
    refine ⟨[], r2, ?_, .nil, by rw [ha]; exact g.step⟩
    rw [List.length_nil, show 0 + 1 + n = n + 1 by omega, nexts, next, e1]
    simp only [Res.bind_ok]
    rw [e2]
    simp [Reader.out, g.blank, g.wblank, g.chunk, g.atNull, g.atEof, hr]
  | cons i items ih =>
    intro r hw he hal hf
    rw [show streamText (i :: items) last = i.text ++ streamText items last by simp [streamText]] at hf
    obtain ⟨r1, e1, h1, he1, ha1, hs1, sh1⟩ := next_item i (hw i (by simp)) _ r he hal hf
    obtain ⟨os, r2, e2, sh2, hs2⟩ := ih r1 (fun j hj => hw j (by simp [hj])) he1 hs1.ok h1
    rw [ha1] at sh2 hs2
    refine ⟨r1.out :: os, r2, ?_, .cons (sh1.mono hs2) sh2, hs1.trans hs2⟩
    rw [List.length_cons, show items.length + 1 + 1 + n = (items.length + 1 + n) + 1 by omega, nexts, e1]
    simp only [Res.bind_ok]
    rw [e2]
    simp

/-- **C54** For a file with the bytes of a text in the stream format, the calls of `next` report, in order, every lexical unit
with the blank before it, its word-bound blank, its readings and chunks, and every NUL; then the last blank with the end of the
file; and then nothing but the end of the file. The symbols are those of the alphabet at the end, whose codes extend those of
the given alphabet and which is the given one when unknown tags are not added. -/
theorem C54_stream (items : List Item) (last : List BTok) (hi : ∀ i ∈ items, i.WF) (hl : ∀ b ∈ last, b.WF)
    (al : Option Alphabet) (hal : ∀ a, al = some a → a.Ok) (add : Bool) (n : Nat) :
    ∃ os r', nexts (items.length + 1 + n) { inp := opened (bytes (streamText items last)), alpha := al, addUnknowns := add } =
        .ok (os ++ ⟨enc (blankText last), [], [], [], false, true⟩ :: List.replicate n ⟨[], [], [], [], false, true⟩, r') ∧
      List.Forall₂ (Shows add r'.alpha) items os ∧ AlphaStep add al r'.alpha := by
  refine nexts_items items last hl n _ hi rfl ?_ ⟨rfl, by simp [opened], ⟨_, rfl, rfl⟩, scalar_stream hi hl⟩
  cases al with
  | none => trivial
  | some a => exact hal a rfl

/-- `[[t:b]]^a<n>/*b\/{c}$ [<br>]\^` NUL -/
def exItems : List Item := [
  .unit [] (some ("t:b".toList.map fun c => .raw c.toNat))
    [⟨none, [.tok (.raw 'a'.toNat), .tag [.raw 'n'.toNat]]⟩,
     ⟨some '*'.toNat, [.tok (.raw 'b'.toNat), .tok (.esc '/'.toNat), .chunk [.raw 'c'.toNat]]⟩],
  .null [.tok (.raw 32), .super ("<br>".toList.map fun c => .raw c.toNat), .tok (.esc '^'.toNat)]]

example : (∀ i ∈ exItems, i.WF) ∧ (∀ b ∈ [BTok.tok (.raw 10)], b.WF) ∧
    streamText exItems [.tok (.raw 10)] = ("[[t:b]]^a<n>/*b\\/{c}$ [<br>]\\^\x00\n".toList.map Char.toNat) := by
  refine ⟨?_, ?_, by decide⟩
  · intro i hi
    simp only [exItems, List.mem_cons, List.not_mem_nil, or_false] at hi
    rcases hi with rfl | rfl
    · refine ⟨by simp, ?_, by simp, by simp, ?_⟩
      · intro w hw; cases hw; simp [WBody, Scalar]
      · intro r hr
        simp only [List.mem_cons, List.not_mem_nil, or_false] at hr
        rcases hr with rfl | rfl
        · exact ⟨by intro t ht; simp at ht; rcases ht with rfl | rfl <;> simp [RTok.WF, Tok.Inside, Scalar], by simp, by simp [marks]⟩
        · exact ⟨by intro t ht; simp at ht; rcases ht with rfl | rfl | rfl <;> simp [RTok.WF, Tok.Inside, Scalar], by simp [marks], by simp⟩
    · intro b hb
      simp only [List.mem_cons, List.not_mem_nil, or_false] at hb
      rcases hb with rfl | rfl | rfl <;> simp [BTok.WF, Tok.Inside, Scalar]
  · simp [BTok.WF, Scalar]

example : (do
      let x : List Out × Reader ← nexts 3 { inp := opened (bytes (streamText exItems [.tok (.raw 10)])) }
      Res.ok (x.1.map fun (o : Out) => (o.blank, o.readings.length, o.atNull, o.atEof))) =
    .ok [([], 2, false, false), (enc (" [<br>]\\^".toList.map Char.toNat), 0, true, false), ([10], 0, false, true)] := by decide +kernel

theorem nexts_prefix (items : List Item) (cs : List Nat) :
    ∀ r : Reader, (∀ i ∈ items, i.WF) → r.atEof = false → AlphaOk r.alpha → Holds r.inp (items.flatMap Item.text ++ cs) →
    ∃ os r', nexts items.length r = .ok (os, r') ∧ Holds r'.inp cs ∧ r'.atEof = false ∧ r'.addUnknowns = r.addUnknowns ∧
      List.Forall₂ (Shows r.addUnknowns r'.alpha) items os ∧ AlphaStep r.addUnknowns r.alpha r'.alpha := by
  induction items with
  | nil => intro r _ he hal hf; exact ⟨[], r, rfl, hf, he, rfl, .nil, .refl hal⟩
  | cons i items ih =>
    intro r hw he hal hf
    rw [List.flatMap_cons, List.append_assoc] at hf
    obtain ⟨r1, e1, h1, he1, ha1, hs1, sh1⟩ := next_item i (hw i (by simp)) _ r he hal hf
    obtain ⟨os, r2, e2, h2, he2, ha2, sh2, hs2⟩ := ih r1 (fun j hj => hw j (by simp [hj])) he1 hs1.ok h1
    rw [ha1] at sh2 hs2
    refine ⟨r1.out :: os, r2, ?_, h2, he2, ha2.trans ha1, .cons (sh1.mono hs2) sh2, hs1.trans hs2⟩
    rw [List.length_cons, nexts, e1]
    simp only [Res.bind_ok]
    rw [e2]
    simp

/-- **C54** A NUL inside a lexical unit ends the unit: after the items before it, the next call reports the readings up to the
NUL and that a NUL was met, and the reader is then at the text after the NUL. -/
theorem C54_cut_unit (items : List Item) (hi : ∀ i ∈ items, i.WF) (bs : List BTok) (wb : Option (List Tok)) (rs : List RSyn)
    (hu : (Item.unit bs wb rs).WF) (rest : List Nat) (hrest : ∀ c ∈ rest, Scalar c)
    (al : Option Alphabet) (hal : ∀ a, al = some a → a.Ok) (add : Bool) :
    ∃ os r1 r2, nexts items.length { inp := opened (bytes (items.flatMap Item.text ++ (blankText bs ++ (wb.elim [] wblankText ++
        '^'.toNat :: (readingsTo 0 rs ++ rest))))), alpha := al, addUnknowns := add } = .ok (os, r1) ∧
      List.Forall₂ (Shows add r1.alpha) items os ∧
      next r1 = .ok r2 ∧ r2.blank = enc (blankText bs) ∧ r2.wblank = (wb.elim [] fun w => enc (wblankText w)) ∧
      List.Forall₂ (fun s (x : Reading) => ReadsAs add r2.alpha s x.mark x.content x.symbols) rs r2.readings ∧
      r2.chunk = enc (rs.flatMap fun r => chunkText r.toks) ∧ r2.atNull = true ∧ r2.atEof = false ∧ Holds r2.inp rest := by
  obtain ⟨h1, h2, h3, h4, h5⟩ := hu
  have hsc : ∀ c ∈ items.flatMap Item.text ++ (blankText bs ++ (wb.elim [] wblankText ++ '^'.toNat :: (readingsTo 0 rs ++ rest))), Scalar c := by
    intro c hc
    simp only [List.mem_append, List.mem_cons] at hc
    rcases hc with hc | hc | hc | rfl | hc | hc
    · obtain ⟨i, hi', hc⟩ := List.mem_flatMap.1 hc
      exact scalar_item (hi i hi') c hc
    · exact scalar_blank h1 c hc
    · cases wb with
      | none => cases hc
      | some w => exact scalar_wblank (h2 w rfl) c hc
    · exact scalar_ascii (by decide)
    · exact scalar_readings (by decide) h5 c hc
    · exact hrest c hc
  obtain ⟨os, r1, e1, hf, he, ha, sh, st⟩ := nexts_prefix items _ { inp := opened (bytes (items.flatMap Item.text ++ (blankText bs ++
      (wb.elim [] wblankText ++ '^'.toNat :: (readingsTo 0 rs ++ rest))))), alpha := al, addUnknowns := add } hi rfl
    (by cases al with
      | none => trivial
      | some a => exact hal a rfl) ⟨rfl, by simp [opened], ⟨_, rfl, rfl⟩, hsc⟩
  have ht := hf.turns
  have hl := length_blankText bs
  obtain ⟨r2, e2, hq, g⟩ := nextLoop_unit 0 (.inr rfl) wb h2 rs h4 h5 rest bs (turnsOf r1.inp) r1 h1 h3 he st.ok
    (by simp only [List.length_append] at ht; omega) hf
  refine ⟨os, r1, r2, e1, sh, e2, g.blank, g.wblank, ?_, g.chunk, g.atNull, g.atEof, hq⟩
  have := g.readings
  rw [ha] at this
  exact this

/-- `^a<n>/b` NUL `c`. -/
example : (do
      let r : Reader ← next { inp := opened (bytes (readingsTo 0 [⟨none, [.tok (.raw 'a'.toNat), .tag [.raw 'n'.toNat]]⟩, ⟨none, [.tok (.raw 'b'.toNat)]⟩] |> fun x =>
        '^'.toNat :: (x ++ ['c'.toNat]))) }
      Res.ok (r.readings.map Reading.content, r.atNull)) =
    .ok ([enc ("a<n>".toList.map Char.toNat), enc ("b".toList.map Char.toNat)], true) := by decide +kernel

/-- **C54** A reading's text can hold any character, but U+FFFF in a blank ends the unit early: the text format must exclude it
there. -/
theorem C54_uffff_false : ¬ ∀ (c : Nat), Scalar c → c ∉ ['^'.toNat, '['.toNat, '\\'.toNat, 0] → ∀ r',
    next { inp := opened (bytes [c, '^'.toNat, 'a'.toNat, '$'.toNat]) } = .ok r' → r'.blank = utf16 c := by
  intro h
  have := h 0xFFFF (by unfold Scalar; omega) (by decide)
    { inp := ⟨[], false, []⟩, readings := [⟨0, enc ['^'.toNat, 'a'.toNat], []⟩] } (by decide +kernel)
  exact absurd this (by decide)

/-- **C54** When the text ends inside a tag, the reading gets a character that is not in the text, and there is no error. -/
theorem C54_unterminated_false : ¬ ∀ (cs : List Nat) (r' : Reader), (∀ c ∈ cs, c < 0x80) →
    next { inp := opened (bytes cs) } = .ok r' → ∀ x ∈ r'.readings, ∀ u ∈ x.content, u < 0x80 := by
  intro h
  exact absurd (h ("^a<n".toList.map Char.toNat)
    { inp := ⟨[], true, []⟩, atEof := true, readings := [⟨0, enc ("a<n\uffff".toList.map Char.toNat), []⟩] }
    (by decide) (by decide +kernel) _ List.mem_cons_self 0xFFFF (by decide)) (by decide)

/-! ## C67 -/

theorem next_safe (r : Reader) (h : r.inp.buf.length ≤ 2) : Safe (fun x => x.inp.buf.length ≤ 2) (next r) :=
  nextLoop_safe _ r h (.inl (left_lt r.inp).le)

/-- **C67** Whatever bytes the file holds, well-formed or not, any number of calls of `next` ends with values or an exception:
the three places for characters that were pushed back are never exceeded and no loop turns forever. -/
theorem C67_no_overflow (bs : List UInt8) (al : Option Alphabet) (add : Bool) (n : Nat) :
    nexts n { inp := opened bs, alpha := al, addUnknowns := add } ≠ .ub := by
  suffices ∀ r : Reader, r.inp.buf.length ≤ 2 → Safe (fun _ => True) (nexts n r) by
    intro h
    have := this { inp := opened bs, alpha := al, addUnknowns := add } (by simp [opened])
    rw [h] at this
    exact this
  induction n with
  | zero => intro r _; exact trivial
  | succ n ih =>
    intro r h
    rw [nexts]
    refine (next_safe r h).bind fun r1 h1 => ?_
    refine (ih r1 h1).bind fun x _ => ?_
    exact trivial

end Verif.Stream
