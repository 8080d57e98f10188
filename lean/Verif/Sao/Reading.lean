import Verif.Sao.Spec
import Verif.Proc.Final
import Verif.Proc.Few

/-! # Reading the text -/

namespace Verif.Sao

open Verif.State Verif.Stream Verif.Input Verif.Proc
open Verif.Buffer (Buffer Rep)

variable {W : Type}

theorem vals_append (ps qs : List Piece) : vals (ps ++ qs) = vals ps ++ vals qs := by simp [vals]
theorem vals_length (ps : List Piece) : (vals ps).length = ps.length := by simp [vals]
theorem surface_append (ps qs : List Piece) : surface (ps ++ qs) = surface ps ++ surface qs := by simp [surface, enc_append]
theorem surface_cons (p : Piece) (qs : List Piece) : surface (p :: qs) = utf16 p.val ++ surface qs := by simp [surface, enc]

theorem surface_ne_nil {ps : List Piece} (h : ps ≠ []) : surface ps ≠ [] := by
  cases ps with
  | nil => exact absurd rfl h
  | cons p ps =>
    rw [surface_cons]
    simp [utf16_ne_nil]

theorem escaped_cases {c : Nat} (h : (c : Int) ∈ escaped) : c = 0x5c ∨ c = 0x3c ∨ c = 0x3e := by
  simp only [escaped, List.mem_cons, List.not_mem_nil, or_false] at h
  omega

theorem piece_val {p : Piece} (h : p.Ok) : Scalar p.val ∧ p.val ≠ 0 := by
  cases p with
  | ch c => exact ⟨h.1, h.2.1⟩
  | esc c =>
    have h' := escaped_cases h
    simp only [Piece.val]
    exact ⟨.inl (by omega), by omega⟩
  | cdata cs => exact ⟨.inl (show 0x20 < 0xd800 by decide), show 0x20 ≠ 0 by decide⟩

theorem vals_ne {ps : List Piece} (hp : ∀ p ∈ ps, p.Ok) : ∀ x ∈ vals ps, x ≠ 0 := by
  intro x hx
  obtain ⟨p, hpp, rfl⟩ := List.mem_map.1 hx
  have := (piece_val (hp p hpp)).2
  omega

theorem surface_zero {ps : List Piece} (h : ∀ p ∈ ps, p.Ok) : 0 ∉ surface ps := by
  intro h0
  obtain ⟨c, hc, hu⟩ := List.mem_flatMap.1 h0
  obtain ⟨p, hp, rfl⟩ := List.mem_map.1 hc
  obtain ⟨h1, h2⟩ := piece_val (h p hp)
  rcases mem_utf16 h1 hu with e | e
  · exact h2 e.symm
  · have := e.1
    simp at this

/-! ## Sections -/

theorem text_scalar {ps : List Piece} (h : ∀ p ∈ ps, p.Ok) : ∀ c ∈ ps.flatMap Piece.text, Scalar c := by
  intro c hc
  obtain ⟨p, hp, hc⟩ := List.mem_flatMap.1 hc
  have hok := h p hp
  cases p with
  | ch d =>
    simp only [Piece.text, List.mem_singleton] at hc
    rw [hc]; exact hok.1
  | esc d =>
    simp only [Piece.text, List.mem_cons, List.not_mem_nil, or_false] at hc
    have h' := escaped_cases hok
    exact .inl (by omega)
  | cdata cs =>
    simp only [Piece.text, List.mem_append] at hc
    rcases hc with (hc | hc) | hc
    · simp only [List.mem_cons, List.not_mem_nil, or_false] at hc
      exact .inl (by omega)
    · exact (hok.1 c hc).1
    · simp only [List.mem_cons, List.not_mem_nil, or_false] at hc
      exact .inl (by omega)

/-- Reading to the next `>`. -/
theorem block_ok {ds cs : List Nat} {f : InFile} (hd : ∀ c ∈ ds, Scalar c ∧ c ≠ 0 ∧ c ≠ 0x5c ∧ c ≠ 0x3e) (hf : Holds f (ds ++ 0x3e :: cs)) :
    ∃ g, readBlock '<'.toNat '>'.toNat f = .ok (enc (0x3c :: ds ++ [0x3e]), g) ∧ Holds g cs := by
  have e : toksText (ds.map Tok.raw) = ds := by simp [toksText, Tok.text, List.flatMap_map]
  obtain ⟨g, h1, h2⟩ := readBlock_ok '<'.toNat '>'.toNat (by decide) (by decide) cs (ds.map Tok.raw) f
    (by
      intro t ht
      obtain ⟨c, hc, rfl⟩ := List.mem_map.1 ht
      obtain ⟨k1, k2, k3, k4⟩ := hd c hc
      exact ⟨k1, k4, k3, k2⟩) (by rw [e]; exact hf)
  refine ⟨g, ?_, h2⟩
  rw [h1]
  simp [blockText, e]

theorem enc_ascii {cs : List Nat} (h : ∀ c ∈ cs, c < 0x10000) : enc cs = cs.map UInt16.ofNat := by
  induction cs with
  | nil => rfl
  | cons c cs ih =>
    rw [show enc (c :: cs) = utf16 c ++ enc cs from rfl, utf16_bmp (h c (by simp)), ih fun d hd => h d (by simp [hd])]
    rfl

/-- The first `>`. -/
theorem first_close (cs : List Nat) : (∀ c ∈ cs, c ≠ 0x3e) ∨ ∃ ds es, cs = ds ++ 0x3e :: es ∧ ∀ c ∈ ds, c ≠ 0x3e := by
  induction cs with
  | nil => left; simp
  | cons c cs ih =>
    by_cases h : c = 0x3e
    · right; exact ⟨[], cs, by simp [h], by simp⟩
    · rcases ih with ih | ⟨ds, es, e, ih⟩
      · left
        intro d hd
        rcases List.mem_cons.1 hd with rfl | hd
        · exact h
        · exact ih d hd
      · right
        refine ⟨c :: ds, es, by simp [e], ?_⟩
        intro d hd
        rcases List.mem_cons.1 hd with rfl | hd
        · exact h
        · exact ih d hd

theorem unit_char {c : Nat} (hc : Scalar c) {u : UInt16} (hu : u ∈ utf16 c) {d : Nat} (hd : u.toNat = d) (hd' : d < 0xd800) : c = d := by
  rcases mem_utf16 hc hu with h | h <;> omega

/-- Characters whose units end with those of ASCII characters. -/
theorem enc_suffix {cs : List Nat} (hs : ∀ c ∈ cs, Scalar c) {s : UString} {d : Nat} (hd : d < 0xd800) (h : enc cs = s ++ [UInt16.ofNat d]) :
    ∃ cs', cs = cs' ++ [d] ∧ enc cs' = s := by
  rcases List.eq_nil_or_concat cs with e | ⟨cs', c, e⟩
  · rw [e] at h; simp [enc] at h
  · rw [List.concat_eq_append] at e
    subst e
    rw [enc_append] at h
    have hc : Scalar c := hs c (by simp)
    have hl : UInt16.ofNat d ∈ utf16 c := by
      have h1 := congrArg List.getLast? h
      rw [List.getLast?_append_of_ne_nil _ (by simp [enc, utf16_ne_nil])] at h1
      simp only [List.getLast?_append, List.getLast?_singleton, Option.some_or] at h1
      have := List.mem_of_getLast? h1
      simpa [enc] using this
    obtain rfl := unit_char hc hl (ofNat_toNat (by omega)) hd
    refine ⟨cs', rfl, ?_⟩
    have e2 : enc [c] = [UInt16.ofNat c] := by simp [enc, utf16_bmp (show c < 0x10000 by omega)]
    rw [e2] at h
    exact (List.append_inj' h rfl).1

theorem ends_cdata {cs : List Nat} (hs : ∀ c ∈ cs, Scalar c) : cdataEnd.isSuffixOf (enc cs) = true ↔ ∃ ds, cs = ds ++ [0x5d, 0x5d, 0x3e] := by
  rw [List.isSuffixOf_iff_suffix]
  constructor
  · rintro ⟨s, h⟩
    obtain ⟨c1, e1, h1⟩ := enc_suffix hs (s := s ++ [0x5d, 0x5d]) (d := 0x3e) (by decide) (by rw [← h]; simp [cdataEnd])
    subst e1
    obtain ⟨c2, e2, h2⟩ := enc_suffix (cs := c1) (fun c hc => hs c (by simp [hc])) (s := s ++ [0x5d]) (d := 0x5d) (by decide) (by rw [h1]; simp)
    subst e2
    obtain ⟨c3, e3, h3⟩ := enc_suffix (cs := c2) (fun c hc => hs c (by simp [hc])) (s := s) (d := 0x5d) (by decide) (by rw [h2]; simp)
    subst e3
    exact ⟨c3, by simp⟩
  · rintro ⟨ds, rfl⟩
    rw [enc_append]
    exact ⟨enc ds, rfl⟩

/-- The start of a section. -/
def opening : List Nat := [0x3c, 0x21, 0x5b, 0x43, 0x44, 0x41, 0x54, 0x41, 0x5b]

theorem readCdata_ok {rest : List Nat} (k : Nat) : ∀ (pre cs : List Nat) (turns : Nat) (f : InFile), cs.length ≤ k → cs.length < turns → (∀ c ∈ pre, Scalar c) →
    (∀ c ∈ cs, Scalar c ∧ c ≠ 0 ∧ c ≠ 0x5c) → (∀ xs ys, pre ++ cs ≠ xs ++ 0x5d :: 0x5d :: 0x3e :: ys) → Holds f (cs ++ [0x5d, 0x5d, 0x3e] ++ rest) →
    ∃ g, readCdata turns (enc pre) f = .ok (enc (pre ++ cs ++ [0x5d, 0x5d, 0x3e]), g) ∧ Holds g rest := by
  induction k with
  | zero =>
    intro pre cs turns f hk ht hp hc hno hf
    obtain rfl : cs = [] := List.length_eq_zero_iff.1 (by omega)
    obtain ⟨t, rfl⟩ : ∃ t, turns = t + 1 := ⟨turns - 1, by omega⟩
    have hn : ¬ cdataEnd.isSuffixOf (enc pre) = true := by
      rw [ends_cdata hp]
      rintro ⟨ds, rfl⟩
      exact hno ds [] (by simp)
    obtain ⟨g, h1, h2⟩ := block_ok (ds := [0x5d, 0x5d]) (cs := rest) (f := f)
      (by intro c hc; simp only [List.mem_cons, List.not_mem_nil, or_false] at hc; exact ⟨.inl (by omega), by omega, by omega, by omega⟩) (by simpa using hf)
    refine ⟨g, ?_, h2⟩
    have hy : cdataEnd.isSuffixOf (enc (pre ++ [] ++ [0x5d, 0x5d, 0x3e])) = true := by
      rw [List.append_nil, enc_append]
      exact List.isSuffixOf_iff_suffix.2 ⟨enc pre, rfl⟩
    rw [readCdata, if_neg hn]
    simp only [h1, Res.bind_ok]
    have e : enc pre ++ (enc (0x3c :: [0x5d, 0x5d] ++ [0x3e])).drop 1 = enc (pre ++ [] ++ [0x5d, 0x5d, 0x3e]) := by
      rw [List.append_nil, enc_append pre]; rfl
    rw [e]
    cases t <;> simp only [readCdata, hy, if_true]
  | succ k ih =>
    intro pre cs turns f hk ht hp hc hno hf
    obtain ⟨t, rfl⟩ : ∃ t, turns = t + 1 := ⟨turns - 1, by omega⟩
    have hn : ¬ cdataEnd.isSuffixOf (enc pre) = true := by
      rw [ends_cdata hp]
      rintro ⟨ds, rfl⟩
      exact hno ds cs (by simp)
    have hdrop : ∀ ds : List Nat, (enc (0x3c :: ds ++ [0x3e])).drop 1 = enc (ds ++ [0x3e]) := by
      intro ds
      rw [List.cons_append, show enc (0x3c :: (ds ++ [0x3e])) = utf16 0x3c ++ enc (ds ++ [0x3e]) from rfl]
      rfl
    rcases first_close cs with hcl | ⟨ds, es, rfl, hcl⟩
    · obtain ⟨g, h1, h2⟩ := block_ok (ds := cs ++ [0x5d, 0x5d]) (cs := rest) (f := f)
        (by
          intro c h
          rcases List.mem_append.1 h with h | h
          · exact ⟨(hc c h).1, (hc c h).2.1, (hc c h).2.2, hcl c h⟩
          · simp only [List.mem_cons, List.not_mem_nil, or_false] at h; exact ⟨.inl (by omega), by omega, by omega, by omega⟩) (by simpa using hf)
      refine ⟨g, ?_, h2⟩
      have hy : cdataEnd.isSuffixOf (enc (pre ++ cs ++ [0x5d, 0x5d, 0x3e])) = true := by
        rw [enc_append]
        exact List.isSuffixOf_iff_suffix.2 ⟨enc (pre ++ cs), rfl⟩
      rw [readCdata, if_neg hn]
      simp only [h1, Res.bind_ok, hdrop]
      have e : enc pre ++ enc (cs ++ [0x5d, 0x5d] ++ [0x3e]) = enc (pre ++ cs ++ [0x5d, 0x5d, 0x3e]) := by
        rw [← enc_append]; simp
      rw [e]
      cases t <;> simp only [readCdata, hy, if_true]
    · obtain ⟨g, h1, h2⟩ := block_ok (ds := ds) (cs := es ++ [0x5d, 0x5d, 0x3e] ++ rest) (f := f)
        (by intro c h; exact ⟨(hc c (by simp [h])).1, (hc c (by simp [h])).2.1, (hc c (by simp [h])).2.2, hcl c h⟩) (by simpa using hf)
      obtain ⟨g', h3, h4⟩ := ih (pre ++ ds ++ [0x3e]) es t g (by simp at hk; omega) (by simp at ht; omega)
        (by
          intro c h
          simp only [List.mem_append, List.mem_cons, List.not_mem_nil, or_false] at h
          rcases h with (h | h) | h
          · exact hp c h
          · exact (hc c (by simp [h])).1
          · exact .inl (by omega))
        (fun c h => hc c (by simp [h])) (by
          intro xs ys e
          exact hno xs ys (by rw [← e]; simp)) h2
      refine ⟨g', ?_, h4⟩
      rw [readCdata, if_neg hn]
      simp only [h1, Res.bind_ok, hdrop]
      have e : enc pre ++ enc (ds ++ [0x3e]) = enc (pre ++ ds ++ [0x3e]) := by rw [← enc_append]; simp
      rw [e, h3]
      simp

theorem no_end {cs : List Nat} (h : ∀ xs ys, cs ≠ xs ++ 0x5d :: 0x5d :: 0x3e :: ys) : ∀ xs ys, opening ++ cs ≠ xs ++ 0x5d :: 0x5d :: 0x3e :: ys := by
  intro xs ys e
  unfold opening at e
  rcases xs with _ | ⟨_, _ | ⟨_, _ | ⟨_, _ | ⟨_, _ | ⟨_, _ | ⟨_, _ | ⟨_, _ | ⟨_, _ | ⟨_, xs⟩⟩⟩⟩⟩⟩⟩⟩⟩
  all_goals try (simp at e; done)
  · simp only [List.cons_append, List.nil_append, List.cons.injEq] at e
    exact h xs ys e.2.2.2.2.2.2.2.2.2

/-- A section after its first `<`. -/
theorem section_ok {n : Nat} {cs rest : List Nat} {f : InFile} (hc : ∀ c ∈ cs, Scalar c ∧ c ≠ 0 ∧ c ≠ 0x5c) (hno : ∀ xs ys, cs ≠ xs ++ 0x5d :: 0x5d :: 0x3e :: ys)
    (hn : cs.length < n) (hf : Holds f ([0x21, 0x5b, 0x43, 0x44, 0x41, 0x54, 0x41, 0x5b] ++ cs ++ [0x5d, 0x5d, 0x3e] ++ rest)) :
    ∃ t g g', readBlock '<'.toNat '>'.toNat f = .ok (t, g) ∧ cdataStart.isPrefixOf t = true ∧ readCdata n t g = .ok (enc (Piece.text (.cdata cs)), g') ∧ Holds g' rest := by
  have hstart : ∀ d ∈ [0x21, 0x5b, 0x43, 0x44, 0x41, 0x54, 0x41, 0x5b], d < 0xd800 ∧ d ≠ 0 ∧ d ≠ 0x5c ∧ d ≠ 0x3e := by decide
  have hpre : ∀ ds : List Nat, cdataStart.isPrefixOf (enc (0x3c :: ([0x21, 0x5b, 0x43, 0x44, 0x41, 0x54, 0x41, 0x5b] ++ ds) ++ [0x3e])) = true := by
    intro ds
    rw [List.isPrefixOf_iff_prefix]
    refine ⟨enc (ds ++ [0x3e]), ?_⟩
    rw [show 0x3c :: ([0x21, 0x5b, 0x43, 0x44, 0x41, 0x54, 0x41, 0x5b] ++ ds) ++ [0x3e] = [0x3c, 0x21, 0x5b, 0x43, 0x44, 0x41, 0x54, 0x41, 0x5b] ++ (ds ++ [0x3e]) by simp, enc_append [0x3c, 0x21, 0x5b, 0x43, 0x44, 0x41, 0x54, 0x41, 0x5b]]
    rfl
  rcases first_close cs with hcl | ⟨ds, es, rfl, hcl⟩
  · obtain ⟨g, h1, h2⟩ := block_ok (ds := [0x21, 0x5b, 0x43, 0x44, 0x41, 0x54, 0x41, 0x5b] ++ (cs ++ [0x5d, 0x5d])) (cs := rest) (f := f)
      (by
        intro c h
        rcases List.mem_append.1 h with h | h
        · have := hstart c h; exact ⟨.inl this.1, this.2⟩
        · rcases List.mem_append.1 h with h | h
          · exact ⟨(hc c h).1, (hc c h).2.1, (hc c h).2.2, hcl c h⟩
          · simp only [List.mem_cons, List.not_mem_nil, or_false] at h; exact ⟨.inl (by omega), by omega, by omega, by omega⟩) (by simpa using hf)
    refine ⟨_, g, g, h1, hpre _, ?_, h2⟩
    have e : 0x3c :: ([0x21, 0x5b, 0x43, 0x44, 0x41, 0x54, 0x41, 0x5b] ++ (cs ++ [0x5d, 0x5d])) ++ [0x3e] = Piece.text (.cdata cs) := by simp [Piece.text]
    rw [e]
    have hy : cdataEnd.isSuffixOf (enc (Piece.text (.cdata cs))) = true := by
      unfold Piece.text
      rw [enc_append]
      exact List.isSuffixOf_iff_suffix.2 ⟨_, rfl⟩
    cases n <;> simp only [readCdata, hy, if_true]
  · obtain ⟨g, h1, h2⟩ := block_ok (ds := [0x21, 0x5b, 0x43, 0x44, 0x41, 0x54, 0x41, 0x5b] ++ ds) (cs := es ++ [0x5d, 0x5d, 0x3e] ++ rest) (f := f)
      (by
        intro c h
        rcases List.mem_append.1 h with h | h
        · have := hstart c h; exact ⟨.inl this.1, this.2⟩
        · exact ⟨(hc c (by simp [h])).1, (hc c (by simp [h])).2.1, (hc c (by simp [h])).2.2, hcl c h⟩) (by simpa using hf)
    have e : 0x3c :: ([0x21, 0x5b, 0x43, 0x44, 0x41, 0x54, 0x41, 0x5b] ++ ds) ++ [0x3e] = opening ++ (ds ++ [0x3e]) := by simp [opening]
    obtain ⟨g', h3, h4⟩ := readCdata_ok es.length (opening ++ (ds ++ [0x3e])) es n g le_rfl (by simp at hn; omega)
      (by
        intro c h
        simp only [opening, List.mem_append, List.mem_cons, List.not_mem_nil, or_false] at h
        rcases h with h | h | h
        · exact .inl (by omega)
        · exact (hc c (by simp [h])).1
        · exact .inl (by omega))
      (fun c h => hc c (by simp [h]))
      (by
        have := no_end hno
        intro xs ys e'
        exact this xs ys (by rw [← e']; simp)) h2
    refine ⟨_, g, g', h1, hpre _, ?_, h4⟩
    rw [e, h3]
    congr 3
    simp [Piece.text, opening]

/-! ## Where the processor is -/

def blanksOf (ps : List Piece) : List UString := ps.flatMap Piece.blank

theorem blanksOf_append (ps qs : List Piece) : blanksOf (ps ++ qs) = blanksOf ps ++ blanksOf qs := by simp [blanksOf]

/-- The values `old` and the pieces `cur` were read, the pieces `pend` were read and put back, the pieces `rest` were not read. -/
structure At (a : An) (old : List Int) (cur pend rest : List Piece) : Prop where
  rep : Rep a.buf ⟨old ++ vals (cur ++ pend), old.length + cur.length, []⟩ []
  size : a.buf.size = 2048
  inp : Holds a.inp (rest.flatMap Piece.text)
  blanks : a.blanks = blanksOf (cur ++ pend)

theorem isEmpty_pend {a : An} {old : List Int} {cur pend rest : List Piece} (h : At a old cur pend rest) : Buffer.isEmpty a.buf = decide (pend = []) := by
  rw [rep_isEmpty h.rep]
  simp only [List.length_append, vals_length]
  rw [decide_eq_decide]
  constructor
  · intro e
    exact List.length_eq_zero_iff.1 (by omega)
  · rintro rfl; simp

theorem next_pos {T : Type} {b b' : Buffer T} {v : T} (h : Buffer.next b = .ok (v, b')) (he : Buffer.isEmpty b = false) : 0 < b'.currentpos := by
  unfold Buffer.next at h
  unfold Buffer.isEmpty at he
  rw [if_pos (by simpa using he)] at h
  simp only at h
  rw [Res.bind_eq_ok] at h
  obtain ⟨w, -, h2⟩ := h
  simp only [Res.pure_eq, Res.ok.injEq, Prod.mk.injEq] at h2
  rw [← h2.2]
  simp

theorem add_pos {T : Type} (v : T) (b : Buffer T) : 0 < (Buffer.add v b).currentpos := by simp [Buffer.add]

/-- Reading a piece. -/
theorem At.read {n : Nat} {a : An} {old : List Int} {cur pend rest : List Piece} {p : Piece} {qs : List Piece}
    (h : At a old cur pend rest) (e : pend ++ rest = p :: qs) (hp : p.Ok) (hn : p.text.length ≤ n) :
    ∃ a' pend' rest', readSAO n a = .ok ((p.val : Int), a') ∧ At a' old (cur ++ [p]) pend' rest' ∧ pend' ++ rest' = qs ∧ a'.out = a.out ∧
      0 < a'.buf.currentpos ∧ (cur ++ [p] ++ pend' = cur ++ pend ∨ pend = [] ∧ pend' = []) := by
  cases pend with
  | cons p' pend =>
    simp only [List.cons_append, List.cons.injEq] at e
    obtain ⟨rfl, rfl⟩ := e
    have hv : (old ++ vals (cur ++ p' :: pend))[old.length + cur.length]? = some (p'.val : Int) := by
      rw [List.getElem?_append_right (by omega), vals_append, List.getElem?_append_right (by rw [vals_length]; omega), vals_length]
      simp [vals]
    obtain ⟨b', e1, h1, h2⟩ := rep_next h.rep hv
    have e3 : cur ++ [p'] ++ pend = cur ++ p' :: pend := by simp
    have hem := isEmpty_pend h
    refine ⟨{ a with buf := b' }, pend, rest, ?_, ⟨?_, h2.trans h.size, h.inp, ?_⟩, rfl, rfl, next_pos e1 (by rw [hem]; rfl), .inl e3⟩
    · unfold readSAO
      rw [hem]
      simp only [reduceCtorEq, decide_false, Bool.not_false, if_true, e1, Res.bind_ok]
      rfl
    · rw [e3]
      simpa [Nat.add_assoc] using h1
    · rw [e3]; exact h.blanks
  | nil =>
    rw [List.nil_append] at e
    subst e
    have hin := h.inp
    rw [List.flatMap_cons] at hin
    have hadd := fun v : Int => rep_add h.rep v
    have hemp : (!Buffer.isEmpty a.buf) = false := by rw [isEmpty_pend h]; rfl
    have fin : ∀ (f : InFile) (bl : List UString), p.blank = bl → Holds f (qs.flatMap Piece.text) →
        At { a with inp := f, blanks := a.blanks ++ bl, buf := Buffer.add (p.val : Int) a.buf } old (cur ++ [p]) [] qs := by
      intro f bl hb hh
      obtain ⟨k1, k2⟩ := hadd (p.val : Int)
      refine ⟨?_, k2.trans h.size, hh, ?_⟩
      · simp only [List.append_nil, vals_append] at k1 ⊢
        have : vals [p] = [(p.val : Int)] := rfl
        rw [this, ← List.append_assoc]
        simpa [vals_length, Nat.add_assoc] using k1
      · simp only [h.blanks, List.append_nil, blanksOf_append]
        rw [← hb]
        simp [blanksOf]
    cases p with
    | ch c =>
      obtain ⟨c1, c2, c3⟩ := hp
      obtain ⟨g, e1, e2, -⟩ := Holds.get (f := a.inp) (c := c) (cs := qs.flatMap Piece.text) hin
      refine ⟨_, [], qs, ?_, fin g [] rfl e2, rfl, rfl, add_pos _ _, .inr ⟨rfl, rfl⟩⟩
      unfold readSAO
      rw [hemp]
      simp only [Bool.false_eq_true, if_false, e1, Res.bind_ok, e2.eof]
      rw [if_neg (show (c : Int) ∉ escaped from c3)]
      simp [Piece.val]
    | esc c =>
      obtain ⟨g, e1, e2, -⟩ := Holds.get (f := a.inp) (c := 0x5c) (cs := c :: qs.flatMap Piece.text) hin
      obtain ⟨g', e3, e4, -⟩ := e2.get
      refine ⟨_, [], qs, ?_, fin g' [] rfl e4, rfl, rfl, add_pos _ _, .inr ⟨rfl, rfl⟩⟩
      unfold readSAO
      rw [hemp]
      simp only [Bool.false_eq_true, if_false, e1, Res.bind_ok, e2.eof]
      rw [if_pos (by decide), if_neg (by decide), if_pos (by decide)]
      simp only [e3, Res.bind_ok]
      rw [if_pos (show (c : Int) ∈ escaped from hp)]
      simp [Piece.val]
    | cdata cs =>
      obtain ⟨g, e1, e2, -⟩ := Holds.get (f := a.inp) (c := 0x3c) (cs := [0x21, 0x5b, 0x43, 0x44, 0x41, 0x54, 0x41, 0x5b] ++ cs ++ [0x5d, 0x5d, 0x3e] ++ qs.flatMap Piece.text)
        (by simpa [Piece.text] using hin)
      obtain ⟨t, g1, g2, e3, e4, e5, e6⟩ := section_ok (n := n) hp.1 hp.2 (by simp [Piece.text] at hn; omega) e2
      refine ⟨_, [], qs, ?_, fin g2 _ rfl e6, rfl, rfl, add_pos _ _, .inr ⟨rfl, rfl⟩⟩
      unfold readSAO
      rw [hemp]
      simp only [Bool.false_eq_true, if_false, e1, Res.bind_ok, e2.eof]
      rw [if_pos (by decide), if_pos (by decide)]
      simp only [e3, Res.bind_ok, e4, if_true, e5]
      simp [Piece.val, Piece.blank]

end Verif.Sao
