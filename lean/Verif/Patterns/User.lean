import Verif.Patterns.Ends
import Verif.Alphabet.Lemmas

/-! # Lists of patterns as their users make them -/

namespace Verif.Patterns

open Verif.Fst
open Verif.Pattern (dotted tagCount tagAt C60_count C60_at)
open Verif.Alphabet (Ok Ext HasTag)

variable {W : Type} [Zero W]

/-! ## What is to be stored -/

/-- A lemma, with `*` for any characters, and tags, `*` for any tags; no lemma or no tags for any. -/
abbrev Item := UString × List UString

/-- The symbol for a tag. -/
def tagSym (a : Alphabet) (t : UString) : Int := if t = [0x2a] then a.symCode ANY_TAG else a.symCode ([0x3c] ++ t ++ [0x3e])

/-- The symbols for a lemma with tags. -/
def itemSyms (a : Alphabet) (it : Item) : List Int :=
  (if it.1 = [] then [a.symCode ANY_CHAR] else it.1.map fun u => if u = 0x2a then a.symCode ANY_CHAR else (u.toNat : Int)) ++
  (if it.2 = [] then [a.symCode ANY_TAG] else it.2.map (tagSym a))

/-- Joined with `+`. -/
def joined : List (List Int) → List Int
  | [] => []
  | [x] => x
  | x :: xs => x ++ 0x2b :: joined xs

/-- The whole pattern: the items joined, and a queue. -/
def vector (a : Alphabet) (its : List Item) : List Int := joined (its.map (itemSyms a)) ++ [a.symCode QUEUE]

/-- What a user puts into the list: a number with a lemma and tags, or a number with a sequence of them. -/
inductive Op where
  | word (id : Int) (it : Item)
  | sequence (id : Int) (its : List Item)

/-- The number and the items. -/
def Op.entry : Op → Int × List Item
  | .word id it => (id, [it])
  | .sequence id its => (id, its)

/-- `insert(id, lemma, tags)` for all items. -/
def insertItems (id : Int) : List Item → PatternList W → Res (PatternList W)
  | [], l => .ok l
  | it :: its, l => do insertItems id its (← insert id it.1 (dotted it.2) l)

/-- The calls that a user makes. -/
def Op.perform : Op → PatternList W → Res (PatternList W)
  | .word id it, l => insert id it.1 (dotted it.2) l
  | .sequence id its, l => do endSequence (← insertItems id its (← beginSequence l))

def performAll : List Op → PatternList W → Res (PatternList W)
  | [], l => .ok l
  | o :: os, l => do performAll os (← o.perform l)

/-- Tags without dots, the first one not empty, and none with the name of a mark. -/
def Item.Fine (it : Item) : Prop :=
  (∀ t ∈ it.2, 0x2e ∉ t ∧ [0x3c] ++ t ++ [0x3e] ≠ ANY_CHAR ∧ [0x3c] ++ t ++ [0x3e] ≠ QUEUE) ∧ it.2.head? ≠ some []

/-! ## The alphabet -/

/-- The three marks are in the alphabet. -/
structure Marks (a : Alphabet) (c : Codes) : Prop where
  tag : HasTag a c.tag ANY_TAG
  char : HasTag a c.char ANY_CHAR
  queue : HasTag a c.queue QUEUE

theorem Marks.mono {a b : Alphabet} {c : Codes} (h : Marks a c) (he : Ext a b) : Marks b c := ⟨h.tag.mono he, h.char.mono he, h.queue.mono he⟩

theorem Marks.codes {a : Alphabet} {c : Codes} (hok : Ok a) (h : Marks a c) : a.symCode ANY_CHAR = c.char ∧ a.symCode ANY_TAG = c.tag ∧ a.symCode QUEUE = c.queue :=
  ⟨Alphabet.symCode_of_hasTag hok h.char, Alphabet.symCode_of_hasTag hok h.tag, Alphabet.symCode_of_hasTag hok h.queue⟩

theorem Marks.codesOf {a : Alphabet} {c : Codes} (hok : Ok a) (h : Marks a c) : codesOf a = c := by
  obtain ⟨h1, h2, h3⟩ := h.codes hok
  unfold Patterns.codesOf
  rw [h1, h2, h3]

theorem Marks.ok {a : Alphabet} {c : Codes} (h : Marks a c) : c.Ok := by
  refine ⟨h.char.neg, h.tag.neg, h.queue.neg, fun e => ?_, fun e => ?_, fun e => ?_⟩
  · have := (e ▸ h.char).tag_unique h.tag; exact absurd this (by decide)
  · have := (e ▸ h.char).tag_unique h.queue; exact absurd this (by decide)
  · have := (e ▸ h.tag).tag_unique h.queue; exact absurd this (by decide)

/-- The tags of the item are in the alphabet. -/
def Known (a : Alphabet) (it : Item) : Prop := ∀ t ∈ it.2, t ≠ [0x2a] → ∃ k, HasTag a k ([0x3c] ++ t ++ [0x3e])

theorem Known.mono {a b : Alphabet} {it : Item} (h : Known a it) (he : Ext a b) : Known b it := by
  intro t ht hn
  obtain ⟨k, hk⟩ := h t ht hn
  exact ⟨k, hk.mono he⟩

theorem tagSym_mono {a b : Alphabet} {c : Codes} (ha : Ok a) (hb : Ok b) (he : Ext a b) (hm : Marks a c) {t : UString}
    (hk : t ≠ [0x2a] → ∃ k, HasTag a k ([0x3c] ++ t ++ [0x3e])) : tagSym b t = tagSym a t := by
  unfold tagSym
  split
  · rw [(hm.codes ha).2.1, ((hm.mono he).codes hb).2.1]
  · next h =>
    obtain ⟨k, hk⟩ := hk h
    rw [Alphabet.symCode_of_hasTag ha hk, Alphabet.symCode_of_hasTag hb (hk.mono he)]

theorem itemSyms_mono {a b : Alphabet} {c : Codes} (ha : Ok a) (hb : Ok b) (he : Ext a b) (hm : Marks a c) {it : Item} (hk : Known a it) :
    itemSyms b it = itemSyms a it := by
  obtain ⟨h1, h2, -⟩ := hm.codes ha
  obtain ⟨g1, g2, -⟩ := (hm.mono he).codes hb
  unfold itemSyms
  rw [h1, h2, g1, g2]
  congr 1
  split
  · rfl
  · exact List.map_congr_left fun t ht => tagSym_mono ha hb he hm (hk t ht)

theorem vector_mono {a b : Alphabet} {c : Codes} (ha : Ok a) (hb : Ok b) (he : Ext a b) (hm : Marks a c) {its : List Item} (hk : ∀ it ∈ its, Known a it) :
    vector b its = vector a its := by
  unfold vector
  rw [(hm.codes ha).2.2, ((hm.mono he).codes hb).2.2]
  congr 2
  exact List.map_congr_left fun it hit => itemSyms_mono ha hb he hm (hk it hit)

/-! ## The operations -/

theorem tagSymbols_ok {c : Codes} {ts : List UString} (hd : ∀ t ∈ ts, 0x2e ∉ t) (h0 : ts.head? ≠ some []) :
    ∀ (n i : Nat) (a : Alphabet), i + n = ts.length → Ok a → Marks a c →
      ∃ a', tagSymbols (dotted ts) n i a = .ok (a', (ts.drop i).map (tagSym a')) ∧ Ok a' ∧ Ext a a' ∧
        ∀ t ∈ ts.drop i, t ≠ [0x2a] → ∃ k, HasTag a' k ([0x3c] ++ t ++ [0x3e]) := by
  intro n
  induction n with
  | zero =>
    intro i a hi ha hm
    have : ts.drop i = [] := List.drop_eq_nil_of_le (by omega)
    exact ⟨a, by rw [this]; rfl, ha, .refl a, by rw [this]; simp⟩
  | succ n ih =>
    intro i a hi ha hm
    have hlt : i < ts.length := by omega
    have hdrop : ts.drop i = ts[i] :: ts.drop (i + 1) := List.drop_eq_getElem_cons hlt
    have hat : tagAt (dotted ts) (i : Int) = .ok ts[i] := by
      rw [C60_at ts hd (fun _ => h0) i, List.getD_eq_getElem _ _ hlt]
    have hstar : ([0x3c] ++ ts[i] ++ [0x3e] = ([0x3c, 0x2a, 0x3e] : UString)) ↔ ts[i] = [0x2a] := by
      constructor
      · intro h
        have : ([0x3c] ++ ts[i] ++ [0x3e] : UString) = [0x3c] ++ [0x2a] ++ [0x3e] := h
        exact List.append_cancel_left (List.append_cancel_right this)
      · intro h; rw [h]; rfl
    have hcast : ((i : Int) + 1) = ((i + 1 : Nat) : Int) := by push_cast; rfl
    rw [tagSymbols, hat]
    simp only [Res.bind_ok]
    rw [hcast]
    by_cases hs : ts[i] = [0x2a]
    · rw [if_pos (hstar.2 hs), if_pos (hstar.2 hs)]
      obtain ⟨a', g1, g2, g3, g4⟩ := ih (i + 1) a (by omega) ha hm
      refine ⟨a', ?_, g2, g3, ?_⟩
      · rw [g1, hdrop]
        simp only [Res.bind_ok, Res.pure_eq, List.map_cons]
        rw [tagSym, if_pos hs, (hm.codes ha).2.1, ((hm.mono g3).codes g2).2.1]
      · rw [hdrop]
        intro t ht hn
        rcases List.mem_cons.1 ht with rfl | ht
        · exact absurd hs hn
        · exact g4 t ht hn
    · rw [if_neg (fun h => hs (hstar.1 h)), if_neg (fun h => hs (hstar.1 h))]
      obtain ⟨j1, j2, ⟨k, j3⟩, -⟩ := Alphabet.includeSymbol_spec ha ([0x3c] ++ ts[i] ++ [0x3e])
      obtain ⟨a', g1, g2, g3, g4⟩ := ih (i + 1) _ (by omega) j1 (hm.mono j2)
      refine ⟨a', ?_, g2, j2.trans g3, ?_⟩
      · rw [g1, hdrop]
        simp only [Res.bind_ok, Res.pure_eq, List.map_cons]
        rw [tagSym, if_neg hs, Alphabet.symCode_of_hasTag j1 j3, Alphabet.symCode_of_hasTag g2 (j3.mono g3)]
      · rw [hdrop]
        intro t ht hn
        rcases List.mem_cons.1 ht with rfl | ht
        · exact ⟨k, j3.mono g3⟩
        · exact g4 t ht hn

theorem dotted_ne {ts : List UString} (hne : ts ≠ []) (h0 : ts.head? ≠ some []) : dotted ts ≠ [] := by
  cases ts with
  | nil => exact absurd rfl hne
  | cons t ts =>
    have ht : t ≠ [] := by simpa using h0
    cases ts with
    | nil => simpa [dotted] using ht
    | cons u ts => rw [dotted] <;> simp

theorem wordSymbols_ok {c : Codes} {it : Item} (hf : it.Fine) {a : Alphabet} (ha : Ok a) (hm : Marks a c) :
    ∃ a', wordSymbols it.1 (dotted it.2) a = .ok (a', itemSyms a' it) ∧ Ok a' ∧ Ext a a' ∧ Known a' it := by
  obtain ⟨hf, h0⟩ := hf
  unfold wordSymbols lemmaSymbols itemSyms
  by_cases hne : it.2 = []
  · refine ⟨a, ?_, ha, .refl a, ?_⟩
    · rw [hne]
      simp [dotted]
    · intro t ht; rw [hne] at ht; cases ht
  · rw [if_neg (dotted_ne hne h0)]
    have hcount : (tagCount (dotted it.2)).toNat = it.2.length := by
      rw [C60_count it.2 (fun t ht => (hf t ht).1) (by simpa using hne) h0]; simp
    rw [hcount]
    obtain ⟨a', g1, g2, g3, g4⟩ := tagSymbols_ok (c := c) (fun t ht => (hf t ht).1) h0 it.2.length 0 a (by simp) ha hm
    rw [List.drop_zero] at g1 g4
    rw [Nat.cast_zero] at g1
    refine ⟨a', ?_, g2, g3, g4⟩
    rw [g1]
    simp only [Res.bind_ok, Res.pure_eq]
    rw [if_neg hne, (hm.codes ha).1, ((hm.mono g3).codes g2).1]

theorem joined_snoc : ∀ (xs : List (List Int)) (x : List Int), xs ≠ [] → joined (xs ++ [x]) = joined xs ++ [0x2b] ++ x
  | [], _, h => absurd rfl h
  | [y], x, _ => by simp [joined]
  | y :: z :: xs, x, _ => by
    have := joined_snoc (z :: xs) x (by simp)
    have e1 : joined (y :: z :: xs ++ [x]) = y ++ 0x2b :: joined (z :: xs ++ [x]) := rfl
    have e2 : joined (y :: z :: xs) = y ++ 0x2b :: joined (z :: xs) := rfl
    rw [e1, e2, this]; simp

theorem mem_multiInsert {id : Int} {v : List Int} {m : List (Int × List Int)} {e : Int × List Int} : e ∈ multiInsert id v m ↔ e = (id, v) ∨ e ∈ m := by
  induction m with
  | nil => simp [multiInsert]
  | cons f m ih =>
    rw [multiInsert]
    split
    · rw [List.mem_cons, ih, List.mem_cons]; tauto
    · simp

theorem sorted_multiInsert {id : Int} {v : List Int} {m : List (Int × List Int)} (h : m.Pairwise fun a b => a.1 ≤ b.1) :
    (multiInsert id v m).Pairwise fun a b => a.1 ≤ b.1 := by
  induction m with
  | nil => simp [multiInsert]
  | cons f m ih =>
    rw [multiInsert]
    have h' := List.pairwise_cons.1 h
    split
    · next hle =>
      refine List.pairwise_cons.2 ⟨fun e he => ?_, ih h'.2⟩
      rcases mem_multiInsert.1 he with rfl | he
      · exact hle
      · exact h'.1 e he
    · next hle =>
      refine List.pairwise_cons.2 ⟨fun e he => ?_, h⟩
      rcases List.mem_cons.1 he with rfl | he
      · simp only; omega
      · have := h'.1 e he
        simp only; omega

/-- A list that holds what the user has put into it. -/
structure Holds (c : Codes) (l : PatternList W) (es : List (Int × List Item)) : Prop where
  ok : Ok l.alphabet
  marks : Marks l.alphabet c
  known : ∀ e ∈ es, ∀ it ∈ e.2, Known l.alphabet it
  open_ : l.sequence = false
  fresh : l.transducer = Fst.empty ∧ l.finalType = []
  sorted : l.patterns.Pairwise fun a b => a.1 ≤ b.1
  mem : ∀ id v, (id, v) ∈ l.patterns ↔ ∃ its, (id, its) ∈ es ∧ v = vector l.alphabet its

theorem insertItems_ok {c : Codes} (id : Int) : ∀ (its old : List Item) (l : PatternList W), (∀ it ∈ its, it.Fine) → Ok l.alphabet → Marks l.alphabet c → l.sequence = true →
    old ++ its ≠ [] → (∀ it ∈ old, Known l.alphabet it) → (old = [] → l.seqData = []) → (old ≠ [] → l.seqData = [joined (old.map (itemSyms l.alphabet))] ∧ l.seqId = id) →
    ∃ l', insertItems id its l = .ok l' ∧ Ok l'.alphabet ∧ Ext l.alphabet l'.alphabet ∧ (∀ it ∈ old ++ its, Known l'.alphabet it) ∧ l'.sequence = true ∧
      l'.transducer = l.transducer ∧ l'.finalType = l.finalType ∧ l'.patterns = l.patterns ∧ l'.seqId = id ∧
      l'.seqData = [joined ((old ++ its).map (itemSyms l'.alphabet))] := by
  intro its
  induction its with
  | nil =>
    intro old l _ hok hm hs hne hk h0 h1
    rw [List.append_nil] at hne ⊢
    exact ⟨l, rfl, hok, .refl _, hk, hs, rfl, rfl, rfl, (h1 hne).2, (h1 hne).1⟩
  | cons it its ih =>
    intro old l hf hok hm hs _ hk h0 h1
    obtain ⟨a', g1, g2, g3, g4⟩ := wordSymbols_ok (hf it (List.mem_cons_self ..)) hok hm
    have hstep : insert id it.1 (dotted it.2) l = .ok { l with alphabet := a', seqId := id, seqData := [joined ((old ++ [it]).map (itemSyms a'))] } := by
      unfold insert insertIntoSequence
      rw [if_pos hs]
      by_cases ho : old = []
      · rw [if_pos (h0 ho), g1, ho]
        rfl
      · obtain ⟨h1, -⟩ := h1 ho
        rw [h1, if_neg (by simp)]
        simp only [extendAll]
        rw [g1]
        simp only [Res.bind_ok, Res.pure_eq]
        rw [List.map_append, List.map_singleton, joined_snoc _ _ (by simpa using ho)]
        have : old.map (itemSyms a') = old.map (itemSyms l.alphabet) := List.map_congr_left fun it hit => itemSyms_mono hok g2 g3 hm (hk it hit)
        rw [this]
    obtain ⟨l', k1, k2, k3, k4, k5, k6, k7, k8, k9, k10⟩ := ih (old ++ [it])
      { l with alphabet := a', seqId := id, seqData := [joined ((old ++ [it]).map (itemSyms a'))] } (fun x hx => hf x (List.mem_cons_of_mem _ hx)) g2 (hm.mono g3) hs (by simp)
      (fun x hx => by
        rcases List.mem_append.1 hx with hx | hx
        · exact (hk x hx).mono g3
        · rw [List.mem_singleton.1 hx]; exact g4) (fun h => by simp at h) (fun _ => ⟨rfl, rfl⟩)
    refine ⟨l', ?_, k2, g3.trans k3, ?_, k5, k6, k7, k8, k9, ?_⟩
    · rw [insertItems, hstep]; exact k1
    · intro x hx
      exact k4 x (by simpa using hx)
    · rw [k10, List.append_assoc]; rfl

theorem perform_ok {c : Codes} {l : PatternList W} {es : List (Int × List Item)} (h : Holds c l es) {o : Op} (hf : ∀ it ∈ o.entry.2, it.Fine) (hne : o.entry.2 ≠ []) :
    ∃ l', o.perform l = .ok l' ∧ Holds c l' (es ++ [o.entry]) ∧ Ext l.alphabet l'.alphabet := by
  have fin : ∀ (l' : PatternList W) id its, Ok l'.alphabet → Ext l.alphabet l'.alphabet → (∀ it ∈ its, Known l'.alphabet it) → l'.sequence = false →
      l'.transducer = l.transducer → l'.finalType = l.finalType → l'.patterns = multiInsert id (vector l'.alphabet its) l.patterns → Holds c l' (es ++ [(id, its)]) := by
    intro l' id its h1 h2 h3 h4 h5 h6 h7
    refine ⟨h1, h.marks.mono h2, ?_, h4, ⟨h5.trans h.fresh.1, h6.trans h.fresh.2⟩, by rw [h7]; exact sorted_multiInsert h.sorted, ?_⟩
    · intro e he it hit
      rcases List.mem_append.1 he with he | he
      · exact (h.known e he it hit).mono h2
      · rw [List.mem_singleton.1 he] at hit; exact h3 it hit
    · intro id' v
      rw [h7, mem_multiInsert, h.mem]
      constructor
      · rintro (e | ⟨its', g1, g2⟩)
        · cases e
          exact ⟨its, by simp, rfl⟩
        · exact ⟨its', by simp [g1], by rw [g2, vector_mono h.ok h1 h2 h.marks (h.known _ g1)]⟩
      · rintro ⟨its', g1, g2⟩
        rcases List.mem_append.1 g1 with g1 | g1
        · exact .inr ⟨its', g1, by rw [g2, vector_mono h.ok h1 h2 h.marks (h.known _ g1)]⟩
        · cases List.mem_singleton.1 g1
          exact .inl (by rw [g2])
  cases o with
  | word id it =>
    obtain ⟨a', g1, g2, g3, g4⟩ := wordSymbols_ok (hf it (by simp [Op.entry])) h.ok h.marks
    refine ⟨{ l with alphabet := a', patterns := multiInsert id (itemSyms a' it ++ [a'.symCode QUEUE]) l.patterns }, ?_, ?_, g3⟩
    · unfold Op.perform insert
      simp only [h.open_, Bool.false_eq_true, if_false]
      rw [g1]
      rfl
    · refine fin _ id [it] g2 g3 ?_ h.open_ rfl rfl rfl
      intro x hx
      rw [List.mem_singleton.1 hx]; exact g4
  | sequence id its =>
    have hne : its ≠ [] := hne
    obtain ⟨l', k1, k2, k3, k4, k5, k6, k7, k8, k9, k10⟩ := insertItems_ok (c := c) id its [] { l with sequence := true, seqData := [] } hf h.ok h.marks rfl (by simpa using hne)
      (by simp) (fun _ => rfl) (fun h => absurd rfl h)
    rw [List.nil_append] at k10
    refine ⟨_, ?_, fin { l' with sequence := false, seqData := l'.seqData.map (· ++ [l'.alphabet.symCode QUEUE]), patterns := multiInsert id (vector l'.alphabet its) l.patterns } id its k2 k3 (by simpa using k4) rfl k6 k7 rfl, k3⟩
    unfold Op.perform beginSequence
    simp only [h.open_, Bool.false_eq_true, if_false, Res.bind_ok]
    rw [k1]
    simp only [Res.bind_ok]
    unfold endSequence
    rw [if_pos k5, k10, k9, k8]
    rfl

theorem performAll_ok {c : Codes} : ∀ (os : List Op) (l : PatternList W) (es : List (Int × List Item)), Holds c l es → (∀ o ∈ os, (∀ it ∈ o.entry.2, it.Fine) ∧ o.entry.2 ≠ []) →
    ∃ l', performAll os l = .ok l' ∧ Holds c l' (es ++ os.map Op.entry)
  | [], l, es, h, _ => ⟨l, rfl, by simpa using h⟩
  | o :: os, l, es, h, hf => by
    obtain ⟨l1, g1, g2, -⟩ := perform_ok h (hf o (List.mem_cons_self ..)).1 (hf o (List.mem_cons_self ..)).2
    obtain ⟨l2, k1, k2⟩ := performAll_ok os l1 _ g2 (fun o ho => hf o (List.mem_cons_of_mem _ ho))
    exact ⟨l2, by rw [performAll, g1]; exact k1, by simpa using k2⟩

theorem holds_new : ∃ c, Holds c (PatternList.new : PatternList W) [] := by
  obtain ⟨a1, a2, ⟨k1, a3⟩, -⟩ := Alphabet.includeSymbol_spec Alphabet.ok_empty ANY_TAG
  obtain ⟨b1, b2, ⟨k2, b3⟩, -⟩ := Alphabet.includeSymbol_spec a1 ANY_CHAR
  obtain ⟨c1, c2, ⟨k3, c3⟩, -⟩ := Alphabet.includeSymbol_spec b1 QUEUE
  refine ⟨⟨k2, k1, k3⟩, ⟨c1, ⟨(a3.mono b2).mono c2, b3.mono c2, c3⟩, ?_, rfl, ⟨rfl, rfl⟩, .nil, ?_⟩⟩
  · intro e he; cases he
  · intro id v
    constructor
    · intro h; cases h
    · rintro ⟨its, h, -⟩; cases h

/-! ## The patterns are tidy -/

theorem norm_last {c : Codes} (v : List Int) : (norm c v).getLast? = v.getLast? := by
  induction v using List.reverseRecOn with
  | nil => rfl
  | append_singleton v x ih =>
    rw [norm_snoc, last_snoc]
    unfold push
    split
    · next h => exact h.2
    · exact last_snoc _ _

theorem norm_head {c : Codes} (v : List Int) : (norm c v).head? = v.head? := by
  induction v using List.reverseRecOn with
  | nil => rfl
  | append_singleton v x ih =>
    rw [norm_snoc]
    unfold push
    split
    · next h =>
      rw [ih]
      rw [norm_last] at h
      cases v with
      | nil => simp at h
      | cons y v => rfl
    · rw [List.head?_append, ih, List.head?_append]

theorem norm_pair {c : Codes} {v u : List Int} {x y : Int} (h : norm c v = u ++ [x, y]) : [x, y] <:+: v := by
  induction v using List.reverseRecOn with
  | nil => simp [norm] at h
  | append_singleton v z ih =>
    rw [norm_snoc] at h
    unfold push at h
    split at h
    · exact (ih h).trans (List.prefix_append v [z]).isInfix
    · rw [snoc2] at h
      obtain ⟨h1, rfl⟩ := snoc_inj h
      have := norm_last (c := c) v
      rw [h1, last_snoc] at this
      obtain ⟨v', rfl⟩ := last_split this.symm
      exact ⟨v', [], by simp⟩

/-- The code of a tag that is not a mark for characters or for a queue. -/
def Tagged (a : Alphabet) (x : Int) : Prop := ∃ s, HasTag a x s ∧ s ≠ ANY_CHAR ∧ s ≠ QUEUE

theorem itemSyms_shape {a : Alphabet} {c : Codes} (ha : Ok a) (hm : Marks a c) {it : Item} (hf : it.Fine) (hk : Known a it) :
    ∃ xs ys, itemSyms a it = xs ++ ys ∧ xs ≠ [] ∧ ys ≠ [] ∧ (∀ x ∈ xs, ¬ Tagged a x ∧ x ≠ c.queue) ∧ ∀ y ∈ ys, Tagged a y ∧ y ≠ c.queue := by
  obtain ⟨m1, m2, -⟩ := hm.codes ha
  have hcok := hm.ok
  have hq := hcok.queue
  have hchar : ¬ Tagged a c.char ∧ c.char ≠ c.queue := ⟨fun ⟨s, h1, h2, h3⟩ => h2 (h1.tag_unique hm.char), hcok.two⟩
  have htag : Tagged a c.tag ∧ c.tag ≠ c.queue := ⟨⟨_, hm.tag, by decide, by decide⟩, hcok.three⟩
  refine ⟨_, _, rfl, ?_, ?_, ?_, ?_⟩
  · split <;> simp_all
  · split <;> simp_all
  · intro x hx
    split at hx
    · rw [List.mem_singleton.1 hx, m1]; exact hchar
    · obtain ⟨u, -, rfl⟩ := List.mem_map.1 hx
      split
      · rw [m1]; exact hchar
      · exact ⟨fun ⟨s, h1, _⟩ => by have := h1.neg; omega, by omega⟩
  · intro y hy
    split at hy
    · rw [List.mem_singleton.1 hy, m2]; exact htag
    · obtain ⟨t, ht, rfl⟩ := List.mem_map.1 hy
      unfold tagSym
      split
      · rw [m2]; exact htag
      · next hn =>
        obtain ⟨k, hk⟩ := hk t ht hn
        rw [Alphabet.symCode_of_hasTag ha hk]
        refine ⟨⟨_, hk, (hf.1 t ht).2⟩, fun e => (hf.1 t ht).2.2 ?_⟩
        rw [e] at hk
        exact hk.tag_unique hm.queue

/-- What may follow. -/
def After (a : Alphabet) (x y : Int) : Prop := Tagged a x → Tagged a y ∨ y = 0x2b

theorem chain_of_all {a : Alphabet} {xs : List Int} (h : (∀ x ∈ xs, ¬ Tagged a x) ∨ ∀ x ∈ xs, Tagged a x) : xs.IsChain (After a) := by
  induction xs with
  | nil => exact .nil
  | cons x xs ih =>
    cases xs with
    | nil => exact .singleton _
    | cons y xs =>
      refine .cons_cons ?_ (ih ?_)
      · intro hx
        rcases h with h | h
        · exact absurd hx (h x (by simp))
        · exact .inl (h y (by simp))
      · rcases h with h | h
        · exact .inl fun x hx => h x (List.mem_cons_of_mem _ hx)
        · exact .inr fun x hx => h x (List.mem_cons_of_mem _ hx)

/-- A body of items: no queue, the last symbol a tag, and after tags only tags and `+`. -/
structure Body (a : Alphabet) (c : Codes) (xs : List Int) : Prop where
  ne : xs ≠ []
  queue : c.queue ∉ xs
  last : ∀ x, xs.getLast? = some x → Tagged a x
  chain : xs.IsChain (After a)

theorem body_item {a : Alphabet} {c : Codes} (ha : Ok a) (hm : Marks a c) {it : Item} (hf : it.Fine) (hk : Known a it) : Body a c (itemSyms a it) := by
  obtain ⟨xs, ys, h1, h2, h3, h4, h5⟩ := itemSyms_shape ha hm hf hk
  rw [h1]
  refine ⟨by simp [h2], ?_, ?_, ?_⟩
  · intro h
    rcases List.mem_append.1 h with h | h
    · exact (h4 _ h).2 rfl
    · exact (h5 _ h).2 rfl
  · intro x hx
    rw [List.getLast?_append_of_ne_nil _ h3] at hx
    exact (h5 x (List.mem_of_getLast? hx)).1
  · rw [List.isChain_append]
    refine ⟨chain_of_all (.inl fun x hx => (h4 x hx).1), chain_of_all (.inr fun x hx => (h5 x hx).1), ?_⟩
    intro x hx y hy hx'
    exact absurd hx' (h4 x (List.mem_of_getLast? hx)).1

theorem body_joined {a : Alphabet} {c : Codes} (ha : Ok a) (hm : Marks a c) : ∀ (its : List Item), its ≠ [] → (∀ it ∈ its, it.Fine ∧ Known a it) →
    Body a c (joined (its.map (itemSyms a)))
  | [], h, _ => absurd rfl h
  | [it], _, h => body_item ha hm (h it (by simp)).1 (h it (by simp)).2
  | it :: it' :: its, _, h => by
    have h1 := body_item ha hm (h it (by simp)).1 (h it (by simp)).2
    have h2 := body_joined ha hm (it' :: its) (by simp) (fun x hx => h x (List.mem_cons_of_mem _ hx))
    have e : joined ((it :: it' :: its).map (itemSyms a)) = itemSyms a it ++ 0x2b :: joined ((it' :: its).map (itemSyms a)) := by
      rw [List.map_cons, List.map_cons, joined]
      simp
    rw [e]
    have hq := hm.ok.queue
    refine ⟨by simp, ?_, ?_, ?_⟩
    · intro hx
      rcases List.mem_append.1 hx with hx | hx
      · exact h1.queue hx
      · rcases List.mem_cons.1 hx with hx | hx
        · omega
        · exact h2.queue hx
    · intro x hx
      rw [List.getLast?_append_of_ne_nil _ (by simp), List.getLast?_cons_of_ne_nil h2.ne] at hx
      exact h2.last x hx
    · rw [List.isChain_append]
      refine ⟨h1.chain, ?_, ?_⟩
      · rw [List.isChain_cons]
        refine ⟨?_, h2.chain⟩
        intro y _ hx
        obtain ⟨s, hs, -⟩ := hx
        have := hs.neg
        omega
      · intro x _ y hy _
        right
        simpa using hy.symm

theorem Body.pair {a : Alphabet} {c : Codes} {xs : List Int} (h : Body a c xs) {x y : Int} (hp : [x, y] <:+: xs ++ [c.queue]) :
    x ≠ c.queue ∧ (y = c.queue → Tagged a x) ∧ (Tagged a x → y ≠ c.queue → Tagged a y ∨ y = 0x2b) := by
  obtain ⟨s, r, hsr⟩ := hp
  rcases List.eq_nil_or_concat' r with rfl | ⟨r', z, rfl⟩
  · have : (s ++ [x]) ++ [y] = xs ++ [c.queue] := by rw [← hsr]; simp
    obtain ⟨h1, h2⟩ := snoc_inj this
    subst h1
    refine ⟨fun e => h.queue (by simp [e]), fun _ => h.last x (last_snoc _ _), fun _ hy => absurd h2 hy⟩
  · have : (s ++ [x, y] ++ r') ++ [z] = xs ++ [c.queue] := by rw [← hsr]; simp
    obtain ⟨h1, -⟩ := snoc_inj this
    subst h1
    refine ⟨fun e => h.queue (by simp [e]), fun e => absurd (by simp [e]) h.queue, fun hx _ => ?_⟩
    have : [x, y].IsChain (After a) := h.chain.infix ⟨s, r', rfl⟩
    rw [List.isChain_cons_cons] at this
    exact this.1 hx

theorem tidy_bodies {a : Alphabet} {c : Codes} (hm : Marks a c) {ps : List (Int × List Int)} (h : ∀ e ∈ ps, ∃ xs, Body a c xs ∧ e.2 = xs ++ [c.queue]) : Tidy c ps := by
  have pair : ∀ u x y, Begins c ps (u ++ [x, y]) → ∃ xs, Body a c xs ∧ [x, y] <:+: xs ++ [c.queue] := by
    rintro u x y ⟨e, he, v, hv, hu⟩
    obtain ⟨xs, h1, h2⟩ := h e he
    rw [h2] at hv
    exact ⟨xs, h1, (norm_pair hu.symm).trans hv.isInfix⟩
  have one : ∀ u y, ¬ Begins c ps (u ++ [c.queue, y]) := by
    intro u y hb
    obtain ⟨xs, h1, h2⟩ := pair u _ _ hb
    exact (h1.pair h2).1 rfl
  refine ⟨fun u y hb => absurd hb (one u y), fun u y h1 h2 hy => ⟨?_, one u y⟩⟩
  rcases List.eq_nil_or_concat' u with rfl | ⟨u', x, rfl⟩
  · exfalso
    obtain ⟨e, he, v, hv, hu⟩ := h1
    obtain ⟨xs, k1, k2⟩ := h e he
    have hh := norm_head (c := c) v
    rw [← hu] at hh
    rw [k2] at hv
    obtain ⟨r, hr⟩ := hv
    cases v with
    | nil => simp at hh
    | cons z v =>
      simp only [List.nil_append, List.head?_cons, Option.some.injEq] at hh
      cases xs with
      | nil => exact k1.ne rfl
      | cons x xs =>
        simp only [List.cons_append, List.cons.injEq] at hr
        exact k1.queue (by rw [hh, hr.1]; simp)
  · obtain ⟨xs, k1, k2⟩ := pair u' x c.queue (by rw [snoc2]; exact h1)
    obtain ⟨xs', j1, j2⟩ := pair u' x y (by rw [snoc2]; exact h2)
    have hx := (k1.pair k2).2.1 rfl
    unfold Opener
    rcases (j1.pair j2).2.2 hx hy.2.2 with ⟨s, hs, -⟩ | rfl
    · have := hs.neg
      omega
    · omega

theorem Holds.tidy {c : Codes} {l : PatternList W} {es : List (Int × List Item)} (h : Holds c l es) (hf : ∀ e ∈ es, (∀ it ∈ e.2, it.Fine) ∧ e.2 ≠ []) : Tidy c l.patterns := by
  apply tidy_bodies h.marks
  intro e he
  obtain ⟨its, h1, h2⟩ := (h.mem e.1 e.2).1 he
  refine ⟨_, body_joined h.ok h.marks its (hf _ h1).2 (fun it hit => ⟨(hf _ h1).1 it hit, h.known _ h1 it hit⟩), ?_⟩
  rw [h2, vector, (h.marks.codes h.ok).2.2]

end Verif.Patterns
