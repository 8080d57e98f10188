import Verif.Tmx.Units

/-! # C88, C89: translation memories -/

namespace Verif.Tmx

open Verif.Fst Verif.Tools
open Verif.Unified (Pairs)
open Verif.Compression (Dbl)

variable {ch : Chars}

/-- **C88** `numberLength` gives the length of the longest number at that place, and 0 if no number begins there. -/
theorem C88_longest (v : List Int) :
    (∃ d r, v = d ++ r ∧ Leads ch d r ∧ numberLength ch v = d.length) ∨ (numberLength ch v = 0 ∧ ∀ d r, v = d ++ r → ¬ IsNumber ch d) := by
  cases v with
  | nil =>
    refine .inr ⟨rfl, ?_⟩
    rintro d r e ⟨⟨c, d', rfl, -⟩, -⟩
    cases e
  | cons c v =>
    cases hc : ch.isDigit c with
    | true =>
      obtain ⟨d, r, h1, h2⟩ := exists_leads hc v
      exact .inl ⟨d, r, h1, h2, by rw [h1, numberLength_leads h2]⟩
    | false =>
      by_cases h0 : numberLength ch (c :: v) = 0
      · refine .inr ⟨h0, ?_⟩
        rintro d r e ⟨⟨x, d', rfl, hx⟩, -⟩
        cases e
        rw [hc] at hx
        cases hx
      · exact absurd (numberLength_symbol hc v) h0

theorem exists_first {ns : List (List Int)} {d : List Int} (h : d ∈ ns) : ∃ k, First ns d k := by
  have hx : ∃ k, ns[k]? = some d := List.mem_iff_getElem?.1 h
  classical
  exact ⟨Nat.find hx, Nat.find_spec hx, fun j hj => Nat.find_min hx hj⟩

theorem told_known {ns : List (List Int)} {v : List Int} {its : List Item} (h : Items ch v its) (hk : ∀ d ∈ numbers its, d ∈ ns) (i : Nat) :
    ∃ r, Told ch ns i v (some r) ∧ Referred ns its r := by
  induction h generalizing i with
  | nil => exact ⟨[], .nil i, .nil⟩
  | @sym c v its hc _ ih =>
    obtain ⟨r, h1, h2⟩ := ih hk (i + 1)
    exact ⟨c :: r, .sym hc h1, .sym h2⟩
  | @num d v its hl _ ih =>
    obtain ⟨k, hk1⟩ := exists_first (hk d (List.mem_cons_self ..))
    obtain ⟨r, h1, h2⟩ := ih (fun e he => hk e (List.mem_cons_of_mem _ he)) (i + d.length)
    exact ⟨_, .known hl hk1 h1, .num hk1 h2⟩

/-- **C88** If all numbers of the target are numbers of the source, the source gets `<n>` for each of its numbers and the target a reference to the
first equal number of the source for each of its. -/
theorem C88_references {o m : List Int} {io im : List Item} (ho : Items ch o io) (hm : Items ch m im) (hk : ∀ d ∈ numbers im, d ∈ numbers io)
    (hf : Few ch o) : ∃ m', align ch o m = .ok (tagged io, m') ∧ Referred (numbers io) im m' := by
  obtain ⟨o2, m2, h1, its, r, h2, h3, h4⟩ := align_spec (ch := ch) o m hf
  obtain rfl := items_unique h2 ho
  obtain ⟨m', k1, k2⟩ := told_known hm hk 0
  obtain rfl := told_unique h3 k1
  rcases h4 with ⟨e, rfl⟩ | ⟨e, -⟩
  · cases e
    exact ⟨_, h1, k2⟩
  · cases e

theorem told_expands {ns : List (List Int)} {i : Nat} {v r : List Int} {s : Option (List Int)} (h : Told ch ns i v s) (e : s = some r) :
    ∃ ps, r = render ps ∧ Expands ns ps v := by
  have hsyms : ∀ (d : List Int) {ps : List Piece} {v : List Int}, Expands ns ps v → Expands ns (d.map .sym ++ ps) (d ++ v) := by
    intro d ps v h
    induction d with
    | nil => exact h
    | cons c d ih => exact .sym ih
  have hrender : ∀ (d : List Int) (ps : List Piece), render (d.map .sym ++ ps) = d ++ render ps := by
    intro d ps
    induction d with
    | nil => rfl
    | cons c d ih =>
      have : render ((c :: d).map .sym ++ ps) = c :: render (d.map .sym ++ ps) := rfl
      rw [this, ih]
      rfl
  induction h generalizing r with
  | nil i => cases e; exact ⟨[], rfl, .nil⟩
  | sym _ _ ih =>
    obtain ⟨r', e1, rfl⟩ := Option.map_eq_some_iff.1 e
    obtain ⟨ps, rfl, h2⟩ := ih e1
    exact ⟨.sym _ :: ps, rfl, .sym h2⟩
  | known _ hk _ ih =>
    obtain ⟨r', e1, rfl⟩ := Option.map_eq_some_iff.1 e
    obtain ⟨ps, rfl, h2⟩ := ih e1
    exact ⟨.ref _ :: ps, rfl, .ref hk.1 h2⟩
  | far => cases e
  | @near i d e' v s _ _ _ _ _ ih =>
    obtain ⟨r', e1, rfl⟩ := Option.map_eq_some_iff.1 e
    obtain ⟨ps, rfl, h2⟩ := ih e1
    exact ⟨d.map .sym ++ ps, (hrender d ps).symm, hsyms d h2⟩

/-- **C88** Whatever the numbers are: either the unit is left as it is, or the numbers of the source have become `<n>`, and the target is restored by
putting, for each reference that was made, the number of the source that it names. -/
theorem C88_restored {o m o' m' : List Int} (hf : Few ch o) (h : align ch o m = .ok (o', m')) :
    (o' = o ∧ m' = m) ∨ ∃ its ps, Items ch o its ∧ o' = tagged its ∧ m' = render ps ∧ Expands (numbers its) ps m := by
  obtain ⟨o2, m2, h1, its, r, h2, h3, h4⟩ := align_spec (ch := ch) o m hf
  rw [h] at h1
  cases h1
  rcases h4 with ⟨rfl, rfl⟩ | ⟨-, h4⟩
  · obtain ⟨ps, k1, k2⟩ := told_expands h3 rfl
    exact .inr ⟨its, ps, h2, rfl, k1, k2⟩
  · exact .inl h4

theorem told_unknown {ns : List (List Int)} {d : List Int} {im rest : List Item} (hk : ∀ e ∈ numbers im, e ∈ ns) (hd : d ∉ ns) {v : List Int} {i : Nat}
    (h : Items ch v (im ++ .num d :: rest)) (hi : d.length ≤ i + (plain im).length) : Told ch ns i v none := by
  induction im generalizing v i with
  | nil =>
    generalize e : [] ++ Item.num d :: rest = its at h
    cases h with
    | nil => cases e
    | sym => cases e
    | num hl h =>
      cases e
      exact .far hl hd (by simpa [plain] using hi)
  | cons it im ih =>
    generalize e : (it :: im) ++ Item.num d :: rest = its at h
    cases h with
    | nil => cases e
    | @sym c v its hc h =>
      cases e
      exact .sym (r := none) hc (ih hk h (by simp [plain] at hi ⊢; omega))
    | @num e' v its hl h =>
      cases e
      obtain ⟨k, hk1⟩ := exists_first (hk e' (List.mem_cons_self ..))
      exact .known (r := none) hl hk1 (ih (fun e he => hk e (List.mem_cons_of_mem _ he)) h (by simp [plain] at hi ⊢; omega))

/-- **C88** If the first number of the target that the source lacks stands at least as far from the beginning as it is long, the unit is left as it is. -/
theorem C88_unknown {o m d : List Int} {io im rest : List Item} (ho : Items ch o io) (hm : Items ch m (im ++ .num d :: rest))
    (hk : ∀ e ∈ numbers im, e ∈ numbers io) (hd : d ∉ numbers io) (hl : d.length ≤ (plain im).length) (hf : Few ch o) : align ch o m = .ok (o, m) := by
  obtain ⟨o2, m2, h1, its, r, h2, h3, h4⟩ := align_spec (ch := ch) o m hf
  obtain rfl := items_unique h2 ho
  obtain rfl := told_unique h3 (told_unknown hk hd hm (by omega))
  rcases h4 with ⟨e, -⟩ | ⟨-, rfl, rfl⟩
  · cases e
  · exact h1

/-- The digits and the space of ASCII. -/
def ascii : Chars := ⟨fun c => c = 0x20, fun c => 0x30 ≤ c ∧ c ≤ 0x39⟩

/-- **C88**, refuted: a reference does not always stand for a whole number of the target. With `4` in the source, `a1234` in the target becomes
`a123@(1)`: a number that is nearer to the beginning than it is long is copied up to a wrong place, and the rest is taken for a number of its own. -/
theorem C88_split_false : align ascii [0x34] [0x61, 0x31, 0x32, 0x33, 0x34] = .ok ([-1], [0x61, 0x31, 0x32, 0x33] ++ reference 1) := by
  decide +kernel

variable {W : Type} [AddCommMonoid W] [LinearOrder W]

/-- **C89** The file of `lt-tmxcomp` holds one section, without a name, and its pairs are just the units of the memory: all variants of a language
joined, without space at the ends, with the numbers and the marks treated, if both sides have five symbols or more. -/
theorem C89_memory (g : W → Dbl) (hg : ∀ w, Kept (g w)) {lo lm : UString} (hl : lo ≠ lm) (us : List (List Tuv)) (hu : ∀ vs ∈ us, Proper ch lo lm vs)
    (hf : Fits (parse ch W lo lm us)) : ∃ bs a t, ltTmxcomp ch g lo lm us = .ok bs ∧ Dictionary bs [] a [([], t)] ∧
      ∀ k X Y, Pairs bs k X Y ↔ k = [] ∧ ∃ o m, Remembers ch lo lm us o m ∧ X = o.map nameOf ∧ Y = m.map nameOf := by
  obtain ⟨bs, a, t, h1, h2, h3⟩ := file_spec g hg hl us hu hf
  refine ⟨bs, a, t, h1, h2, ?_⟩
  intro k X Y
  rw [Trim.pairs_iff h2]
  constructor
  · rintro ⟨t', k1, k2⟩
    rw [List.mem_singleton] at k1
    cases k1
    exact ⟨rfl, (h3 X Y).1 k2⟩
  · rintro ⟨rfl, k2⟩
    exact ⟨t, List.mem_singleton.2 rfl, (h3 X Y).2 k2⟩

/-- **C89** With the same language for both sides nothing is stored, whatever the units say. -/
theorem C89_same_language (l : UString) (us : List (List Tuv)) : parse ch W l l us = .ok (start, Fst.empty) := by
  have hf : Few ch [] := by
    intro its h
    generalize e : ([] : List Int) = v at h
    cases h with
    | nil => decide
    | sym => cases e
    | num hl =>
      obtain ⟨c, d, rfl, -⟩ := leads_cons hl
      cases e
  have h1 : ∀ (vs : List Tuv) (st : Alphabet × Transducer W), procTU ch l l vs st = .ok st := by
    intro vs st
    unfold procTU
    rw [collect_same]
    have ht : trim ch [] = [] := rfl
    simp only [ht]
    obtain ⟨o2, m2, k1, its, r, k2, k3, k4⟩ := align_spec (ch := ch) [] (trim ch (texts l vs)) hf
    have ho : o2 = [] := by
      rcases k4 with ⟨-, rfl⟩ | ⟨-, rfl, -⟩
      · obtain rfl := items_unique k2 .nil
        rfl
      · rfl
    subst ho
    rw [k1, Res.bind_ok]
    have : (alignBlanks ch [] m2).1 = [] := rfl
    simp only [this, insertTU, List.length_nil]
    rw [if_pos (.inl (by decide))]
  have h2 : ∀ st : Alphabet × Transducer W, procAll ch l l us st = .ok st := by
    induction us with
    | nil => intro st; rfl
    | cons vs us ih =>
      intro st
      rw [procAll, h1, Res.bind_ok, ih]
  unfold parse
  rw [h2]
  rfl

end Verif.Tmx
