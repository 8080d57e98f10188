import Verif.TmProc.Run
import Verif.TmProc.Demo

/-! # C92: what `lt-tmxproc` writes for a text -/

namespace Verif.TmProc

open Verif.State Verif.Stream Verif.Input
open Verif.Proc (graphOf)

variable {W : Type} {τ : Setting W}

/-- **C92** A text in parts with NULs between them: for every part is written what belongs to it, and a NUL. Segments of the memory that stand before a
stop are replaced by their targets with the numbers and blanks of the text; everything else is copied. -/
theorem C92_text_partial (hr : Regular τ) (hs : Simple τ) (ha : Tmx.Ascii τ.tables) {ps : List (List Token)} {outs : List UString} (hne : ps ≠ [])
    (hok : ∀ p ∈ ps, ∀ t ∈ p, t.Ok τ) (hap : ∀ p ∈ ps, Apart p) (h : List.Forall₂ (Says τ) ps outs) :
    ∃ N, ∀ n ≥ N, tmAnalysis τ n (bytes ([0].intercalate (ps.map textOf))) = .ok (outs.flatMap (· ++ [0])) :=
  tmAnalysis_ok hr hs ha h hne fun p hp => ⟨hok p hp, hap p hp⟩

/-- The text up to the first space or punctuation mark. -/
theorem split_break : ∀ {us : List Token} {e : Token}, Break τ e → e ∈ us → ∃ ws t rest, us = ws ++ t :: rest ∧ (∀ x ∈ ws, ¬ Break τ x) ∧ Break τ t := by
  intro us
  induction us with
  | nil => intro e _ h; cases h
  | cons u us ih =>
    intro e he hm
    by_cases hu : Break τ u
    · exact ⟨[], u, us, rfl, by simp, hu⟩
    · rcases List.mem_cons.1 hm with rfl | hm
      · exact absurd he hu
      · obtain ⟨ws, t, rest, rfl, h1, h2⟩ := ih he hm
        refine ⟨u :: ws, t, rest, rfl, ?_, h2⟩
        intro x hx
        rcases List.mem_cons.1 hx with rfl | hx
        exacts [hu, h1 x hx]

/-- The longest beginning with which a segment begins. -/
theorem longest_live : ∀ (ps cs : List Token), Live τ (vals cs) → ¬ Live τ (vals (cs ++ ps)) → ∃ ds t rest, ps = ds ++ t :: rest ∧ Live τ (vals (cs ++ ds)) ∧ ¬ Live τ (vals (cs ++ ds ++ [t])) := by
  intro ps
  induction ps with
  | nil => intro cs h h'; rw [List.append_nil] at h'; exact absurd h h'
  | cons p ps ih =>
    intro cs h h'
    by_cases hl : Live τ (vals (cs ++ [p]))
    · obtain ⟨ds, t, rest, rfl, h1, h2⟩ := ih (cs ++ [p]) hl (by simpa using h')
      exact ⟨p :: ds, t, rest, rfl, by simpa using h1, by simpa using h2⟩
    · exact ⟨[], p, ps, rfl, by simpa using h, by simpa using hl⟩

/-- **C92** There is such an output for every text that ends with a space or punctuation mark and not in the middle of a segment, if there is one for the
segments in it. -/
theorem C92_every {ps : List Token} (hlast : ps = [] ∨ ∃ qs e, ps = qs ++ [e] ∧ Break τ e) (hend : ∀ s, s ≠ [] → s <:+ ps → ¬ Live τ (vals s))
    (hseg : ∀ cs t, cs ++ [t] <:+: ps → Segment τ (vals cs) → Stop τ t.val → ∃ txt, txt ≠ [] ∧ 0 ∉ txt ∧ Written τ cs t txt) : ∃ out, Says τ ps out := by
  induction hn : ps.length using Nat.strong_induction_on generalizing ps with
  | _ n ih =>
    rcases hlast with rfl | ⟨qs, e, rfl, he⟩
    · exact ⟨_, .nil⟩
    · have again : ∀ (us : List Token) (t : Token) (rest : List Token), us ≠ [] → qs ++ [e] = us ++ t :: rest → ∃ out, Says τ (t :: rest) out := by
        intro us t rest hus eq
        have hsuf : t :: rest <:+ qs ++ [e] := ⟨us, eq.symm⟩
        refine ih (t :: rest).length ?_ (.inr ?_) (fun s h1 h2 => hend s h1 (h2.trans hsuf)) (fun cs t' h1 => hseg cs t' (h1.trans hsuf.isInfix)) rfl
        · rw [← hn, eq]
          have := List.length_pos_iff.2 hus
          simp only [List.length_append]
          omega
        · obtain ⟨us', e', h'⟩ : ∃ us' e', t :: rest = us' ++ [e'] := ⟨_, _, (List.dropLast_append_getLast (by simp)).symm⟩
          rw [h', ← List.append_assoc] at eq
          have h2 := (List.append_inj' eq rfl).2
          simp only [List.cons.injEq, and_true] at h2
          exact ⟨us', e', h', h2 ▸ he⟩
      have hlive : Live τ (vals ([] : List Token)) := ⟨_, _, _, _, .start⟩
      obtain ⟨cs, t, rest, heq, h1, h2⟩ := longest_live (τ := τ) (qs ++ [e]) [] hlive (by simpa using hend (qs ++ [e]) (by simp) (List.suffix_refl _))
      rw [List.nil_append] at h1 h2
      rw [heq]
      by_cases hb : Break τ t
      · by_cases hc : cs = []
        · subst hc
          rcases rest with - | ⟨u, rest⟩
          · exact ⟨_, .gap hb h2 .nil⟩
          · obtain ⟨out, ho⟩ := again [t] u rest (by simp) heq
            exact ⟨_, .gap hb h2 ho⟩
        · obtain ⟨out, ho⟩ := again cs t rest hc heq
          by_cases hs : Segment τ (vals cs) ∧ Stop τ t.val
          · obtain ⟨txt, k1, k2, k3⟩ := hseg cs t (by rw [heq]; exact ⟨[], rest, by simp⟩) hs.1 hs.2
            exact ⟨_, .segment hc hs.1 hs.2 h2 k3 k1 k2 ho⟩
          · exact ⟨_, .part hc h1 hs hb h2 ho⟩
      · have hm : e ∈ rest := by
          obtain ⟨us', e', h'⟩ : ∃ us' e', t :: rest = us' ++ [e'] := ⟨_, _, (List.dropLast_append_getLast (by simp)).symm⟩
          have heq' := heq
          rw [h', ← List.append_assoc] at heq'
          have h3 := (List.append_inj' heq' rfl).2
          simp only [List.cons.injEq, and_true] at h3
          have hm : e ∈ t :: rest := by rw [h', h3]; simp
          rcases List.mem_cons.1 hm with rfl | hm
          · exact absurd he hb
          · exact hm
        obtain ⟨ws, t', rest', rfl, k1, k2⟩ := split_break he hm
        obtain ⟨out, ho⟩ := again (cs ++ t :: ws) t' rest' (by simp) (by rw [heq]; simp)
        have hsay := Says.word (pre := cs) (ws := ws) (w := t) h1 h2 (by
          intro x hx
          rcases List.mem_cons.1 hx with rfl | hx
          exacts [hb, k1 x hx]) k2 ho
        exact ⟨_, by simpa using hsay⟩

/-- **C92** There is only one. -/
theorem C92_one (hr : Regular τ) (hs : Simple τ) (ha : Tmx.Ascii τ.tables) {ps : List Token} {o o' : UString} (hok : ∀ t ∈ ps, t.Ok τ) (hap : Apart ps)
    (h : Says τ ps o) (h' : Says τ ps o') : o = o' := by
  obtain ⟨N, e⟩ := C92_text_partial hr hs ha (ps := [ps]) (by simp) (by simpa using hok) (by simpa using hap) (.cons h .nil)
  obtain ⟨N', e'⟩ := C92_text_partial hr hs ha (ps := [ps]) (by simp) (by simpa using hok) (by simpa using hap) (.cons h' .nil)
  have := (e (max N N') (by omega)).symm.trans (e' (max N N') (by omega))
  simpa using this

/-! ## An example -/

theorem demo_ascii : Tmx.Ascii demo.tables := by
  intro d hd
  simp [demo, demoChars, Setting.tables]
  omega

def apartCheck : List Token → Bool
  | [] => true
  | [.num _] => false
  | .num _ :: .num _ :: _ => false
  | _ :: ts => apartCheck ts

theorem apart_of : ∀ {ts : List Token}, apartCheck ts = true → Apart ts := by
  intro ts
  induction ts with
  | nil => intro _ u ds v e; simp at e
  | cons t ts ih =>
    intro h u ds v e
    cases u with
    | nil =>
      simp only [List.nil_append, List.cons.injEq] at e
      obtain ⟨rfl, rfl⟩ := e
      cases ts with
      | nil => simp [apartCheck] at h
      | cons t' ts =>
        refine ⟨t', ts, rfl, ?_⟩
        rintro es rfl
        simp [apartCheck] at h
    | cons t0 u =>
      simp only [List.cons_append, List.cons.injEq] at e
      refine ih ?_ u ds v e.2
      cases t with
      | num es =>
        cases ts with
        | nil => rfl
        | cons t' ts => cases t' <;> simp_all [apartCheck]
      | _ => simpa [apartCheck] using h

/-- `Ab[-]cd, c12. aq.`, then `ab.qq`: the outputs are `[x-y], [z12]. aq.` and `ab.qq`. -/
example : ∃ N, ∀ n ≥ N, tmAnalysis demo n (bytes ([0].intercalate ([demoText, otherText].map textOf))) =
    .ok ([0x5b, 0x78, 0x2d, 0x79, 0x5d, 0x2c, 0x20, 0x5b, 0x7a, 0x31, 0x32, 0x5d, 0x2e, 0x20, 0x61, 0x71, 0x2e, 0] ++ [0x61, 0x62, 0x2e, 0x71, 0x71, 0]) := by
  refine C92_text_partial demo_regular demo_simple demo_ascii (by simp) ?_ ?_ (.cons demo_says (.cons other_says .nil))
  · have hch : ∀ c : Nat, c ∈ [0x41, 0x62, 0x63, 0x64, 0x2c, 0x20, 0x2e, 0x61, 0x71] → (Token.ch c).Ok demo := by
      intro c hc
      simp only [List.mem_cons, List.not_mem_nil, or_false] at hc
      rcases hc with rfl | rfl | rfl | rfl | rfl | rfl | rfl | rfl | rfl <;> exact ⟨scalar_ascii (by decide), by decide, by decide, by decide⟩
    have hnum : (Token.num [0x31, 0x32]).Ok demo := by
      refine ⟨⟨_, _, rfl, by decide, by decide⟩, ?_⟩
      intro d hd
      simp only [List.mem_cons, List.not_mem_nil, or_false] at hd
      rcases hd with rfl | rfl <;> exact ⟨scalar_ascii (by decide), by decide⟩
    have hsup : (Token.super [.raw 0x2d]).Ok demo := by
      refine ⟨?_, by decide⟩
      intro t ht
      rw [List.mem_singleton.1 ht]
      exact ⟨scalar_ascii (by decide), by decide, by decide, by decide⟩
    intro p hp t ht
    simp only [List.mem_cons, List.not_mem_nil, or_false] at hp
    rcases hp with rfl | rfl
    · simp only [demoText, first, second, List.cons_append, List.nil_append, List.mem_cons, List.not_mem_nil, or_false] at ht
      rcases ht with rfl | rfl | rfl | rfl | rfl | rfl | rfl | rfl | rfl | rfl | rfl | rfl | rfl | rfl <;>
        first | exact hnum | exact hsup | exact hch _ (by decide)
    · simp only [otherText, List.cons_append, List.nil_append, List.mem_cons, List.not_mem_nil, or_false] at ht
      rcases ht with rfl | rfl | rfl | rfl | rfl <;> exact hch _ (by decide)
  · intro p hp
    simp only [List.mem_cons, List.not_mem_nil, or_false] at hp
    rcases hp with rfl | rfl
    · exact apart_of rfl
    · exact apart_of rfl

/-- The hypotheses of `C92_every` hold of `aq.`, in which there is no segment. -/
example : ∃ out, Says demo [.ch 0x61, .ch 0x71, .ch 0x2e] out := by
  refine C92_every (.inr ⟨[.ch 0x61, .ch 0x71], .ch 0x2e, rfl, .inr (by decide)⟩) ?_ ?_
  · intro s hne hs
    have : s = [.ch 0x61, .ch 0x71, .ch 0x2e] ∨ s = [.ch 0x71, .ch 0x2e] ∨ s = [.ch 0x2e] ∨ s = [] := by simpa [List.suffix_cons_iff] using hs
    rcases this with rfl | rfl | rfl | rfl
    · exact demo_dead (by decide +kernel)
    · exact demo_dead (by decide +kernel)
    · exact demo_dead (by decide +kernel)
    · exact absurd rfl hne
  · rintro cs t hi ⟨ls, s, h⟩ -
    obtain ⟨p, w, h1, h2, h3, -⟩ := (has_paths _ ls s).1 h
    have hl := hi.length_le
    have key : ∀ e ∈ demoPaths, e.2 = 5 ∨ e.2 = 10 → e.1 = [0x63, -1] ∨ 2 < e.1.length := by decide +kernel
    have h5 : p = 5 ∨ p = 10 := by
      simp only [demo, List.mem_cons, Prod.mk.injEq, List.not_mem_nil, or_false] at h3
      omega
    have hlen := h2.length_eq
    rw [vals_length] at hlen
    simp only [List.length_append, List.length_cons, List.length_nil] at hl
    rcases key _ (demo_inputs h1) h5 with k | k
    · simp only at k
      rw [k] at h2
      exfalso
      have hc : ∀ x ∈ cs, x ∈ [Token.ch 0x61, .ch 0x71, .ch 0x2e] := fun x hx => hi.subset (by simp [hx])
      cases cs with
      | nil => cases h2
      | cons c cs =>
        cases h2 with
        | cons g1 g2 =>
          have := hc c (by simp)
          simp only [List.mem_cons, List.not_mem_nil, or_false] at this
          rcases this with rfl | rfl | rfl <;> rcases demo_reads g1 with g | ⟨g', g, -⟩ <;> first | (simp [Token.val] at g; done) | (simp [Token.val] at g'; done)
    · simp only at k
      omega

/-! ## Where the full claim fails -/

/-- **C92**, refuted for the end of the text: a segment at the end, or the beginning of one, is not copied: for `ab cd` nothing is written. -/
theorem C92_end_false : tmAnalysis demo 20 (bytes [0x61, 0x62, 0x20, 0x63, 0x64]) = .ok [0] ∧ tmAnalysis demo 20 (bytes [0x71, 0x2e, 0x61]) = .ok [0x71, 0x2e, 0] := by
  decide +kernel

/-- **C92**, refuted for escaped characters in words: `q\[q.` becomes `q[q.`, which is no text in the stream format. -/
theorem C92_escape_false : tmAnalysis demo 20 (bytes [0x71, 0x5c, 0x5b, 0x71, 0x2e]) = .ok [0x71, 0x5b, 0x71, 0x2e, 0] := by
  decide +kernel

/-- **C92**, refuted for the ends of lines: without the option `-s` a segment before a newline (or a space) is not replaced. -/
theorem C92_newline_false : tmAnalysis demo 20 (bytes [0x61, 0x62, 0x20, 0x63, 0x64, 0x0a]) = .ok [0x61, 0x62, 0x20, 0x63, 0x64, 0x0a, 0] ∧
    tmAnalysis { demo with spaces := true } 20 (bytes [0x61, 0x62, 0x20, 0x63, 0x64, 0x0a]) = .ok [0x5b, 0x78, 0x20, 0x79, 0x5d, 0x0a, 0] := by
  decide +kernel

/-- **C92**, refuted for segments after the beginning of another one: in `ab c1.` the segment `c1` is not found, since `ab c` begins a segment. -/
theorem C92_inside_false : tmAnalysis demo 20 (bytes [0x61, 0x62, 0x20, 0x63, 0x31, 0x2e]) = .ok [0x61, 0x62, 0x20, 0x63, 0x31, 0x2e, 0] ∧
    tmAnalysis demo 20 (bytes [0x71, 0x20, 0x63, 0x31, 0x2e]) = .ok [0x71, 0x20, 0x5b, 0x7a, 0x31, 0x5d, 0x2e, 0] := by
  decide +kernel

/-- **C92**, refuted for parts that end with a number: after `q5` and a NUL, `c7.` becomes `[z5].`, with the number of the part before. -/
theorem C92_parts_false : tmAnalysis demo 20 (bytes [0x71, 0x35, 0, 0x63, 0x37, 0x2e]) = .ok [0x71, 0x35, 0, 0x5b, 0x7a, 0x35, 0x5d, 0x2e, 0] := by
  decide +kernel

/-- `ab` has the target `x`, `ab.<n>c` the target `xy`. -/
def longer : Setting Nat := { demo with
  graph := graphOf [((0, 0x61), [(0x78, 1, 0)]), ((1, 0x62), [(0, 2, 0)]), ((2, 0x2e), [(0, 3, 0)]), ((3, -1), [(0, 4, 0)]), ((4, 0x63), [(0x79, 5, 0)])]
  finals := [(2, 0), (5, 0)] }

/-- **C92**, refuted for memories in which a segment goes on after another one: in `ab.5d.` the segment `ab` is found, but the number is read a second time
from the buffer, without its text, and the program reads before the beginning of an empty vector. -/
theorem C92_longer_false : tmAnalysis longer 20 (bytes [0x61, 0x62, 0x2e, 0x35, 0x64, 0x2e]) = .ub ∧
    tmAnalysis longer 20 (bytes [0x61, 0x62, 0x2e, 0x64, 0x2e]) = .ok [0x5b, 0x78, 0x5d, 0x2e, 0x64, 0x2e, 0] := by
  decide +kernel

end Verif.TmProc
