import Verif.Expander.Lemmas

/-!
# Properties of the expander

C57: `append` is the cross product. C68: what `lt-expand` prints is in the meaning of the dictionary (`Verif.Dict.Spec`), and
nothing of the meaning is missing for the entries that the code handles; counterexamples for the others.
-/

namespace Verif.Expander

open Verif.Dict (Dir Elem Gives OrderedFrom)

/-! ## C57 -/

theorem C57_length (rs es : EntList) : (append rs es).length = rs.length * es.length := by
  rw [append_eq]
  induction rs with
  | nil => simp
  | cons r rs ih => simp [ih, Nat.succ_mul, Nat.add_comm]

/-- The pair at place `i * |es| + j` is the concatenation of the `i`th and the `j`th. -/
theorem C57_append (rs es : EntList) (i j : Nat) (hi : i < rs.length) (hj : j < es.length) :
    (append rs es)[i * es.length + j]? = some (rs[i].1 ++ es[j].1, rs[i].2 ++ es[j].2) := by
  rw [append_eq]
  induction rs generalizing i with
  | nil => simp at hi
  | cons r rs ih =>
    rw [List.flatMap_cons]
    cases i with
    | zero =>
      rw [List.getElem?_append_left (by simpa using hj)]
      simp [hj]
    | succ i =>
      have hle : es.length ≤ (i + 1) * es.length + j := by rw [Nat.succ_mul]; omega
      rw [List.getElem?_append_right (by simpa using hle), List.length_map]
      have : (i + 1) * es.length + j - es.length = i * es.length + j := by rw [Nat.succ_mul]; omega
      rw [this, ih i (by simpa using hi)]
      simp

theorem C57_pair (rs : EntList) (p : UString × UString) (i : Nat) (hi : i < rs.length) :
    (appendPair rs p).length = rs.length ∧ (appendPair rs p)[i]? = some (rs[i].1 ++ p.1, rs[i].2 ++ p.2) := by
  simp [appendPair, hi]

example : append [([97], [98]), ([], [99])] [([1], []), ([2], [3])]
    = [([97, 1], [98]), ([97, 2], [98, 3]), ([1], [99]), ([2], [99, 3])] := by decide

/-! ## C68 -/

/-- The attribute is given and differs from the setting. -/
def Differs (v setting : UString) : Prop := v ≠ [] ∧ v ≠ setting

instance (v s : UString) : Decidable (Differs v s) := by unfold Differs; infer_instance

/-- The entry may be used left to right: nothing says otherwise. -/
def UsableLR (s : Settings) (a : Attrs) : Prop := a.r ≠ RL ∧ ¬ Differs a.vr s.right

/-- The entry may be used right to left: nothing says otherwise. -/
def UsableRL (s : Settings) (a : Attrs) : Prop := a.r ≠ LR ∧ ¬ Differs a.v s.variant ∧ ¬ Differs a.vl s.left

instance (s : Settings) (a : Attrs) : Decidable (UsableLR s a) := by unfold UsableLR; infer_instance
instance (s : Settings) (a : Attrs) : Decidable (UsableRL s a) := by unfold UsableRL; infer_instance

/-- What the attributes of an entry mean. -/
def meaning {N : Type} (s : Settings) (e : XEntry N) : Option (Dict.Entry N UInt16) :=
  if e.attrs.ignore = YES ∨ Differs e.attrs.alt s.alt then none
  else if UsableLR s e.attrs then (if UsableRL s e.attrs then some ⟨.both, e.elems⟩ else some ⟨.lr, e.elems⟩)
  else if UsableRL s e.attrs then some ⟨.rl, e.elems⟩
  else none

/-- `v`, of monolingual dictionaries, and `vr`, of bilingual ones, do not both exclude the entry. -/
def Regular (s : Settings) (a : Attrs) : Prop := ¬ (Differs a.v s.variant ∧ Differs a.vr s.right)

instance (s : Settings) (a : Attrs) : Decidable (Regular s a) := by unfold Regular; infer_instance

/-- The code reads the attributes as they are meant. -/
theorem C68_attributes {N : Type} (s : Settings) (e : XEntry N) (h : Regular s e.attrs) :
    meaning s e = if skipped s e.attrs then none else some ⟨startDir s e.attrs, e.elems⟩ := by
  obtain ⟨⟨r, ig, alt, v, vl, vr⟩, es⟩ := e
  have hne := LR_ne_RL
  unfold Regular at h
  unfold meaning skipped startDir UsableLR UsableRL
  simp only [bne_iff_ne, beq_iff_eq, Bool.and_eq_true, Bool.or_eq_true, ne_eq] at h ⊢
  change (¬ (Differs v s.variant ∧ Differs vr s.right)) at h
  have e1 : (¬ alt = [] ∧ ¬ alt = s.alt) ↔ Differs alt s.alt := Iff.rfl
  have e2 : (¬ v = [] ∧ ¬ v = s.variant) ↔ Differs v s.variant := Iff.rfl
  have e3 : (¬ vl = [] ∧ ¬ vl = s.left) ↔ Differs vl s.left := Iff.rfl
  have e4 : (¬ vr = [] ∧ ¬ vr = s.right) ↔ Differs vr s.right := Iff.rfl
  simp only [e1, e2, e3, e4]
  by_cases hi : ig = YES
  · simp [hi]
  by_cases ha : Differs alt s.alt
  · simp [ha]
  by_cases h1 : r = LR
  · subst h1
    by_cases h3 : Differs vr s.right <;> simp [hi, ha, hne, h3]
  · by_cases h2 : r = RL
    · subst h2
      by_cases h3 : Differs v s.variant
      · simp [hi, ha, h3]
      · by_cases h4 : Differs vl s.left
        · simp [hi, ha, h3, h4]
        · simp [hi, ha, h3, h4, hne.symm]
    · by_cases h3 : Differs v s.variant
      · have h5 : ¬ Differs vr s.right := fun h5 => h ⟨h3, h5⟩
        simp [hi, ha, h1, h2, h3, h5]
      · by_cases h4 : Differs vl s.left <;> by_cases h5 : Differs vr s.right <;> simp [hi, ha, h1, h2, h3, h4, h5]

example : Regular { variant := [97] } { v := [98], r := LR } := by decide

/-- With both, an entry that may not be used in any direction is kept. -/
theorem C68_attributes_false : ∃ (s : Settings) (e : XEntry Nat), meaning s e = none ∧ skipped s e.attrs = false :=
  ⟨{ variant := [97], right := [97] }, ⟨{ v := [98], vr := [98] }, []⟩, by decide, by decide⟩

section
variable {N : Type} [LinearOrder N]

/-- A dictionary as the sequence of nodes in the file. -/
def nodes (defs : List (N × List (XEntry N))) (sec : List (XEntry N)) : List (Node N) :=
  defs.flatMap (fun d => .parOpen d.1 :: (d.2.map .entry ++ [.parClose])) ++ sec.map .entry

/-- The paradigms of the dictionary. -/
def paradigms (s : Settings) (defs : List (N × List (XEntry N))) : List (N × List (Dict.Entry N UInt16)) :=
  defs.map fun d => (d.1, d.2.filterMap (meaning s))

theorem expand_append (s : Settings) (ns ms : List (Node N)) (x : Expander N) :
    expand s (ns ++ ms) x = (do
      let (x1, o1) ← expand s ns x
      let (x2, o2) ← expand s ms x1
      .ok (x2, o1 ++ o2)) := by
  induction ns generalizing x with
  | nil =>
    simp only [List.nil_append, expand, Res.bind_ok]
    cases expand s ms x <;> rfl
  | cons n ns ih =>
    cases n with
    | parOpen n => simp only [List.cons_append, expand, ih]
    | parClose => simp only [List.cons_append, expand, ih]
    | entry e =>
      simp only [List.cons_append, expand, ih]
      cases h : procEntry s e x with
      | ok a =>
        simp only [Res.bind_ok]
        cases h2 : expand s ns a.1 with
        | ok b =>
          simp only [Res.bind_ok]
          cases expand s ms b.1 with
          | ok c => simp only [Res.bind_ok, List.append_assoc]
          | _ => rfl
        | _ => rfl
      | _ => rfl

theorem procEntry_ok {s : Settings} {e : XEntry N} {x x' : Expander N} {out : List (Dir × UString × UString)}
    (h : procEntry s e x = .ok (x', out)) :
    (skipped s e.attrs = true ∧ x' = x ∧ out = []) ∨
    (skipped s e.attrs = false ∧ ∃ o, procElems e.attrs.r x.pars e.elems (startItems (startDir s e.attrs)) = .ok o ∧
      ((o = none ∧ x' = x ∧ out = []) ∨ ∃ it, o = some it ∧ ((x.current = none ∧ x' = x ∧ out = printed it) ∨
        ∃ n, x.current = some n ∧ out = [] ∧
          x' = { x with pars := mapModify {} n (fun p => ⟨p.both ++ it.both, p.lr ++ it.lr, p.rl ++ it.rl⟩) x.pars }))) := by
  unfold procEntry at h
  split at h
  · rename_i hs
    cases h
    exact Or.inl ⟨hs, rfl, rfl⟩
  · rename_i hs
    obtain ⟨o, ho, h⟩ := Res.bind_eq_ok.1 h
    refine Or.inr ⟨by simpa using hs, o, ho, ?_⟩
    cases o with
    | none =>
      cases h
      exact Or.inl ⟨rfl, rfl, rfl⟩
    | some it =>
      refine Or.inr ⟨it, rfl, ?_⟩
      simp only at h
      cases hc : x.current with
      | none =>
        rw [hc] at h
        cases h
        exact Or.inl ⟨rfl, rfl, rfl⟩
      | some n =>
        rw [hc] at h
        cases h
        exact Or.inr ⟨n, rfl, rfl, rfl⟩

theorem get_append (p it : Items) (d : Dir) :
    Items.get ⟨p.both ++ it.both, p.lr ++ it.lr, p.rl ++ it.rl⟩ d = p.get d ++ it.get d := by cases d <;> rfl

/-- What the loop makes of an entry is in its meaning. -/
theorem entry_sound {s : Settings} {P : List (N × List (Dict.Entry N UInt16))} {e : XEntry N} {x : Expander N} {it : Items}
    (hR : Regular s e.attrs) (hP : SoundMap P x.pars) (hs : skipped s e.attrs = false)
    (h : procElems e.attrs.r x.pars e.elems (startItems (startDir s e.attrs)) = .ok (some it)) {d : Dir} {q : UString × UString}
    (hq : q ∈ it.get d) : ∃ e', meaning s e = some e' ∧ e'.Gives P d q.1 q.2 := by
  obtain ⟨d0, q0, m0, d1, l1, r1, hg, hd, rfl⟩ := procElems_sound hP e.elems (fits_start hs) h hq
  obtain ⟨rfl, rfl⟩ := mem_startItems.1 m0
  refine ⟨⟨startDir s e.attrs, e.elems⟩, by rw [C68_attributes s e hR, hs]; rfl, d1, by simpa using hg, hd⟩

/-- One entry keeps the maps inside the meaning. -/
theorem entry_keeps_sound {s : Settings} {P : List (N × List (Dict.Entry N UInt16))} {e : XEntry N} {x x' : Expander N}
    {out : List (Dir × UString × UString)} (hR : Regular s e.attrs) (hP : SoundMap P x.pars) (hsort : SortedKeys x.pars)
    (hcur : ∀ n, x.current = some n → ∃ ents, (n, ents) ∈ P ∧ ∀ e', meaning s e = some e' → e' ∈ ents)
    (h : procEntry s e x = .ok (x', out)) :
    SoundMap P x'.pars ∧ SortedKeys x'.pars ∧ x'.current = x.current ∧
      (∀ d q, (d, q) ∈ out → ∃ e', meaning s e = some e' ∧ e'.Gives P d q.1 q.2) := by
  rcases procEntry_ok h with ⟨_, rfl, rfl⟩ | ⟨hs, o, ho, ⟨rfl, rfl, rfl⟩ | ⟨it, rfl, ⟨_, rfl, rfl⟩ | ⟨n, hc, rfl, rfl⟩⟩⟩
  · exact ⟨hP, hsort, rfl, by simp⟩
  · exact ⟨hP, hsort, rfl, by simp⟩
  · exact ⟨hP, hsort, rfl, fun d q hq => entry_sound hR hP hs ho (mem_printed.1 hq)⟩
  · refine ⟨?_, sorted_modify hsort _ _ _, rfl, by simp⟩
    intro m p d q hm hq
    rw [mapFind_modify hsort] at hm
    split at hm
    · rename_i he
      subst he
      cases hm
      rw [get_append, List.mem_append] at hq
      rcases hq with hq | hq
      · cases hf : mapFind m x.pars with
        | none => rw [hf] at hq; cases d <;> simp [Items.get] at hq
        | some p => rw [hf] at hq; exact hP m p d q hf hq
      · obtain ⟨e', h1, h2⟩ := entry_sound hR hP hs ho hq
        obtain ⟨ents, hm, hin⟩ := hcur m hc
        exact ⟨ents, hm, e', hin _ h1, h2⟩
    · exact hP m p d q hm hq

theorem entries_keep_sound {s : Settings} {P : List (N × List (Dict.Entry N UInt16))} (es : List (XEntry N)) {x x' : Expander N}
    {out : List (Dir × UString × UString)} (hR : ∀ e ∈ es, Regular s e.attrs) (hP : SoundMap P x.pars) (hsort : SortedKeys x.pars)
    (hcur : ∀ n, x.current = some n → ∃ ents, (n, ents) ∈ P ∧ ∀ e ∈ es, ∀ e', meaning s e = some e' → e' ∈ ents)
    (h : expand s (es.map .entry) x = .ok (x', out)) :
    SoundMap P x'.pars ∧ SortedKeys x'.pars ∧ x'.current = x.current ∧
      (∀ d q, (d, q) ∈ out → ∃ e ∈ es, ∃ e', meaning s e = some e' ∧ e'.Gives P d q.1 q.2) := by
  induction es generalizing x out with
  | nil =>
    cases h
    exact ⟨hP, hsort, rfl, by simp⟩
  | cons e es ih =>
    rw [List.map_cons, expand] at h
    obtain ⟨⟨x1, o1⟩, h1, h⟩ := Res.bind_eq_ok.1 h
    obtain ⟨⟨x2, o2⟩, h2, h⟩ := Res.bind_eq_ok.1 h
    cases h
    obtain ⟨a, b, c, d⟩ := entry_keeps_sound (hR e (List.mem_cons_self ..)) hP hsort
      (fun n hn => by
        obtain ⟨ents, hm, hin⟩ := hcur n hn
        exact ⟨ents, hm, hin e (List.mem_cons_self ..)⟩) h1
    obtain ⟨a', b', c', d'⟩ := ih (fun e he => hR e (List.mem_cons_of_mem _ he)) a b
      (fun n hn => by
        rw [c] at hn
        obtain ⟨ents, hm, hin⟩ := hcur n hn
        exact ⟨ents, hm, fun e he => hin e (List.mem_cons_of_mem _ he)⟩) h2
    refine ⟨a', b', c'.trans c, ?_⟩
    intro dd q hq
    rcases List.mem_append.1 hq with hq | hq
    · exact ⟨e, List.mem_cons_self .., d dd q hq⟩
    · obtain ⟨e, he, r⟩ := d' dd q hq
      exact ⟨e, List.mem_cons_of_mem _ he, r⟩

/-- One paradigm: what its entries do, between the opening and the closing tag. -/
theorem expand_def {s : Settings} {n : N} {es : List (XEntry N)} {ns : List (Node N)} {x x' : Expander N}
    {out : List (Dir × UString × UString)}
    (h : expand s (.parOpen n :: (es.map .entry ++ [.parClose]) ++ ns) x = .ok (x', out)) :
    ∃ x1 o1 o2, expand s (es.map .entry) { x with current := some n } = .ok (x1, o1) ∧
      expand s ns { x1 with current := none } = .ok (x', o2) ∧ out = o1 ++ o2 := by
  rw [List.cons_append, expand, List.append_assoc, expand_append] at h
  obtain ⟨⟨x1, o1⟩, h1, h⟩ := Res.bind_eq_ok.1 h
  obtain ⟨⟨x2, o2⟩, h2, h⟩ := Res.bind_eq_ok.1 h
  cases h
  exact ⟨x1, o1, o2, h1, h2, rfl⟩

theorem entries_out_nil {s : Settings} (es : List (XEntry N)) {n : N} {x x' : Expander N}
    {out : List (Dir × UString × UString)} (hc : x.current = some n) (h : expand s (es.map .entry) x = .ok (x', out)) :
    out = [] ∧ x'.current = some n := by
  induction es generalizing x out with
  | nil => cases h; exact ⟨rfl, hc⟩
  | cons e es ih =>
    rw [List.map_cons, expand] at h
    obtain ⟨⟨x1, o1⟩, h1, h⟩ := Res.bind_eq_ok.1 h
    obtain ⟨⟨x2, o2⟩, h2, h⟩ := Res.bind_eq_ok.1 h
    cases h
    rcases procEntry_ok h1 with ⟨_, rfl, rfl⟩ | ⟨hs, o, ho, ⟨rfl, rfl, rfl⟩ | ⟨it, rfl, ⟨h0, rfl, rfl⟩ | ⟨n, hc', rfl, rfl⟩⟩⟩
    · simpa using ih hc h2
    · simpa using ih hc h2
    · rw [hc] at h0; cases h0
    · have := ih (by exact hc) h2
      simpa using this

/-- The maps after the paradigms are inside the meaning. -/
theorem defs_sound {s : Settings} {P : List (N × List (Dict.Entry N UInt16))} (defs : List (N × List (XEntry N)))
    (ns : List (Node N)) {x x' : Expander N} {out : List (Dir × UString × UString)}
    (hR : ∀ d ∈ defs, ∀ e ∈ d.2, Regular s e.attrs) (hsub : ∀ d ∈ paradigms s defs, d ∈ P)
    (hP : SoundMap P x.pars) (hsort : SortedKeys x.pars) (hc : x.current = none)
    (h : expand s (defs.flatMap (fun d => .parOpen d.1 :: (d.2.map .entry ++ [.parClose])) ++ ns) x = .ok (x', out)) :
    ∃ x1, SoundMap P x1.pars ∧ SortedKeys x1.pars ∧ x1.current = none ∧ expand s ns x1 = .ok (x', out) := by
  induction defs generalizing x out with
  | nil => exact ⟨x, hP, hsort, hc, h⟩
  | cons d defs ih =>
    obtain ⟨n, es⟩ := d
    rw [List.flatMap_cons, List.append_assoc] at h
    obtain ⟨x1, o1, o2, h1, h2, rfl⟩ := expand_def h
    obtain ⟨rfl, _⟩ := entries_out_nil es rfl h1
    have hm : (n, es.filterMap (meaning s)) ∈ P := hsub _ (by simp [paradigms])
    obtain ⟨a, b, c, _⟩ := entries_keep_sound (P := P) es (hR (n, es) (List.mem_cons_self ..)) (by exact hP) (by exact hsort)
      (fun m hm' => by
        cases hm'
        exact ⟨_, hm, fun e he e' h' => List.mem_filterMap.2 ⟨e, he, h'⟩⟩) h1
    exact ih (x := { x1 with current := none }) (fun d hd => hR d (List.mem_cons_of_mem _ hd))
      (fun d hd => hsub d (by simp only [paradigms, List.map_cons] at hd ⊢; exact List.mem_cons_of_mem _ hd)) a b rfl h2

/-- **C68 (soundness).** Every line that `lt-expand` prints is a pair of an entry of a section, in the direction that it shows:
for any dictionary, also with repeated or empty paradigms. -/
theorem C68_sound (s : Settings) (defs : List (N × List (XEntry N))) (sec : List (XEntry N)) (x : Expander N)
    (out : List (Dir × UString × UString))
    (hd : ∀ d ∈ defs, ∀ e ∈ d.2, Regular s e.attrs) (hs : ∀ e ∈ sec, Regular s e.attrs)
    (h : expand s (nodes defs sec) {} = .ok (x, out)) (d : Dir) (l r : UString) (hm : (d, l, r) ∈ out) :
    ∃ e ∈ sec.filterMap (meaning s), e.Gives (paradigms s defs) d l r := by
  obtain ⟨x1, a, b, c, h1⟩ := defs_sound (P := paradigms s defs) (x := {}) defs _ hd (fun _ h => h)
    (by intro n p d q hp _; simp [mapFind] at hp) List.Pairwise.nil rfl h
  obtain ⟨_, _, _, h2⟩ := entries_keep_sound (P := paradigms s defs) sec hs a b (fun n hn => by rw [c] at hn; cases hn) h1
  obtain ⟨e, he, e', h3, h4⟩ := h2 d (l, r) hm
  exact ⟨e', List.mem_filterMap.2 ⟨e, he, h3⟩, h4⟩

/-- The entries that the code expands completely: those with `r="LR"` or `r="RL"`, those without paradigms, and those without
any restriction in which only the last paradigm has restricted pairs. -/
def Supported (s : Settings) (P : List (N × List (Dict.Entry N UInt16))) (e : XEntry N) : Prop :=
  e.attrs.r = LR ∨ e.attrs.r = RL ∨ (∀ m, Elem.par m ∉ e.elems) ∨
    ((∀ e', meaning s e = some e' → e'.dir = .both) ∧ LastOnly P e.elems)

/-- Nothing of an entry is lost. -/
theorem entry_complete {s : Settings} {P : List (N × List (Dict.Entry N UInt16))} {e : XEntry N} {e' : Dict.Entry N UInt16}
    {x : Expander N} {o : Option Items} (hR : Regular s e.attrs) (hS : Supported s P e) (hP : SoundMap P x.pars)
    (he : meaning s e = some e') (hC : CompleteFor P x.pars e'.refs)
    (h : procElems e.attrs.r x.pars e.elems (startItems (startDir s e.attrs)) = .ok o) {d : Dir} {l r : UString}
    (hg : e'.Gives P d l r) : ∃ it, o = some it ∧ (l, r) ∈ it.get d := by
  rw [C68_attributes s e hR] at he
  cases hs : skipped s e.attrs with
  | true => rw [hs] at he; cases he
  | false =>
    rw [hs] at he
    cases he
    obtain ⟨d1, hg, hm⟩ := hg
    have := procElems_complete hP e.elems (fits_start hs) hC ?_ h (d0 := startDir s e.attrs) (q0 := ([], []))
      (mem_startItems.2 ⟨rfl, rfl⟩) hg hm
    · simpa using this
    · rcases hS with h1 | h1 | h1 | ⟨h1, h2⟩
      · exact Or.inl h1
      · exact Or.inr (Or.inl h1)
      · exact Or.inr (Or.inr (Or.inl h1))
      · have := h1 _ (by rw [C68_attributes s e hR, hs]; rfl)
        simp only at this
        rw [this]
        exact Or.inr (Or.inr (Or.inr ⟨rfl, rfl, h2⟩))

theorem entries_complete_sec {s : Settings} {P : List (N × List (Dict.Entry N UInt16))} (es : List (XEntry N)) {x x' : Expander N}
    {out : List (Dir × UString × UString)} (hR : ∀ e ∈ es, Regular s e.attrs) (hS : ∀ e ∈ es, Supported s P e)
    (hP : SoundMap P x.pars) (hcur : x.current = none)
    (hC : ∀ e ∈ es, ∀ e', meaning s e = some e' → CompleteFor P x.pars e'.refs)
    (h : expand s (es.map .entry) x = .ok (x', out)) (e : XEntry N) (he : e ∈ es) (e' : Dict.Entry N UInt16)
    (hm : meaning s e = some e') (d : Dir) (l r : UString) (hg : e'.Gives P d l r) : (d, l, r) ∈ out := by
  induction es generalizing x out with
  | nil => cases he
  | cons e0 es ih =>
    rw [List.map_cons, expand] at h
    obtain ⟨⟨x1, o1⟩, h1, h⟩ := Res.bind_eq_ok.1 h
    obtain ⟨⟨x2, o2⟩, h2, h⟩ := Res.bind_eq_ok.1 h
    cases h
    have hx : x1 = x ∧ (e = e0 → (d, l, r) ∈ o1) := by
      rcases procEntry_ok h1 with ⟨hs, rfl, rfl⟩ | ⟨hs, o, ho, h3⟩
      · refine ⟨rfl, ?_⟩
        rintro rfl
        rw [C68_attributes s e (hR e (List.mem_cons_self ..)), hs] at hm
        cases hm
      · have key : e = e0 → ∃ it, o = some it ∧ (l, r) ∈ it.get d := by
          rintro rfl
          exact entry_complete (hR e (List.mem_cons_self ..)) (hS e (List.mem_cons_self ..)) hP hm
            (hC e (List.mem_cons_self ..) e' hm) ho hg
        rcases h3 with ⟨rfl, rfl, rfl⟩ | ⟨it, rfl, ⟨h0, rfl, rfl⟩ | ⟨n, hc', rfl, rfl⟩⟩
        · refine ⟨rfl, fun h => ?_⟩
          obtain ⟨_, h, _⟩ := key h
          cases h
        · refine ⟨rfl, fun h => ?_⟩
          obtain ⟨it, h, h'⟩ := key h
          cases h
          exact mem_printed.2 h'
        · rw [hcur] at hc'; cases hc'
    obtain ⟨rfl, hx⟩ := hx
    rcases List.mem_cons.1 he with rfl | he
    · exact List.mem_append_left _ (hx rfl)
    · exact List.mem_append_right _ (ih (fun e he => hR e (List.mem_cons_of_mem _ he)) (fun e he => hS e (List.mem_cons_of_mem _ he))
        hP hcur (fun e he => hC e (List.mem_cons_of_mem _ he)) h2 he)

/-- The entries of a paradigm: other paradigms stay, what was there stays, and the entries are added. -/
theorem entries_complete_def {s : Settings} {P : List (N × List (Dict.Entry N UInt16))} (es : List (XEntry N)) {n : N}
    {x x' : Expander N} {out : List (Dir × UString × UString)} (hR : ∀ e ∈ es, Regular s e.attrs) (hS : ∀ e ∈ es, Supported s P e)
    (hP : SoundMap P x.pars) (hsort : SortedKeys x.pars) (hcur : x.current = some n)
    (hin : ∃ ents, (n, ents) ∈ P ∧ ∀ e ∈ es, ∀ e', meaning s e = some e' → e' ∈ ents)
    (hC : ∀ e ∈ es, ∀ e', meaning s e = some e' → n ∉ e'.refs ∧ CompleteFor P x.pars e'.refs)
    (h : expand s (es.map .entry) x = .ok (x', out)) :
    (∀ m, m ≠ n → mapFind m x'.pars = mapFind m x.pars) ∧
    (∀ p d q, mapFind n x.pars = some p → q ∈ p.get d → ∃ p', mapFind n x'.pars = some p' ∧ q ∈ p'.get d) ∧
    (∀ e ∈ es, ∀ e', meaning s e = some e' → ∀ d l r, e'.Gives P d l r → ∃ p', mapFind n x'.pars = some p' ∧ (l, r) ∈ p'.get d) := by
  induction es generalizing x out with
  | nil =>
    cases h
    exact ⟨fun _ _ => rfl, fun p d q hp hq => ⟨p, hp, hq⟩, by simp⟩
  | cons e es ih =>
    rw [List.map_cons, expand] at h
    obtain ⟨⟨x1, o1⟩, h1, h⟩ := Res.bind_eq_ok.1 h
    obtain ⟨⟨x2, o2⟩, h2, h⟩ := Res.bind_eq_ok.1 h
    cases h
    have hk := entry_keeps_sound (P := P) (hR e (List.mem_cons_self ..)) hP hsort
      (fun m hm => by
        rw [hcur] at hm
        cases hm
        obtain ⟨ents, hm, hin⟩ := hin
        exact ⟨ents, hm, hin e (List.mem_cons_self ..)⟩) h1
    have hstep : (∀ m, m ≠ n → mapFind m x1.pars = mapFind m x.pars) ∧
        (∀ p d q, mapFind n x.pars = some p → q ∈ p.get d → ∃ p', mapFind n x1.pars = some p' ∧ q ∈ p'.get d) ∧
        (∀ e', meaning s e = some e' → ∀ d l r, e'.Gives P d l r → ∃ p', mapFind n x1.pars = some p' ∧ (l, r) ∈ p'.get d) := by
      rcases procEntry_ok h1 with ⟨hs, rfl, rfl⟩ | ⟨hs, o, ho, h3⟩
      · refine ⟨fun _ _ => rfl, fun p d q hp hq => ⟨p, hp, hq⟩, ?_⟩
        intro e' he'
        rw [C68_attributes s e (hR e (List.mem_cons_self ..)), hs] at he'
        cases he'
      · have key : ∀ e', meaning s e = some e' → ∀ d l r, e'.Gives P d l r → ∃ it, o = some it ∧ (l, r) ∈ it.get d := by
          intro e' he' d l r hg
          exact entry_complete (hR e (List.mem_cons_self ..)) (hS e (List.mem_cons_self ..)) hP he'
            (hC e (List.mem_cons_self ..) e' he').2 ho hg
        rcases h3 with ⟨rfl, rfl, rfl⟩ | ⟨it, rfl, ⟨h0, rfl, rfl⟩ | ⟨m, hc', rfl, rfl⟩⟩
        · refine ⟨fun _ _ => rfl, fun p d q hp hq => ⟨p, hp, hq⟩, ?_⟩
          intro e' he' d l r hg
          obtain ⟨_, h, _⟩ := key e' he' d l r hg
          cases h
        · rw [hcur] at h0; cases h0
        · rw [hcur] at hc'
          cases hc'
          refine ⟨?_, ?_, ?_⟩
          · intro m hm
            simp only
            rw [mapFind_modify hsort, if_neg hm]
          · intro p d q hp hq
            refine ⟨_, by simp only; rw [mapFind_modify hsort, if_pos rfl], ?_⟩
            rw [get_append, hp]
            exact List.mem_append_left _ hq
          · intro e' he' d l r hg
            obtain ⟨it', h, h'⟩ := key e' he' d l r hg
            cases h
            refine ⟨_, by simp only; rw [mapFind_modify hsort, if_pos rfl], ?_⟩
            rw [get_append]
            exact List.mem_append_right _ h'
    obtain ⟨s1, s2, s3⟩ := hstep
    obtain ⟨t1, t2, t3⟩ := ih (fun e he => hR e (List.mem_cons_of_mem _ he)) (fun e he => hS e (List.mem_cons_of_mem _ he))
      hk.1 hk.2.1 (hk.2.2.1.trans hcur) (by
        obtain ⟨ents, hm, hin⟩ := hin
        exact ⟨ents, hm, fun e he => hin e (List.mem_cons_of_mem _ he)⟩)
      (fun e1 he1 e' he' => by
        obtain ⟨hn, hc⟩ := hC e1 (List.mem_cons_of_mem _ he1) e' he'
        refine ⟨hn, fun m hm ents h1 e2 h2 d l r hg => ?_⟩
        rw [s1 m (fun h => hn (h ▸ hm))]
        exact hc m hm ents h1 e2 h2 d l r hg) h2
    refine ⟨fun m hm => (t1 m hm).trans (s1 m hm), ?_, ?_⟩
    · intro p d q hp hq
      obtain ⟨p1, hp1, hq1⟩ := s2 p d q hp hq
      exact t2 p1 d q hp1 hq1
    · intro e1 he1 e' he' d l r hg
      rcases List.mem_cons.1 he1 with rfl | he1
      · obtain ⟨p1, hp1, hq1⟩ := s3 e' he' d l r hg
        exact t2 p1 d _ hp1 hq1
      · exact t3 e1 he1 e' he' d l r hg

theorem defs_complete {s : Settings} {P : List (N × List (Dict.Entry N UInt16))} (defs : List (N × List (XEntry N)))
    (ns : List (Node N)) (seen : List N) {x x' : Expander N} {out : List (Dir × UString × UString)}
    (hR : ∀ d ∈ defs, ∀ e ∈ d.2, Regular s e.attrs) (hS : ∀ d ∈ defs, ∀ e ∈ d.2, Supported s P e)
    (hsub : ∀ d ∈ paradigms s defs, d ∈ P) (hnd : ∀ n a b, (n, a) ∈ P → (n, b) ∈ P → a = b)
    (hord : OrderedFrom seen (paradigms s defs))
    (hP : SoundMap P x.pars) (hC : CompleteFor P x.pars seen) (hsort : SortedKeys x.pars) (hc : x.current = none)
    (h : expand s (defs.flatMap (fun d => .parOpen d.1 :: (d.2.map .entry ++ [.parClose])) ++ ns) x = .ok (x', out)) :
    ∃ x1, SoundMap P x1.pars ∧ CompleteFor P x1.pars (seen ++ defs.map (·.1)) ∧ x1.current = none ∧
      expand s ns x1 = .ok (x', out) := by
  induction defs generalizing x out seen with
  | nil => exact ⟨x, hP, by simpa using hC, hc, h⟩
  | cons d defs ih =>
    obtain ⟨n, es⟩ := d
    rw [List.flatMap_cons, List.append_assoc] at h
    obtain ⟨x1, o1, o2, h1, h2, rfl⟩ := expand_def h
    obtain ⟨rfl, _⟩ := entries_out_nil es rfl h1
    have hm : (n, es.filterMap (meaning s)) ∈ P := hsub _ (by simp [paradigms])
    have hin : ∃ ents, (n, ents) ∈ P ∧ ∀ e ∈ es, ∀ e', meaning s e = some e' → e' ∈ ents :=
      ⟨_, hm, fun e he e' h' => List.mem_filterMap.2 ⟨e, he, h'⟩⟩
    obtain ⟨o1, o2, o3⟩ := hord
    obtain ⟨a, b, c, _⟩ := entries_keep_sound (P := P) es (hR (n, es) (List.mem_cons_self ..)) (by exact hP) (by exact hsort)
      (fun m hm' => by cases hm'; exact hin) h1
    obtain ⟨t1, t2, t3⟩ := entries_complete_def (P := P) es (n := n) (hR (n, es) (List.mem_cons_self ..))
      (hS (n, es) (List.mem_cons_self ..)) (by exact hP) (by exact hsort) rfl hin (fun e he e' he' => by
        have := o2 e' (List.mem_filterMap.2 ⟨e, he, he'⟩)
        exact ⟨fun h => o1 (this n h), fun m hm => hC m (this m hm)⟩) h1
    have hC1 : CompleteFor P x1.pars (n :: seen) := by
      intro m hm' ents h3 e he d l r hg
      rcases List.mem_cons.1 hm' with rfl | hm'
      · cases hnd _ _ _ h3 hm
        obtain ⟨e0, he0, he0'⟩ := List.mem_filterMap.1 he
        exact t3 e0 he0 e he0' d l r hg
      · rw [t1 m (fun h => o1 (h ▸ hm'))]
        exact hC m hm' ents h3 e he d l r hg
    obtain ⟨y, y1, y2, y3, y4⟩   := ih (n :: seen) (x := { x1 with current := none }) (fun d hd => hR d (List.mem_cons_of_mem _ hd))
      (fun d hd => hS d (List.mem_cons_of_mem _ hd))
      (fun d hd => hsub d (by simp only [paradigms, List.map_cons] at hd ⊢; exact List.mem_cons_of_mem _ hd)) o3 a hC1 b rfl h2
    refine ⟨y, y1, ?_, y3, y4⟩
    intro m hm
    refine y2 m ?_
    simp only [List.map_cons, List.mem_append, List.mem_cons] at hm ⊢
    tauto

omit [LinearOrder N] in
theorem orderedFrom_unique {seen : List N} {P : List (N × List (Dict.Entry N UInt16))} (h : OrderedFrom seen P) :
    (∀ n a, (n, a) ∈ P → n ∉ seen) ∧ ∀ n a b, (n, a) ∈ P → (n, b) ∈ P → a = b := by
  induction P generalizing seen with
  | nil => simp
  | cons p P ih =>
    obtain ⟨n, es⟩ := p
    obtain ⟨h1, _, h3⟩ := h
    obtain ⟨i1, i2⟩ := ih h3
    have i1' : ∀ a, (n, a) ∉ P := fun a ha => i1 n a ha (List.mem_cons_self ..)
    constructor
    · intro m a hm
      rcases List.mem_cons.1 hm with hm | hm
      · cases hm; exact h1
      · exact fun hs => i1 m a hm (List.mem_cons_of_mem _ hs)
    · intro m a b ha hb
      rcases List.mem_cons.1 ha with ha | ha
      · cases ha
        rcases List.mem_cons.1 hb with hb | hb
        · cases hb; rfl
        · exact absurd hb (i1' _)
      · rcases List.mem_cons.1 hb with hb | hb
        · cases hb; exact absurd ha (i1' _)
        · exact i2 m a b ha hb

/-- **C68 (completeness).** For a dictionary whose paradigms have their own names and use earlier ones only, every pair of every
entry is printed, if the entries are as in `Supported`. What is missing: the other entries, for which it is false (below). -/
theorem C68_complete_partial (s : Settings) (defs : List (N × List (XEntry N))) (sec : List (XEntry N)) (x : Expander N)
    (out : List (Dir × UString × UString))
    (hd : ∀ d ∈ defs, ∀ e ∈ d.2, Regular s e.attrs ∧ Supported s (paradigms s defs) e)
    (hs : ∀ e ∈ sec, Regular s e.attrs ∧ Supported s (paradigms s defs) e)
    (ho : OrderedFrom [] (paradigms s defs))
    (h : expand s (nodes defs sec) {} = .ok (x, out)) (e : Dict.Entry N UInt16) (he : e ∈ sec.filterMap (meaning s))
    (d : Dir) (l r : UString) (hg : e.Gives (paradigms s defs) d l r) : (d, l, r) ∈ out := by
  obtain ⟨x1, a, b, c, h1⟩ := defs_complete (P := paradigms s defs) (x := {}) defs _ [] (fun d h e he => (hd d h e he).1)
    (fun d h e he => (hd d h e he).2) (fun _ h => h) (orderedFrom_unique ho).2 ho
    (by intro n p d q hp _; simp [mapFind] at hp) (by intro n hn; cases hn) List.Pairwise.nil rfl h
  obtain ⟨e0, he0, he0'⟩ := List.mem_filterMap.1 he
  refine entries_complete_sec (P := paradigms s defs) sec (fun e he => (hs e he).1) (fun e he => (hs e he).2) a c ?_ h1 e0 he0 e he0'
    d l r hg
  intro e1 _ e' _ m _ ents hm e2 he2 d l r hg
  refine b m ?_ ents hm e2 he2 d l r hg
  simp only [paradigms, List.mem_map] at hm
  obtain ⟨dd, hdd, hdd'⟩ := hm
  simp only [List.nil_append, List.mem_map]
  exact ⟨dd, hdd, by cases hdd'; rfl⟩

end

/-! ### A case, and what goes wrong -/

/-- A noun with a plural for analysis only: `<e><i>ab</i><par n="0"/></e>`. -/
def exDefs : List (Nat × List (XEntry Nat)) :=
  [(0, [⟨{}, [.text [115] [1, 2]]⟩, ⟨{ r := LR }, [.text [] [3]]⟩]), (1, [⟨{ r := RL }, [.par 0, .text [120] [121]]⟩])]

def exSec : List (XEntry Nat) := [⟨{}, [.text [97] [97], .par 0]⟩, ⟨{}, [.par 1]⟩]

example : expand {} (nodes exDefs exSec) {} =
    .ok (⟨none, [(0, ⟨[([115], [1, 2])], [([], [3])], []⟩), (1, ⟨[], [], [([115, 120], [1, 2, 121])]⟩)]⟩,
      [(.both, [97, 115], [97, 1, 2]), (.lr, [97], [97, 3]), (.rl, [115, 120], [1, 2, 121])]) := by decide +kernel

example : (∀ d ∈ exDefs, ∀ e ∈ d.2, Regular {} e.attrs ∧ Supported {} (paradigms {} exDefs) e) ∧
    (∀ e ∈ exSec, Regular {} e.attrs ∧ Supported {} (paradigms {} exDefs) e) ∧ OrderedFrom [] (paradigms {} exDefs) := by
  refine ⟨?_, ?_, ?_⟩
  · simp only [exDefs, List.mem_cons, List.not_mem_nil, or_false, forall_eq_or_imp, forall_eq]
    refine ⟨⟨⟨by decide, ?_⟩, ⟨by decide, ?_⟩⟩, by decide, ?_⟩
    · exact Or.inr (Or.inr (Or.inl (by simp)))
    · exact Or.inl rfl
    · exact Or.inr (Or.inl rfl)
  · simp only [exSec, List.mem_cons, List.not_mem_nil, or_false, forall_eq_or_imp, forall_eq]
    refine ⟨⟨by decide, Or.inr (Or.inr (Or.inr ⟨?_, ?_⟩))⟩, by decide, Or.inr (Or.inr (Or.inr ⟨?_, ?_⟩))⟩
    · intro e' h; simp [meaning, UsableLR, UsableRL, Differs, YES, LR, RL] at h; subst h; rfl
    · exact ⟨trivial, Or.inl (by simp)⟩
    · intro e' h; simp [meaning, UsableLR, UsableRL, Differs, YES, LR, RL] at h; subst h; rfl
    · exact ⟨trivial, Or.inl (by simp)⟩
  · simp [paradigms, exDefs, OrderedFrom, meaning, UsableLR, UsableRL, Differs, Dict.Entry.refs, Dict.refsOf, YES, LR, RL]

/-- An entry excluded from one direction by its variant, not by `r`, loses the unrestricted pairs of its paradigm: nothing is
printed for `<e vl="b"><par n="0"/></e>` when the left variant is `a`. -/
theorem C68_variant_false : ∃ (s : Settings) (defs : List (Nat × List (XEntry Nat))) (sec : List (XEntry Nat)) (x : Expander Nat)
    (e : Dict.Entry Nat UInt16), (∀ e ∈ sec, Regular s e.attrs) ∧ e ∈ sec.filterMap (meaning s) ∧
    expand s (nodes defs sec) {} = .ok (x, []) ∧ e.Gives (paradigms s defs) .lr [115] [116] := by
  refine ⟨{ left := [97] }, [(0, [⟨{}, [.text [115] [116]]⟩])], [⟨{ vl := [98] }, [.par 0]⟩],
    ⟨none, [(0, { both := [([115], [116])] })]⟩, ⟨.lr, [.par 0]⟩, ?_, by decide, by decide +kernel, .both, ?_, rfl⟩
  · simp [Regular, Differs]
  · have hp : paradigms { left := [97] } [(0, [⟨{}, [.text [115] [116]]⟩])] = [(0, [⟨.both, [.text [115] [116]]⟩])] := by
      decide
    rw [hp]
    exact .par (e := ⟨.both, [.text [115] [116]]⟩) (n := 0) (List.mem_cons_self ..) (List.mem_cons_self ..)
      (.text [115] [116] .nil) rfl .nil rfl

/-- An unrestricted entry with two paradigms, of which the first has a pair for one direction only: that pair is lost. -/
theorem C68_two_paradigms_false : ∃ (defs : List (Nat × List (XEntry Nat))) (sec : List (XEntry Nat)) (x : Expander Nat)
    (e : Dict.Entry Nat UInt16), (∀ e ∈ sec, Regular {} e.attrs) ∧ e ∈ sec.filterMap (meaning {}) ∧
    expand {} (nodes defs sec) {} = .ok (x, []) ∧ e.Gives (paradigms {} defs) .lr [115, 117] [116, 117] := by
  refine ⟨[(0, [⟨{ r := LR }, [.text [115] [116]]⟩]), (1, [⟨{}, [.text [117] [117]]⟩])], [⟨{}, [.par 0, .par 1]⟩],
    ⟨none, [(0, { lr := [([115], [116])] }), (1, { both := [([117], [117])] })]⟩, ⟨.both, [.par 0, .par 1]⟩, ?_, by decide,
    by decide +kernel, .lr, ?_, rfl⟩
  · simp [Regular, Differs]
  · have hp : paradigms {} [(0, [⟨{ r := LR }, [.text [115] [116]]⟩]), (1, [⟨{}, [.text [117] [117]]⟩])]
        = [(0, [⟨.lr, [.text [115] [116]]⟩]), (1, [⟨.both, [.text [117] [117]]⟩])] := by
      decide
    rw [hp]
    exact .par (e := ⟨.lr, [.text [115] [116]]⟩) (n := 0) (List.mem_cons_self ..) (List.mem_cons_self ..)
      (.text [115] [116] .nil) rfl
      (.par (e := ⟨.both, [.text [117] [117]]⟩) (n := 1) (List.mem_cons_of_mem _ (List.mem_cons_self ..)) (List.mem_cons_self ..)
        (.text [117] [117] .nil) rfl .nil rfl) rfl

/-- A paradigm all of whose entries are passed over is reported as undefined, and the program ends. -/
theorem C68_empty_paradigm_false : ∃ (defs : List (Nat × List (XEntry Nat))) (sec : List (XEntry Nat)),
    OrderedFrom [] (paradigms {} defs) ∧ (∀ e ∈ sec, ∀ e', meaning {} e = some e' → ∀ m ∈ e'.refs, m ∈ defs.map (·.1)) ∧
    expand {} (nodes defs sec) {} = .exit := by
  refine ⟨[(0, [⟨{ alt := [97] }, [.text [115] [116]]⟩])], [⟨{}, [.text [98] [98]]⟩, ⟨{}, [.par 0]⟩], ?_, ?_, by decide +kernel⟩
  · simp [paradigms, OrderedFrom, meaning, Differs]
  · simp [meaning, UsableLR, UsableRL, Differs, Dict.Entry.refs, Dict.refsOf, YES, LR, RL]

end Verif.Expander
