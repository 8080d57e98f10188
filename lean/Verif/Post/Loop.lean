import Verif.Post.Run
import Verif.Stream.Props

/-!
# The whole loop
-/

namespace Verif.Post

open Verif.Input Verif.State Verif.Stream Verif.Walk

variable {W : Type} {σ : Setting W} {name : Int → UString}

/-! ## The segments that follow -/

def tailOf : List Seg → Option (List Nat)
  | [] => none
  | ss => some (fileText ss)

/-- The segments are as they should be, and so is the end of the file. -/
structure Fit (σ : Setting W) (ss : List Seg) : Prop where
  all : ∀ s ∈ ss, s.WF σ
  closed : ∀ s, ss.getLast? = some s → s.Closed

theorem Fit.tail {s : Seg} {ss : List Seg} (h : Fit σ (s :: ss)) : Fit σ ss := by
  refine ⟨fun x hx => h.all x (by simp [hx]), fun x hx => h.closed x ?_⟩
  cases ss with
  | nil => simp at hx
  | cons y ss => rw [List.getLast?_cons_cons]; exact hx

theorem Fit.fine {s : Seg} {ss : List Seg} (h : Fit σ (s :: ss)) : Fine σ s.words s.last (tailOf ss) := by
  have hs := h.all s (by simp)
  refine ⟨hs.words, hs.apart, hs.last, fun ht hl => ?_⟩
  cases ss with
  | nil => exact h.closed s rfl hl
  | cons x ss => simp [tailOf] at ht

theorem fileText_cons (s : Seg) (ss : List Seg) : fileText (s :: ss) = s.words.flatMap Word.text ++ s.last.text ++ tailText (tailOf ss) := by
  cases ss with
  | nil => simp [fileText, Seg.text, tailOf, tailText]
  | cons x ss => simp [fileText, Seg.text, tailOf, tailText]

/-- The loop with which a word is processed. -/
theorem loop_go [Zero W] [Add W] [LinearOrder W] {n turns : Nat} {init : List (Rec W)} {t t' : Tl} {l : Loc W} (h : refill σ t = .ok (.go t')) :
    loop σ n init (turns + 1) t l = (do let (t, l) ← turn σ n init t' l; loop σ n init turns t l) := by
  conv_lhs => unfold loop
  rw [h]
  rfl

section
variable [AddMonoid W] [LinearOrder W]

theorem Place.refill {last : Blank} {tail : Option (List Nat)} {f : Front} {s : Nat} {rest : List Front} {g : Front} {qs : List Front} {us : List Word}
    {extra : List UString} {k b : Nat} {t : Tl} {l : Loc W} (h : Place σ name last tail f s rest g qs us extra k b t l) : refill σ t = .ok (.go t) := by
  unfold Post.refill
  rw [if_neg (by rw [h.held.queue]; simp)]

/-- Between words: the next word is taken, or the segment ends. -/
theorem Between.refill (hr : Regular σ name) {last : Blank} {ss : List Seg} (hs : Fit σ ss) {rest : List Front} {t : Tl} {init : List (Rec W)}
    (h : Between σ name last (tailOf ss) rest t) :
    (∃ f rest' t' qs us extra, rest = f :: rest' ∧ Post.refill σ t = .ok (.go t') ∧ t'.out = t.out ∧
      Place σ name last (tailOf ss) f 0 rest' f qs us extra 0 0 t' ({ cur := init } : Loc W)) ∨
    (rest = [] ∧ ss = [] ∧ ∃ t', Post.refill σ t = .ok (.stop t') ∧ t'.out = t.out ++ enc last.text) ∨
    (∃ s ss' t', rest = [] ∧ ss = s :: ss' ∧ Post.refill σ t = .ok (.again t') ∧ t'.out = t.out ++ enc last.text ++ [0] ∧
      Between σ name s.last (tailOf ss') (s.words.map (frontOf σ.alphabet)) t') := by
  obtain ⟨qs, us, extra, hh, rfl, hq⟩ := h.held
  cases qs with
  | cons q qs =>
    left
    refine ⟨q, qs ++ us.map (frontOf σ.alphabet), t, qs, us, extra, rfl, ?_, rfl, hh, .none (fun j hj => by omega), ⟨q.word, by simp, Nat.zero_le _⟩, by simp [offset], rfl, ?_, (hq q (by simp)).1,
      fun q' hq' => hq q' (by simp [hq'])⟩
    · unfold Post.refill
      rw [if_neg (by rw [hh.queue]; simp)]
    · exact List.length_pos_iff.2 (hq q (by simp)).2
  | nil =>
    have hqe : t.queue = [] := hh.queue
    unfold Post.refill
    rw [if_pos hqe]
    cases us with
    | cons w us =>
      left
      obtain ⟨he, hwf, i, h1, h2⟩ := Src.word hr.spaces (flush t) hh.src
      subst he
      have hb : t.blanks = [] := by rw [hh.blanks]; rfl
      refine ⟨frontOf σ.alphabet w, us.map (frontOf σ.alphabet), pushed (flush t) i (frontOf σ.alphabet w), [], us, [], rfl, ?_, ?_, ⟨?_, ?_, ?_, h1⟩,
        .none (fun j hj => by omega), ⟨_, rfl, Nat.zero_le _⟩, by simp [offset], rfl, List.length_pos_iff.2 (frontOf_normal hr hwf).2, (frontOf_normal hr hwf).1, by simp⟩
      · rw [h2]; rfl
      · show t.out ++ t.blanks.flatten = t.out
        rw [hb]
        simp
      · show t.queue ++ _ = _
        rw [hqe]; rfl
      · show t.wblanks ++ _ = _
        rw [hh.wblanks]; rfl
      · show [] ++ _ = _
        simp
    | nil =>
      right
      obtain ⟨i, extra', h1, h2, h3⟩ := Src.none hr.spaces (flush t) hh.src
      rw [h3]
      simp only [Res.bind_ok]
      have hb : t.blanks = extra := by rw [hh.blanks]; rfl
      have hout : (flush { flush t with inp := i, blanks := (flush t).blanks ++ extra' }).out = t.out ++ enc last.text := by
        show (t.out ++ t.blanks.flatten) ++ ([] ++ extra').flatten = _
        rw [hb, ← h2]
        simp
      cases ss with
      | nil =>
        left
        have h1 : i = Stream.ended := h1
        refine ⟨rfl, rfl, _, ?_, hout⟩
        rw [h1]
        rfl
      | cons s ss =>
        right
        have h1 : Holds i (0 :: fileText (s :: ss)) := h1
        obtain ⟨i', g1, g2, -⟩ := h1.get
        refine ⟨s, ss, { flush { flush t with inp := i, blanks := (flush t).blanks ++ extra' } with
          inp := i', out := (flush { flush t with inp := i, blanks := (flush t).blanks ++ extra' }).out ++ utf16 0 }, rfl, rfl, ?_, ?_, ⟨[], s.words, [], ⟨hqe, hh.wblanks, rfl, ?_⟩, rfl, by simp⟩⟩
        · simp only [h1.eof, g1, Res.bind_ok, Bool.false_eq_true, if_false]
        · show _ ++ _ = _
          rw [hout]
          rfl
        · rw [fileText_cons] at g2
          exact .unread g2 hs.fine

/-- What is written after a segment. -/
def After (σ : Setting W) (name : Int → UString) (ss : List Seg) (o : UString) : Prop :=
  (ss = [] ∧ o = []) ∨ (ss ≠ [] ∧ ∃ outs, List.Forall₂ (Seg.Out σ name) ss outs ∧ o = 0 :: nulled outs)

theorem After.cons {s : Seg} {ss : List Seg} {o o' : UString} (h : s.Out σ name o) (h' : After σ name ss o') : After σ name (s :: ss) (0 :: (o ++ o')) := by
  refine .inr ⟨by simp, ?_⟩
  rcases h' with ⟨rfl, rfl⟩ | ⟨hne, outs, h1, rfl⟩
  · exact ⟨[o], .cons h .nil, by simp [nulled]⟩
  · refine ⟨o :: outs, .cons h h1, ?_⟩
    cases outs with
    | nil =>
      cases h1
      exact absurd rfl hne
    | cons p outs => simp [nulled]

omit [AddMonoid W] [LinearOrder W] in
theorem fronts (ha : σ.alphabet.Ok) (ws : List Word) : List.Forall₂ (Word.Front σ.alphabet) ws (ws.map (frontOf σ.alphabet)) := by
  induction ws with
  | nil => exact .nil
  | cons w ws ih => exact .cons ((word_front ha w _).2 rfl) ih

/-- What is written is right, if the program ends. -/
theorem loop_sound (hr : Regular σ name) (hf : Few σ) {init : List (Rec W)} (hi : Sound σ [] init) (n turns : Nat) :
    (∀ (last : Blank) (ss : List Seg), Fit σ ss → ∀ (f : Front) (s : Nat) (rest : List Front) (g : Front) (qs : List Front) (us : List Word) (extra : List UString) (k : Nat) (t : Tl) (l : Loc W) (out : UString),
      Place σ name last (tailOf ss) f s rest g qs us extra k k t l → Seen σ (((ahead f rest).drop s).take k) l → loop σ n init turns t l = .ok out →
      ∃ gs o, Pass σ (some (f, s)) rest gs ∧ After σ name ss o ∧ out = t.out ++ gs.flatMap (Front.out σ name) ++ enc last.text ++ o) ∧
    (∀ (last : Blank) (ss : List Seg), Fit σ ss → ∀ (rest : List Front) (t : Tl) (out : UString),
      Between σ name last (tailOf ss) rest t → loop σ n init turns t { cur := init } = .ok out →
      ∃ gs o, Pass σ none rest gs ∧ After σ name ss o ∧ out = t.out ++ gs.flatMap (Front.out σ name) ++ enc last.text ++ o) := by
  induction turns with
  | zero =>
    refine ⟨?_, ?_⟩
    · intro last ss hs f s rest g qs us extra k t l out _ _ h
      simp [loop] at h
    · intro last ss hs rest t out _ h
      simp [loop] at h
  | succ turns ih =>
    obtain ⟨ihB, ihA⟩ := ih
    have key : ∀ (last : Blank) (ss : List Seg), Fit σ ss → ∀ (f : Front) (s : Nat) (rest : List Front) (g : Front) (qs : List Front) (us : List Word) (extra : List UString) (k : Nat) (t : Tl) (l : Loc W) (out : UString),
        Place σ name last (tailOf ss) f s rest g qs us extra k k t l → Seen σ (((ahead f rest).drop s).take k) l →
        (do let (t, l) ← turn σ n init t l; loop σ n init turns t l) = .ok out →
        ∃ gs o, Pass σ (some (f, s)) rest gs ∧ After σ name ss o ∧ out = t.out ++ gs.flatMap (Front.out σ name) ++ enc last.text ++ o := by
      intro last ss hs f s rest g qs us extra k t l out hp hseen h
      obtain ⟨t', l', h1, -, h3⟩ := turn_ok hr hf hp hseen hi
      rcases h1 n with h1 | h1
      · rw [h1] at h
        simp [bind, Res.bind] at h
      · rw [h1] at h
        simp only [Res.bind_ok] at h
        rcases h3 with ⟨-, ⟨g', qs', us', extra', p1⟩, p2, p3⟩ | ⟨f', s', rest', p1, ⟨p2, ⟨qs', us', extra', p3⟩, p4, p5⟩ | ⟨p2, p3, rfl, p5⟩⟩
        · obtain ⟨gs, o, q1, q2, q3⟩ := ihB last ss hs f s rest g' qs' us' extra' (k + 1) t' l' out p1 p2 h
          exact ⟨gs, o, q1, q2, by rw [q3, p3]⟩
        · obtain ⟨gs, o, q1, q2, q3⟩ := ihB last ss hs f' s' rest' f' qs' us' extra' 0 t' l' out p3 (by simpa using p4) h
          exact ⟨gs, o, .go p1 p2 q1, q2, by rw [q3, p5]⟩
        · obtain ⟨gs, o, q1, q2, q3⟩ := ihA last ss hs rest' t' out p3 h
          exact ⟨f' :: gs, o, .emit p1 p2 q1, q2, by rw [q3, p5]; simp⟩
    refine ⟨?_, ?_⟩
    · intro last ss hs f s rest g qs us extra k t l out hp hseen h
      rw [loop_go hp.refill] at h
      exact key last ss hs f s rest g qs us extra k t l out hp hseen h
    · intro last ss hs rest t out hb h
      rcases hb.refill hr hs (init := init) with ⟨f, rest', t', qs, us, extra, rfl, h1, h2, h3⟩ | ⟨rfl, rfl, t', h1, h2⟩ | ⟨s, ss', t', rfl, rfl, h1, h2, h3⟩
      · rw [loop_go h1] at h
        obtain ⟨gs, o, q1, q2, q3⟩ := key last ss hs f 0 rest' f qs us extra 0 t' _ out h3 (by simpa using (⟨hi, rfl, rfl, rfl, rfl⟩ : Seen σ [] ({ cur := init } : Loc W))) h
        exact ⟨gs, o, .start q1, q2, by rw [q3, h2]⟩
      · unfold loop at h
        rw [h1] at h
        simp only [Res.bind_ok, Res.ok.injEq] at h
        exact ⟨[], [], .done, .inl ⟨rfl, rfl⟩, by rw [← h, h2]; simp⟩
      · unfold loop at h
        rw [h1] at h
        simp only [Res.bind_ok] at h
        obtain ⟨gs, o, q1, q2, q3⟩ := ihA s.last ss' hs.tail _ t' out h3 h
        refine ⟨[], 0 :: (gs.flatMap (Front.out σ name) ++ enc s.last.text ++ o), .done, ?_, ?_⟩
        · exact After.cons ⟨_, gs, fronts hr.alphabet s.words, q1, rfl⟩ q2
        · rw [q3, h2]; simp

/-! ## Termination -/

def size (rest : List Front) : Nat := (rest.map fun r => r.word.length + 1).sum

theorem gather_size (n : Nat) (f : Front) (rest : List Front) : (gather n f rest).1.word.length + size (gather n f rest).2 = f.word.length + size rest := by
  induction rest generalizing f with
  | nil => rfl
  | cons g rest ih =>
    by_cases hn : n ≤ f.word.length
    · rw [gather_id hn]
    · rw [gather_more (by omega), ih]
      simp only [join, size, List.map_cons, List.sum_cons, List.length_append, List.length_cons]
      omega

theorem ahead_length (f : Front) (rest : List Front) : (ahead f rest).length = f.word.length + size rest := by
  induction rest generalizing f with
  | nil => simp [ahead, size]
  | cons g rest ih =>
    rw [← ahead_join, ih]
    simp only [join, size, List.map_cons, List.sum_cons, List.length_append, List.length_cons]
    omega

theorem gather_space {n : Nat} {f : Front} {rest : List Front} (h : (gather n f rest).1.word.length = n) (hl : n < (ahead f rest).length) : (ahead f rest)[n]? = some 0x20 := by
  have e := ahead_gather n f rest
  rw [← e] at hl ⊢
  unfold ahead at hl ⊢
  rw [List.length_append, h] at hl
  rw [List.getElem?_append_right (by omega), h, Nat.sub_self]
  cases hR : (gather n f rest).2 with
  | nil => rw [hR] at hl; simp at hl
  | cons g R => simp

theorem overlap_concat (a b : List Int) (x : Int) : overlap (a ++ [x]) (b ++ [x]) = overlap a b + 1 := by
  unfold overlap
  simp

theorem step_size (hst : Settles σ) {f : Front} {s : Nat} {rest : List Front} (hs : s < f.word.length) {f' : Front} {s' : Nat} {rest' : List Front} (h : Step σ f s rest (f', s', rest')) :
    f'.word.length + size rest' + s < f.word.length + size rest + s' ∧ size rest' < f.word.length + size rest - s := by
  have key : ∀ k m, s + k ≤ (ahead f rest).length → m.length < k + max 1 (k - overlap m (((ahead f rest).drop s).take k)) → (f', s', rest') = replaced f s rest k m →
      f'.word.length + size rest' + s < f.word.length + size rest + s' ∧ size rest' < f.word.length + size rest - s := by
    intro k m hk hm he
    have e1 := gather_size (s + k) f rest
    have e2 := gather_length hk
    have e3 := gather_grows (s + k) f rest
    have e4 := ahead_gather (s + k) f rest
    unfold replaced at he
    simp only [Prod.mk.injEq] at he
    obtain ⟨rfl, rfl, rfl⟩ := he
    have e5 : ((ahead f rest).drop s).take k = ((gather (s + k) f rest).1.word.drop s).take k := by
      rw [← e4, ahead, List.drop_append_of_le_length (by omega), List.take_append_of_le_length (by rw [List.length_drop]; omega)]
    rw [e5] at hm
    simp only [List.length_append, List.length_take, List.length_drop]
    omega
  have hal : (ahead f rest).length = f.word.length + size rest := ahead_length f rest
  generalize hx : (f', s', rest') = x at h
  cases h with
  | none h =>
    cases hx
    omega
  | @within k m h he =>
    obtain ⟨h1, h2, h3⟩ := h
    have := hst _ _ h2
    rw [List.length_drop] at h1
    rw [List.length_take, List.length_drop, Nat.min_eq_left (by omega)] at this
    exact key k m (by omega) this hx
  | @upto k m h he =>
    obtain ⟨h1, h2, h3⟩ := h
    obtain ⟨g1, g2, g3⟩ := he
    have hm := hst _ _ h2
    rw [List.length_drop] at h1
    rw [List.length_take, List.length_drop, Nat.min_eq_left (by omega)] at hm
    have hsp := gather_space g2 (by omega)
    obtain ⟨m', rfl⟩ : ∃ m', m = m' ++ [0x20] := by
      have hne : m ≠ [] := by rintro rfl; simp at g3
      refine ⟨m.dropLast, ?_⟩
      rw [List.getLast?_eq_some_getLast hne, Option.some.injEq] at g3
      rw [← g3, List.dropLast_append_getLast]
    have e6 : ((ahead f rest).drop s).take k = ((ahead f rest).drop s).take (k - 1) ++ [0x20] := by
      obtain ⟨j, rfl⟩ := Nat.exists_eq_succ_of_ne_zero (Nat.ne_of_gt g1)
      rw [Nat.succ_eq_add_one, List.take_add_one, List.getElem?_drop]
      rw [show s + (j + 1) - 1 = s + j by omega] at hsp
      rw [Nat.succ_eq_add_one] at *
      rw [hsp]
      rfl
    rw [e6, overlap_concat] at hm
    rw [List.dropLast_concat] at hx
    refine key (k - 1) m' (by omega) ?_ hx
    rw [List.length_append, List.length_singleton] at hm
    omega

/-- A segment comes to its end, if what follows does. -/
theorem segment_ends (hr : Regular σ name) (hf : Few σ) (hst : Settles σ) {init : List (Rec W)} (hi : Sound σ [] init) {ss : List Seg} (hs : Fit σ ss) (last : Blank)
    (next : ∀ s ss', ss = s :: ss' → ∀ rest t, Between σ name s.last (tailOf ss') rest t → ∃ T N out, ∀ n ≥ N, ∀ turns ≥ T, loop σ n init turns t { cur := init } = .ok out)
    (M : Nat) :
    (∀ f s rest g qs us extra k t l, f.word.length + size rest - s < M → Place σ name last (tailOf ss) f s rest g qs us extra k k t l →
      Seen σ (((ahead f rest).drop s).take k) l → ∃ T N out, ∀ n ≥ N, ∀ turns ≥ T, (do let (t, l) ← turn σ n init t l; loop σ n init turns t l) = .ok out) ∧
    (∀ rest t, size rest ≤ M → Between σ name last (tailOf ss) rest t → ∃ T N out, ∀ n ≥ N, ∀ turns ≥ T, loop σ n init turns t { cur := init } = .ok out) := by
  -- words that are being processed, given the rest
  have between : ∀ M, (∀ f s rest g qs us extra k t l, f.word.length + size rest - s < M → Place σ name last (tailOf ss) f s rest g qs us extra k k t l →
      Seen σ (((ahead f rest).drop s).take k) l → ∃ T N out, ∀ n ≥ N, ∀ turns ≥ T, (do let (t, l) ← turn σ n init t l; loop σ n init turns t l) = .ok out) →
      ∀ rest t, size rest ≤ M → Between σ name last (tailOf ss) rest t → ∃ T N out, ∀ n ≥ N, ∀ turns ≥ T, loop σ n init turns t { cur := init } = .ok out := by
    intro M hB rest t hM hb
    rcases hb.refill hr hs (init := init) with ⟨f, rest', t', qs, us, extra, rfl, h1, h2, h3⟩ | ⟨rfl, rfl, t', h1, h2⟩ | ⟨s, ss', t', rfl, rfl, h1, h2, h3⟩
    · have e : size (f :: rest') = f.word.length + 1 + size rest' := by simp [size]
      obtain ⟨T, N, out, h⟩ := hB f 0 rest' f qs us extra 0 t' _ (by omega) h3 (by simpa using (⟨hi, rfl, rfl, rfl, rfl⟩ : Seen σ [] ({ cur := init } : Loc W)))
      refine ⟨T + 1, N, out, fun n hn turns ht => ?_⟩
      obtain ⟨k, rfl⟩ := Nat.exists_eq_add_of_le ht
      rw [show T + 1 + k = (T + k) + 1 by omega, loop_go h1]
      exact h n hn (T + k) (by omega)
    · refine ⟨1, 0, t'.out, fun n _ turns ht => ?_⟩
      obtain ⟨k, rfl⟩ := Nat.exists_eq_add_of_le ht
      rw [Nat.add_comm]
      unfold loop
      rw [h1]
      rfl
    · obtain ⟨T, N, out, h⟩ := next s ss' rfl _ t' h3
      refine ⟨T + 1, N, out, fun n hn turns ht => ?_⟩
      obtain ⟨k, rfl⟩ := Nat.exists_eq_add_of_le ht
      rw [show T + 1 + k = (T + k) + 1 by omega]
      unfold loop
      rw [h1]
      exact h n hn (T + k) (by omega)
  induction M with
  | zero => exact ⟨fun _ _ _ _ _ _ _ _ _ _ h => absurd h (Nat.not_lt_zero _), between 0 fun _ _ _ _ _ _ _ _ _ _ h => absurd h (Nat.not_lt_zero _)⟩
  | succ M ih =>
    obtain ⟨ihB, ihA⟩ := ih
    have hB : ∀ d f s rest g qs us extra k t l, f.word.length + size rest - s < M + 1 → ((ahead f rest).drop s).length - k ≤ d →
        Place σ name last (tailOf ss) f s rest g qs us extra k k t l →
        Seen σ (((ahead f rest).drop s).take k) l → ∃ T N out, ∀ n ≥ N, ∀ turns ≥ T, (do let (t, l) ← turn σ n init t l; loop σ n init turns t l) = .ok out := by
      intro d
      induction d with
      | zero => ?_
      | succ d ihd => ?_
      all_goals
        intro f s rest g qs us extra k t l hM hd hp hseen
        obtain ⟨t', l', -, ⟨N0, h1⟩, h3⟩ := turn_ok hr hf hp hseen hi
        -- it is enough that the loop ends after this turn
        have enough : (∃ T N out, ∀ n ≥ N, ∀ turns ≥ T, loop σ n init turns t' l' = .ok out) →
            ∃ T N out, ∀ n ≥ N, ∀ turns ≥ T, (do let (t, l) ← turn σ n init t l; loop σ n init turns t l) = .ok out := by
          rintro ⟨T, N, out, h⟩
          refine ⟨T, max N N0, out, fun n hn turns ht => ?_⟩
          rw [h1 n (by omega)]
          exact h n (by omega) turns ht
        -- a word that is being processed
        have more : ∀ {f : Front} {s : Nat} {rest : List Front} {g : Front} {qs : List Front} {us : List Word} {extra : List UString} {k : Nat},
            Place σ name last (tailOf ss) f s rest g qs us extra k k t' l' →
            (∃ T N out, ∀ n ≥ N, ∀ turns ≥ T, (do let (t, l) ← turn σ n init t' l'; loop σ n init turns t l) = .ok out) →
            ∃ T N out, ∀ n ≥ N, ∀ turns ≥ T, loop σ n init turns t' l' = .ok out := by
          rintro f s rest g qs us extra k hp ⟨T, N, out, h⟩
          refine ⟨T + 1, N, out, fun n hn turns ht => ?_⟩
          obtain ⟨k, rfl⟩ := Nat.exists_eq_add_of_le ht
          rw [show T + 1 + k = (T + k) + 1 by omega, loop_go hp.refill]
          exact h n hn (T + k) (by omega)
        rcases h3 with ⟨p0, ⟨g', qs', us', extra', p1⟩, p2, p3⟩ | ⟨f', s', rest', p1, ⟨p2, ⟨qs', us', extra', p3⟩, p4, p5⟩ | ⟨p2, p3, rfl, p5⟩⟩
        · first
          | omega
          | exact enough (more p1 (ihd f s rest g' qs' us' extra' (k + 1) t' l' hM (by omega) p1 p2))
        · have := step_size hst hp.inside p1
          exact enough (more p3 (ihB f' s' rest' f' qs' us' extra' 0 t' l' (by omega) p3 (by simpa using p4)))
        · have := step_size hst hp.inside p1
          exact enough (ihA rest' t' (by omega) p3)
    exact ⟨fun f s rest g qs us extra k t l hM hp hseen => hB _ f s rest g qs us extra k t l hM (Nat.le_refl _) hp hseen,
      between (M + 1) fun f s rest g qs us extra k t l hM hp hseen => hB _ f s rest g qs us extra k t l hM (Nat.le_refl _) hp hseen⟩

/-- The program ends. -/
theorem loop_ends (hr : Regular σ name) (hf : Few σ) (hst : Settles σ) {init : List (Rec W)} (hi : Sound σ [] init) (ss : List Seg) : Fit σ ss →
    ∀ (last : Blank) (rest : List Front) (t : Tl), Between σ name last (tailOf ss) rest t →
      ∃ T N out, ∀ n ≥ N, ∀ turns ≥ T, loop σ n init turns t { cur := init } = .ok out := by
  induction ss with
  | nil =>
    intro hs last rest t hb
    exact (segment_ends hr hf hst hi hs last (fun s ss' h => by simp at h) _).2 rest t (Nat.le_refl _) hb
  | cons s0 ss ih =>
    intro hs last rest t hb
    refine (segment_ends hr hf hst hi hs last (fun s ss' h => ?_) _).2 rest t (Nat.le_refl _) hb
    cases h
    exact ih hs.tail s0.last

/-! ## Files -/

omit [AddMonoid W] [LinearOrder W] in
theorem blank_scalar {b : Blank} (h : ∀ p ∈ b, p.WF σ) : ∀ c ∈ b.text, Scalar c := by
  intro c hc
  obtain ⟨p, hp, hc⟩ := List.mem_flatMap.1 hc
  have hw := h p hp
  cases p with
  | space d =>
    rw [Piece.text, List.mem_singleton] at hc
    rw [hc]
    exact hw.1
  | super ts => exact scalar_block (scalar_ascii (by decide)) (scalar_ascii (by decide)) hw.1 c hc

omit [AddMonoid W] [LinearOrder W] in
theorem part_scalar {p : Part} (h : p.WF σ) : ∀ c ∈ p.text, Scalar c := by
  intro c hc
  rcases p with ((d | d) | ts) | b
  · simp only [Part.text, Letter.text, Tok.text, List.mem_singleton] at hc
    rw [hc]
    exact h.1
  · simp only [Part.text, Letter.text, Tok.text, List.mem_cons, List.not_mem_nil, or_false] at hc
    rcases hc with rfl | rfl
    · exact scalar_ascii (by decide)
    · exact h.1
  · exact scalar_block (scalar_ascii (by decide)) (scalar_ascii (by decide)) h c hc
  · exact blank_scalar h.2 c hc

omit [AddMonoid W] [LinearOrder W] in
theorem word_scalar {w : Word} (h : w.WF σ) : ∀ c ∈ w.text, Scalar c := by
  intro c hc
  simp only [Word.text, List.mem_append] at hc
  rcases hc with ((hc | hc) | hc) | hc
  · exact blank_scalar h.blank c hc
  · cases hm : w.mark with
    | none => rw [hm] at hc; simp at hc
    | some ts =>
      rw [hm] at hc
      exact scalar_wblank (h.mark ts hm) c hc
  · obtain ⟨p, hp, hc⟩ := List.mem_flatMap.1 hc
    exact part_scalar (h.parts p hp) c hc
  · cases hm : w.mark with
    | none => rw [hm] at hc; simp at hc
    | some ts =>
      rw [hm] at hc
      simp only [Option.elim, closing, List.mem_cons, List.not_mem_nil, or_false] at hc
      rcases hc with rfl | rfl | rfl | rfl | rfl <;> exact scalar_ascii (by decide)

omit [AddMonoid W] [LinearOrder W] in
theorem file_scalar {ss : List Seg} (h : ∀ s ∈ ss, s.WF σ) : ∀ c ∈ fileText ss, Scalar c := by
  induction ss with
  | nil => simp [fileText]
  | cons s ss ih =>
    have hs := h s (by simp)
    have ih := ih fun x hx => h x (by simp [hx])
    intro c hc
    rw [fileText_cons, List.mem_append, List.mem_append] at hc
    rcases hc with (hc | hc) | hc
    · obtain ⟨w, hw, hc⟩ := List.mem_flatMap.1 hc
      exact word_scalar (hs.words w hw) c hc
    · exact blank_scalar hs.last c hc
    · cases ss with
      | nil => simp [tailOf, tailText] at hc
      | cons y ss =>
        rcases List.mem_cons.1 hc with rfl | hc
        · exact scalar_ascii (by decide)
        · exact ih c hc

theorem start_between {ss : List Seg} {s : Seg} (h : Fit σ (s :: ss)) : Between σ name s.last (tailOf ss) (s.words.map (frontOf σ.alphabet)) { inp := opened (bytes (fileText (s :: ss))) } := by
  refine ⟨[], s.words, [], ⟨rfl, rfl, rfl, .unread ?_ h.fine⟩, rfl, by simp⟩
  rw [← fileText_cons]
  exact ⟨rfl, by simp [opened], ⟨_, rfl, rfl⟩, file_scalar h.all⟩

theorem transliteration_sound (hr : Regular σ name) (hf : Few σ) {segs : List Seg} (hne : segs ≠ []) (h : Fit σ segs) {n : Nat} {out : UString}
    (ho : transliteration σ n (bytes (fileText segs)) = .ok out) : ∃ outs, List.Forall₂ (Seg.Out σ name) segs outs ∧ out = nulled outs := by
  obtain ⟨s, ss, rfl⟩ := List.exists_cons_of_ne_nil hne
  obtain ⟨init, hi, hc, -⟩ := init_comes hr
  unfold transliteration at ho
  rcases hc n with e | e
  · simp only at e
    rw [e] at ho
    simp [bind, Res.bind, Gen.ended] at ho
  · simp only at e
    rw [e] at ho
    obtain ⟨gs, o, h1, h2, h3⟩ := (loop_sound hr hf hi n n).2 s.last ss h.tail _ _ out (start_between h) ho
    have h4 : s.Out σ name (gs.flatMap (Front.out σ name) ++ enc s.last.text) := ⟨_, gs, fronts hr.alphabet s.words, h1, rfl⟩
    rcases h2 with ⟨rfl, rfl⟩ | ⟨hn, outs, h5, rfl⟩
    · exact ⟨[_], .cons h4 .nil, by rw [h3]; simp [nulled]⟩
    · refine ⟨_ :: outs, .cons h4 h5, ?_⟩
      rw [h3]
      cases outs with
      | nil =>
        cases h5
        exact absurd rfl hn
      | cons p outs => simp [nulled]

theorem transliteration_ends (hr : Regular σ name) (hf : Few σ) (hst : Settles σ) {segs : List Seg} (hne : segs ≠ []) (h : Fit σ segs) :
    ∃ N out, ∀ n ≥ N, transliteration σ n (bytes (fileText segs)) = .ok out := by
  obtain ⟨s, ss, rfl⟩ := List.exists_cons_of_ne_nil hne
  obtain ⟨init, hi, -, N0, hc⟩ := init_comes hr
  obtain ⟨T, N, out, hl⟩ := loop_ends hr hf hst hi ss h.tail s.last _ _ (start_between h)
  refine ⟨max (max N N0) T, out, fun n hn => ?_⟩
  unfold transliteration
  have := hc n (by omega)
  simp only at this
  rw [this]
  exact hl n (by omega) n (by omega)

end

end Verif.Post
