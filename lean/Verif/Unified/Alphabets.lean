import Verif.Unified.Model
import Verif.Compiler.File

/-! # What compilation does to the alphabet -/

namespace Verif.Unified

open Verif.Fst Verif.Compiler Verif.Alphabet

set_option linter.unusedSectionVars false

/-- The alphabet got no tags, and only pairs that satisfy `P`. -/
structure Adds (P : Pair → Prop) (a b : Alphabet) : Prop where
  ok : Ok b
  ext : Ext a b
  tags : b.slexicinv = a.slexicinv
  pairs : ∀ p ∈ b.spairinv, p ∈ a.spairinv ∨ P p

variable {P : Pair → Prop} {a b : Alphabet}

theorem Adds.refl (h : Ok a) : Adds P a a := ⟨h, .refl a, rfl, fun _ h => .inl h⟩

theorem Adds.trans {c : Alphabet} (h : Adds P a b) (h' : Adds P b c) : Adds P a c :=
  ⟨h'.ok, h.ext.trans h'.ext, h'.tags.trans h.tags, fun p hp => (h'.pairs p hp).elim (h.pairs p) .inr⟩

theorem adds_pairCode (h : Ok a) {x y : Int} (hp : P (x, y)) : Adds P a (a.pairCode x y).2 := by
  obtain ⟨h1, h2, -, h4, -, h6⟩ := pairCode_spec h x y
  refine ⟨h1, h2, h4, fun p hq => ?_⟩
  rw [h6] at hq
  split at hq
  · exact .inl hq
  · rcases List.mem_append.1 hq with hq | hq
    · exact .inl hq
    · rw [List.mem_singleton] at hq
      subst hq
      exact .inr hp

section
variable {W : Type} [Zero W]

theorem adds_matchStep (h : Ok a) {x y : Int} (hp : P (x, y)) {w : W} {q q' : Nat} {t t' : Transducer W} (he : matchStep [] w x y a q t = .ok (b, q', t')) :
    Adds P a b := by
  unfold matchStep at he
  simp only at he
  split at he
  · cases he
  · simp only [acxLoop, Res.bind_ok] at he
    cases he
    exact adds_pairCode h hp

theorem adds_matchRight {w : W} (r : List Int) (h : Ok a) (hp : ∀ y ∈ r, P (0, y)) {q q' : Nat} {t t' : Transducer W}
    (he : matchRight w r a q t = .ok (b, q', t')) : Adds P a b := by
  induction r generalizing a q t with
  | nil => cases he; exact .refl h
  | cons y r ih =>
    rw [matchRight] at he
    obtain ⟨⟨a1, q1, t1⟩, h1, h2⟩ := Res.bind_eq_ok.1 he
    have g := adds_matchStep h (hp y (by simp)) h1
    exact g.trans (ih g.ok (fun y hy => hp y (List.mem_cons_of_mem _ hy)) h2)

theorem equivalents_nil (x : Int) : equivalents [] x = [] := rfl

theorem adds_matchLoop {w : W} (l : List Int) (r : List Int) (h : Ok a) (hl : r.length ≤ l.length ∨ ∀ y ∈ r, P (0, y)) (hr : l.length ≤ r.length ∨ ∀ x ∈ l, P (x, 0))
    (hp : ∀ z ∈ l.zip r, P z) {q q' : Nat} {t t' : Transducer W}
    (he : matchLoop [] w l r a q t = .ok (b, q', t')) : Adds P a b := by
  induction l generalizing a q t r with
  | nil =>
    rw [matchLoop] at he
    refine adds_matchRight r h ?_ he
    rcases hl with hl | hl
    · intro y hy
      have : r = [] := by simpa using hl
      subst this
      simp at hy
    · exact hl
  | cons x l ih =>
    cases r with
    | nil =>
      rw [matchLoop, equivalents_nil] at he
      obtain ⟨⟨a1, q1, t1⟩, h1, h2⟩ := Res.bind_eq_ok.1 he
      have hr : ∀ z ∈ x :: l, P (z, 0) := hr.resolve_left (by simp)
      have g := adds_matchStep h (hr x (by simp)) h1
      exact g.trans (ih [] g.ok (.inl (by simp)) (.inr fun x hx => hr x (List.mem_cons_of_mem _ hx)) (by simp) h2)
    | cons y r =>
      rw [matchLoop, equivalents_nil] at he
      obtain ⟨⟨a1, q1, t1⟩, h1, h2⟩ := Res.bind_eq_ok.1 he
      have g := adds_matchStep h (hp (x, y) (by simp)) h1
      refine g.trans (ih r g.ok (hl.imp (by simp) fun h y hy => h y (List.mem_cons_of_mem _ hy)) (hr.imp (by simp) fun h y hy => h y (List.mem_cons_of_mem _ hy)) ?_ h2)
      exact fun z hz => hp z (by simp [hz])

/-- Both sides have only symbols from `n` on, or they are the same. -/
def Text (n : Int) (l r : List Int) : Prop := l = r ∨ ((∀ x ∈ l, n ≤ x) ∧ ∀ x ∈ r, n ≤ x)

/-- The pairs that are made. -/
def Fine (n : Int) (p : Pair) : Prop := p.1 = p.2 ∨ (n ≤ p.1 ∧ n ≤ p.2)

theorem adds_text {n : Int} (hn : n ≤ 0) {s : Settings} (hs : s.acx = []) {w : W} {l r : List Int} (h : Ok a) (ht : Text n l r) {q q' : Nat} {t t' : Transducer W}
    (he : matchTransduction s l r w a q t = .ok (b, q', t')) : Adds (Fine n) a b := by
  have key : ∀ l r, Text n l r → matchLoop [] w l r a q t = .ok (b, q', t') → Adds (Fine n) a b := by
    rintro l r (rfl | ⟨h1, h2⟩) he
    · refine adds_matchLoop l l h (.inl (le_refl _)) (.inl (le_refl _)) ?_ he
      intro z hz
      rw [List.zip_eq_zipWith, List.zipWith_self] at hz
      obtain ⟨x, -, rfl⟩ := List.mem_map.1 hz
      exact .inl rfl
    · refine adds_matchLoop l r h (.inr fun y hy => .inr ⟨hn, h2 y hy⟩) (.inr fun x hx => .inr ⟨h1 x hx, hn⟩) ?_ he
      intro z hz
      exact .inr ⟨h1 _ (List.of_mem_zip hz).1, h2 _ (List.of_mem_zip hz).2⟩
  by_cases h0 : l = [] ∧ r = []
  · obtain ⟨rfl, rfl⟩ := h0
    cases he
    exact adds_pairCode h (.inl rfl)
  · have e : matchTransduction s l r w a q t = matchLoop [] w (sides s l r).1 (sides s l r).2 a q t := by
      unfold matchTransduction sides
      rw [hs]
      cases l <;> cases r <;> first | exact absurd ⟨rfl, rfl⟩ h0 | (cases s.rl <;> rfl)
    rw [e] at he
    refine key _ _ ?_ he
    unfold sides
    cases s.rl
    · exact ht
    · exact ht.imp Eq.symm And.symm

theorem adds_regexp [DecidableEq W] {n : Int} {er : List Int} (h : Ok a) {q q' : Nat} {t t' : Transducer W} (he : insertRegexp er a q t = .ok (b, q', t')) :
    Adds (Fine n) a b := by
  unfold insertRegexp at he
  obtain ⟨r, h1, h2⟩ := Res.bind_eq_ok.1 he
  simp only at h2
  obtain ⟨⟨e, t1, o⟩, h3, h4⟩ := Res.bind_eq_ok.1 h2
  cases h4
  obtain ⟨g1, g2, -⟩ := Regex.compile_labels (aok_of_ok h) h1
  have : Adds (Fine n) a r.alphabet := ⟨g1.ok, g2.ext, g2.tags, fun p hp => (g2.pairs p hp).imp_right .inl⟩
  exact this.trans (adds_pairCode g1.ok (.inl rfl))

end

section
variable {N W : Type} [LinearOrder N] [Zero W] [DecidableEq W] {n : Int} {s : Settings}

/-- The texts among the elements are such texts. -/
def Texts (n : Int) (es : List (Token N)) : Prop := ∀ l r, Token.text l r ∈ es → Text n l r

theorem adds_parTokens (hn : n ≤ 0) (hs : s.acx = []) (ws : List (W × Token N)) (ht : Texts n (ws.map (·.2))) (h : Ok a) {pars pars' : List (N × Transducer W)}
    {q q' : Nat} {t t' : Transducer W} (he : parTokens s ws a pars q t = .ok (b, pars', q', t')) : Adds (Fine n) a b := by
  induction ws generalizing a pars q t with
  | nil => cases he; exact .refl h
  | cons k ws ih =>
    have ht' : Texts n (ws.map (·.2)) := fun l r hm => ht l r (List.mem_cons_of_mem _ hm)
    obtain ⟨w, ⟨l, r⟩ | m | er⟩ := k
    · rw [parTokens] at he
      obtain ⟨⟨a1, q1, t1⟩, h1, h2⟩ := Res.bind_eq_ok.1 he
      have g := adds_text hn hs h (ht l r (by simp)) h1
      exact g.trans (ih ht' g.ok h2)
    · rw [parTokens] at he
      obtain ⟨⟨p1, q1, t1⟩, h1, h2⟩ := Res.bind_eq_ok.1 he
      exact ih ht' h h2
    · rw [parTokens] at he
      obtain ⟨⟨a1, q1, t1⟩, h1, h2⟩ := Res.bind_eq_ok.1 he
      have g := adds_regexp (n := n) h h1
      exact g.trans (ih ht' g.ok h2)

theorem adds_suffixPar (h : Ok a) {j : W} {m : N} {pars pars' : List (N × Transducer W)} {q q' : Nat} {x x' : Sec N W}
    (he : suffixPar j m a pars q x = .ok (b, pars', q', x')) : Adds (Fine n) a b := by
  unfold suffixPar at he
  split at he
  · obtain ⟨t, h1, h2⟩ := Res.bind_eq_ok.1 he
    cases h2; exact .refl h
  · simp only at he
    obtain ⟨⟨p1, q1, t1⟩, h1, h2⟩ := Res.bind_eq_ok.1 he
    cases h2
    exact adds_pairCode h (.inl rfl)

theorem adds_secTokens (hn : n ≤ 0) (hs : s.acx = []) (ws : List (W × Token N)) (ht : Texts n (ws.map (·.2))) (first : Bool) (h : Ok a) {pars pars' : List (N × Transducer W)}
    {q q' : Nat} {x x' : Sec N W} (he : secTokens s first ws a pars q x = .ok (b, pars', q', x')) : Adds (Fine n) a b := by
  induction ws generalizing a pars q x first with
  | nil => cases first <;> (cases he; exact .refl h)
  | cons k ws ih =>
    have ht' : Texts n (ws.map (·.2)) := fun l r hm => ht l r (List.mem_cons_of_mem _ hm)
    obtain ⟨w, ⟨l, r⟩ | m | er⟩ := k
    · have he : (matchTransduction s l r w a q x.t >>= fun y => secTokens s false ws y.1 pars y.2.1 { x with t := y.2.2 }) = .ok (b, pars', q', x') := by
        cases first <;> exact he
      obtain ⟨⟨a1, q1, t1⟩, h1, h2⟩ := Res.bind_eq_ok.1 he
      have g := adds_text hn hs h (ht l r (by simp)) h1
      exact g.trans (ih ht' false g.ok h2)
    · cases ws with
      | nil => cases first <;> (rw [secTokens] at he; exact adds_suffixPar h he)
      | cons k ws =>
        cases first
        · rw [secTokens] at he
          obtain ⟨⟨p1, q1, t1⟩, h1, h2⟩ := Res.bind_eq_ok.1 he
          exact ih ht' false h h2
          simp
        · rw [secTokens] at he
          obtain ⟨⟨p1, q1, t1⟩, h1, h2⟩ := Res.bind_eq_ok.1 he
          exact ih ht' false h h2
          simp
    · have he : (insertRegexp er a q x.t >>= fun y => secTokens s false ws y.1 pars y.2.1 { x with t := y.2.2 }) = .ok (b, pars', q', x') := by
        cases first <;> exact he
      obtain ⟨⟨a1, q1, t1⟩, h1, h2⟩ := Res.bind_eq_ok.1 he
      have g := adds_regexp (n := n) h h1
      exact g.trans (ih ht' false g.ok h2)

theorem adds_insertEntryTokens (hn : n ≤ 0) (hs : s.acx = []) (ws : List (W × Token N)) (ht : Texts n (ws.map (·.2))) {c c' : Comp N W} (h : Ok c.alphabet)
    (he : insertEntryTokens s ws c = .ok c') : Adds (Fine n) c.alphabet c'.alphabet := by
  unfold insertEntryTokens at he
  split at he
  · obtain ⟨⟨a1, p1, q1, t1⟩, h1, h2⟩ := Res.bind_eq_ok.1 he
    cases h2
    exact adds_parTokens hn hs ws ht h h1
  · simp only at he
    obtain ⟨⟨a1, p1, q1, t1⟩, h1, h2⟩ := Res.bind_eq_ok.1 he
    cases h2
    exact adds_secTokens hn hs ws ht true h h1

end

end Verif.Unified
