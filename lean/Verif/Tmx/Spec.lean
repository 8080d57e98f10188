import Verif.Tmx.Model
import Verif.Labels.Props

/-! # What a translation memory is meant to store -/

namespace Verif.Tmx

variable (ch : Chars)

/-- A number: digits, with points and commas between them. -/
def IsNumber (d : List Int) : Prop :=
  (∃ c e, d = c :: e ∧ ch.isDigit c = true) ∧ (∃ e c, d = e ++ [c] ∧ ch.isDigit c = true) ∧ ∀ c ∈ d, ch.isDigit c = true ∨ c = 0x2e ∨ c = 0x2c

/-- `d` is the longest number at the beginning of `d ++ r`. -/
def Leads (d r : List Int) : Prop := IsNumber ch d ∧ ∀ e s, d ++ r = e ++ s → IsNumber ch e → e.length ≤ d.length

/-- A symbol, or a number. -/
inductive Item where
  | sym (c : Int)
  | num (d : List Int)
  deriving DecidableEq

/-- The text as symbols and numbers, read from left to right. -/
inductive Items : List Int → List Item → Prop where
  | nil : Items [] []
  | sym {c : Int} {v : List Int} {its : List Item} : ch.isDigit c = false → Items v its → Items (c :: v) (.sym c :: its)
  | num {d v : List Int} {its : List Item} : Leads ch d v → Items v its → Items (d ++ v) (.num d :: its)

/-- The numbers of the text. -/
def numbers : List Item → List (List Int)
  | [] => []
  | .sym _ :: its => numbers its
  | .num d :: its => d :: numbers its

/-- The text of the symbols and numbers. -/
def plain (its : List Item) : List Int := its.flatMap fun it => match it with | .sym c => [c] | .num d => d

/-- The source: `<n>` (-1) for each number. -/
def tagged (its : List Item) : List Int := its.map fun it => match it with | .sym c => c | .num _ => -1

/-- The reference `@(k)`. -/
def reference (k : Nat) : List Int := 0x40 :: 0x28 :: ((Nat.digits 10 k).reverse.map (fun d : Nat => 48 + (d : Int)) ++ [0x29])

/-- `k` is the first place of `d`. -/
def First (ns : List (List Int)) (d : List Int) (k : Nat) : Prop := ns[k]? = some d ∧ ∀ j < k, ns[j]? ≠ some d

/-- The target: a reference for each number. -/
inductive Referred (ns : List (List Int)) : List Item → List Int → Prop where
  | nil : Referred ns [] []
  | sym {c : Int} {its : List Item} {v : List Int} : Referred ns its v → Referred ns (.sym c :: its) (c :: v)
  | num {d : List Int} {k : Nat} {its : List Item} {v : List Int} : First ns d k → Referred ns its v → Referred ns (.num d :: its) (reference (k + 1) ++ v)

/-- A piece of a stored target: a symbol, or the number of a reference. -/
inductive Piece where
  | sym (c : Int)
  | ref (k : Nat)

/-- How the pieces are stored. -/
def render (ps : List Piece) : List Int := ps.flatMap fun p => match p with | .sym c => [c] | .ref k => reference k

/-- The pieces, with each reference replaced by the number that it names. -/
inductive Expands (ns : List (List Int)) : List Piece → List Int → Prop where
  | nil : Expands ns [] []
  | sym {c : Int} {ps : List Piece} {v : List Int} : Expands ns ps v → Expands ns (.sym c :: ps) (c :: v)
  | ref {k : Nat} {d : List Int} {ps : List Piece} {v : List Int} : ns[k]? = some d → Expands ns ps v → Expands ns (.ref (k + 1) :: ps) (d ++ v)

/-- What becomes of the rest of a target from position `i` on; `none` if the unit is left as it is. -/
inductive Told (ns : List (List Int)) : Nat → List Int → Option (List Int) → Prop where
  | nil (i : Nat) : Told ns i [] (some [])
  | sym {i : Nat} {c : Int} {v : List Int} {r : Option (List Int)} : ch.isDigit c = false → Told ns (i + 1) v r → Told ns i (c :: v) (r.map (c :: ·))
  /-- A number of the source becomes a reference. -/
  | known {i k : Nat} {d v : List Int} {r : Option (List Int)} : Leads ch d v → First ns d k → Told ns (i + d.length) v r →
      Told ns i (d ++ v) (r.map (reference (k + 1) ++ ·))
  /-- Another number ends the work. -/
  | far {i : Nat} {d v : List Int} : Leads ch d v → d ∉ ns → d.length ≤ i → Told ns i (d ++ v) none
  /-- But if it stands nearer to the beginning than it is long, it is copied up to the position that equals its length, and what is left of it is looked at again. -/
  | near {i : Nat} {d e v : List Int} {r : Option (List Int)} : Leads ch (d ++ e) v → d ++ e ∉ ns → d ≠ [] → e.length = i →
      Told ns (i + d.length) (e ++ v) r → Told ns i (d ++ (e ++ v)) (r.map (d ++ ·))

/-- The text of the source and of the target after the treatment of numbers. -/
def Aligned (o m o' m' : List Int) : Prop :=
  ∃ its r, Items ch o its ∧ Told ch (numbers its) 0 m r ∧ (r = some m' ∧ o' = tagged its ∨ r = none ∧ o' = o ∧ m' = m)

/-- Not so many numbers that the references would not fit. -/
def Few (o : List Int) : Prop := ∀ its, Items ch o its → (numbers its).length < 10 ^ 8

/-- `t` is `s` without space at both ends. -/
def Trimmed (s t : List Int) : Prop :=
  ∃ a b, s = a ++ t ++ b ∧ (∀ c ∈ a ++ b, ch.isSpace c = true) ∧ (∀ c e, t = c :: e → ch.isSpace c = false) ∧ ∀ e c, t = e ++ [c] → ch.isSpace c = false

/-- The parts of a text between the marks (-2); a mark at the end has no part after it. -/
def Parts (v : List Int) (ps : List (List Int)) : Prop :=
  (∀ p ∈ ps, -2 ∉ p) ∧ (v = [-2].intercalate ps ∧ ps.getLast? ≠ some [] ∨ v = [-2].intercalate ps ++ [-2] ∧ ps ≠ [])

/-- A unit as it is stored. -/
def Normal (o m o' m' : List Int) : Prop :=
  ∃ o1 m1 o2 m2 po pm po' pm', Trimmed ch o o1 ∧ Trimmed ch m m1 ∧ Aligned ch o1 m1 o2 m2 ∧ Parts o2 po ∧ Parts m2 pm ∧
    List.Forall₂ (Trimmed ch) po po' ∧ List.Forall₂ (Trimmed ch) pm pm' ∧ o' = [0x20].intercalate po' ∧ m' = [0x28, 0x23, 0x29].intercalate pm'

/-- What a unit says in the language `l`: its variants of that language, one after the other. -/
def texts (l : UString) (vs : List Tuv) : List Int := (vs.filter fun v => v.1 = l).flatMap (·.2)

/-- A symbol of a text: a mark, or a character. -/
def Char (c : Int) : Prop := c = -2 ∨ 0 < c ∧ c < 2 ^ 29

/-- A unit with texts of characters and marks, and with not too many numbers. -/
def Proper (lo lm : UString) (vs : List Tuv) : Prop :=
  (∀ c ∈ texts lo vs, Char c) ∧ (∀ c ∈ texts lm vs, Char c) ∧ ∀ o, Trimmed ch (texts lo vs) o → Few ch o

/-- `o` and `m` are the sides of a unit of the memory as they are stored. -/
def Remembers (lo lm : UString) (us : List (List Tuv)) (o m : List Int) : Prop :=
  ∃ vs ∈ us, Normal ch (texts lo vs) (texts lm vs) o m ∧ 5 ≤ o.length ∧ 5 ≤ m.length

/-- The name of a symbol of a stored unit. -/
def nameOf (c : Int) : Fst.Name := if c = -1 then .tag numberText else .letter c

end Verif.Tmx
