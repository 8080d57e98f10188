import Verif.Regex.Model

/-!
# Regular expressions: syntax trees, how they are written, what they mean

Nothing here mentions the compiler, except for the list of reserved characters.
-/

namespace Verif.Regex

/-- Postfix operators. -/
inductive Post where
  | none
  | star
  | plus
  | opt
  deriving DecidableEq, Repr

/-- Elements of a character class. -/
inductive Item where
  | one (c : Int)
  | range (lo hi : Int)
  deriving DecidableEq, Repr

mutual
/-- A letter, a class (negated or not) or a group, with a postfix operator. -/
inductive Term where
  | letter (c : Int) (p : Post)
  | cls (neg : Bool) (items : List Item) (p : Post)
  | group (e : Alt) (p : Post)
/-- A non-empty sequence. -/
inductive Seq where
  | one (t : Term)
  | more (t : Term) (s : Seq)
/-- A non-empty list of alternatives. -/
inductive Alt where
  | one (s : Seq)
  | more (s : Seq) (a : Alt)
end

/-! ## How they are written -/

/-- Reserved characters are written with a backslash. -/
def printLetter (c : Int) : List Int := if isReserved c then [92, c] else [c]

def Post.print : Post → List Int
  | .none => []
  | .star => [42]
  | .plus => [43]
  | .opt => [63]

def Item.print : Item → List Int
  | .one c => printLetter c
  | .range lo hi => printLetter lo ++ 45 :: printLetter hi

mutual
def Term.print : Term → List Int
  | .letter c p => printLetter c ++ p.print
  | .cls neg items p => 91 :: (if neg then [94] else []) ++ items.flatMap Item.print ++ 93 :: p.print
  | .group e p => 40 :: e.print ++ 41 :: p.print
def Seq.print : Seq → List Int
  | .one t => t.print
  | .more t s => t.print ++ s.print
def Alt.print : Alt → List Int
  | .one s => s.print
  | .more s a => s.print ++ 124 :: a.print
end

/-! ## What they mean -/

/-- The string of a symbol: symbol 0 is the empty symbol. -/
def sym (c : Int) : List Int := if c = 0 then [] else [c]

/-- Postfix operators on languages. -/
def Post.Apply {α : Type} (p : Post) (L : List α → Prop) (u : List α) : Prop :=
  match p with
  | .none => L u
  | .star => ∃ ws : List (List α), (∀ w ∈ ws, L w) ∧ u = ws.flatten
  | .plus => ∃ ws : List (List α), ws ≠ [] ∧ (∀ w ∈ ws, L w) ∧ u = ws.flatten
  | .opt => u = [] ∨ L u

def Item.Has : Item → Int → Prop
  | .one d, c => c = d
  | .range lo hi, c => lo ≤ c ∧ c ≤ hi

/-- The symbol is listed. -/
def Listed (items : List Item) (c : Int) : Prop := ∃ i ∈ items, i.Has c

/-- The members of a negated class as one would expect them: all symbols that are not listed. -/
def allOthers (items : List Item) (c : Int) : Prop := c ≠ 0 ∧ ¬ Listed items c

/-- The members that the compiler gives it: the codes 0 to 255 that are not listed, with 0 being the empty symbol. -/
def latinOthers (items : List Item) (c : Int) : Prop := 0 ≤ c ∧ c < 256 ∧ ¬ Listed items c

mutual
/-- The strings denoted by an expression; `N` tells the members of a negated class. -/
def Term.Means (N : List Item → Int → Prop) : Term → List Int → Prop
  | .letter c p, u => p.Apply (fun v => v = sym c) u
  | .cls neg items p, u => p.Apply (fun v => ∃ c, (if neg then N items c else Listed items c) ∧ v = sym c) u
  | .group e p, u => p.Apply (Alt.Means N e) u
def Seq.Means (N : List Item → Int → Prop) : Seq → List Int → Prop
  | .one t, u => t.Means N u
  | .more t s, u => ∃ v w, t.Means N v ∧ s.Means N w ∧ u = v ++ w
def Alt.Means (N : List Item → Int → Prop) : Alt → List Int → Prop
  | .one s, u => s.Means N u
  | .more s a, u => s.Means N u ∨ a.Means N u
end

/-! ## Which ones are well formed -/

/-- Ranges go upwards and the largest 32-bit integer is not a character. -/
def Item.Valid : Item → Prop
  | .one c => c ≠ fin
  | .range lo hi => lo ≤ hi ∧ hi ≠ fin

mutual
/-- Classes have members. -/
def Term.Valid : Term → Prop
  | .letter _ _ => True
  | .cls neg items _ => (∀ i ∈ items, i.Valid) ∧ ∃ c, if neg then latinOthers items c else Listed items c
  | .group e _ => e.Valid
def Seq.Valid : Seq → Prop
  | .one t => t.Valid
  | .more t s => t.Valid ∧ s.Valid
def Alt.Valid : Alt → Prop
  | .one s => s.Valid
  | .more s a => s.Valid ∧ a.Valid
end

mutual
/-- Without negated classes. -/
def Term.Plain : Term → Prop
  | .letter _ _ => True
  | .cls neg _ _ => neg = false
  | .group e _ => e.Plain
def Seq.Plain : Seq → Prop
  | .one t => t.Plain
  | .more t s => t.Plain ∧ s.Plain
def Alt.Plain : Alt → Prop
  | .one s => s.Plain
  | .more s a => s.Plain ∧ a.Plain
end

end Verif.Regex
