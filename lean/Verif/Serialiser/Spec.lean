import Verif.Serialiser.Model

/-! Specification vocabulary for the serialised format. -/

namespace Verif.Serialiser

/-- Every value satisfying `P` comes back unchanged, whatever follows it in the stream, and reading stops
exactly at what follows. -/
def RoundTrips {α : Type} (c : Codec α) (P : α → Prop) : Prop :=
  ∀ a, P a → ∀ rest, c.dec (c.enc a ++ rest) = .ok (a, rest)

/-- Reading a stream that was cut anywhere inside the bytes of a value throws. -/
def DetectsTruncation {α : Type} (c : Codec α) (P : α → Prop) : Prop :=
  ∀ a, P a → ∀ p q, c.enc a = p ++ q → q ≠ [] → c.dec p = .exception

/-- The key order is a strict total order in so far as the containers need it. -/
def KeysIncreasing {κ ν : Type} [LT κ] (l : List (κ × ν)) : Prop := l.Pairwise (fun a b => a.1 < b.1)

/-- Keys in order, equal keys allowed. -/
def KeysSorted {κ ν : Type} [LT κ] (l : List (κ × ν)) : Prop := l.Pairwise (fun a b => ¬ b.1 < a.1)

end Verif.Serialiser
