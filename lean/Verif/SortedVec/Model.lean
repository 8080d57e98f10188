import Verif.Base
import Mathlib.Order.Defs.LinearOrder

/-!
# Model of `lttoolbox/sorted_vector.hpp` and `lttoolbox/sorted_vector.cc`

`sorted_vector<T, std::less<T>>` is its vector of elements, a list. `T` is any linear order.
-/

namespace Verif.SortedVec

section
variable {T : Type} [LinearOrder T]

/-- The elements before `std::lower_bound(t)`. On a sorted vector `std::lower_bound` is the first element
not less than `t`; its binary search is not modelled (C++ standard library). -/
def below (t : T) (l : List T) : List T := l.takeWhile (· < t)

/-- The elements from `std::lower_bound(t)` on. -/
def fromLB (t : T) (l : List T) : List T := l.dropWhile (· < t)

/-- `sorted_vector::insert(T)` (sorted_vector.hpp:60-72): new contents, index returned, whether new. -/
def insert (t : T) (elements : List T) : List T × Nat × Bool :=
  if elements.isEmpty then ([t], 0, true)
  else
    let at_ := (below t elements).length
    match fromLB t elements with
    | [] => (elements ++ [t], at_, true)
    | x :: post =>
      if x < t ∨ t < x then (below t elements ++ t :: x :: post, at_, true)
      else (elements, at_, false)

/-- `detail::is_sorted` (sorted_vector.hpp:29-40): no element is less than its predecessor. -/
def isSorted : List T → Bool
  | [] => true
  | [_] => true
  | a :: b :: t => if b < a then false else isSorted (b :: t)

/-- Inner loop of `std::merge` while the first range stands at `a`. -/
def mergeGo (a : T) (as : List T) (f : List T → List T) : List T → List T
  | [] => a :: as
  | b :: bs => if b < a then b :: mergeGo a as f bs else a :: f (b :: bs)

/-- `std::merge`: takes from the second range only when its element is smaller. -/
def merge : List T → List T → List T
  | [] => fun bs => bs
  | a :: as => mergeGo a as (merge as)

/-- Insertion into a sorted list, for `sort`. -/
def sortInsert (t : T) : List T → List T
  | [] => [t]
  | a :: l => if a < t then a :: sortInsert t l else t :: a :: l

/-- `std::sort`: for a linear order the result is determined; insertion sort is used here. -/
def sort (l : List T) : List T := l.foldr sortInsert []

/-- `std::unique` + `erase`: drop elements equal to their predecessor. -/
def unique : List T → List T
  | [] => []
  | [a] => [a]
  | a :: b :: t => if a = b then unique (b :: t) else a :: unique (b :: t)

/-- `sorted_vector::insert(It, It)` (sorted_vector.hpp:74-99). -/
def insertRange (r : List T) (elements : List T) : List T :=
  match r with
  | [t] => (insert t elements).1
  | _ =>
    let merged := if isSorted r then merge elements r else merge elements (sort r)
    unique merged

/-- `sorted_vector::erase(T)` (sorted_vector.hpp:105-121). -/
def erase (t : T) (elements : List T) : List T × Bool :=
  match elements.head?, elements.getLast? with
  | some front, some back =>
    if back < t then (elements, false)
    else if t < front then (elements, false)
    else
      match fromLB t elements with
      | [] => (elements, false)
      | x :: post => if ¬ x < t ∧ ¬ t < x then (below t elements ++ post, true) else (elements, false)
  | _, _ => (elements, false)

/-- `sorted_vector::find` (sorted_vector.hpp:135-150): `none` is `end()`, otherwise the position. -/
def find (t : T) (elements : List T) : Option Nat :=
  match elements.head?, elements.getLast? with
  | some front, some back =>
    if back < t then none
    else if t < front then none
    else
      match fromLB t elements with
      | [] => none
      | x :: _ => if x < t ∨ t < x then none else some (below t elements).length
  | _, _ => none

/-- `sorted_vector::count` (sorted_vector.hpp:152-154). -/
def count (t : T) (elements : List T) : Nat := if (find t elements).isSome then 1 else 0

/-- Loop of `sorted_vector::intersects`; each turn advances one of the two iterators. -/
def intersectsLoop : Nat → List T → List T → Bool
  | 0, _, _ => false
  | _ + 1, [], _ => false
  | _ + 1, _ :: _, [] => false
  | n + 1, a :: as, b :: bs =>
    if a = b then true
    else if a < b then intersectsLoop n as (b :: bs)
    else intersectsLoop n (a :: as) bs

/-- `sorted_vector::intersects` (sorted_vector.hpp:208-225). The fuel is the number of possible turns. -/
def intersects (a b : List T) : Bool := intersectsLoop (a.length + b.length + 1) a b

/-- The operations of a `sorted_vector` that change it. -/
inductive Op (T : Type) where
  | insert (t : T)
  | insertRange (r : List T)
  | erase (t : T)
  | eraseRange (r : List T)
  | assign (r : List T)
  | clear

/-- One operation. `eraseRange` is sorted_vector.hpp:128-133, `assign` the template of 239-243 (the
`const_iterator` overload of 245-247 copies without sorting and is not covered), `clear` 253-255. -/
def step (elements : List T) : Op T → List T
  | .insert t => (insert t elements).1
  | .insertRange r => insertRange r elements
  | .erase t => (erase t elements).1
  | .eraseRange r => r.foldl (fun l t => (erase t l).1) elements
  | .assign r => insertRange r []
  | .clear => []

end

/-! ## `SortedVector`: the transition table of a match node -/

/-- One entry of the table (`SVNode`): tag and destination. -/
abbrev Table (D : Type) := List (Int × D)

/-- `SortedVector::search` (sorted_vector.cc:76-98). `left` and `right` are C `int`s; `(left+right)/2` is the
C division. An access outside the table is `ub`. The fuel bounds the number of turns. -/
def searchLoop {D : Type} (sv : Table D) (tag : Int) : Nat → Int → Int → Res (Option D)
  | 0, _, _ => .ub
  | fuel + 1, left, right =>
    if left ≤ right then
      let mid := (left + right).tdiv 2
      if mid < 0 then .ub
      else match sv[mid.toNat]? with
        | none => .ub
        | some (t, d) =>
          if t = tag then .ok (some d)
          else if t > tag then searchLoop sv tag fuel left (mid - 1)
          else searchLoop sv tag fuel (mid + 1) right
    else .ok none

/-- `SortedVector::search` (sorted_vector.cc:76-98); `none` is `NULL`. -/
def search {D : Type} (sv : Table D) (tag : Int) : Res (Option D) :=
  searchLoop sv tag (sv.length + 1) 0 (sv.length - 1)

end Verif.SortedVec
