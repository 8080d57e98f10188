/-!
# Ordered containers of the C++ standard library

`std::map`, `std::set` and `std::multimap` are kept as lists sorted by key. Iteration order in C++ is list
order here.
-/

namespace Verif

variable {κ ν : Type} [LT κ] [DecidableLT κ]

/-- `std::multimap::insert` (C++11: a new element goes after all elements with an equivalent key). -/
def mmInsert (k : κ) (v : ν) : List (κ × ν) → List (κ × ν)
  | [] => [(k, v)]
  | (k', v') :: t => if k < k' then (k, v) :: (k', v') :: t else (k', v') :: mmInsert k v t

/-- `std::map::insert`: an element with an equivalent key is left alone. -/
def mapInsert (k : κ) (v : ν) : List (κ × ν) → List (κ × ν)
  | [] => [(k, v)]
  | (k', v') :: t =>
    if k < k' then (k, v) :: (k', v') :: t
    else if k' < k then (k', v') :: mapInsert k v t
    else (k', v') :: t

/-- `map[k] = v`: insert or overwrite. -/
def mapSet (k : κ) (v : ν) : List (κ × ν) → List (κ × ν)
  | [] => [(k, v)]
  | (k', v') :: t =>
    if k < k' then (k, v) :: (k', v') :: t
    else if k' < k then (k', v') :: mapSet k v t
    else (k', v) :: t

/-- `std::set::insert`. -/
def setInsert (k : κ) : List κ → List κ
  | [] => [k]
  | k' :: t =>
    if k < k' then k :: k' :: t
    else if k' < k then k' :: setInsert k t
    else k' :: t

/-- `std::map::erase(key)`. -/
def mapErase [DecidableEq κ] (k : κ) (l : List (κ × ν)) : List (κ × ν) := l.filter (fun e => e.1 ≠ k)

/-- `std::map::find`: the mapped value, or `none` for `end()`. -/
def mapFind [DecidableEq κ] (k : κ) : List (κ × ν) → Option ν
  | [] => none
  | (k', v') :: t => if k' = k then some v' else mapFind k t

/-- `f(map[k])` as an in-place update: a missing key is first created with the default value. -/
def mapModify (d : ν) (k : κ) (f : ν → ν) : List (κ × ν) → List (κ × ν)
  | [] => [(k, f d)]
  | (k', v') :: t =>
    if k < k' then (k, f d) :: (k', v') :: t
    else if k' < k then (k', v') :: mapModify d k f t
    else (k', f v') :: t

end Verif
