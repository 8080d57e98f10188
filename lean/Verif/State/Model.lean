import Verif.Alphabet.Model
import Verif.SortedVec.Model

/-!
# Model of `lttoolbox/state.cc`: running a transducer

A run-time graph is what `transitions.find(input)` of a node answers: nothing, or the destinations in the order in
which they were added (output symbol, node, weight). Nodes are numbers instead of pointers. A sequence is the list
itself instead of a pointer to a pooled vector; the pool is modelled in `Verif/State/Pool.lean`. The weights are any
type; `double` arithmetic is not modelled. `u_isupper`, `u_tolower` and `u_toupper` of ICU are parameters.

A loop that does not end is the result `none` for every amount of fuel.
-/

namespace Verif.State

variable {W : Type}

/-- What is known of the nodes: `node->transitions.find(input)` (node.h:112-119). -/
abbrev Graph (W : Type) := Nat → Int → Option (List (Int × Nat × W))

/-- `State::TNodeState` (state.h:46-68). -/
structure Rec (W : Type) where
  node : Nat
  seq : List (Int × W)
  dirty : Bool
deriving DecidableEq

/-- `State::apply_into` (state.cc:122-142): the new states and whether there were transitions. -/
def applyInto (g : Graph W) (input : Int) (r : Rec W) (dirty : Bool) : List (Rec W) × Bool :=
  match g r.node input with
  | some ds => (ds.map fun d =>
      { node := d.2.1, seq := if input ≠ 0 then r.seq ++ [(d.1, d.2.2)] else r.seq, dirty := r.dirty || dirty }, true)
  | none => ([], false)

/-- `State::apply_into_override` (state.cc:144-171). -/
def applyIntoOverride (g : Graph W) (input oldSym newSym : Int) (r : Rec W) (dirty : Bool) : List (Rec W) × Bool :=
  match g r.node input with
  | some ds => (ds.map fun d =>
      { node := d.2.1,
        seq := if input ≠ 0 then
            if d.1 = oldSym then r.seq ++ [(newSym, d.2.2)] else r.seq ++ [(d.1, d.2.2)]
          else r.seq,
        dirty := r.dirty || dirty }, true)
  | none => ([], false)

/-- `State::apply(int)` (state.cc:173-190). -/
def apply (g : Graph W) (input : Int) (st : List (Rec W)) : List (Rec W) :=
  if input = 0 then [] else st.flatMap fun r => (applyInto g input r false).1

/-- `State::apply_override(int, int, int)` (state.cc:192-209). -/
def applyOverride (g : Graph W) (input oldSym newSym : Int) (st : List (Rec W)) : List (Rec W) :=
  if input = 0 ∨ oldSym = 0 then []
  else st.flatMap fun r => (applyIntoOverride g input oldSym newSym r false).1 ++ (applyIntoOverride g oldSym oldSym newSym r true).1

/-- `State::apply_override(int, int, int, int)` (state.cc:211-237). -/
def applyOverrideAlt (g : Graph W) (input alt oldSym newSym : Int) (st : List (Rec W)) : List (Rec W) :=
  if input = alt then applyOverride g input oldSym newSym st
  else if input = 0 ∨ oldSym = 0 then []
  else st.flatMap fun r => (applyIntoOverride g input oldSym newSym r false).1 ++
    (applyIntoOverride g alt oldSym newSym r true).1 ++ (applyIntoOverride g oldSym oldSym newSym r true).1

/-- `State::apply(int, int)` (state.cc:239-263). -/
def applyAlt (g : Graph W) (input alt : Int) (st : List (Rec W)) : List (Rec W) :=
  if input = 0 ∨ alt = 0 then []
  else if input = alt then apply g input st
  else st.flatMap fun r => (applyInto g input r false).1 ++ (applyInto g alt r true).1

/-- `State::apply_careful` (state.cc:265-285). -/
def applyCareful (g : Graph W) (input alt : Int) (st : List (Rec W)) : List (Rec W) :=
  if input = 0 ∨ alt = 0 then []
  else st.flatMap fun r => if (applyInto g input r false).2 then (applyInto g input r false).1 else (applyInto g alt r true).1

/-- `State::apply(int, int, int)` (state.cc:309-339). -/
def applyAlts2 (g : Graph W) (input alt1 alt2 : Int) (st : List (Rec W)) : List (Rec W) :=
  if input = 0 ∨ alt1 = 0 ∨ alt2 = 0 then []
  else if input = alt1 then applyAlt g input alt2 st
  else if input = alt2 then applyAlt g input alt1 st
  else st.flatMap fun r => (applyInto g input r false).1 ++ (applyInto g alt1 r true).1 ++ (applyInto g alt2 r true).1

/-- `State::apply(int, std::set<int>)` (state.cc:341-372). -/
def applySet (g : Graph W) (input : Int) (alts : List Int) (st : List (Rec W)) : List (Rec W) :=
  if input = 0 ∨ 0 ∈ alts then []
  else st.flatMap fun r => (applyInto g input r false).1 ++
    alts.flatMap fun x => if x = input then [] else (applyInto g x r true).1

/-- The body of the loop of `State::epsilonClosure` (state.cc:291-305): the states that are pushed for `r`. -/
def epsSuccs (g : Graph W) (r : Rec W) : List (Rec W) :=
  match g r.node 0 with
  | some ds => ds.map fun (d : Int × Nat × W) =>
      { node := d.2.1, seq := if d.1 ≠ (0 : Int) then r.seq ++ [(d.1, d.2.2)] else r.seq, dirty := r.dirty }
  | none => []

/-- `State::epsilonClosure` (state.cc:287-307), from index `i` on. -/
def closureLoop (g : Graph W) : (fuel i : Nat) → List (Rec W) → Option (List (Rec W))
  | fuel, i, st =>
    match st[i]? with
    | none => some st
    | some r =>
      match fuel with
      | 0 => none
      | fuel + 1 => closureLoop g fuel (i + 1) (st ++ epsSuccs g r)

/-- `State::epsilonClosure` (state.cc:287-307). -/
def epsilonClosure (g : Graph W) (fuel : Nat) (st : List (Rec W)) : Option (List (Rec W)) := closureLoop g fuel 0 st

/-- `State::init` (state.cc:113-120). -/
def init (g : Graph W) (fuel : Nat) (initial : Nat) : Option (List (Rec W)) :=
  epsilonClosure g fuel [{ node := initial, seq := [], dirty := false }]

/-- `State::step(int)` (state.cc:374-379). -/
def step (g : Graph W) (fuel : Nat) (input : Int) (st : List (Rec W)) : Option (List (Rec W)) :=
  epsilonClosure g fuel (apply g input st)

/-- `State::step(int, int)` (state.cc:381-386). -/
def stepAlt (g : Graph W) (fuel : Nat) (input alt : Int) (st : List (Rec W)) : Option (List (Rec W)) :=
  epsilonClosure g fuel (applyAlt g input alt st)

/-- `State::step_override(int, int, int)` (state.cc:388-393). -/
def stepOverride (g : Graph W) (fuel : Nat) (input oldSym newSym : Int) (st : List (Rec W)) : Option (List (Rec W)) :=
  epsilonClosure g fuel (applyOverride g input oldSym newSym st)

/-- `State::step_override(int, int, int, int)` (state.cc:395-400). -/
def stepOverrideAlt (g : Graph W) (fuel : Nat) (input alt oldSym newSym : Int) (st : List (Rec W)) : Option (List (Rec W)) :=
  epsilonClosure g fuel (applyOverrideAlt g input alt oldSym newSym st)

/-- `State::step_careful` (state.cc:402-407). -/
def stepCareful (g : Graph W) (fuel : Nat) (input alt : Int) (st : List (Rec W)) : Option (List (Rec W)) :=
  epsilonClosure g fuel (applyCareful g input alt st)

/-- `State::step(int, int, int)` (state.cc:409-414). -/
def stepAlts2 (g : Graph W) (fuel : Nat) (input alt1 alt2 : Int) (st : List (Rec W)) : Option (List (Rec W)) :=
  epsilonClosure g fuel (applyAlts2 g input alt1 alt2 st)

/-- `State::step(int, std::set<int>)` (state.cc:416-421). -/
def stepSet (g : Graph W) (fuel : Nat) (input : Int) (alts : List Int) (st : List (Rec W)) : Option (List (Rec W)) :=
  epsilonClosure g fuel (applySet g input alts st)

section
variable (isUpper : Int → Bool) (toLower : Int → Int)

/-- `State::step_case(UChar32, UChar32, bool)` (state.cc:423-433). -/
def stepCase2 (g : Graph W) (fuel : Nat) (val val2 : Int) (caseSensitive : Bool) (st : List (Rec W)) : Option (List (Rec W)) :=
  if !isUpper val || caseSensitive then stepAlt g fuel val val2 st
  else if val ≠ toLower val then stepAlts2 g fuel val (toLower val) val2 st
  else stepAlt g fuel val val2 st

/-- `State::step_case(UChar32, bool)` (state.cc:436-444). -/
def stepCase (g : Graph W) (fuel : Nat) (val : Int) (caseSensitive : Bool) (st : List (Rec W)) : Option (List (Rec W)) :=
  if !isUpper val || caseSensitive then step g fuel val st
  else stepAlt g fuel val (toLower val) st

/-- `State::step_case_override` (state.cc:447-455). -/
def stepCaseOverride (g : Graph W) (fuel : Nat) (val : Int) (caseSensitive : Bool) (st : List (Rec W)) : Option (List (Rec W)) :=
  if !isUpper val || caseSensitive then step g fuel val st
  else stepOverrideAlt g fuel val (toLower val) (toLower val) val st

end

/-- `State::step_optional` (state.cc:457-469). -/
def stepOptional (g : Graph W) (fuel : Nat) (val : Int) (st : List (Rec W)) : Option (List (Rec W)) :=
  if val = 0 then some st
  else (epsilonClosure g fuel (st.flatMap fun r => (applyInto g val r false).1)).map (st ++ ·)

/-- `State::isFinal` (state.cc:471-483). -/
def isFinal (finals : List (Nat × W)) (st : List (Rec W)) : Bool := st.any fun r => (mapFind r.node finals).isSome

/-- `State::merge` (state.cc:966-975). -/
def merge (st other : List (Rec W)) : List (Rec W) := st ++ other

/-! ## Selecting analyses -/

/-- The loop of `State::NFinals` (state.cc:493-506). `last_weight` is 0 again in every round. -/
def nFinalsLoop [Zero W] [DecidableEq W] : (maxAnalyses maxWeightClasses : Int) → List (UString × W) → List (UString × W)
  | _, _, [] => []
  | ma, mc, x :: xs =>
    if ma > 0 ∧ mc > 0 then x :: nFinalsLoop (ma - 1) (if (0 : W) ≠ x.2 then mc - 1 else mc) xs
    else []

/-- `State::NFinals` (state.cc:486-508): `std::sort` leaves the order of equal weights open, so the result is any one
of these. -/
def NFinals [Zero W] [LinearOrder W] (lf : List (UString × W)) (maxAnalyses maxWeightClasses : Int) (res : List (UString × W)) : Prop :=
  ∃ s, s.Perm lf ∧ s.Pairwise (fun a b => a.2 ≤ b.2) ∧ res = nFinalsLoop maxAnalyses maxWeightClasses s

/-- `Alphabet::getSymbol` (alphabet.cc:228-240) with `uppercase`: what is appended. `result +=` of a
`UChar32` is the operator of ustring.h:80-88, one or two units. -/
def symbolText (toUpper : Int → Int) (a : Alphabet) (sym : Int) (uppercase : Bool) : Res UString :=
  if sym = 0 then .ok []
  else if sym < 0 then a.tagText sym
  else if uppercase then .ok (Compression.unitsOf (UInt32.ofNat (toUpper sym).toNat))
  else .ok (Compression.unitsOf (UInt32.ofNat sym.toNat))

/-- The inner loop of `filterFinalsArray` (state.cc:527-531): text and cost of a sequence. -/
def seqText [Add W] (toUpper : Int → Int) (a : Alphabet) (escaped : List Int) (upper : Bool) :
    List (Int × W) → UString → W → Res (UString × W)
  | [], temp, cost => .ok (temp, cost)
  | (sym, w) :: seq, temp, cost => do
    let temp := if sym ∈ escaped then temp ++ [0x5c] else temp
    let t ← symbolText toUpper a sym upper
    seqText toUpper a escaped upper seq (temp ++ t) (cost + w)

/-- The upper-casing of the first letter (state.cc:532-536). Beyond the terminating null the access is undefined. -/
def upperFirst (toUpper : Int → Int) (firstchar : Nat) (temp : UString) : Res UString :=
  if firstchar > temp.length then .ub
  else
    let loc := if temp[firstchar]? = some 0x7e then firstchar + 1 else firstchar
    match temp[loc]? with
    | some u => .ok (temp.set loc (UInt16.ofNat (toUpper (u.toNat : Int)).toNat))
    | none => if toUpper 0 = 0 then .ok temp else .ub

/-- The first loop of `State::filterFinalsArray` (state.cc:522-538). -/
def responses [Add W] (toUpper : Int → Int) (finals : List (Nat × W)) (a : Alphabet) (escaped : List Int)
    (uppercase firstupper : Bool) (firstchar : Nat) : List (Rec W) → Res (List (UString × W))
  | [] => .ok []
  | r :: st =>
    match mapFind r.node finals with
    | none => responses toUpper finals a escaped uppercase firstupper firstchar st
    | some fw => do
      let (temp, cost) ← seqText toUpper a escaped (r.dirty && uppercase) r.seq [] fw
      let temp ← if r.dirty && firstupper then upperFirst toUpper firstchar temp else .ok temp
      let rest ← responses toUpper finals a escaped uppercase firstupper firstchar st
      pure ((temp, cost) :: rest)

/-- The second loop of `State::filterFinalsArray` (state.cc:542-555): each text once, with its weight. The printed
weight is a parameter. -/
def dedup (showWeight : W → UString) : List UString → List (UString × W) → List UString
  | _, [] => []
  | seen, (t, w) :: xs =>
    match SortedVec.insert t seen with
    | (seen, _, new) => if !new then dedup showWeight seen xs else (t ++ showWeight w) :: dedup showWeight seen xs

/-- `State::filterFinalsArray` (state.cc:510-555). -/
def FilterFinalsArray [Zero W] [Add W] [LinearOrder W] (toUpper : Int → Int) (showWeight : W → UString) (finals : List (Nat × W))
    (a : Alphabet) (escaped : List Int) (maxAnalyses maxWeightClasses : Int) (uppercase firstupper : Bool) (firstchar : Nat)
    (st : List (Rec W)) (result : List UString) : Prop :=
  ∃ resp best, responses toUpper finals a escaped uppercase firstupper firstchar st = .ok resp ∧
    NFinals resp maxAnalyses maxWeightClasses best ∧ result = dedup showWeight [] best

/-- The loop of `State::filterFinals` (state.cc:569-575). -/
def joinResults (rs : List UString) : UString := rs.flatMap fun r => 0x2f :: r

/-! ## Compounds -/

/-- `State::lastPartHasRequiredSymbol` (state.cc:881-899), from the last symbol backwards. -/
def lastPartLoop (required separation : Int) : List (Int × W) → Bool
  | [] => false
  | (s, _) :: r => if s = required then true else if s = separation then false else lastPartLoop required separation r

/-- `State::lastPartHasRequiredSymbol` (state.cc:881-899). -/
def lastPartHasRequiredSymbol (seq : List (Int × W)) (required separation : Int) : Bool :=
  lastPartLoop required separation seq.reverse

/-- The loop over `j` in `State::pruneCompounds` (state.cc:801): from `j` down to 1. -/
def countSeparators (seq : List (Int × W)) (separation : Int) : Nat → Nat
  | 0 => 0
  | j + 1 => (if (seq[j + 1]?.map (·.1)) = some separation then 1 else 0) + countSeparators seq separation j

/-- `INT_MAX`. -/
def intMax : Int := 2147483647

/-- The number of compound elements of a state (state.cc:797-812). -/
def compoundElements (required separation : Int) (r : Rec W) : Int :=
  if lastPartHasRequiredSymbol r.seq required separation then (countSeparators r.seq separation (r.seq.length - 2) : Int)
  else intMax

/-- `State::pruneCompounds` (state.cc:788-830). -/
def pruneCompounds (required separation maxElements : Int) (st : List (Rec W)) : List (Rec W) :=
  let min := st.foldl (fun m r =>
    if lastPartHasRequiredSymbol r.seq required separation then
      (if m < compoundElements required separation r then m else compoundElements required separation r)
    else m) maxElements
  st.filter fun r => ¬ compoundElements required separation r > min

/-- `State::pruneStatesWithForbiddenSymbol` (state.cc:834-857). -/
def pruneForbidden (forbidden : Int) (st : List (Rec W)) : List (Rec W) :=
  st.filter fun r => ¬ r.seq.any fun x => x.1 = forbidden

/-- `State::hasSymbol` (state.cc:860-877). -/
def hasSymbol (sym : Int) (st : List (Rec W)) : Bool := st.any fun r => r.seq.any fun x => x.1 = sym

/-- `State::restartFinals` (state.cc:902-936), from index `i` on. The states that are appended are visited too.
The result is `none` when the loop does not end. -/
def restartLoop [Zero W] (finals : List (Nat × W)) (required : Int) (restart : List (Rec W)) (separation : Int) :
    (fuel i : Nat) → List (Rec W) → Option (List (Rec W))
  | fuel, i, st =>
    match st[i]? with
    | none => some st
    | some r =>
      match fuel with
      | 0 => none
      | fuel + 1 =>
        restartLoop finals required restart separation fuel (i + 1)
          (if (mapFind r.node finals).isSome && lastPartHasRequiredSymbol r.seq required separation then
            st ++ restart.map fun s => { node := s.node, seq := r.seq ++ [(separation, 0)], dirty := r.dirty }
          else st)

/-- `State::restartFinals` (state.cc:902-936). -/
def restartFinals [Zero W] (finals : List (Nat × W)) (required : Int) (restart : List (Rec W)) (separation : Int) (fuel : Nat)
    (st : List (Rec W)) : Option (List (Rec W)) :=
  restartLoop finals required restart separation fuel 0 st

end Verif.State
