import Verif.Cli.Spec
import Mathlib.Data.List.Basic

/-! # Lemmas about `parse_args` -/

namespace Verif.Cli

variable {os : List Opt}

theorem find_short (h : Clear os) {o : Opt} (ho : o ∈ os) : os.find? (fun x => decide (x.short = o.short)) = some o := by
  cases hf : os.find? (fun x => decide (x.short = o.short)) with
  | none => exact absurd (List.find?_eq_none.1 hf o ho) (by simp)
  | some o' =>
    have h1 := List.mem_of_find?_eq_some hf
    have h2 : o'.short = o.short := by simpa using List.find?_some hf
    rw [h.shorts o' h1 o ho h2]

theorem find_long (h : Clear os) {o : Opt} (ho : o ∈ os) : os.find? (fun x => decide (x.long = o.long)) = some o := by
  cases hf : os.find? (fun x => decide (x.long = o.long)) with
  | none => exact absurd (List.find?_eq_none.1 hf o ho) (by simp)
  | some o' =>
    have h1 := List.mem_of_find?_eq_some hf
    have h2 : o'.long = o.long := by simpa using List.find?_some hf
    rw [h.longs o' h1 o ho h2]

/-- Options added to what has been set. -/
def Got.add (g : Got) (fl : List Opt) (vs : List (Opt × Str)) : Got where
  bools := fun n => g.bools n || decide (n ∈ fl.map Opt.long)
  strs := fun n => g.strs n ++ (vs.filter fun e => e.1.long = n).map (·.2)

theorem Got.add_nil (g : Got) : g.add [] [] = g := by
  simp [Got.add]

theorem Got.add_add (g : Got) (a c : List Opt) (b d : List (Opt × Str)) : (g.add a b).add c d = g.add (a ++ c) (b ++ d) := by
  simp only [Got.add, List.map_append, List.mem_append, List.filter_append, Bool.decide_or, Bool.or_assoc, List.append_assoc]

theorem Got.flag_eq (g : Got) (o : Opt) : g.flag o.long = g.add [o] [] := by
  unfold Got.flag Got.add
  simp only [List.map_cons, List.map_nil, List.mem_singleton, List.filter_nil, List.append_nil]
  congr 1
  funext n
  by_cases h : n = o.long <;> simp [h]

theorem Got.push_eq (g : Got) (o : Opt) (v : Str) : g.push o.long v = g.add [] [(o, v)] := by
  unfold Got.push Got.add
  simp only [List.map_nil, List.not_mem_nil, decide_false, Bool.or_false]
  congr 1
  funext n
  by_cases h : n = o.long
  · simp [h]
  · simp [h, Ne.symm h]

theorem settings_eq (is : List Item) : settings is = ({} : Got).add (is.flatMap Item.flags) (is.flatMap Item.values) := by
  simp [settings, Got.add]

/-- An option that asks for nothing else. -/
def Calm (o : Opt) : Prop := o.short ≠ 0x68 ∧ ¬ (o.short = 0x76 ∧ o.long = versionName)

/-! ## Turns of the loop -/

/-- One turn for an option without a value. -/
theorem turn_flag (h : Clear os) {o : Opt} (ho : o ∈ os) (hb : o.isBool = true) (hc : Calm o) {n : Nat} {st st' : Scan} {g : Got}
    (hg : getopt os st = .opt o.short none st') : loop os (n + 1) st g = loop os n st' (g.add [o] []) := by
  rw [loop, hg]
  simp only [find_short h ho]
  rw [if_neg hc.2, if_pos hb, if_neg hc.1, Got.flag_eq]

/-- One turn for an option with a value. -/
theorem turn_value (h : Clear os) {o : Opt} (ho : o ∈ os) (hb : o.isBool = false) (hc : Calm o) {n : Nat} {st st' : Scan} {g : Got} {v : Str}
    (hg : getopt os st = .opt o.short (some v) st') : loop os (n + 1) st g = loop os n st' (g.add [] [(o, v)]) := by
  rw [loop, hg]
  simp only [find_short h ho, hb, Bool.false_eq_true, if_false]
  rw [if_neg hc.2, if_neg hc.1, Got.push_eq]

theorem turn_letters (h : Clear os) (fs : List Opt) (hfs : ∀ o ∈ fs, o ∈ os ∧ o.isBool = true ∧ Calm o) (cs : Str) (args sk : List Str) (n : Nat) (g : Got) :
    loop os (n + fs.length) ⟨fs.map Opt.short ++ cs, args, sk⟩ g = loop os n ⟨cs, args, sk⟩ (g.add fs []) := by
  induction fs generalizing g with
  | nil => rw [Got.add_nil]; rfl
  | cons o fs ih =>
    obtain ⟨h1, h2, h3⟩ := hfs o (by simp)
    rw [List.length_cons, ← Nat.add_assoc, List.map_cons, List.cons_append]
    rw [turn_flag h h1 h2 h3 (st' := ⟨fs.map Opt.short ++ cs, args, sk⟩)]
    · rw [ih fun o ho => hfs o (List.mem_cons_of_mem _ ho), Got.add_add]
      rfl
    · simp only [getopt, shortOpt, find_short h h1, h2, if_true]

theorem loop_congr {n : Nat} {st st' : Scan} {g : Got} (h : getopt os st = getopt os st') : loop os n st g = loop os n st' g := by
  cases n with
  | zero => rfl
  | succ n => rw [loop, loop, h]

/-- Letters after a hyphen. -/
theorem open_letters {c : UInt8} (hc : c ≠ 0x2d) (cs : Str) (args sk : List Str) (n : Nat) (g : Got) :
    loop os n ⟨[], (0x2d :: c :: cs) :: args, sk⟩ g = loop os n ⟨c :: cs, args, sk⟩ g := by
  apply loop_congr
  simp only [getopt, nextArg, if_true, if_neg hc]

theorem skip_file {s : Str} (hs : s = [0x2d] ∨ s.head? ≠ some 0x2d) (args sk : List Str) (n : Nat) (g : Got) :
    loop os n ⟨[], s :: args, sk⟩ g = loop os n ⟨[], args, sk ++ [s]⟩ g := by
  apply loop_congr
  simp only [getopt]
  match s with
  | [] => rfl
  | [x] => rfl
  | x :: y :: s =>
    have : x ≠ 0x2d := by
      rcases hs with hs | hs
      · simp at hs
      · simpa using hs
    rw [nextArg]
    simp only [if_neg this]

theorem takeWhile_name {s t : Str} (h : 0x3d ∉ s) : (s ++ 0x3d :: t).takeWhile (· ≠ 0x3d) = s := by
  induction s with
  | nil => simp
  | cons x s ih =>
    simp only [List.mem_cons, not_or] at h
    simp [Ne.symm h.1]
    simpa using ih h.2

theorem takeWhile_all {s : Str} (h : 0x3d ∉ s) : s.takeWhile (· ≠ 0x3d) = s := by
  induction s with
  | nil => rfl
  | cons x s ih =>
    simp only [List.mem_cons, not_or] at h
    simp [Ne.symm h.1]
    simpa using ih h.2

theorem getopt_long {s : Str} (hs : s ≠ []) (args sk : List Str) : getopt os ⟨[], (0x2d :: 0x2d :: s) :: args, sk⟩ = longOpt os s args sk := by
  simp only [getopt, nextArg, if_true, if_neg hs]

/-- The number of options in an item. -/
def Item.cost (i : Item) : Nat := i.flags.length + i.values.length

theorem turn_last (h : Clear os) {o : Opt} (ho : o ∈ os) (hb : o.isBool = false) (hc : Calm o) (v : Str) (hv : v ≠ []) (args sk : List Str) (n : Nat) (g : Got) :
    loop os (n + 1) ⟨o.short :: v, args, sk⟩ g = loop os n ⟨[], args, sk⟩ (g.add [] [(o, v)]) := by
  refine turn_value h ho hb hc ?_
  simp only [getopt, shortOpt, find_short h ho, hb, Bool.false_eq_true, if_false, if_pos hv]

theorem turn_next (h : Clear os) {o : Opt} (ho : o ∈ os) (hb : o.isBool = false) (hc : Calm o) (v : Str) (args sk : List Str) (n : Nat) (g : Got) :
    loop os (n + 1) ⟨[o.short], v :: args, sk⟩ g = loop os n ⟨[], args, sk⟩ (g.add [] [(o, v)]) := by
  refine turn_value h ho hb hc ?_
  simp only [getopt, shortOpt, find_short h ho, hb, Bool.false_eq_true, if_false, ne_eq, not_true_eq_false]

theorem open_cluster {cs : Str} (h : ∀ c, cs.head? = some c → c ≠ 0x2d) (hne : cs ≠ []) (args sk : List Str) (n : Nat) (g : Got) :
    loop os n ⟨[], (0x2d :: cs) :: args, sk⟩ g = loop os n ⟨cs, args, sk⟩ g := by
  cases cs with
  | nil => exact absurd rfl hne
  | cons c cs => exact open_letters (h c rfl) cs args sk n g

theorem item_turns (h : Clear os) {i : Item} (hi : i.Ok os) (hq : i.Quiet) (args sk : List Str) (n : Nat) (g : Got) :
    loop os (n + i.cost) ⟨[], i.words ++ args, sk⟩ g = loop os n ⟨[], args, sk ++ i.files⟩ (g.add i.flags i.values) := by
  obtain ⟨hf, hv, hx⟩ := hi
  have hf' : ∀ o ∈ i.flags, o ∈ os ∧ o.isBool = true ∧ Calm o := fun o ho => ⟨(hf o ho).1, (hf o ho).2, hq o (.inl ho)⟩
  have hv' : ∀ e ∈ i.values, e.1 ∈ os ∧ e.1.isBool = false ∧ Calm e.1 := fun e he => ⟨(hv e he).1, (hv e he).2, hq e.1 (.inr (List.mem_map_of_mem he))⟩
  have hhead : ∀ (fs : List Opt) (o : Opt) (cs : Str), (∀ o ∈ fs, o ∈ os) → o ∈ os →
      ∀ c, (fs.map Opt.short ++ o.short :: cs).head? = some c → c ≠ 0x2d := by
    intro fs o cs h1 h2 c hc
    cases fs with
    | nil => cases hc; exact h.letter o h2
    | cons o' fs => cases hc; exact h.letter o' (h1 o' (by simp))
  cases i with
  | letters o fs =>
    have ho := hf' o (by simp [Item.flags])
    simp only [Item.words, Item.cost, Item.flags, Item.values, Item.files, List.singleton_append, List.length_nil, Nat.add_zero, List.append_nil]
    rw [open_letters (h.letter o ho.1)]
    have := turn_letters h (o :: fs) hf' [] args sk n g
    rw [List.append_nil] at this
    exact this
  | attached fs o v =>
    obtain ⟨h1, h2, h3⟩ : o ∈ os ∧ o.isBool = false ∧ Calm o := hv' (o, v) (by simp [Item.values])
    simp only [Item.words, Item.cost, Item.flags, Item.values, Item.files, List.singleton_append, List.length_cons, List.length_nil, Nat.zero_add, List.append_nil]
    rw [open_cluster (hhead fs o v (fun o ho => (hf' o ho).1) h1) (by simp), show n + (fs.length + 1) = n + 1 + fs.length by omega,
      turn_letters h fs hf', turn_last h h1 h2 h3 v hx, Got.add_add]
    simp
  | separate fs o v =>
    obtain ⟨h1, h2, h3⟩ : o ∈ os ∧ o.isBool = false ∧ Calm o := hv' (o, v) (by simp [Item.values])
    simp only [Item.words, Item.cost, Item.flags, Item.values, Item.files, List.length_cons, List.length_nil, Nat.zero_add, List.append_nil, List.cons_append,
      List.nil_append]
    rw [open_cluster (hhead fs o [] (fun o ho => (hf' o ho).1) h1) (by simp), show n + (fs.length + 1) = n + 1 + fs.length by omega,
      turn_letters h fs hf', turn_next h h1 h2 h3 v, Got.add_add]
    simp
  | long o =>
    obtain ⟨h1, h2, h3⟩ := hf' o (by simp [Item.flags])
    obtain ⟨g1, g2⟩ := h.name o h1
    simp only [Item.words, Item.cost, Item.flags, Item.values, Item.files, List.length_cons, List.length_nil, Nat.zero_add, List.append_nil, List.cons_append,
      List.nil_append]
    refine turn_flag h h1 h2 h3 ?_
    rw [getopt_long g1]
    unfold longOpt
    rw [if_neg (List.ne_nil_of_mem h1)]
    simp only [takeWhile_all g2, find_long h h1, List.drop_length, h2, if_true]
  | longEq o v =>
    obtain ⟨h1, h2, h3⟩ : o ∈ os ∧ o.isBool = false ∧ Calm o := hv' (o, v) (by simp [Item.values])
    obtain ⟨g1, g2⟩ := h.name o h1
    simp only [Item.words, Item.cost, Item.flags, Item.values, Item.files, List.length_cons, List.length_nil, Nat.zero_add, List.append_nil, List.cons_append,
      List.nil_append]
    refine turn_value h h1 h2 h3 ?_
    rw [getopt_long (by simp)]
    unfold longOpt
    rw [if_neg (List.ne_nil_of_mem h1)]
    simp only [takeWhile_name g2, find_long h h1, List.drop_left, h2, Bool.false_eq_true, if_false]
  | longSep o v =>
    obtain ⟨h1, h2, h3⟩ : o ∈ os ∧ o.isBool = false ∧ Calm o := hv' (o, v) (by simp [Item.values])
    obtain ⟨g1, g2⟩ := h.name o h1
    simp only [Item.words, Item.cost, Item.flags, Item.values, Item.files, List.length_cons, List.length_nil, Nat.zero_add, List.append_nil, List.cons_append,
      List.nil_append]
    refine turn_value h h1 h2 h3 ?_
    rw [getopt_long g1]
    unfold longOpt
    rw [if_neg (List.ne_nil_of_mem h1)]
    simp only [takeWhile_all g2, find_long h h1, List.drop_length, h2, Bool.false_eq_true, if_false]
  | file s =>
    simp only [Item.words, Item.cost, Item.flags, Item.values, Item.files, List.length_nil, Nat.add_zero, List.cons_append, List.nil_append, Got.add_nil]
    exact skip_file hx args sk n g

theorem items_turns (h : Clear os) (is : List Item) (hi : ∀ i ∈ is, i.Ok os) (hq : ∀ i ∈ is, i.Quiet) (args sk : List Str) (n : Nat) (g : Got) :
    loop os (n + (is.map Item.cost).sum) ⟨[], is.flatMap Item.words ++ args, sk⟩ g =
      loop os n ⟨[], args, sk ++ is.flatMap Item.files⟩ (g.add (is.flatMap Item.flags) (is.flatMap Item.values)) := by
  induction is generalizing sk g with
  | nil => simp [Got.add_nil]
  | cons i is ih =>
    rw [List.flatMap_cons, List.append_assoc, List.map_cons, List.sum_cons, show n + (i.cost + (is.map Item.cost).sum) = n + (is.map Item.cost).sum + i.cost by omega,
      item_turns h (hi i (by simp)) (hq i (by simp)), ih (fun i hm => hi i (List.mem_cons_of_mem _ hm)) (fun i hm => hq i (List.mem_cons_of_mem _ hm)), Got.add_add]
    simp

/-- The turns of the loop suffice. -/
theorem cost_le (i : Item) : i.cost ≤ (i.words.map fun a => a.length + 1).sum := by
  cases i <;> simp only [Item.cost, Item.flags, Item.values, Item.words, List.length_cons, List.length_nil, List.map_cons, List.map_nil, List.sum_cons, List.sum_nil,
    List.length_map, List.length_append] <;> omega

theorem costs_le (is : List Item) : (is.map Item.cost).sum ≤ ((is.flatMap Item.words).map fun a => a.length + 1).sum := by
  induction is with
  | nil => simp
  | cons i is ih =>
    have := cost_le i
    simp only [List.map_cons, List.sum_cons, List.flatMap_cons, List.map_append, List.sum_append]
    omega

/-- The loop gets to the end of the items. -/
theorem reach (h : Clear os) (is : List Item) (hi : ∀ i ∈ is, i.Ok os) (hq : ∀ i ∈ is, i.Quiet) (args : List Str) :
    ∃ n, loop os (((is.flatMap Item.words ++ args).map fun a => a.length + 1).sum + 1) { args := is.flatMap Item.words ++ args } {} =
      loop os (n + 1) ⟨[], args, is.flatMap Item.files⟩ (settings is) := by
  have hle := costs_le is
  refine ⟨((is.flatMap Item.words ++ args).map fun a => a.length + 1).sum - (is.map Item.cost).sum, ?_⟩
  have e : ((is.flatMap Item.words ++ args).map fun a => a.length + 1).sum + 1 =
      ((is.flatMap Item.words ++ args).map fun a => a.length + 1).sum - (is.map Item.cost).sum + 1 + (is.map Item.cost).sum := by
    simp only [List.map_append, List.sum_append]
    omega
  rw [e, items_turns h is hi hq, settings_eq]
  simp only [List.nil_append, List.map_append, List.sum_append]

end Verif.Cli
