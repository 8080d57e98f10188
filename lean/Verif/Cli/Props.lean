import Verif.Cli.Lemmas
import Verif.Cli.Tools

/-!
# C99: command lines

The vocabulary is in `Spec`: a command line is a list of items.
-/

namespace Verif.Cli

variable {os : List Opt}

/-- **C99** The options and files of a command line are those that were written, in any order and any form: letters may stand together, values may be attached or
separate, long names have values after `=` or in the next argument, files may stand between the options, and everything after `--` is a file. With too few or too
many files the program ends with the usage message. -/
theorem C99_parse (h : Clear os) (is : List Item) (hi : ∀ i ∈ is, i.Ok os) (hq : ∀ i ∈ is, i.Quiet) (after : Option (List Str)) (lo hi' : Nat) :
    parseArgs os lo hi' (line is after) =
      if lo ≤ (filesOf is after).length ∧ (filesOf is after).length ≤ hi' then
        .run (settings is) (filesOf is after ++ List.replicate (hi' - (filesOf is after).length) [])
      else .usage false := by
  have key : loop os (((line is after).map fun a => a.length + 1).sum + 1) { args := line is after } {} = .run (settings is) (filesOf is after) := by
    cases after with
    | none =>
      obtain ⟨n, hn⟩ := reach h is hi hq []
      refine hn.trans ?_
      rw [loop]
      simp [getopt, nextArg, filesOf]
    | some fs =>
      obtain ⟨n, hn⟩ := reach h is hi hq ([0x2d, 0x2d] :: fs)
      refine hn.trans ?_
      rw [loop]
      simp [getopt, nextArg, filesOf]
  unfold parseArgs
  rw [key]
  simp only
  by_cases hc : lo ≤ (filesOf is after).length ∧ (filesOf is after).length ≤ hi'
  · rw [if_pos hc, if_neg (by omega)]
  · rw [if_neg hc, if_pos (by omega)]

/-- **C99** Two command lines with the same files in the same order, the same options without values, and the same values for each option do the same: it does not
matter how options are written or where they stand. -/
theorem C99_order (h : Clear os) (is js : List Item) (hi : ∀ i ∈ is ++ js, i.Ok os) (hq : ∀ i ∈ is ++ js, i.Quiet) (after after' : Option (List Str)) (lo hi' : Nat)
    (hf : filesOf is after = filesOf js after') (hb : ∀ o, o ∈ is.flatMap Item.flags ↔ o ∈ js.flatMap Item.flags)
    (hv : ∀ o, ((is.flatMap Item.values).filter fun e => e.1 = o).map (·.2) = ((js.flatMap Item.values).filter fun e => e.1 = o).map (·.2)) :
    parseArgs os lo hi' (line is after) = parseArgs os lo hi' (line js after') := by
  have hmem : ∀ ks : List Item, (∀ i ∈ ks, i.Ok os) → ∀ e ∈ ks.flatMap Item.values, e.1 ∈ os := by
    intro ks hk e he
    obtain ⟨i, h1, h2⟩ := List.mem_flatMap.1 he
    exact ((hk i h1).2.1 e h2).1
  have hi1 : ∀ i ∈ is, i.Ok os := fun i hm => hi i (List.mem_append_left _ hm)
  have hi2 : ∀ i ∈ js, i.Ok os := fun i hm => hi i (List.mem_append_right _ hm)
  have hs : settings is = settings js := by
    unfold settings
    congr 1
    · funext n
      simp only [List.mem_map, hb]
    · funext n
      by_cases hn : ∃ o ∈ os, o.long = n
      · obtain ⟨o, ho, rfl⟩ := hn
        have e : ∀ ks : List Item, (∀ i ∈ ks, i.Ok os) →
            (ks.flatMap Item.values).filter (fun e => decide (e.1.long = o.long)) = (ks.flatMap Item.values).filter fun e => decide (e.1 = o) := by
          intro ks hk
          apply List.filter_congr
          intro e he
          have := hmem ks hk e he
          simp only [decide_eq_decide]
          exact ⟨fun hl => h.longs _ this _ ho hl, fun hl => by rw [hl]⟩
        rw [e is hi1, e js hi2, hv o]
      · have e : ∀ ks : List Item, (∀ i ∈ ks, i.Ok os) → (ks.flatMap Item.values).filter (fun e => decide (e.1.long = n)) = [] := by
          intro ks hk
          rw [List.filter_eq_nil_iff]
          intro e he
          simp only [decide_eq_true_eq]
          exact fun hl => hn ⟨e.1, hmem ks hk e he, hl⟩
        rw [e is hi1, e js hi2]
  rw [C99_parse h is hi1 (fun i hm => hq i (List.mem_append_left _ hm)), C99_parse h js hi2 (fun i hm => hq i (List.mem_append_right _ hm)), hf, hs]

/-- The loop at a word after the items. -/
theorem parse_stop (h : Clear os) (is : List Item) (hi : ∀ i ∈ is, i.Ok os) (hq : ∀ i ∈ is, i.Quiet) (args : List Str) (lo hi' : Nat) {o : Outcome}
    (hr : ∀ g files, o ≠ .run g files) (ho : ∀ n g, loop os (n + 1) ⟨[], args, is.flatMap Item.files⟩ g = o) :
    parseArgs os lo hi' (is.flatMap Item.words ++ args) = o := by
  obtain ⟨n, hn⟩ := reach h is hi hq args
  unfold parseArgs
  rw [hn, ho]
  cases o with
  | run g files => exact absurd rfl (hr g files)
  | _ => rfl

/-- **C99** `-h` and the long name of this option end the program with the usage message on the standard output, whatever follows. The program reports failure then. -/
theorem C99_help (h : Clear os) (is : List Item) (hi : ∀ i ∈ is, i.Ok os) (hq : ∀ i ∈ is, i.Quiet) (o : Opt) (ho : o ∈ os) (hb : o.isBool = true)
    (hh : o.short = 0x68) (args : List Str) (lo hi' : Nat) :
    parseArgs os lo hi' (is.flatMap Item.words ++ [0x2d, 0x68] :: args) = .usage true ∧
    parseArgs os lo hi' (is.flatMap Item.words ++ (0x2d :: 0x2d :: o.long) :: args) = .usage true := by
  have hnv : ¬ (o.short = 0x76 ∧ o.long = versionName) := by rw [hh]; exact fun e => absurd e.1 (by decide)
  have hturn : ∀ (st st' : Scan) n g, getopt os st = .opt o.short none st' → loop os (n + 1) st g = .usage true := by
    intro st st' n g hg
    rw [loop, hg]
    simp only [find_short h ho]
    rw [if_neg hnv, if_pos hb, if_pos hh]
  refine ⟨parse_stop h is hi hq _ lo hi' (fun _ _ => by simp) fun n g => ?_, parse_stop h is hi hq _ lo hi' (fun _ _ => by simp) fun n g => ?_⟩
  · refine hturn _ ⟨[], args, is.flatMap Item.files⟩ n g ?_
    have e := find_short h ho
    rw [hh] at e
    simp only [getopt, nextArg, shortOpt, if_true, e, hb, hh]
    rfl
  · refine hturn _ ⟨[], args, is.flatMap Item.files⟩ n g ?_
    obtain ⟨g1, g2⟩ := h.name o ho
    rw [getopt_long g1]
    unfold longOpt
    rw [if_neg (List.ne_nil_of_mem ho)]
    simp only [takeWhile_all g2, find_long h ho, List.drop_length, hb, if_true]

/-- **C99** `-v` ends a program whose option `v` has the long name `version` with success, whatever follows. -/
theorem C99_version (h : Clear os) (is : List Item) (hi : ∀ i ∈ is, i.Ok os) (hq : ∀ i ∈ is, i.Quiet) (ho : ⟨0x76, str "version", true⟩ ∈ os)
    (args : List Str) (lo hi' : Nat) :
    parseArgs os lo hi' (is.flatMap Item.words ++ str "-v" :: args) = .version ∧
    parseArgs os lo hi' (is.flatMap Item.words ++ str "--version" :: args) = .version := by
  have e1 : str "-v" = [0x2d, 0x76] := by decide +kernel
  have e2 : str "--version" = 0x2d :: 0x2d :: str "version" := by decide +kernel
  have e3 : str "version" = versionName := by decide +kernel
  have hturn : ∀ (st st' : Scan) n g, getopt os st = .opt 0x76 none st' → loop os (n + 1) st g = .version := by
    intro st st' n g hg
    rw [loop, hg]
    have := find_short h ho
    simp only at this
    simp only [this]
    rw [if_pos ⟨trivial, e3⟩]
  refine ⟨parse_stop h is hi hq _ lo hi' (fun _ _ => by simp) fun n g => ?_, parse_stop h is hi hq _ lo hi' (fun _ _ => by simp) fun n g => ?_⟩
  · refine hturn _ ⟨[], args, is.flatMap Item.files⟩ n g ?_
    have e := find_short h ho
    simp only at e
    rw [e1]
    simp only [getopt, nextArg, shortOpt, if_true, e]
    rfl
  · refine hturn _ ⟨[], args, is.flatMap Item.files⟩ n g ?_
    obtain ⟨g1, g2⟩ := h.name _ ho
    have e := find_long h ho
    simp only at e g1 g2
    rw [e2, getopt_long g1]
    unfold longOpt
    rw [if_neg (List.ne_nil_of_mem ho)]
    simp only [takeWhile_all g2, e, List.drop_length, if_true]

/-- **C99** A letter that is no option ends the program with the usage message. -/
theorem C99_unknown_letter (h : Clear os) (is : List Item) (hi : ∀ i ∈ is, i.Ok os) (hq : ∀ i ∈ is, i.Quiet) (c : UInt8) (hc : c ≠ 0x2d)
    (hno : ∀ o ∈ os, o.short ≠ c ∧ o.short ≠ 0x3f) (cs : Str) (args : List Str) (lo hi' : Nat) :
    parseArgs os lo hi' (is.flatMap Item.words ++ (0x2d :: c :: cs) :: args) = .usage false := by
  refine parse_stop h is hi hq _ lo hi' (fun _ _ => by simp) fun n g => ?_
  have e1 : os.find? (fun x => decide (x.short = c)) = none := List.find?_eq_none.2 fun o ho => by simpa using (hno o ho).1
  have e2 : os.find? (fun x => decide (x.short = 0x3f)) = none := List.find?_eq_none.2 fun o ho => by simpa using (hno o ho).2
  rw [open_letters hc, loop]
  simp only [getopt, shortOpt, e1, e2]

/-- **C99** An option without its value at the end of the command line ends the program with the usage message. -/
theorem C99_no_value (h : Clear os) (is : List Item) (hi : ∀ i ∈ is, i.Ok os) (hq : ∀ i ∈ is, i.Quiet) (o : Opt) (ho : o ∈ os) (hb : o.isBool = false)
    (hno : ∀ o ∈ os, o.short ≠ 0x3f) (lo hi' : Nat) :
    parseArgs os lo hi' (is.flatMap Item.words ++ [[0x2d, o.short]]) = .usage false ∧
    parseArgs os lo hi' (is.flatMap Item.words ++ [0x2d :: 0x2d :: o.long]) = .usage false := by
  have e2 : os.find? (fun x => decide (x.short = 0x3f)) = none := List.find?_eq_none.2 fun o ho => by simpa using hno o ho
  refine ⟨parse_stop h is hi hq _ lo hi' (fun _ _ => by simp) fun n g => ?_, parse_stop h is hi hq _ lo hi' (fun _ _ => by simp) fun n g => ?_⟩
  · rw [open_letters (h.letter o ho), loop]
    simp only [getopt, shortOpt, find_short h ho, hb, Bool.false_eq_true, if_false, ne_eq, not_true_eq_false, e2]
  · obtain ⟨g1, g2⟩ := h.name o ho
    rw [loop, getopt_long g1]
    unfold longOpt
    rw [if_neg (List.ne_nil_of_mem ho)]
    simp only [takeWhile_all g2, find_long h ho, List.drop_length, hb, Bool.false_eq_true, if_false, e2]

/-- **C99** A long option that has no argument ends the program with the usage message if it is given one. -/
theorem C99_no_argument (h : Clear os) (is : List Item) (hi : ∀ i ∈ is, i.Ok os) (hq : ∀ i ∈ is, i.Quiet) (o : Opt) (ho : o ∈ os) (hb : o.isBool = true)
    (hno : ∀ o ∈ os, o.short ≠ 0x3f) (v : Str) (args : List Str) (lo hi' : Nat) :
    parseArgs os lo hi' (is.flatMap Item.words ++ (0x2d :: 0x2d :: (o.long ++ 0x3d :: v)) :: args) = .usage false := by
  have e2 : os.find? (fun x => decide (x.short = 0x3f)) = none := List.find?_eq_none.2 fun o ho => by simpa using hno o ho
  refine parse_stop h is hi hq _ lo hi' (fun _ _ => by simp) fun n g => ?_
  obtain ⟨g1, g2⟩ := h.name o ho
  rw [loop, getopt_long (by simp)]
  unfold longOpt
  rw [if_neg (List.ne_nil_of_mem ho)]
  simp only [takeWhile_name g2, find_long h ho, List.drop_left, hb, if_true, e2]

/-! ## Refutation -/

/-- **C99** A long name that is not the whole name of an option is undefined behaviour in every tool that has options: neither the usage message for a wrong name
nor the abbreviations that `getopt_long` promises can be relied on. -/
theorem C99_unknown_long_false (h : Clear os) (hne : os ≠ []) (is : List Item) (hi : ∀ i ∈ is, i.Ok os) (hq : ∀ i ∈ is, i.Quiet) (name : Str)
    (hn : name ≠ [] ∧ 0x3d ∉ name) (hno : ∀ o ∈ os, o.long ≠ name) (args : List Str) (lo hi' : Nat) :
    parseArgs os lo hi' (is.flatMap Item.words ++ (0x2d :: 0x2d :: name) :: args) = .ub := by
  refine parse_stop h is hi hq _ lo hi' (fun _ _ => by simp) fun n g => ?_
  have e1 : os.find? (fun x => decide (x.long = name)) = none := List.find?_eq_none.2 fun o ho => by simpa using hno o ho
  rw [loop, getopt_long hn.1]
  unfold longOpt
  rw [if_neg hne]
  simp only [takeWhile_all hn.2, e1]

/-! ## The tools -/

/-- **C99** The options of all tools can be told apart, and none of them means anything else to `getopt_long`. -/
theorem C99_tools (t : Tool) (ht : t ∈ tools) : Clear t.opts ∧ (∀ o ∈ t.opts, o.short ≠ 0x3f ∧ o.short ≠ 0x3a ∧ o.short ≠ 0x3b ∧ o.short ≠ 0x2b) ∧ t.lo ≤ t.hi := by
  have key : ∀ t ∈ tools, (∀ o ∈ t.opts, ∀ o' ∈ t.opts, o.short = o'.short → o = o') ∧ (∀ o ∈ t.opts, ∀ o' ∈ t.opts, o.long = o'.long → o = o') ∧
      (∀ o ∈ t.opts, o.short ≠ 0x2d) ∧ (∀ o ∈ t.opts, o.long ≠ [] ∧ 0x3d ∉ o.long) ∧
      (∀ o ∈ t.opts, o.short ≠ 0x3f ∧ o.short ≠ 0x3a ∧ o.short ≠ 0x3b ∧ o.short ≠ 0x2b) ∧ t.lo ≤ t.hi := by
    decide +kernel
  obtain ⟨h1, h2, h3, h4, h5, h6⟩ := key t ht
  exact ⟨⟨h1, h2, h3, h4⟩, h5, h6⟩

/-- A command line of lt-comp: `-Hm lr --var=eu in.dix -anx out.bin --jobs -- -x`. -/
def exLine : List Item := [.letters ⟨0x48, str "hfst", true⟩ [⟨0x6d, str "keep-boundaries", true⟩], .file (str "lr"), .longEq ⟨0x76, str "var", false⟩ (str "eu"),
  .file (str "in.dix"), .attached [] ⟨0x61, str "alt", false⟩ (str "nx"), .file (str "out.bin"), .long ⟨0x6a, str "jobs", true⟩]

instance (o : Opt) : Decidable (Calm o) := by unfold Calm; infer_instance

/-- The hypotheses hold of a command line of lt-comp. -/
example : Clear compCli.opts ∧ (∀ i ∈ exLine, i.Ok compCli.opts) ∧ (∀ i ∈ exLine, i.Quiet) ∧
    line exLine (some [str "-x"]) = [str "-Hm", str "lr", str "--var=eu", str "in.dix", str "-anx", str "out.bin", str "--jobs", str "--", str "-x"] ∧
    filesOf exLine (some [str "-x"]) = [str "lr", str "in.dix", str "out.bin", str "-x"] := by
  refine ⟨(C99_tools compCli (by simp [tools])).1, ?_, ?_, by decide +kernel, by decide +kernel⟩
  · intro i hi
    simp only [exLine, List.mem_cons, List.not_mem_nil, or_false] at hi
    rcases hi with rfl | rfl | rfl | rfl | rfl | rfl | rfl
    · exact ⟨by decide +kernel, by decide +kernel, trivial⟩
    · exact ⟨by decide +kernel, by decide +kernel, .inr (by decide +kernel)⟩
    · exact ⟨by decide +kernel, by decide +kernel, trivial⟩
    · exact ⟨by decide +kernel, by decide +kernel, .inr (by decide +kernel)⟩
    · exact ⟨by decide +kernel, by decide +kernel, by show str "nx" ≠ []; decide +kernel⟩
    · exact ⟨by decide +kernel, by decide +kernel, .inr (by decide +kernel)⟩
    · exact ⟨by decide +kernel, by decide +kernel, trivial⟩
  · have key : ∀ i ∈ exLine, (∀ o ∈ i.flags, Calm o) ∧ ∀ o ∈ i.values.map (·.1), Calm o := by decide +kernel
    intro i hi o ho
    rcases ho with ho | ho
    · exact (key i hi).1 o ho
    · exact (key i hi).2 o ho

/-- The hypotheses of the other theorems: lt-comp has an option `h`, an option with a value, and no option `q` or `ver`; lt-proc has an option for the version. -/
example : ⟨0x68, str "help", true⟩ ∈ compCli.opts ∧ ⟨0x61, str "alt", false⟩ ∈ compCli.opts ∧ (∀ o ∈ compCli.opts, o.short ≠ 0x71 ∧ o.short ≠ 0x3f) ∧
    (∀ o ∈ compCli.opts, o.long ≠ str "ver") ∧ ⟨0x76, str "version", true⟩ ∈ procCli.opts := by
  decide +kernel

/-- **C99** lt-merge does not read the file it is given if there is no second file: `lt-merge in` reads the standard input. -/
theorem C99_merge_false (f : Str) (hf : f ≠ []) (hd : f.head? ≠ some 0x2d) :
    parseArgs mergeCli.opts mergeCli.lo mergeCli.hi [f] = .run {} [f, []] ∧ mergeStreams [f, []] = ⟨none, none⟩ := by
  constructor
  · have := C99_parse (C99_tools mergeCli (by simp [tools])).1 [.file f] (fun i hi => by
      rw [List.mem_singleton] at hi
      subst hi
      exact ⟨by simp [Item.flags], by simp [Item.values], .inr hd⟩) (fun i hi => by
      rw [List.mem_singleton] at hi
      subst hi
      intro o ho
      simp [Item.flags, Item.values] at ho) none mergeCli.lo mergeCli.hi
    have e1 : line [.file f] none = [f] := rfl
    have e2 : filesOf [.file f] none = [f] := rfl
    rw [e1, e2] at this
    rw [this]
    have e3 : settings [.file f] = {} := by simp [settings, Item.flags, Item.values]
    rw [e3, if_pos ⟨Nat.zero_le _, by simp [mergeCli]⟩]
    rfl
  · rfl

/-- **C99** With both files lt-merge reads the first and writes the second. -/
theorem C99_merge (f g : Str) (hg : g ≠ [] ∧ g ≠ [0x2d]) : mergeStreams [f, g] = ⟨some f, some g⟩ := by
  simp [mergeStreams, hg.1, hg.2]

end Verif.Cli
