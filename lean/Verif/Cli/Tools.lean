import Verif.Cli.Model

/-! # The options and files of the tools -/

namespace Verif.Cli

/-- The bytes of an ASCII text. -/
def str (s : String) : Str := s.toList.map fun c => c.toNat.toUInt8

/-- The options, how many files there must be, and how many there may be (`add_file_arg`, cli.cc:55-59). -/
structure Tool where
  opts : List Opt
  lo : Nat
  hi : Nat

/-- lt-append (lt_append.cc:27-32). -/
def appendCli : Tool where
  opts := [⟨0x6b, str "keep", true⟩,
    ⟨0x73, str "single", true⟩,
    ⟨0x68, str "help", true⟩]
  lo := 1
  hi := 3

/-- lt-apply-acx (lt_apply_acx.cc:28-30). -/
def applyAcxCli : Tool where
  opts := []
  lo := 1
  hi := 3

/-- lt-comp (lt_comp.cc:39-53). -/
def compCli : Tool where
  opts := [⟨0x64, str "debug", true⟩,
    ⟨0x6d, str "keep-boundaries", true⟩,
    ⟨0x76, str "var", false⟩,
    ⟨0x61, str "alt", false⟩,
    ⟨0x6c, str "var-left", false⟩,
    ⟨0x72, str "var-right", false⟩,
    ⟨0x48, str "hfst", true⟩,
    ⟨0x53, str "no-split", true⟩,
    ⟨0x6a, str "jobs", true⟩,
    ⟨0x56, str "verbose", true⟩,
    ⟨0x68, str "help", true⟩]
  lo := 3
  hi := 4

/-- lt-compose (lt_compose.cc:104-108). -/
def composeCli : Tool where
  opts := [⟨0x69, str "inverted", true⟩,
    ⟨0x61, str "anywhere", true⟩]
  lo := 1
  hi := 3

/-- lt-expand (lt_expand.cc:27-33). -/
def expandCli : Tool where
  opts := [⟨0x6d, str "keep-boundaries", true⟩,
    ⟨0x76, str "var", false⟩,
    ⟨0x61, str "alt", false⟩,
    ⟨0x6c, str "var-left", false⟩,
    ⟨0x72, str "var-right", false⟩]
  lo := 1
  hi := 2

/-- lt-invert (lt_invert.cc:27-29). -/
def invertCli : Tool where
  opts := [⟨0x68, str "help", true⟩]
  lo := 0
  hi := 2

/-- lt-merge (lt_merge.cc:28-32). -/
def mergeCli : Tool where
  opts := [⟨0x75, str "unmerge", true⟩,
    ⟨0x7a, str "null-flush", true⟩,
    ⟨0x68, str "help", true⟩]
  lo := 0
  hi := 2

/-- lt-paradigm (lt_paradigm.cc:147-154). -/
def paradigmCli : Tool where
  opts := [⟨0x61, str "analyser", true⟩,
    ⟨0x65, str "exclude", false⟩,
    ⟨0x73, str "sort", true⟩,
    ⟨0x7a, str "null-flush", true⟩,
    ⟨0x68, str "help", true⟩]
  lo := 1
  hi := 3

/-- lt-print (lt_print.cc:26-30). -/
def printCli : Tool where
  opts := [⟨0x61, str "alpha", true⟩,
    ⟨0x48, str "hfst", true⟩,
    ⟨0x68, str "help", true⟩]
  lo := 0
  hi := 2

/-- lt-proc (lt_proc.cc:35-64). -/
def procCli : Tool where
  opts := [⟨0x61, str "analysis", true⟩,
    ⟨0x62, str "bilingual", true⟩,
    ⟨0x63, str "case-sensitive", true⟩,
    ⟨0x64, str "debugged-gen", true⟩,
    ⟨0x65, str "decompose-nouns", true⟩,
    ⟨0x67, str "generation", true⟩,
    ⟨0x69, str "ignored-chars", false⟩,
    ⟨0x72, str "restore-chars", false⟩,
    ⟨0x6c, str "tagged-gen", true⟩,
    ⟨0x6d, str "tagged-nm-gen", true⟩,
    ⟨0x6e, str "non-marked-gen", true⟩,
    ⟨0x6f, str "surf-bilingual", true⟩,
    ⟨0x4f, str "surf-bilingual-keep", true⟩,
    ⟨0x70, str "post-generation", true⟩,
    ⟨0x78, str "inter-generation", true⟩,
    ⟨0x73, str "sao", true⟩,
    ⟨0x74, str "transliteration", true⟩,
    ⟨0x76, str "version", true⟩,
    ⟨0x7a, str "null-flush", true⟩,
    ⟨0x77, str "dictionary-case", true⟩,
    ⟨0x43, str "careful-case", true⟩,
    ⟨0x49, str "no-default-ignore", true⟩,
    ⟨0x57, str "show-weights", true⟩,
    ⟨0x4e, str "analyses", false⟩,
    ⟨0x4c, str "weight-classes", false⟩,
    ⟨0x4d, str "compound-max-elements", false⟩,
    ⟨0x68, str "help", true⟩]
  lo := 1
  hi := 3

/-- lt-restrict (lt_restrict.cc:41-48). -/
def restrictCli : Tool where
  opts := [⟨0x6d, str "minimise", true⟩,
    ⟨0x76, str "var", false⟩,
    ⟨0x61, str "alt", false⟩,
    ⟨0x6c, str "var-left", false⟩,
    ⟨0x72, str "var-right", false⟩]
  lo := 1
  hi := 3

/-- lt-tmxproc (lt_tmxproc.cc:26-30). -/
def tmxprocCli : Tool where
  opts := [⟨0x73, str "space", true⟩,
    ⟨0x7a, str "null-flush", true⟩]
  lo := 1
  hi := 3

/-- lt-trim (lt_trim.cc:107-110). -/
def trimCli : Tool where
  opts := [⟨0x73, str "match-section", false⟩]
  lo := 1
  hi := 3

/-- All tools that use `CLI`. -/
def tools : List Tool := [appendCli, applyAcxCli, compCli, composeCli, expandCli, invertCli, mergeCli, paradigmCli, printCli, procCli, restrictCli, tmxprocCli, trimCli]

end Verif.Cli
