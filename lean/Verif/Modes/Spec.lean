import Verif.Modes.Model

/-! # What the options of `lt-proc` ask for -/

namespace Verif.Modes

open Verif.Cli

/-- The things that lt-proc can do; transfer and generation go together. -/
inductive Family where
  | analysis | transfer | decomposition | postgeneration | transliteration | sao
  deriving DecidableEq

/-- The options of each family. -/
def Family.options : Family → List Str
  | .analysis => [str "analysis"]
  | .transfer => [str "bilingual", str "surf-bilingual", str "surf-bilingual-keep", str "generation"]
  | .decomposition => [str "decompose-nouns"]
  | .postgeneration => [str "post-generation"]
  | .transliteration => [str "inter-generation", str "transliteration"]
  | .sao => [str "sao"]

/-- The families that are asked for. -/
def asked (has : Str → Bool) : List Family :=
  [Family.analysis, .transfer, .decomposition, .postgeneration, .transliteration, .sao].filter fun f => f.options.any has

/-- One of the options for transfer is given. -/
def transfer (has : Str → Bool) : Bool := has (str "bilingual") || has (str "surf-bilingual") || has (str "surf-bilingual-keep")

/-- The kinds of generation with their options, from the weakest to the strongest. -/
def kinds : List (Str × Gen) :=
  [(str "debugged-gen", .all), (str "tagged-gen", .tagged), (str "tagged-nm-gen", .taggedNm), (str "non-marked-gen", .clean), (str "careful-case", .carefulcase)]

/-- The kinds that are asked for. -/
def wanted (has : Str → Bool) : List Gen := (kinds.filter fun k => has k.1).map (·.2)

/-- The kind of generation: the strongest that is asked for; without any it is that of transfer with `-g`, or that with marks. -/
def kind (has : Str → Bool) : Gen :=
  (wanted has).getLast?.getD (if transfer has && has (str "generation") then .bilgen else .unknown)

/-- What has to be done if at most one family is asked for. -/
def task (has : Str → Bool) : Call :=
  match asked has with
  | [.analysis] => .analysis
  | [.transfer] => if transfer has then .bilingual (kind has) else .generation (kind has)
  | [.decomposition] => .decomposition
  | [.postgeneration] => .postgeneration
  | [.transliteration] => .transliteration
  | [.sao] => .sao
  | _ => if wanted has = [] then .analysis else .generation (kind has)

end Verif.Modes
