import Verif.Model.Package

/-!
# What the package exports, and what its modules define
-/

namespace SegEval.Spec

open Package

/-- The names that users of the package are given (segeval/test.py:29-48, docs/api.rst). -/
def publicNames : List String :=
  ["Average", "BoundaryFormat", "COMPLETE_AGREEMENT", "ConfusionMatrix", "Dataset", "Field",
   "KAZANTSEVA2012_G2", "KAZANTSEVA2012_G5", "LARGE_DISAGREEMENT", "HYPOTHESIS_STARGAZER",
   "HEARST_1997_STARGAZER", "actual_agreement_linear", "artstein_poesio_bias_linear",
   "boundary_confusion_matrix", "boundary_edit_distance", "boundary_statistics",
   "boundary_similarity", "segmentation_similarity", "boundary_string_from_masses",
   "compute_window_size", "convert_masses_to_positions", "convert_positions_to_masses",
   "convert_nltk_to_masses", "fleiss_kappa_linear", "fleiss_pi_linear", "fmeasure",
   "input_linear_mass_json", "input_linear_mass_tsv", "load_nested_folders_dict",
   "output_linear_mass_json", "pk", "precision", "recall", "summarize", "weight_t",
   "weight_s_scale", "weight_t_scale", "weight_s", "weight_a", "window_diff"]

/-- The parts of the package: the folders and files directly in `segeval`, other than
`segeval/compute.py`. -/
def parts : List String :=
  ["agreement", "data", "format", "metric", "ml", "similarity", "util", "window"]

/-- The source of the module `m` has a definition of `x`. -/
def Defines (m : ModName) (x : String) : Prop :=
  ∃ body, (m, body) ∈ sources ∧ ∃ xs, Stmt.define xs ∈ body ∧ x ∈ xs

/-- There is a source file for the module `m`. -/
def HasSource (m : ModName) : Prop := ∃ body, (m, body) ∈ sources

/-- An action that uses a part of the package other than `segeval.compute`. -/
def Uses : Action → Prop
  | .getAttribute x => x ∈ publicNames ∧ x ≠ "summarize"
  | .importModule m => ∃ part rest, m = "segeval" :: part :: rest ∧ part ∈ parts
  | .importAll => True

/-- Some part of the package other than `segeval.compute` was used. -/
def Used (history : List Action) : Prop := ∃ a ∈ history, Uses a

/-- `import segeval` in a new interpreter, and then the given actions, some of which may raise. -/
def after (history : List Action) : State := history.foldl Action.run fresh

/-- The object that an attribute of a loaded module is. -/
def Holds (st : State) (m : ModName) (x : String) (v : Package.Obj) : Prop :=
  ∃ ns, dictGet st m = some ns ∧ dictGet ns x = some v

end SegEval.Spec
