import Verif.Py

/-!
# Model of the package: `segeval/__init__.py` and the import statements of every module

`import segeval` replaces the package in `sys.modules` by an object that looks exported names up
in the modules that define them, on first use (`segeval/__init__.py:75-116`).  What such a use does
depends on the import statements of the modules it loads, so the body of every module is modelled
as far as the names it binds: its `from segeval... import ...` statements and the names it defines,
in order.

From Python's import system (`importlib._bootstrap`): a module that is in `sys.modules` is not run
again, even if it is still running; parents are imported first; a module whose body raises is
removed from `sys.modules`; a module that was imported is set as an attribute of its parent.

Simplified: imports from the standard library are left out (they bind names that nothing exports);
what the other statements of a body compute is not modelled, only that they bind their names; the
test modules are left out; nobody changes `sys.modules` or the namespaces from outside.
-/

namespace SegEval.Package

/-- A dotted module name, e.g. `segeval.util.math` (the import statements of each file, e.g.
segeval/similarity/__init__.py:6-14 and segeval/__init__.py:80). -/
abbrev ModName := List String

/-- What a name can stand for: a module, or the object that a module's body defines by a name (the
import statements of each file, e.g. segeval/similarity/__init__.py:6-14 and
segeval/__init__.py:80). -/
inductive Obj
  | module (m : ModName)
  | value (m : ModName) (x : String)
  deriving DecidableEq

/-- The statements of a module body that bind names (the import statements of each file, e.g.
segeval/similarity/__init__.py:6-14 and segeval/__init__.py:80). -/
inductive Stmt
  /-- `from m import x as y, ...`, as pairs `(x, y)`. -/
  | fromImport (m : ModName) (names : List (String × String))
  /-- `def x`, `class x`, `x = ...`. -/
  | define (xs : List String)

/-- `from m import x, ...` (the import statements of each file, e.g.
segeval/similarity/__init__.py:6-14 and segeval/__init__.py:80). -/
def Stmt.from (m : ModName) (xs : List String) : Stmt := .fromImport m (xs.map fun x => (x, x))

/-- The bodies of the modules, in the order of the files (the import statements of each file, e.g.
segeval/similarity/__init__.py:6-14 and segeval/__init__.py:80). -/
def sources : List (ModName × List Stmt) :=
  [ -- segeval/util/lang.py:8
    (["segeval", "util", "lang"], [.define ["enum"]]),
    -- segeval/util/math.py:10-73
    (["segeval", "util", "math"], [.define ["mean", "var", "std", "stderr", "__all__"]]),
    -- segeval/util/__init__.py:7-31
    (["segeval", "util"],
      [.from ["segeval", "compute"] ["compute_pairwise_values"],
       .define ["SegmentationMetricError", "__fnc_metric__"]]),
    -- segeval/compute.py:7-103
    (["segeval", "compute"],
      [.from ["segeval", "util", "math"] ["mean", "std", "var", "stderr"],
       .define ["compute_pairwise_values", "summarize"]]),
    -- segeval/format.py:8-64
    (["segeval", "format"],
      [.from ["segeval", "util", "lang"] ["enum"],
       .define ["BoundaryFormat", "convert_positions_to_masses", "convert_masses_to_positions",
         "boundary_string_from_masses", "convert_nltk_to_masses"]]),
    -- segeval/metric.py:7-10
    (["segeval", "metric"],
      [.from ["segeval", "format"] ["BoundaryFormat"], .define ["METRIC_DEFAULTS"]]),
    -- segeval/ml/__init__.py:10-206
    (["segeval", "ml"],
      [.from ["segeval", "util"] ["SegmentationMetricError"],
       .from ["segeval", "util", "math"] ["mean"],
       .from ["segeval", "util", "lang"] ["enum"],
       .define ["Average", "__value_micro_macro__", "__precision__", "__recall__", "__fmeasure__",
         "precision", "recall", "fmeasure", "_InnerConfusionMatrix", "ConfusionMatrix"]]),
    -- segeval/data/__init__.py:11-138
    (["segeval", "data"],
      [.from ["segeval", "data", "tsv"] ["input_linear_mass_tsv"],
       .from ["segeval", "data", "jsonutils"] ["input_linear_mass_json"],
       .from ["segeval", "format"] ["BoundaryFormat"],
       .define ["FILETYPE_TSV", "FILETYPE_JSON", "EXT", "FNC", "FILETYPES", "FILETYPES_DEFAULT",
         "Dataset", "get_coders", "name_from_filepath", "DataIOError",
         "load_nested_folders_dict"]]),
    -- segeval/data/jsonutils.py:10-51
    (["segeval", "data", "jsonutils"],
      [.from ["segeval", "util", "lang"] ["enum"],
       .define ["Field", "SegmentationType", "__write_json__", "output_linear_mass_json",
         "input_linear_mass_json"]]),
    -- segeval/data/tsv.py:8-55
    (["segeval", "data", "tsv"],
      [.from ["segeval", "format"] ["convert_positions_to_masses"],
       .define ["DEFAULT_DELIMITER", "input_linear_mass_tsv", "input_linear_positions_tsv"]]),
    -- segeval/data/samples.py:8-221
    (["segeval", "data", "samples"],
      [.from ["segeval", "data"] ["Dataset"],
       .from ["segeval", "format"] ["BoundaryFormat"],
       .define ["KAZANTSEVA2012_G5", "KAZANTSEVA2012_G2", "HEARST_1997_STARGAZER",
         "HYPOTHESIS_STARGAZER", "COMPLETE_AGREEMENT", "LARGE_DISAGREEMENT",
         "MULTIPLE_BOUNDARY_TYPES"]]),
    -- segeval/similarity/__init__.py:7-132
    (["segeval", "similarity"],
      [.from ["segeval", "similarity", "distance"] ["identify_types"],
       .from ["segeval", "similarity", "distance", "multipleboundary"] ["boundary_edit_distance"],
       .from ["segeval", "similarity", "weight"] ["weight_a", "weight_s_scale", "weight_t_scale"],
       .from ["segeval", "metric"] ["METRIC_DEFAULTS"],
       .fromImport ["segeval", "ml"] [("ConfusionMatrix", "cm")],
       .from ["segeval", "format"] ["BoundaryFormat", "boundary_string_from_masses",
         "convert_positions_to_masses", "convert_nltk_to_masses"],
       .from ["segeval", "util"] ["__fnc_metric__", "SegmentationMetricError"],
       .define ["SIMILARITY_METRIC_DEFAULTS", "__boundary_statistics__",
         "__boundary_confusion_matrix__", "boundary_confusion_matrix", "boundary_statistics"]]),
    -- segeval/similarity/weight.py:9-40
    (["segeval", "similarity", "weight"],
      [.define ["weight_a", "weight_s", "weight_s_scale", "weight_t", "weight_t_scale"]]),
    -- segeval/similarity/distance/__init__.py:8
    (["segeval", "similarity", "distance"], [.define ["identify_types"]]),
    -- segeval/similarity/distance/multipleboundary.py:11-209
    (["segeval", "similarity", "distance", "multipleboundary"],
      [.define ["Addition", "Substitution", "Transposition", "Difference",
        "__additions_substitutions__", "__additions_substitutions_sets__", "__has_substitutions__",
        "__overlaps_existing__", "__transpositions__", "__optional_set_edits__",
        "__boundary_edit_distance__", "boundary_edit_distance"]]),
    -- segeval/similarity/boundary.py:7-39
    (["segeval", "similarity", "boundary"],
      [.from ["segeval", "similarity"] ["__boundary_statistics__", "SIMILARITY_METRIC_DEFAULTS"],
       .from ["segeval", "util"] ["__fnc_metric__"],
       .define ["__boundary_similarity__", "boundary_similarity"]]),
    -- segeval/similarity/segmentation.py:7-40
    (["segeval", "similarity", "segmentation"],
      [.from ["segeval", "similarity"] ["__boundary_statistics__", "SIMILARITY_METRIC_DEFAULTS"],
       .from ["segeval", "util"] ["__fnc_metric__"],
       .define ["__segmentation_similarity__", "segmentation_similarity"]]),
    -- segeval/window/__init__.py:8-60
    (["segeval", "window"],
      [.from ["segeval", "metric"] ["METRIC_DEFAULTS"],
       .from ["segeval", "format"] ["BoundaryFormat", "convert_positions_to_masses"],
       .from ["segeval", "util"] ["SegmentationMetricError"],
       .from ["segeval", "util", "math"] ["mean"],
       .define ["WINDOW_METRIC_DEFAULTS", "__compute_window_size__", "compute_window_size"]]),
    -- segeval/window/windowdiff.py:11-142
    (["segeval", "window", "windowdiff"],
      [.from ["segeval", "window"] ["__compute_window_size__", "WINDOW_METRIC_DEFAULTS"],
       .from ["segeval", "format"] ["BoundaryFormat", "convert_masses_to_positions",
         "convert_positions_to_masses", "convert_nltk_to_masses"],
       .from ["segeval", "util"] ["__fnc_metric__", "SegmentationMetricError"],
       .define ["WINDOWDIFF_METRIC_DEFAULTS", "__create_paired_window__", "__window_diff__",
         "window_diff"]]),
    -- segeval/window/pk.py:9-66
    (["segeval", "window", "pk"],
      [.from ["segeval", "window"] ["__compute_window_size__", "WINDOW_METRIC_DEFAULTS"],
       .from ["segeval", "util"] ["__fnc_metric__", "SegmentationMetricError"],
       .from ["segeval", "format"] ["BoundaryFormat", "convert_masses_to_positions",
         "convert_nltk_to_masses"],
       .define ["__pk__", "pk"]]),
    -- segeval/agreement/__init__.py:7-178
    (["segeval", "agreement"],
      [.from ["segeval", "data"] ["get_coders"],
       .from ["segeval", "similarity"] ["SIMILARITY_METRIC_DEFAULTS"],
       .from ["segeval", "similarity", "boundary"] ["boundary_similarity"],
       .from ["segeval", "similarity", "distance"] ["identify_types"],
       .from ["segeval", "format"] ["BoundaryFormat", "boundary_string_from_masses",
         "convert_positions_to_masses", "convert_nltk_to_masses"],
       .from ["segeval", "util"] ["SegmentationMetricError"],
       .define ["AGREEMENT_METRIC_DEFAULTS", "__fnc_metric__", "__potential_boundaries__",
         "__boundaries__", "__actual_agreement_linear__", "actual_agreement_linear"]]),
    -- segeval/agreement/pi.py:8-49
    (["segeval", "agreement", "pi"],
      [.from ["segeval", "agreement"] ["__fnc_metric__", "__actual_agreement_linear__"],
       .define ["__fleiss_pi_linear__", "fleiss_pi_linear"]]),
    -- segeval/agreement/kappa.py:8-59
    (["segeval", "agreement", "kappa"],
      [.from ["segeval", "agreement"] ["__fnc_metric__", "__actual_agreement_linear__"],
       .define ["__fleiss_kappa_linear__", "fleiss_kappa_linear"]]),
    -- segeval/agreement/bias.py:7-31
    (["segeval", "agreement", "bias"],
      [.from ["segeval", "agreement"] ["__fnc_metric__"],
       .from ["segeval", "agreement", "kappa"] ["__fleiss_kappa_linear__"],
       .from ["segeval", "agreement", "pi"] ["__fleiss_pi_linear__"],
       .define ["__artstein_poesio_bias_linear__", "artstein_poesio_bias_linear"]]) ]

/-- segeval/__init__.py:29-66 `all_by_module`. -/
def allByModule : List (ModName × List String) :=
  [ (["segeval", "agreement"], ["actual_agreement_linear"]),
    (["segeval", "agreement", "bias"], ["artstein_poesio_bias_linear"]),
    (["segeval", "agreement", "kappa"], ["fleiss_kappa_linear"]),
    (["segeval", "agreement", "pi"], ["fleiss_pi_linear"]),
    (["segeval", "data"], ["Dataset", "load_nested_folders_dict"]),
    (["segeval", "data", "jsonutils"],
      ["Field", "input_linear_mass_json", "output_linear_mass_json"]),
    (["segeval", "data", "tsv"], ["input_linear_mass_tsv"]),
    (["segeval", "data", "samples"],
      ["KAZANTSEVA2012_G5", "KAZANTSEVA2012_G2", "COMPLETE_AGREEMENT", "LARGE_DISAGREEMENT",
       "HEARST_1997_STARGAZER", "HYPOTHESIS_STARGAZER"]),
    (["segeval", "ml"], ["Average", "precision", "recall", "fmeasure", "ConfusionMatrix"]),
    (["segeval", "similarity"], ["boundary_confusion_matrix", "boundary_statistics"]),
    (["segeval", "similarity", "boundary"], ["boundary_similarity"]),
    (["segeval", "similarity", "segmentation"], ["segmentation_similarity"]),
    (["segeval", "similarity", "distance", "multipleboundary"], ["boundary_edit_distance"]),
    (["segeval", "similarity", "weight"],
      ["weight_a", "weight_s", "weight_s_scale", "weight_t", "weight_t_scale"]),
    (["segeval", "window"], ["compute_window_size"]),
    (["segeval", "window", "pk"], ["pk"]),
    (["segeval", "window", "windowdiff"], ["window_diff"]),
    (["segeval", "compute"], ["summarize"]),
    (["segeval", "format"],
      ["BoundaryFormat", "boundary_string_from_masses", "convert_positions_to_masses",
       "convert_masses_to_positions", "convert_nltk_to_masses"]) ]

/-- segeval/__init__.py:69-72 `object_origins`. -/
def objectOrigins : List (String × ModName) :=
  allByModule.foldl (fun d e => e.2.foldl (fun d x => dictSet d x e.1) d) []

/-- The exceptions of this part of the code (the import statements of each file, e.g.
segeval/similarity/__init__.py:6-14 and segeval/__init__.py:80). -/
inductive ImpErr
  /-- `ModuleNotFoundError` (an `ImportError`). -/
  | moduleNotFound (m : ModName)
  /-- `ImportError: cannot import name x from m`. -/
  | cannotImport (m : ModName) (x : String)
  | attribute (x : String)
  | key (m : ModName)
  | recursion
  deriving DecidableEq

/-- `sys.modules`, each module with its namespace (the import statements of each file, e.g.
segeval/similarity/__init__.py:6-14 and segeval/__init__.py:80). -/
abbrev State := List (ModName × List (String × Obj))

/-- `d.pop(k, None)` (the import statements of each file, e.g. segeval/similarity/__init__.py:6-14
and segeval/__init__.py:80). -/
def dictPop {κ α : Type _} [DecidableEq κ] (d : List (κ × α)) (k : κ) : List (κ × α) :=
  d.filter fun e => ¬ e.1 = k

/-- `setattr(sys.modules[m], x, v)` (segeval/__init__.py:82). -/
def setAttr (st : State) (m : ModName) (x : String) (v : Obj) : State :=
  match dictGet st m with
  | none => st
  | some ns => dictSet st m (dictSet ns x v)

/-- `from m import x as y, ...` in the module `self`, once `m` is imported: each name is an
attribute of `m`, or else a submodule that was imported (the import statements of each file, e.g.
segeval/similarity/__init__.py:6-14 and segeval/__init__.py:80). -/
def bindNames (st : State) (self m : ModName) : List (String × String) → State × Except ImpErr Unit
  | [] => (st, .ok ())
  | (x, y) :: rest =>
    match (dictGet st m).bind (dictGet · x) with
    | some v => bindNames (setAttr st self y v) self m rest
    | none =>
      match dictGet st (m ++ [x]) with
      | some _ => bindNames (setAttr st self y (.module (m ++ [x]))) self m rest
      | none => (st, .error (.cannotImport m x))

/-- One statement of the body of the module `self`, given what importing a module does.  A `from`
statement that names a submodule which is not loaded would load it; no statement of the package
does that (the import statements of each file, e.g. segeval/similarity/__init__.py:6-14 and
segeval/__init__.py:80). -/
def execStmt (imp : State → ModName → State × Except ImpErr Unit) (self : ModName) (st : State) :
    Stmt → State × Except ImpErr Unit
  | .define xs => (xs.foldl (fun st x => setAttr st self x (.value self x)) st, .ok ())
  | .fromImport m names =>
    match imp st m with
    | (st, .error e) => (st, .error e)
    | (st, .ok ()) => bindNames st self m names

/-- The body of the module `self`, statement by statement (the import statements of each file, e.g.
segeval/similarity/__init__.py:6-14 and segeval/__init__.py:80). -/
def execBody (imp : State → ModName → State × Except ImpErr Unit) (self : ModName) (st : State) :
    List Stmt → State × Except ImpErr Unit
  | [] => (st, .ok ())
  | s :: rest =>
    match execStmt imp self st s with
    | (st, .error e) => (st, .error e)
    | (st, .ok ()) => execBody imp self st rest

/-- Run the body of a module that is not in `sys.modules`; if it raises, the module is removed,
otherwise it becomes an attribute of its parent (the import statements of each file, e.g.
segeval/similarity/__init__.py:6-14 and segeval/__init__.py:80). -/
def loadModule (imp : State → ModName → State × Except ImpErr Unit) (st : State) (m : ModName) :
    State × Except ImpErr Unit :=
  match dictGet sources m with
  | none => (st, .error (.moduleNotFound m))
  | some body =>
    match execBody imp m (dictSet st m []) body with
    | (st, .error e) => (dictPop st m, .error e)
    | (st, .ok ()) => (setAttr st m.dropLast (m.getLastD "") (.module m), .ok ())

/-- Python's import of the dotted name `m`, with a bound on the nesting of imports (the import
statements of each file, e.g. segeval/similarity/__init__.py:6-14 and segeval/__init__.py:80). -/
def importFuel : ℕ → State → ModName → State × Except ImpErr Unit
  | 0, st, _ => (st, .error .recursion)
  | fuel + 1, st, m =>
    match dictGet st m with
    | some _ => (st, .ok ())
    | none =>
      match m with
      | [] | [_] => (st, .error (.moduleNotFound m))
      | _ :: _ :: _ =>
        match importFuel fuel st m.dropLast with
        | (st, .error e) => (st, .error e)
        | (st, .ok ()) =>
          match dictGet st m with
          | some _ => (st, .ok ())
          | none => loadModule (importFuel fuel) st m

/-- `import m`.  The bound is more than the 24 modules of the package can use up (the import
statements of each file, e.g. segeval/similarity/__init__.py:6-14 and segeval/__init__.py:80). -/
def importModule (st : State) (m : ModName) : State × Except ImpErr Unit :=
  importFuel (200 + m.length) st m

/-- The names in the package object: those of every module object, and those that
segeval/__init__.py:102-116 puts there. -/
def packageAttributes : List String :=
  ["__name__", "__loader__", "__spec__", "__file__", "__path__", "__package__", "__project__", "__doc__", "__version__",
   "__version_number__", "__author__", "__author_email__", "__copyright__", "__all__",
   "__docformat__", "__description__"]

/-- `sys.modules` after `import segeval` in a new interpreter, as far as the package goes
(segeval/__init__.py:97-116). -/
def fresh : State :=
  [(["segeval"], packageAttributes.map fun x => (x, .value ["segeval"] x))]

/-- segeval/__init__.py:82-83: copy the exported names of the module `m` into the package. -/
def copyExports (st : State) (m : ModName) : List String → State × Except ImpErr Unit
  | [] => (st, .ok ())
  | x :: rest =>
    match (dictGet st m).bind (dictGet · x) with
    | none => (st, .error (.attribute x))
    | some v => copyExports (setAttr st ["segeval"] x v) m rest

/-- segeval/__init__.py:78-84 `module.__getattr__`. -/
def packageGetattr (st : State) (x : String) : State × Except ImpErr Obj :=
  match dictGet objectOrigins x with
  | none =>
    match (dictGet st ["segeval"]).bind (dictGet · x) with
    | none => (st, .error (.attribute x))
    | some v => (st, .ok v)
  | some m =>
    match importModule st m with
    | (st, .error e) => (st, .error e)
    | (st, .ok ()) =>
      match dictGet allByModule m with
      | none => (st, .error (.key m))
      | some extras =>
        match copyExports st m extras with
        | (st, .error e) => (st, .error e)
        | (st, .ok ()) =>
          match (dictGet st m).bind (dictGet · x) with
          | none => (st, .error (.attribute x))
          | some v => (st, .ok v)

/-- `segeval.x`: an attribute of the package object, or else what `__getattr__` gives
(segeval/__init__.py:78-84). -/
def getAttribute (st : State) (x : String) : State × Except ImpErr Obj :=
  match (dictGet st ["segeval"]).bind (dictGet · x) with
  | some v => (st, .ok v)
  | none => packageGetattr st x

/-- `from segeval import *`: the names of `__all__`, i.e. of `object_origins`
(segeval/__init__.py:113), one after the other. -/
def importAll (st : State) : List String → State × Except ImpErr Unit
  | [] => (st, .ok ())
  | x :: rest =>
    match getAttribute st x with
    | (st, .error e) => (st, .error e)
    | (st, .ok _) => importAll st rest

/-- segeval/__init__.py:86-93 `__dir__`, which `dir(segeval)` sorts. -/
def packageDir : List String :=
  objectOrigins.map Prod.fst ++
    ["__file__", "__path__", "__doc__", "__all__", "__docformat__", "__name__", "__path__",
     "__package__", "__project__", "__version__"]

/-- What a program can do with the package: use an attribute, import a module (also by calling a
function that has import statements in its body), or import all names (segeval/__init__.py:78-93).
-/
inductive Action
  | getAttribute (x : String)
  | importModule (m : ModName)
  | importAll

/-- The state that an action leaves behind, whether or not it raises (segeval/__init__.py:78-93). -/
def Action.run (st : State) : Action → State
  | .getAttribute x => (Package.getAttribute st x).1
  | .importModule m => (Package.importModule st m).1
  | .importAll => (Package.importAll st (objectOrigins.map Prod.fst)).1

end SegEval.Package
