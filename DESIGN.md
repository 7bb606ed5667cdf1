# Formal model of cfournie/segmentation.evaluation (segeval 2.0.11) in Lean 4

`properties.jsonl` lists the properties, `MANIFEST.json` the theorems for each, `seeded/LOG.jsonl` the wrong
programs the theorems were tried against.

## Layout

| module (lean/Verif/…) | models |
|---|---|
| `Py.lean` | the fragment of Python semantics used: exceptions as values, `int` identity, negative indexing, slices, `range`, numbers (`int`/`Decimal`/`float`), dicts, set iteration order |
| `Model/Format.lean` | `segeval/format.py` |
| `Model/Edit.lean` | `segeval/similarity/distance/*.py` |
| `Model/Weight.lean` | `segeval/similarity/weight.py` |
| `Model/Similarity.lean` | `segeval/similarity/{__init__,boundary,segmentation}.py` |
| `Model/Window.lean` | `segeval/window/*.py` |
| `Model/ML.lean` | `segeval/ml/__init__.py`, confusion matrix of `segeval/similarity/__init__.py` |
| `Model/MLState.lean` | the same with the matrix after a call that raises, and metrics of dicts of matrices with sharing |
| `Model/Compute.lean` | `segeval/compute.py`, `segeval/util/{__init__,math}.py` |
| `Model/Agreement.lean` | `segeval/agreement/*.py` |
| `Model/Data.lean` | `segeval/data/{__init__,jsonutils,tsv}.py` |
| `Model/Text.lean` | the text of TSV files: universal newlines, the csv reader, `int()` of a string, and the loaders of `segeval/data/tsv.py` on them |
| `Model/JsonText.lean` | the text of JSON files: what `json.dump` writes and `json.load` reads, and `input_linear_mass_json` on it |
| `Model/Package.lean` | `segeval/__init__.py`, the import statements of every module, and Python's import of modules |
| `Model/Rounding.lean`, `Model/Rounded.lean`, `Model/RoundedML.lean` | the arithmetic of weights, statistics, similarities, window metrics, means, agreement and confusion matrices again, every operation rounded |
| `Spec/*.lean` | small specifications, written without the model's functions |
| `Lemmas/*.lean` | helper lemmas |
| `Props/*.lean` | the property theorems, one file per area, each beside an `example` that meets its hypotheses |
| `Tests/*.lean` | vectors of the repo's own unit tests evaluated in the model (tests, not proofs) |

## Trusted base

* Lean 4.33.0's kernel and Mathlib as installed.
* Axioms: of the property theorems, most depend on exactly `propext`, `Classical.choice` and `Quot.sound`; some data
  theorems (the C51–C58 refutations, `C55_partial`, `C56_object_partial`, `C57_partial`, `C57_errors`) and
  `C03_boundary_string_nil` on `propext` and `Quot.sound`; `C43_keys_partial` on `propext` only. No theorem uses
  anything else: no axiom is added, there is no `sorry`, no `native_decide`, no `bv_decide`. Concrete examples use
  `decide` or `decide +kernel`, i.e. reduction in the kernel.
* The reading of the Python source: each definition of `Model/*` cites the file and lines it stands for, and says
  where it is simplified. The unit-test vectors of the repo are evaluated against the model in `Tests/Vectors`, and those on the datasets of data/samples.py in `Tests/Samples`.

### What the model takes as given about Python

* CPython 3 semantics as far as the source still runs on it. The differences between versions that matter are
  parameters: `round` (`fncRound`), iteration order of sets (`Runtime`, `ClassOrder`). `open(…, 'rU')` in `data/tsv.py`
  raises ValueError on Python 3.11 and later; the model starts after the file was opened.
* `Decimal` and `float` values are exact rationals tagged with their Python type in the base model, so that type errors
  (`Decimal - float`) are visible. Rounding is a separate layer (see below).
* Sets are `Finset`s; the order in which a `for` loop visits a set is an arbitrary oracle that may differ at every loop,
  so theorems hold for every hash order. Dicts keep insertion order.
* `x is y` on two computed ints is `x = y` and `-5 <= x <= 256` (CPython's cache of small ints). Objects that are
  copied, not recomputed, carry an identity tag (`Obj`).
* Exceptions are values of `PyErr`; every raise site and every partial operation (indexing, dict lookup, division,
  `max` of an empty set, failed `assert`) is modelled. Asserts are on (no `-O`).
* C55 and C56 start at the parsed JSON value; C85 and C86 start at the decoded text of the file and model the parser
  (`JSONDecoder`, default settings) and the writer (`json.dump` with sorted keys and indent 4). The text that a float
  literal is written as again is a parameter (`Floats`). Strings are lists of Unicode characters, so that an escape that
  is half of a surrogate pair gives `unmodelled`; only `Model/JsonWide`, the loader for C85 and C99, has lists of code
  points and no such gap. Limits on recursion and on the digits of an int are left out. C57 starts
  at the list of rows with `int()` a parameter; C81 and C82 start at the decoded text of the file and model the csv reader
  (the default dialect with a delimiter) and `int()`. Which characters beyond ASCII are digits or white space is a
  parameter (`Unicode`), and the limit of 4300 digits of `int()` is left out. Folders start at a directory tree with the
  extension filter a parameter, which C83 fixes.

### What is not modelled

* `segeval/data/samples.py` (constants; used in `Tests/Samples`). `Model/Package` models only which names the
  modules bind and in what order they import each other.
* Names that are neither strings nor ints;
  ints are modelled for pairwise computations and JSON files only (`Model/Keys`).
* Files that may not be read or written, links between files, text encodings.
* Segmentations that are neither lists nor tuples (of ints or sets) nor strings nor dicts (`Model/AnyArgs`). Of sequences
  that do not fit the declared format, pk and window_diff of strings or sets given as positions.
* Of the keywords that a metric does not have, only whether there are any (`CallArgs.unknown`).

## How each property is proved

Format (C01–C05): functions over lists, induction on masses, labels or strings. C05 reduces each format to the
boundary string (B, S, statistics) or to the position list up to label renaming (Pk, WindowDiff).

Boundary edit distance (C06–C16): loop state as a record, one invariant carried through both nested loops
(leftover sets = differences minus transposed types; a multiset conservation law). The optimal pairing is
proved against all matchings; order independence by a commuting argument; C13 by an extension lemma.
C14 is false for two types and for n_t = 3 (counterexamples) and proved for one type and n_t <= 2; in general the script
has less than twice the edits of any valid one (exchange argument, nearly reached by a family of inputs), and at most 3/2
of them for one type. C15 is false when
equal types are distinct objects; an overlap needs a type outside -5..256 and a comparison of two objects for it. C16 is false for `boundary_edit_distance` itself.

Similarity (C17–C24, C59, C64): arithmetic over the conservation law. C21 is false for more than one type, C22 for
boundary-free segmentations, C24 for unscaled weights. C59 is the independence of hash order; C64 gives the published
formulas by independent counting. C78 is the same for weight functions of the user, which the model takes as arbitrary
functions that may raise or return an int, Decimal or float.

Exactly which transpositions are reported (C65): a declarative description (no earlier candidate collides) with a proof
that the code computes it and that it has one solution. C74 and C75 (parts of documents, corrections) use this
description: a set of transpositions restricted to a part still satisfies the rule, so it is the one the search finds.

Window metrics (C25–C32, C60–C62): the loops are turned into counts over window starts; the published formulas are
stated over boundary positions. C29 is false above windows of 255 (`is` on ints), C30 for two-unit documents.

Symmetries (C66, C67): triangle inequality and reversal, with witnesses where they fail.

Confusion matrices (C33–C40): state machine with a dirty flag; histories are lists of operations. C33, C37, C39, C40 are
partly false.

Pairwise values, summary, argument handling (C41–C45): dict-building loops; injectivity of the comma join (C43 is false
for names with commas, and exactly then: `C43_exact`). C77 joins argument handling, the pairwise loop, the metrics and the
summary into statements about `summarize(metric(dataset))`.

Agreement (C46–C50, C63, C76): sums over pairs; uses the symmetry of B for order independence. C49, C50 are partly false.
C76 (coefficients are at least -1/3) bounds each comparison's share of matches from below and averages over pairs.
C79 relates the results on data recoded in another format (also of Pk and WindowDiff), and fixes which format data are read in. C88 compares kappa
with pi, C89 repeats every item (all sums scale). C90 is about the order in which items and codings were added: a pair
of codings is compared once, in one direction or the other, so symmetric metrics give the same values. C95 and C96 are
about `fnc_compare=segmentation_similarity`: both comparisons subtract the same cost from their denominators, and the
boundaries of the coders are counted apart from the comparison.

Data (C51–C58): a heap of inner dicts with references for aliasing; JSON at value level; directory trees. Each of
these is false in some corner that has a witness, with the exact positive part proved beside it. C80 states what the
constructor and sums do to every attribute. C81 and C82 follow a file's characters through the csv reader: `Spec/Text`
says how tables and integers may be written, `Lemmas/Csv` that the reader inverts every such way, by induction over the
text with the reader's state as invariant. C83 characterises file names and the extension filter; C84 joins C58, C81 and
C83 into a statement about trees of text files. `C58_exact_*` need no condition on names: the tree is reduced to the
files that are loaded, which changes nothing (`loadNested_trim`). C85 proves the JSON parser sound and complete for a
grammar (`Spec/JsonText`: the JSON standard plus NaN and the infinities, last duplicate key wins). The parser and the
grammar are generic in what strings are made of: characters, or code points with lone surrogates (`Spec/JsonWide`), where
C85 has no exception; `C85_agrees` says that both loaders agree. C86 proves that what
is written is a text of that grammar, and that it depends on the content only (sorted keys are a canonical form). C87
is C84 for JSON. C91 and C92 join these with C47 and C90: the same content in another order is a rearrangement, and
rearranged data have the same scores (`Spec/SaveLoad` says which).

Names that are ints (C97–C99): `Model/Keys` repeats the pairwise loop and `json.dump` for keys that are ints or strings.
C97 is a simulation: renaming is injective on the coders of an item, so lookups agree and each step does. `json.dump` is
modelled as it writes (text so far, exception); one induction over values shows that it either writes the text of
`Model/JsonText`, or stops after an opening bracket, comma or colon, which ends no JSON text (C99).

Near misses (C101): by the uniqueness of the choice of transpositions (C65), an isolated near miss adds its transposition
to the script of the hypothesis put right and changes nothing else; the values follow from C64.

Several matrices (C103): `Model/MatrixHeap` makes matrices and the sets of `classes()` objects with addresses; address 0
is the set that is an attribute of the class. Proved: without changes to sets, the operations on one matrix give the same
whether or not others are used; so with changes to sets of other matrices that were written to; cells are never shared. The
claim is false for the set of new matrices, which all have in common (`C103_shared`). A query is a sequence of the operations
modelled here (cell reads and `classes()`), so queries are covered by the quantification over all sequences.

Wider windows (C104): transpositions for a smaller `n_t` are a prefix of those for a larger one (C13), a longer window credits
each of them more, and the number of edits falls. Without substitutions that decides the claim; with substitutions it is
false (`C104_two_types`), because a transposition can take the place of a cheaper substitution. For `n_t` up to 1 the
similarities are set-theoretic: B is the Jaccard index of the sets of boundaries.

Distances (C105): by C104, for `n_t` up to 1 one less B is the Jaccard distance of the sets of boundaries, whose triangle
inequality is proved here, and one less S a normalised Hamming distance. For the default `n_t` both are false, and S also
with several types for any `n_t`.

Joined data (C106). The items of two data sets by the same coders are put together, under any labels
and in any order (`Spec.Joined`). Actual agreement is a ratio of sums with positive denominators, so the
whole is a mediant of the parts and lies between them (`Spec.Between`: strictly, unless the parts are
equal). Pi's expected agreement is the square of a mean over items, and has the same property. Pi, kappa
and kappa's expected agreement do not; witnesses are evaluated by the kernel.

Which substitutions are reported (C107, C11). `Spec/Preferred.lean` says which pairing of two sets of types is meant without
mentioning permutations: cheapest, uncrossed, and among the cheapest ones the one that uses the smallest types. `Lemmas/Preferred.lean`
proves that the nested search over `permutations(sorted(..))` returns it: `permutations` of a sorted list comes in lexicographic
order, the search keeps the first minimum, and a rearrangement argument shows that sorting both sides of a pairing does not make it
dearer. `Lemmas/Mirror.lean` proves that two disjoint sets have only one preferred pairing and that it is mirrored when the sets are
exchanged, which gives C11 edit by edit (C11_mirrored) and not only in number.

Exchanging hypothesis and reference (C108). `Lemmas/Transpose.lean` writes the construction of a boundary-edit confusion matrix as one
list of increments; by C11_mirrored the other run makes the mirrored increments in another order, and the value of a cell, including
whether it is an int or a Decimal, does not depend on that order. Precision of a matrix and recall of its transpose are then computed
from the same numbers; the F-measure for beta goes with that for 1/beta. The weights only have to be the package's own ones for the
second run to succeed and for the cells to hold no floats.

Confusion matrices and similarity (C109). Row, column, diagonal and grand totals of a matrix made of increments are sums over the list
of increments (`Lemmas/MatrixTotals`), so they are the numbers of edits of each kind, which B is computed from too (C64). F1 = 2B/(1+B)
is the relation of the Dice and the Jaccard coefficient.

Rounded precision, recall and F-measure (C110): `Model/RoundedML` repeats `Model/ML` with rounded sums, products,
quotients and squares (`runR_exact`: with the identity it is `Model/ML`). The range theorem needs only a faithful
rounding; its core is that the numerator of F1, `ρ(ρ(2p)·r)`, never exceeds the denominator `ρ(p+r)`. For matrices of
counts every sum is exact, so only the last quotient is rounded. The equalities that rounding breaks are refuted with
concrete matrices, one of them that of two segmentations (micro precision 0.400…01, micro recall 0.399…99).

Exceptions and confusion matrices (C111): `Model/MLState` gives the matrix after every call, raised or not (`runS_forget`:
the answers are those of `Model/ML`). A call is a sequence of cell reads and `classes()` calls up to where it stops, so the
matrix after it is one that a history without exceptions makes; a label that the matrix does not have never makes a call
raise, so that calls that raise add no class. Dicts hold references to matrices.

Errors of rounded precision, recall and F-measure (C112): the exact and the rounded computation run in step (`Lock`). They
read the same cells of matrices with the same labels, take the same branches, because rounding with a relative error below 1
keeps zeros, and hold numbers within a known power of `1 - eps` (`Near`). Sums of nonnegative numbers keep the larger power,
products and quotients add powers, each rounding adds 1. Negative cells are excluded, with a counterexample.

Costs of single boundaries (C113): the number of boundaries in a window is the sum of the marks in it, so only windows over
a place where the patterns differ change, and a boundary moved inside a window changes nothing. The windows over one place, or
over exactly one of two, are intervals; their sizes give the costs. Padding moves places by `k`.

Single boundaries in the similarities (C114): one type at a time, the boundaries only one string has are the free ends the
search for transpositions picks from. With one end more the two runs differ in exactly one free end from some point on, and
that end changes hands each time one run pairs it and the other does not; spans only grow along the way, so the credits
differ by at most one. Strings with one type are then joined by steps of one boundary. Two types at one position break it
(`C114_two_types`), since an end can become part of a substitution.

Joined documents (C115): `joined` puts a boundary between two patterns. A probe lies in the first document, in the second, or
over the place where they meet; there both sides are separated. Windows are fixed, since the default window depends on the
number of segments.

Refinements and baselines (C116): with `onlyIn` empty on one side no transposition is genuine (C07), so the edits are additions
only, and C67's count of edits and matches gives the values for every `n_t`. For Pk and WindowDiff the formulas of C60 and C61
are evaluated on constant patterns.

Common beginnings and ends (C117): a document is part of the one it is framed in (`PartOf`, from C74), and no transposition
leaves it because both its ends differ; unlike in C74 no gap of `n_t - 1` positions is needed.

Changed boundaries and agreement (C118): numerator and cost of one comparison change by at most the boundaries changed in its
two strings (the steps of C114, taken on both sides by the symmetry of C11). Over ordered pairs of coders every coding occurs
2(c - 1) times, in the changes as in the boundaries that bound the denominators from below, so the number of coders cancels. The
strings are given by `CodedAs`; the only other hypotheses are that both calls return. Files: `Spec/AgreementStep`,
`Lemmas/AgreementStep`, `Props/AgreementStep`.

Documented mean (C119): `Spec/Documented` writes the docstring's formula of `__actual_agreement_linear__` down as a mean over ordered
pairs of coders. With segmentation similarity and one type every pair of an item has the same denominator, so that the quotient of sums of
the code is that mean (`C119_segmentation_partial`). With the default comparison the denominators are numbers of edits and matches, and with
several types they carry the square of the number of types in use: `C119_boundary_refuted` and `C119_types_refuted` give data sets on which
code and docstring differ. The docstring's two formulas do not agree with each other on the size (mass(i), or mass(i) above and mass(i) - 1
below); `C119_letter_refuted` shows that to the letter neither is what the code computes, the second not even giving 1 for full agreement.

Published coefficients (C120): `Spec/Chance` defines multi-kappa and multi-pi from scratch on positions in two categories; `multiKappa_cohen`
shows that for two coders this is Cohen's kappa of a two-by-two table. Without a window the numerator of segmentation similarity is
the number of positions in the same category, so actual agreement is observed agreement; the rates of C63 are the shares of boundaries. What
the code leaves out is the product of the shares of no boundary, which is why its kappa is never below the published one
(`C120_kappa_partial`, with the exact case of equality), nor its pi over items of one size (`C120_pi_partial`). `C120_refuted` and `C120_sizes` are
the counterexamples.

Two file formats (C121): `C121_same` joins C81 (what a TSV text holds) and C85/C86 (what a JSON text holds): both loaders are applied to texts
related to one table only by the specifications of the formats (`WrittenTable`, `JDoc`), and the loaded data sets have the same codings, hence (C76,
C88) the same scores. `C121_figure` loads the two files of the data specification; the JSON one is not JSON as printed.

Groups and their pairs (C122). `ofPair` keeps the codings of two coders. Actual agreement is a quotient of
sums over pairs of coders, so that it is between the quotients of the pairs; the sums are compared through the
rows of `actualAgreement`. Kappa with segmentation similarity is also such a quotient, because all pairs have
the same positions and expected agreement is the mean over pairs of a product of the coders' shares. Pi's
expected agreement is the square of a mean, which is at most the mean of the pairs' squares; hence only the
lower half. With the default comparison that half fails as well (`C122_pi_lower_refuted`, two items of different
sizes; whether it can fail on items of one size is left open). The other refutations are data of three coders
and four units.

C76, C88 and C89 with segmentation similarity (`Props/AgreementOrderS.lean`). The lower bounds carry over
because the coefficients are never lower than with boundary similarity (C96); repetition is proved once for
every comparison that yields no floats; the order of pi and kappa depends only on the bias, as before.

Keyword arguments (C123): `Model/Keywords.lean` models what the other models take for granted, the
way of the keyword arguments from the call to the metric: the dicts of defaults, `update`, `del`, and
Python's binding of a dict of keywords to the parameters of a function, where an unknown or missing
name is a `TypeError`.  A dict of keywords is a record with one optional field of the documented type
per keyword of the package, and a list of further names; values of other types are not modelled.  The
specification is a list of parameter names per metric, taken from docs/api.rst.  The theorems say
that a call with known keywords is the call of the other models (`C123_known_taken`,
`C123_dataset_known_taken`, `C123_agreement_taken_partial`), and that a call with an unknown one is
refused.  The refutations show the keywords of agreement that do nothing, the comparisons that
can never be used, and the two ways past the checks.

Copies of a dataset (C124): `Model/DatasetCopy.lean` has `copy()` (data/__init__.py:82-99) statement by
statement, and what `copy.deepcopy`, `pickle` and `copy.copy` do with a subclass of `defaultdict` that
defines neither `__reduce__` nor `__copy__`.  Trusted about CPython: `defaultdict.__reduce__` gives the
class, the default factory as the one argument, no state, and the items; `defaultdict.__copy__` calls the
class with the default factory and the dictionary.  So a deep copy is `Dataset(dict)` with the items set
again, and a shallow copy is `Dataset(dict, dataset)`, whose second parameter is `properties`.  Proved:
`copy()` keeps everything, and the copy of the heap model (C53) shows the same; deep copies keep the items,
and so the pairwise scores of datasets in masses.  Refuted: the rest of the claim, with datasets whose
agreement and whose scores differ.

Two datasets (C125, and C123 for this call): `Model/DatasetPair.lean` has `__fnc_metric__` with two
positional datasets (util/__init__.py:64-76).  Formats are objects, a string with a tag of where it was
allocated, as line 73 compares with `is not`.  Trusted: equal literals that are identifiers are one
object, and a string made at run time may be another one.  Proved for all metrics and keywords: different
formats are refused; the same object is compared, and then the call is the one of the other properties
(`fncMetric`).  Refuted: equal strings that are different objects.

Smaller units (C126): no new model. `finer m` is the pattern of potential boundaries after every unit has been
divided in `m`; `C126_masses` shows that multiplied masses have it. A window of `m * k` small units sees the
boundaries that the window of `k` units sees around the same unit (`between_finer`), so both errors and windows
are `m` times as many. The fix pads to the same pattern, but divides by one more than the windows. For the
similarities boundaries are multiples of `m` apart, so nothing can be transposed when `n_t` is at most `m`. With
`n_t` multiplied by `m` too, the genuine transpositions, their order and their collisions are the former ones
moved (`chosen_finer`), so the choice is too, and every cost.
`C126_scaled_matrix`: with `n_t` multiplied alike, every cell of the boundary confusion matrix is the same (the
edits correspond, and the credit of a near miss is its distance over `n_t`), so micro precision and recall are too.

Agreement in smaller units (C127): no new model. `SmallerUnits` says that two data sets have the same labels and
coders and that the codings of the second are those of the first with every unit divided in `m`. Each pair has the
parts it had (`plain_scaled`), so actual agreement is unchanged; the rates of which chance agreement is made have the
same numerators over larger denominators. Formats with one boundary type only.
`C127_bias`: for documents of one length (`L` potential boundaries) both expected agreements, and so the annotator
bias, times `(m * (L + 1) - 1) ^ 2` are what they were times `L ^ 2`.

Enumerations (C128): `Model/Enum` models `enum` as the dict it builds, the four enumerations of the package, and the
chains of tests that the metrics put a keyword's value through. Values are ints or strings; the attributes that every
class has are left out. The members are proved for every call of `enum`, the package's enumerations from that.

Saving by path (C129): `Model/Files` puts a disk (paths to files and folders) around the writer of `Model/Keys` and the
loader of `Model/JsonText`. Saving never makes or removes a folder, so that neither the file chosen nor whether it can be
opened depends on what was saved before; the rest follows by cases, and C98 and C99 say what the file holds.

Coders listed several times (C130): no new model. `Copied` says that every coder has `k` names; sums over pairs of names
are `k²` times the sums over pairs of coders plus `k(k-1)` times the comparisons of coders with themselves, which are all
matches. The mean rate of boundaries is a mean over coders and stays the same. For kappa the product of the rates of a
coder and a copy is a square; `a² + b² ≤ 1 + ab` between 0 and 1 and the bound of the number of edits and matches by the
boundaries of both coders show that the matches gained outweigh it.
The same squares give the change of the annotator bias. By segmentation similarity the denominators only count positions,
so that the factor does not depend on the codings.

Names of types (C102): the choice of transpositions (C65) is stable under injective renaming, and cheapest pairings under
renamings that keep distances; the statistics agree, hence the similarities.

Values of other kinds (C44, C100): `Model/AnyArgs` repeats the conversions of the metrics for any sequence and format, and
`__fnc_metric__` with a dict in the place of a segmentation, which is iterated over its keys. Every misfit raises, but in
the format `position` every sequence is accepted and equal to one of numbers; a dataset beside a segmentation then gives
a number, which refutes C44.

The package (C93, C94): `Model/Package` runs the import statements of the modules as Python does, including modules
that are found half-run in `sys.modules`. The proof is an invariant over all histories of uses: either nothing is
loaded, or the modules that all parts share are, every loaded module has its final names, and parents are loaded.
Imports keep it by induction over the nesting of imports, with a rank that every import statement lowers; that the
statements do is checked on the table of sources. The first use is evaluated for each exported name and module.

Rounding (C68–C73): `Model/Rounded` repeats the arithmetic with a rounding function after every operation; with the
identity as rounding it is the base model (`*_exact` lemmas), and loops that do no arithmetic are shared. Theorems take
any rounding that is `Faithful` (monotone, idempotent, keeps small integers) or `Accurate` (relative error); both are
proved of round-half-even to 28 decimal digits and 53 bits without exponent limits (`roundSig`). Simplified: no
overflow, underflow or subnormals; `x ** 2` of a `Decimal` as libmpdec's double rounding; the square roots of `std` and
`stderr` are not rounded.

## Defects of the code found on the way

Each has a theorem with a witness, named in the note of the property in MANIFEST.json: identity instead of equality of
ints (C05, C15, C29), strings of unequal length accepted by `boundary_edit_distance` (C16), the number of types squared
in S (C21), ValueError without boundaries (C22), TypeError for `one_minus` with unscaled weights (C24), WindowDiff on
short documents (C30), roles of hypothesis and reference exchanged in the confusion matrix (C39), near misses credited
the wrong way round (C40), colliding keys (C43), division by zero in pi and kappa (C49), negative bias (C50), coders of
loaded datasets missing (C51), shared dicts and lists (C52–C54), properties overwriting fields (C55), blank TSV
lines (C57), files dropped that differ only in extension (C58), csv files read with tabs (C84), means, bias and the
sign of kappa changed by rounding and iteration order (C72, C73), `segeval.summarize` raising ImportError when it is the
first use of the package (C93, C94), coders 1 and '1' taken for one (C97), a failed save destroying the file (C99), a dataset
compared with a segmentation by its number of items (C44). The user guide (docs/user/quickstart.rst) quotes pi and kappa of the Stargazer data
as if segments were counted in place of boundaries; `Tests/Vectors` has the values the code gives.
