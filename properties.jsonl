{"id": "C01", "title": "Masses survive the trip through positions", "statement": "convert_positions_to_masses(convert_masses_to_positions(m)) == m for every sequence m of positive segment masses, and the intermediate position sequence has exactly sum(m) units.", "quantifier": "every finite sequence of positive integers, of any length and magnitude", "why_tests_cant": "Tests sample a handful of segmentations; the claim ranges over an unbounded set of inputs.", "anchors": ["segeval/format.py:convert_masses_to_positions", "segeval/format.py:convert_positions_to_masses"]}
{"id": "C02", "title": "Position labels matter only through where they change", "statement": "For every position sequence, converting to masses and back keeps the number of units and puts a boundary between exactly those neighbouring units whose labels differed; relabelling segments never changes the masses.", "quantifier": "every finite label sequence, labels repeated or not", "why_tests_cant": "Tests sample a handful of segmentations; the claim ranges over an unbounded set of inputs.", "anchors": ["segeval/format.py:convert_positions_to_masses", "segeval/format.py:convert_masses_to_positions"]}
{"id": "C03", "title": "Boundary strings place boundaries exactly at segment ends", "statement": "For positive masses m, boundary_string_from_masses(m) has sum(m)-1 positions; position p carries exactly the boundary type 1 when p+1 is the end of a segment other than the last, and is empty otherwise; it never raises.", "quantifier": "every finite sequence of positive masses", "why_tests_cant": "Tests sample a handful of segmentations; the claim ranges over an unbounded set of inputs.", "anchors": ["segeval/format.py:boundary_string_from_masses"]}
{"id": "C04", "title": "NLTK strings and boundary strings coincide position by position", "statement": "convert_nltk_to_masses(s) yields positive masses summing to len(s)+1, and the boundary string of those masses has a boundary at position i iff s[i] is the boundary symbol.", "quantifier": "every string and boundary symbol character", "why_tests_cant": "Tests sample a handful of segmentations; the claim ranges over an unbounded set of inputs.", "anchors": ["segeval/format.py:convert_nltk_to_masses", "segeval/format.py:boundary_string_from_masses"]}
{"id": "C05", "title": "Metrics do not depend on the input format", "statement": "boundary_similarity, segmentation_similarity and boundary_statistics return the same result for one pair of segmentations whether given as masses, positions, NLTK strings or boundary sets; pk and window_diff return the same result for masses, positions and NLTK strings, for every setting of the other keyword arguments.", "quantifier": "every pair of segmentations, every supported format, every keyword setting", "why_tests_cant": "Tests sample a handful of segmentations; the claim ranges over an unbounded set of inputs.", "anchors": ["segeval/similarity/__init__.py:__boundary_statistics__", "segeval/similarity/boundary.py:boundary_similarity", "segeval/similarity/segmentation.py:segmentation_similarity", "segeval/window/pk.py:pk", "segeval/window/windowdiff.py:window_diff"]}
{"id": "C06", "title": "Edits account for every fully missed boundary exactly once", "statement": "For boundary strings of equal length, len(full_misses) == len(additions) + 2*len(substitutions) + 2*len(transpositions); moreover, type by type, the boundaries only in the first string are exactly the 'a' additions, the first halves of substitutions and the transposed types (and symmetrically for the second string).", "quantifier": "every pair of equal-length boundary strings over integer boundary types, every n_t, every set iteration order, equal boundary types being one object (always so for ints from -5 to 256; C15 treats other identities)", "why_tests_cant": "Tests sample a handful of segmentations; the claim ranges over an unbounded set of inputs.", "anchors": ["segeval/similarity/distance/multipleboundary.py:boundary_edit_distance", "segeval/similarity/__init__.py:__boundary_statistics__"]}
{"id": "C07", "title": "Transpositions are genuine, in range, bounded and disjoint", "statement": "Every reported transposition (i,j,t) satisfies 0<=i<j<len, j-i<n_t, boundary t moves between i and j (present in one string only at i and in the other only at j), and no two reported transpositions of the same type share a position.", "quantifier": "every pair of equal-length boundary strings, every n_t, every set iteration order, equal boundary types being one object (always so for ints from -5 to 256; C15 treats other identities)", "why_tests_cant": "Tests sample a handful of segmentations; the claim ranges over an unbounded set of inputs.", "anchors": ["segeval/similarity/distance/multipleboundary.py:__transpositions__", "segeval/similarity/distance/multipleboundary.py:__overlaps_existing__"]}
{"id": "C08", "title": "Substitutions are a cheapest complete pairing", "statement": "At every position the substitutions pair up as many leftover boundaries of the two strings as possible, each used once, and the total type distance of the pairing is minimal among all such pairings; the rest become additions.", "quantifier": "every pair of finite disjoint sets of integer boundary types", "why_tests_cant": "The minimum ranges over factorially many pairings of unboundedly large sets; a test can compare only one.", "anchors": ["segeval/similarity/distance/multipleboundary.py:__additions_substitutions_sets__", "segeval/similarity/distance/multipleboundary.py:__additions_substitutions__"]}
{"id": "C09", "title": "Boundary edit distance never fails on equal-length strings", "statement": "boundary_edit_distance(a, b, n_t) returns (no IndexError, KeyError or AssertionError) whenever len(a)==len(b) and no position differs in more than 256 boundary types.", "quantifier": "every pair of equal-length boundary strings, every integer n_t, every set iteration order", "why_tests_cant": "Tests sample a handful of segmentations; the claim ranges over an unbounded set of inputs.", "anchors": ["segeval/similarity/distance/multipleboundary.py:boundary_edit_distance", "segeval/similarity/distance/multipleboundary.py:__transpositions__", "segeval/similarity/distance/multipleboundary.py:__additions_substitutions_sets__"]}
{"id": "C10", "title": "No edits exactly when the strings are equal", "statement": "boundary_edit_distance(a,b) returns three empty lists iff a == b.", "quantifier": "every pair of equal-length boundary strings, every n_t", "why_tests_cant": "Tests sample a handful of segmentations; the claim ranges over an unbounded set of inputs.", "anchors": ["segeval/similarity/distance/multipleboundary.py:boundary_edit_distance"]}
{"id": "C11", "title": "Boundary edit distance is symmetric", "statement": "Swapping the two strings yields the same transpositions, every addition with its side exchanged and every substitution with its two types exchanged, and nothing else; so the numbers of edits and the total substitution distance are the same. Only the order of the returned lists may differ.", "quantifier": "every pair of equal-length boundary strings, every n_t, every set iteration order for each call, equal boundary types being one object (always so for ints from -5 to 256; C15 treats other identities)", "why_tests_cant": "Tests sample a handful of segmentations; the claim ranges over an unbounded set of inputs, and where several pairings are cheapest it depends on which one a search over permutations meets first.", "anchors": ["segeval/similarity/distance/multipleboundary.py:boundary_edit_distance"]}
{"id": "C12", "title": "Results do not depend on set iteration order", "statement": "For any two iteration orders of Python sets (hash seeds), boundary_edit_distance reports the same transpositions, additions and substitutions up to list order, hence every metric built on it is deterministic.", "quantifier": "every pair of boundary strings, every pair of iteration orders at every loop, equal boundary types being one object (always so for ints from -5 to 256; C15 treats other identities)", "why_tests_cant": "Iteration order is a hidden schedule: each test run sees one hash order.", "anchors": ["segeval/similarity/distance/multipleboundary.py:__transpositions__", "segeval/similarity/distance/multipleboundary.py:__additions_substitutions_sets__"]}
{"id": "C13", "title": "Larger n_t only adds transpositions and never adds edits", "statement": "The transpositions reported for n_t are a prefix of those reported for a larger n_t, and the total number of edits does not increase with n_t; for n_t <= 1 there are no transpositions.", "quantifier": "every pair of equal-length boundary strings, every n_t <= n_t'; for the number of edits, equal boundary types being one object (always so for ints from -5 to 256)", "why_tests_cant": "Tests sample a handful of segmentations; the claim ranges over an unbounded set of inputs.", "anchors": ["segeval/similarity/distance/multipleboundary.py:__transpositions__", "segeval/similarity/distance/multipleboundary.py:boundary_edit_distance"]}
{"id": "C14", "title": "The edit script is minimal", "statement": "boundary_edit_distance reports the minimum number of edits (its docstring): no valid set of disjoint transpositions within n_t leaves fewer edits.", "quantifier": "every pair of equal-length boundary strings, every n_t", "why_tests_cant": "Minimality compares against every other edit script.", "anchors": ["segeval/similarity/distance/multipleboundary.py:__boundary_edit_distance__"]}
{"id": "C15", "title": "Transposition disjointness does not depend on object identity", "statement": "Two equal boundary types are recognised as the same type whatever objects represent them, so overlapping transpositions are never reported even for types outside the interpreter's small-integer cache.", "quantifier": "every pair of boundary strings, every assignment of object identities to equal boundary types", "why_tests_cant": "The identity test `is` behaves differently from == only on objects tests do not build.", "anchors": ["segeval/similarity/distance/multipleboundary.py:__overlaps_existing__"]}
{"id": "C16", "title": "Unequal lengths are rejected", "statement": "Every two-segmentation metric raises SegmentationMetricError when the two segmentations have different numbers of units; boundary_edit_distance called directly on strings of different length does not silently drop boundaries.", "quantifier": "every pair of segmentations of different length, every format", "why_tests_cant": "Tests sample a handful of segmentations; the claim ranges over an unbounded set of inputs.", "anchors": ["segeval/similarity/__init__.py:__boundary_statistics__", "segeval/window/pk.py:__pk__", "segeval/window/windowdiff.py:__window_diff__", "segeval/similarity/distance/multipleboundary.py:boundary_edit_distance"]}
{"id": "C17", "title": "B lies between 0 and 1", "statement": "Whenever boundary_similarity (default weights) returns a value it is in [0,1], and one_minus returns its complement.", "quantifier": "every pair of segmentations, format and n_t >= 1", "why_tests_cant": "Tests sample a handful of segmentations; the claim ranges over an unbounded set of inputs.", "anchors": ["segeval/similarity/boundary.py:boundary_similarity", "segeval/similarity/weight.py:weight_t_scale", "segeval/similarity/weight.py:weight_s_scale"]}
{"id": "C18", "title": "B is 1 exactly for identical segmentations and 0 exactly for total misses", "statement": "boundary_similarity(a,b) == 1 iff a and b place the same boundaries; == 0 iff nothing matches, nothing is near and nothing is confusable (every edit is an addition).", "quantifier": "every pair of equal-length segmentations with at least one boundary", "why_tests_cant": "Tests sample a handful of segmentations; the claim ranges over an unbounded set of inputs.", "anchors": ["segeval/similarity/boundary.py:boundary_similarity"]}
{"id": "C19", "title": "B and S are symmetric", "statement": "boundary_similarity(a,b) == boundary_similarity(b,a) and segmentation_similarity(a,b) == segmentation_similarity(b,a).", "quantifier": "every pair of segmentations, every n_t, every set iteration order, equal boundary types being one object (always so for ints from -5 to 256; C15 treats other identities)", "why_tests_cant": "Tests sample a handful of segmentations; the claim ranges over an unbounded set of inputs.", "anchors": ["segeval/similarity/boundary.py:boundary_similarity", "segeval/similarity/segmentation.py:segmentation_similarity"]}
{"id": "C20", "title": "S lies between 0 and 1, is 1 exactly for identical segmentations and never falls below B", "statement": "Whenever segmentation_similarity returns a value it is in [0,1]; it is 1 iff the boundaries coincide; and boundary_similarity(a,b) <= segmentation_similarity(a,b).", "quantifier": "every pair of equal-length segmentations, every n_t >= 1, equal boundary types being one object (always so for ints from -5 to 256; C15 treats other identities)", "why_tests_cant": "Tests sample a handful of segmentations; the claim ranges over an unbounded set of inputs.", "anchors": ["segeval/similarity/segmentation.py:segmentation_similarity", "segeval/similarity/boundary.py:boundary_similarity"]}
{"id": "C21", "title": "S normalises by the number of potential boundaries", "statement": "The denominator of segmentation_similarity is the number of potential boundaries: positions times boundary types.", "quantifier": "every pair of equal-length segmentations, any number of boundary types", "why_tests_cant": "Tests sample a handful of segmentations; the claim ranges over an unbounded set of inputs.", "anchors": ["segeval/similarity/segmentation.py:__segmentation_similarity__", "segeval/similarity/__init__.py:__boundary_statistics__"]}
{"id": "C22", "title": "Identical segmentations always score 1", "statement": "boundary_similarity(a,a) and segmentation_similarity(a,a) return 1 for every segmentation, including one without boundaries.", "quantifier": "every segmentation", "why_tests_cant": "Tests sample a handful of segmentations; the claim ranges over an unbounded set of inputs.", "anchors": ["segeval/similarity/__init__.py:__boundary_statistics__", "segeval/similarity/boundary.py:boundary_similarity", "segeval/similarity/segmentation.py:segmentation_similarity"]}
{"id": "C23", "title": "boundary_statistics is internally consistent", "statement": "boundaries_all == 2*len(matches) + len(full_misses) and equals the number of boundaries in both segmentations; matches lists every boundary both place and full_misses every boundary only one places, once per position; pbs == positions * boundary types; boundary_types is exactly the set of types present; count_edits never exceeds the number of edits.", "quantifier": "every pair of equal-length segmentations, every n_t >= 1", "why_tests_cant": "Tests sample a handful of segmentations; the claim ranges over an unbounded set of inputs.", "anchors": ["segeval/similarity/__init__.py:__boundary_statistics__"]}
{"id": "C24", "title": "one_minus and return_parts agree with the value", "statement": "For each metric, the returned parts have the metric's value as quotient, one_minus returns 1 minus the value, and both options work with every pair of supplied weight functions.", "quantifier": "every metric, segmentation pair, format and weight-function choice", "why_tests_cant": "Tests sample a handful of segmentations; the claim ranges over an unbounded set of inputs.", "anchors": ["segeval/similarity/boundary.py:__boundary_similarity__", "segeval/similarity/segmentation.py:__segmentation_similarity__", "segeval/window/windowdiff.py:__window_diff__", "segeval/window/pk.py:__pk__"]}
{"id": "C25", "title": "The window size is at least 2 and half the mean segment", "statement": "compute_window_size returns at least 2, and otherwise exactly the rounded half of the mean segment size; it depends only on the multiset of segment masses, for arbitrarily nested collections. Under Python 2, which rounds halves up, the window is the same except when the mean segment size is 4m + 1 for an integer m of 1 or more; then it is one larger.", "quantifier": "every nested collection of segmentations, every rounding function", "why_tests_cant": "Tests sample a handful of segmentations; the claim ranges over an unbounded set of inputs.", "anchors": ["segeval/window/__init__.py:compute_window_size"]}
{"id": "C26", "title": "Pk lies between 0 and 1 and is 0 for identical segmentations", "statement": "Whenever pk returns a value it is in [0,1] (with one_minus likewise); pk(s,s) == 0 for every segmentation s and window size.", "quantifier": "every pair of segmentations, format, non-negative window size", "why_tests_cant": "Tests sample a handful of segmentations; the claim ranges over an unbounded set of inputs.", "anchors": ["segeval/window/pk.py:pk"]}
{"id": "C27", "title": "WindowDiff lies between 0 and 1 and is 0 for identical segmentations", "statement": "Whenever window_diff returns a value it is in [0,1]; window_diff(s,s) == 0 whenever it returns.", "quantifier": "every pair of segmentations, format, window size, with and without the Lamprier fix", "why_tests_cant": "Tests sample a handful of segmentations; the claim ranges over an unbounded set of inputs.", "anchors": ["segeval/window/windowdiff.py:window_diff"]}
{"id": "C28", "title": "Pk never exceeds WindowDiff", "statement": "For the same two segmentations given as masses and the same window size, the windows in error for pk are among the windows in error for window_diff, so pk <= window_diff.", "quantifier": "every pair of equal-length mass segmentations and window size", "why_tests_cant": "Tests sample a handful of segmentations; the claim ranges over an unbounded set of inputs.", "anchors": ["segeval/window/pk.py:pk", "segeval/window/windowdiff.py:window_diff"]}
{"id": "C29", "title": "WindowDiff works for any window size smaller than the document", "statement": "window_diff returns a value whenever the window size is positive and smaller than the number of units.", "quantifier": "every pair of equal-length segmentations, every window size", "why_tests_cant": "A long-document failure depends on the interpreter's small-integer cache; tests use short documents.", "anchors": ["segeval/window/windowdiff.py:__window_diff__"]}
{"id": "C30", "title": "WindowDiff with default window is defined on every document", "statement": "window_diff(h, r) with the default window size returns a value for every pair of equal-length segmentations.", "quantifier": "every pair of equal-length segmentations", "why_tests_cant": "Tests sample a handful of segmentations; the claim ranges over an unbounded set of inputs.", "anchors": ["segeval/window/windowdiff.py:__window_diff__", "segeval/window/__init__.py:__compute_window_size__"]}
{"id": "C31", "title": "With the Lamprier fix WindowDiff is 0 only for identical segmentations", "statement": "With lamprier_et_al_2007_fix the value, whenever window_diff returns one, is 0 iff both segmentations place boundaries at the same places (without the fix this fails).", "quantifier": "every pair of equal-length mass segmentations, every positive window size", "why_tests_cant": "Tests sample a handful of segmentations; the claim ranges over an unbounded set of inputs.", "anchors": ["segeval/window/windowdiff.py:__create_paired_window__", "segeval/window/windowdiff.py:__window_diff__"]}
{"id": "C32", "title": "Window metrics are symmetric for a fixed window size", "statement": "pk and window_diff with an explicit window_size return the same value when hypothesis and reference are exchanged.", "quantifier": "every pair of segmentations, every window size", "why_tests_cant": "Tests sample a handful of segmentations; the claim ranges over an unbounded set of inputs.", "anchors": ["segeval/window/pk.py:pk", "segeval/window/windowdiff.py:window_diff"]}
{"id": "C33", "title": "ConfusionMatrix.classes() lists exactly the labels used", "statement": "After any sequence of reads and writes, classes() returns exactly the set of row and column labels of the matrix.", "quantifier": "every history of matrix operations", "why_tests_cant": "The dirty-flag cache depends on the whole operation history.", "anchors": ["segeval/ml/__init__.py:ConfusionMatrix", "segeval/ml/__init__.py:_InnerConfusionMatrix"]}
{"id": "C34", "title": "A matrix cell holds the last value written", "statement": "After any history of reads, writes and increments, matrix[p][a] is the last value written plus later increments, 0 if never written; reads, classes() and metric queries never change a cell.", "quantifier": "every history of matrix operations", "why_tests_cant": "Reads insert default entries, so purity is a claim about all histories.", "anchors": ["segeval/ml/__init__.py:ConfusionMatrix", "segeval/ml/__init__.py:_InnerConfusionMatrix"]}
{"id": "C35", "title": "Micro-averaged precision equals micro-averaged recall", "statement": "precision(m) == recall(m) (micro), both being the diagonal mass over the total mass, 0 for an empty diagonal.", "quantifier": "every confusion matrix with non-negative int or Decimal entries", "why_tests_cant": "Tests sample a handful of segmentations; the claim ranges over an unbounded set of inputs.", "anchors": ["segeval/ml/__init__.py:precision", "segeval/ml/__init__.py:recall", "segeval/ml/__init__.py:__value_micro_macro__"]}
{"id": "C36", "title": "Precision, recall and F-measure lie in [0,1] and F follows its formula", "statement": "For non-negative matrices precision, recall and F-measure per class, micro and macro are in [0,1]; F-beta per class equals (1+b^2)TP/((1+b^2)TP+b^2 FN+FP) and lies between precision and recall.", "quantifier": "every confusion matrix with non-negative int or Decimal entries, every class, every int or Decimal beta", "why_tests_cant": "Tests sample a handful of segmentations; the claim ranges over an unbounded set of inputs.", "anchors": ["segeval/ml/__init__.py:__precision__", "segeval/ml/__init__.py:__recall__", "segeval/ml/__init__.py:__fmeasure__"]}
{"id": "C37", "title": "Metric queries do not influence later metric queries", "statement": "Calling precision, recall or fmeasure never changes the result of any later precision, recall or fmeasure call on the same matrix.", "quantifier": "every matrix with int or Decimal entries, every sequence of queries", "why_tests_cant": "Queries mutate the matrix; interference appears only in particular call sequences.", "anchors": ["segeval/ml/__init__.py:__value_micro_macro__", "segeval/ml/__init__.py:ConfusionMatrix.__getitem__"]}
{"id": "C38", "title": "The BED confusion matrix counts what the edits say", "statement": "The matrix diagonal total is the number of matches plus the weighted transpositions, the typed off-diagonal total is the number of substitutions, and the None row and column total the number of additions.", "quantifier": "every pair of equal-length segmentations", "why_tests_cant": "Tests sample a handful of segmentations; the claim ranges over an unbounded set of inputs.", "anchors": ["segeval/similarity/__init__.py:__boundary_confusion_matrix__"]}
{"id": "C39", "title": "A boundary only in the hypothesis counts against precision", "statement": "boundary_confusion_matrix(hypothesis, reference) records a boundary that only the hypothesis places under matrix[type][None] (predicted, actual) and one only the reference places under matrix[None][type].", "quantifier": "every pair of equal-length segmentations", "why_tests_cant": "Tests sample a handful of segmentations; the claim ranges over an unbounded set of inputs.", "anchors": ["segeval/similarity/__init__.py:__boundary_confusion_matrix__", "segeval/ml/__init__.py:ConfusionMatrix"]}
{"id": "C40", "title": "Nearer misses earn at least as much credit", "statement": "In the confusion matrix a transposition spanning fewer positions contributes at least as much to the correct count as one spanning more.", "quantifier": "every n_t and pair of transpositions", "why_tests_cant": "Tests sample a handful of segmentations; the claim ranges over an unbounded set of inputs.", "anchors": ["segeval/similarity/__init__.py:__boundary_confusion_matrix__", "segeval/similarity/weight.py:weight_t_scale"]}
{"id": "C41", "title": "Pairwise comparison covers every pair of coders exactly once", "statement": "For a dataset, the result has one entry per item and unordered coder pair (one per ordered pair when permuted), keyed 'item,coder,coder', each holding the metric of exactly those two segmentations.", "quantifier": "every dataset whose coder names contain no comma, every metric, every key order", "why_tests_cant": "Tests sample a handful of segmentations; the claim ranges over an unbounded set of inputs.", "anchors": ["segeval/compute.py:compute_pairwise_values"]}
{"id": "C42", "title": "Comparing two datasets covers exactly the shared items", "statement": "For two datasets the result has one entry per shared item and pair (coder of the first, coder of the second), and nothing else.", "quantifier": "every pair of datasets whose coder names contain no comma", "why_tests_cant": "Tests sample a handful of segmentations; the claim ranges over an unbounded set of inputs.", "anchors": ["segeval/compute.py:compute_pairwise_values", "segeval/util/__init__.py:__fnc_metric__"]}
{"id": "C43", "title": "Result keys are unambiguous", "statement": "Distinct (item, coder, coder) triples never share a result key, whatever the names.", "quantifier": "every dataset, arbitrary names", "why_tests_cant": "Tests sample a handful of segmentations; the claim ranges over an unbounded set of inputs.", "anchors": ["segeval/compute.py:compute_pairwise_values"]}
{"id": "C44", "title": "Argument handling", "statement": "A metric accepts two segmentations, two datasets or one dataset, positionally or by keyword; a bare integer is treated as a one-segment segmentation; every other argument combination raises SegmentationMetricError and never yields a number.", "quantifier": "every combination of positional and keyword arguments", "why_tests_cant": "Tests sample a handful of segmentations; the claim ranges over an unbounded set of inputs.", "anchors": ["segeval/util/__init__.py:__fnc_metric__"]}
{"id": "C45", "title": "summarize describes the values", "statement": "The mean lies between the least and greatest value, the variance is non-negative, is the mean squared minus squared mean and is 0 iff all values agree, the standard deviation squares to the variance, the standard error squared times the count is the variance; an empty result raises.", "quantifier": "every finite non-empty collection of int or Decimal values", "why_tests_cant": "Tests sample a handful of segmentations; the claim ranges over an unbounded set of inputs.", "anchors": ["segeval/compute.py:summarize", "segeval/util/math.py:mean", "segeval/util/math.py:var", "segeval/util/math.py:std", "segeval/util/math.py:stderr"]}
{"id": "C46", "title": "Actual agreement lies in [0,1] and is 1 exactly under complete agreement", "statement": "actual_agreement_linear is in [0,1] whenever it returns, and is 1 iff all coders place the same boundaries in every item.", "quantifier": "every dataset with at least two coders coding every item", "why_tests_cant": "Tests sample a handful of segmentations; the claim ranges over an unbounded set of inputs.", "anchors": ["segeval/agreement/__init__.py:actual_agreement_linear"]}
{"id": "C47", "title": "Agreement does not depend on coder order", "statement": "actual_agreement_linear, fleiss_pi_linear and fleiss_kappa_linear return the same value for every enumeration order of the coder set and of the items.", "quantifier": "every dataset, every enumeration order; for boundary-set data, equal boundary types being one object (always so for ints from -5 to 256)", "why_tests_cant": "The coder set is iterated in hash order; each test run sees one.", "anchors": ["segeval/agreement/__init__.py:__actual_agreement_linear__", "segeval/agreement/pi.py:__fleiss_pi_linear__", "segeval/agreement/kappa.py:__fleiss_kappa_linear__"]}
{"id": "C48", "title": "Pi and kappa are chance-corrected agreement", "statement": "Expected agreement is in [0,1]; pi and kappa are at most 1, are 1 under complete agreement (with at least one boundary and one non-boundary), and never exceed actual agreement.", "quantifier": "every dataset for which they return", "why_tests_cant": "Tests sample a handful of segmentations; the claim ranges over an unbounded set of inputs.", "anchors": ["segeval/agreement/pi.py:fleiss_pi_linear", "segeval/agreement/kappa.py:fleiss_kappa_linear"]}
{"id": "C49", "title": "Pi and kappa are defined whenever agreement is", "statement": "Whenever actual agreement is defined, fleiss_pi_linear and fleiss_kappa_linear return a value.", "quantifier": "every dataset with at least two coders", "why_tests_cant": "Tests sample a handful of segmentations; the claim ranges over an unbounded set of inputs.", "anchors": ["segeval/agreement/pi.py:fleiss_pi_linear", "segeval/agreement/kappa.py:fleiss_kappa_linear"]}
{"id": "C50", "title": "Annotator bias is non-negative", "statement": "artstein_poesio_bias_linear is >= 0 for every dataset.", "quantifier": "every dataset with at least two coders", "why_tests_cant": "Tests sample a handful of segmentations; the claim ranges over an unbounded set of inputs.", "anchors": ["segeval/agreement/bias.py:artstein_poesio_bias_linear"]}
{"id": "C51", "title": "A dataset's coder set is the set of coders in its items", "statement": "dataset.coders always equals the set of coders occurring in the items, however the dataset was built (constructor, addition, JSON or TSV loading, item assignment), so agreement works on every loaded dataset.", "quantifier": "every history of dataset operations", "why_tests_cant": "An invariant over all construction histories.", "anchors": ["segeval/data/__init__.py:Dataset", "segeval/data/__init__.py:get_coders", "segeval/data/jsonutils.py:input_linear_mass_json", "segeval/data/tsv.py:input_linear_mass_tsv"]}
{"id": "C52", "title": "Adding datasets is a disjoint union", "statement": "a + b (and a += b) contains exactly the codings of both; it raises DataIOError exactly when some item has the same coder in both.", "quantifier": "every pair of datasets", "why_tests_cant": "Tests sample a handful of segmentations; the claim ranges over an unbounded set of inputs.", "anchors": ["segeval/data/__init__.py:Dataset.__iadd__", "segeval/data/__init__.py:Dataset.__add__"]}
{"id": "C53", "title": "a + b and copy leave their operands untouched", "statement": "After c = a + b (even if it raises) or c = a.copy(), a and b are unchanged, and later changes to c never show in a or b.", "quantifier": "every heap, every pair of datasets including shared inner dicts, every later update", "why_tests_cant": "Aliasing shows only under particular sharing and update histories.", "anchors": ["segeval/data/__init__.py:Dataset.__add__", "segeval/data/__init__.py:Dataset.copy"]}
{"id": "C54", "title": "a += b is all-or-nothing and changes only a", "statement": "When a += b raises, a is unchanged; when it succeeds nothing but a changes.", "quantifier": "every heap and pair of datasets", "why_tests_cant": "Failure atomicity and aliasing are about all states and sharing patterns.", "anchors": ["segeval/data/__init__.py:Dataset.__iadd__", "segeval/data/__init__.py:Dataset.__init__"]}
{"id": "C55", "title": "JSON output can be read back", "statement": "input_linear_mass_json(output_linear_mass_json(d)) has the same items and codings as d, and the same properties plus the segmentation type.", "quantifier": "every dataset of integer masses and every property map", "why_tests_cant": "Tests sample a handful of segmentations; the claim ranges over an unbounded set of inputs.", "anchors": ["segeval/data/jsonutils.py:output_linear_mass_json", "segeval/data/jsonutils.py:input_linear_mass_json"]}
{"id": "C56", "title": "JSON input rejects documents that are not linear segmentations", "statement": "input_linear_mass_json raises DataIOError for every document whose segmentation_type is missing or not linear or that lacks items.", "quantifier": "every JSON document", "why_tests_cant": "Tests sample a handful of segmentations; the claim ranges over an unbounded set of inputs.", "anchors": ["segeval/data/jsonutils.py:input_linear_mass_json"]}
{"id": "C57", "title": "TSV rows become codings", "statement": "input_linear_mass_tsv yields one item with one coding per data row, keyed by the first column, holding the row's remaining integers in order; later rows of the same coder replace earlier ones.", "quantifier": "every sequence of rows", "why_tests_cant": "Tests sample a handful of segmentations; the claim ranges over an unbounded set of inputs.", "anchors": ["segeval/data/tsv.py:input_linear_mass_tsv"]}
{"id": "C58", "title": "Loading nested folders is order independent and loses nothing", "statement": "load_nested_folders_dict yields exactly the codings of all matching files, items prefixed by their folder path, whatever order the file system lists entries in.", "quantifier": "every folder tree and every listing order", "why_tests_cant": "Directory order is a hidden schedule chosen by the OS.", "anchors": ["segeval/data/__init__.py:load_nested_folders_dict"]}
{"id": "C59", "title": "The similarities do not depend on set iteration order", "statement": "boundary_similarity and segmentation_similarity return the same value whatever order Python visits sets in and whatever object identities equal labels have, for documents whose sets hold shared type objects; only the chosen pairs of edits may differ.", "quantifier": "every pair of segmentations with any number of boundary types, every format and keyword setting with the package's weight functions, every two iteration orders, equal boundary types being one object (always so for ints from -5 to 256; C15 treats other identities)", "why_tests_cant": "Set iteration order varies with hash seeds and insertion history; a test run sees one order.", "anchors": ["segeval/similarity/boundary.py:boundary_similarity", "segeval/similarity/segmentation.py:segmentation_similarity", "segeval/similarity/distance/multipleboundary.py:__boundary_edit_distance__"]}
{"id": "C60", "title": "Pk is the published formula", "statement": "pk(h, r, window_size=k) is the fraction of the n-k probes (i, i+k) on which the two segmentations disagree whether units i and i+k belong to one segment; with the default window, k is the rounded half mean segment size of the reference (at least 2).", "quantifier": "every pair of equal-length segmentations (positions: labels not reused for separate segments, equal neighbouring labels one object, the last label of a tuple not 0), every natural window size", "why_tests_cant": "Tests compare a handful of hand-computed values; the formula must hold for every segmentation and window.", "anchors": ["segeval/window/pk.py:__pk__"]}
{"id": "C61", "title": "WindowDiff is the published formula", "statement": "window_diff(h, r, window_size=k) is the fraction of the n-k windows of k+1 units in which the two segmentations have different numbers of boundaries.", "quantifier": "every pair of equal-length segmentations as in C60, every window size below n, whenever it returns (which is exactly when the window is at most 255)", "why_tests_cant": "Tests compare a handful of hand-computed values; the formula must hold for every segmentation and window.", "anchors": ["segeval/window/windowdiff.py:__window_diff__"]}
{"id": "C62", "title": "WindowDiff with the fix counts windows over phantom units", "statement": "With lamprier_et_al_2007_fix the windows also range over k phantom units before and after the document, each block forming its own segment, and the number of differing windows is divided by n+k+1.", "quantifier": "every pair of equal-length segmentations as in C60, every positive window size, whenever it returns (which is exactly when the window is at most 255)", "why_tests_cant": "Tests compare a handful of hand-computed values; the formula must hold for every segmentation and window.", "anchors": ["segeval/window/windowdiff.py:__create_paired_window__", "segeval/window/windowdiff.py:__window_diff__"]}
{"id": "C63", "title": "Agreement coefficients are the published sums", "statement": "Actual agreement pools the numerators and denominators of boundary similarity over all items and coder pairs; pi's expected agreement is the square of the mean boundary rate; kappa's is the mean over coder pairs of the product of the coders' own rates.", "quantifier": "every dataset of valid segmentations for which the coefficients return", "why_tests_cant": "Tests compare a few hand-computed datasets; the formula must hold for every number of coders, items and sizes.", "anchors": ["segeval/agreement/__init__.py:__actual_agreement_linear__", "segeval/agreement/pi.py:__fleiss_pi_linear__", "segeval/agreement/kappa.py:__fleiss_kappa_linear__"]}
{"id": "C64", "title": "B and S are the published formulas", "statement": "boundary_similarity is (matches + sum over substitutions of 1 - |type difference|/(largest type - smallest type + 1) + sum over transpositions of 1 - span/n_t) over the number of matches and edits; segmentation_similarity is 1 minus the total cost of the edits (1 per addition, the same fractions for the others) over positions * types^2. With the unscaled weights they are matches/(matches+edits) and 1 - edits/(positions * types^2).", "quantifier": "every pair of segmentations for which they return, every format and n_t, every set iteration order", "why_tests_cant": "Tests compare hand-computed values; the formula must hold for every segmentation, number of types and window.", "anchors": ["segeval/similarity/boundary.py:__boundary_similarity__", "segeval/similarity/segmentation.py:__segmentation_similarity__", "segeval/similarity/__init__.py:__boundary_statistics__", "segeval/similarity/weight.py"]}
{"id": "C65", "title": "Exactly which transpositions are reported", "statement": "Among all genuine transpositions (C07) exactly those are reported that share no end with an earlier reported one of the same type (earlier: shorter, or equally long and further left) and do not have, after the earlier ones, a substitution possible at both ends. They are listed by increasing span and from left to right, and this rule determines them.", "quantifier": "every pair of equal-length boundary strings, every n_t, every set iteration order, equal boundary types being one object (always so for ints from -5 to 256)", "why_tests_cant": "Tests show a few edit scripts; that no possible transposition is ever skipped concerns all strings and windows.", "anchors": ["segeval/similarity/distance/multipleboundary.py:__transpositions__", "segeval/similarity/distance/multipleboundary.py:__overlaps_existing__", "segeval/similarity/distance/multipleboundary.py:__has_substitutions__"]}
{"id": "C66", "title": "Pk and WindowDiff obey the triangle inequality", "statement": "For three segmentations of one document and one explicit window size, pk(a,c) <= pk(a,b) + pk(b,c) and likewise window_diff with and without the Lamprier fix (with the fix it is a metric). 1 - boundary_similarity does not obey it.", "quantifier": "every three equal-length segmentations as in C60, every window size, whenever the three calls return", "why_tests_cant": "The inequality relates three calls over all segmentations; tests only look at single values.", "anchors": ["segeval/window/pk.py:__pk__", "segeval/window/windowdiff.py:__window_diff__", "segeval/similarity/boundary.py:__boundary_similarity__"]}
{"id": "C67", "title": "Reading the document backwards does not change the scores", "statement": "Reversing both segmentations leaves pk and window_diff (with and without the fix, default or explicit window) unchanged, and leaves boundary_similarity and segmentation_similarity unchanged for one boundary type and the default n_t=2. For n_t=3 or two boundary types the similarities can change.", "quantifier": "every pair of equal-length segmentations as in C60 (window metrics); every pair differing in one boundary type, every supplied weight function (similarities)", "why_tests_cant": "A relation between two calls over all inputs; the left-to-right search makes it non-obvious.", "anchors": ["segeval/window/pk.py:__pk__", "segeval/window/windowdiff.py:__window_diff__", "segeval/similarity/distance/multipleboundary.py:__transpositions__"]}
{"id": "C68", "title": "Rounding keeps the similarities in [0, 1]", "statement": "Although every Decimal operation of boundary_similarity and segmentation_similarity (default weights) is rounded to the context's precision, the value returned still lies between 0 and 1, also with one_minus. This needs of the rounding only that it is monotone, idempotent and keeps the integers up to the size of the denominator; the default context (28 digits, half even) keeps those up to 10^28.", "quantifier": "every rounding that is monotone, idempotent and keeps the integers 0..limit; every pair of segmentations in any format, n_t and weights as in C17 whose denominator is at most limit", "why_tests_cant": "The repo's tests compare a few values; a sum of rounded quotients exceeding its rounded total would only show for particular sizes.", "anchors": ["segeval/similarity/boundary.py:__boundary_similarity__", "segeval/similarity/segmentation.py:__segmentation_similarity__", "segeval/similarity/weight.py:weight_s_scale"]}
{"id": "C69", "title": "Pk, WindowDiff and the unscaled similarities are correctly rounded", "statement": "pk and window_diff return the exact ratio rounded once (one_minus: rounded once more), never leave [0, 1], never fail an assertion because of rounding, and raise the same errors as exact arithmetic. With the unscaled weights the similarities are the exact ratio rounded once to a float.", "quantifier": "every rounding as in C68 with limit at least 1, every call of pk and window_diff; every rounding of floats, every call of the similarities with unscaled weights", "why_tests_cant": "It concerns the last digit of every possible result.", "anchors": ["segeval/window/pk.py:__pk__", "segeval/window/windowdiff.py:__window_diff__", "segeval/similarity/boundary.py:__boundary_similarity__"]}
{"id": "C70", "title": "Rounding errors of the similarities do not accumulate", "statement": "The rounded boundary_similarity and segmentation_similarity differ from the exact value by at most (1+eps)^6 - 1, whatever the number of edits (4*10^-27 in the default context), raise the same errors, and reach 1 (or 0) exactly when the exact value does, so a reported 1 still means identical segmentations.", "quantifier": "every rounding with relative error at most eps, every pair of segmentations as in C17; for the ends of the scale: denominators times the largest weight up to 10^26", "why_tests_cant": "The bound is over all inputs and independent of their length; tests use assertAlmostEqual on short documents.", "anchors": ["segeval/similarity/boundary.py:__boundary_similarity__", "segeval/similarity/segmentation.py:__segmentation_similarity__", "segeval/similarity/weight.py:weight_t_scale"]}
{"id": "C71", "title": "Symmetry and order independence hold to the last digit", "statement": "With rounding, boundary_similarity and segmentation_similarity still give the identical Decimal when the arguments are exchanged, under another hash order, or in another boundary format. In contrast the value and its one_minus value need not add up to 1.", "quantifier": "every rounding function, every pair of segmentations as in C20 and C59", "why_tests_cant": "Rounded addition is not associative, so bitwise equality over all inputs and orders needs an argument about the order of the sums.", "anchors": ["segeval/similarity/__init__.py:__boundary_statistics__", "segeval/similarity/boundary.py:__boundary_similarity__", "segeval/similarity/segmentation.py:__segmentation_similarity__"]}
{"id": "C72", "title": "Rounded means and variances are sane", "statement": "util.math.mean and var on rounded Decimals: the mean lies within every pair of integer bounds of the values (so means of metrics stay in [0, 1]), the mean of ints is correctly rounded, the variance is never negative (std never fails) and at most 1 for values in [0, 1]; in the default context mean and variance are off by at most (n+1)/10^27 and (3n+6)/10^27, so reordering the values changes the mean by at most 2(n+1)/10^27. But the mean of two equal values can be smaller than them, their variance positive, and the mean over a dataset changes its last digit with the order in which the set of items is visited.", "quantifier": "every rounding that is monotone, idempotent, keeps small integers and has relative error eps; every non-empty list of ints and Decimals; default context: up to 10^26 values in [0, 1]", "why_tests_cant": "Tests use assertAlmostEqual on a few short lists.", "anchors": ["segeval/util/math.py:mean", "segeval/util/math.py:var", "segeval/util/math.py:std", "segeval/compute.py:compute_pairwise_values"]}
{"id": "C73", "title": "Agreement coefficients survive rounding, up to the last digits", "statement": "With rounded Decimals: actual agreement, A_a and A_e of Fleiss' pi and kappa stay in [0, 1], pi and kappa stay at most 1, and complete agreement is reported as exactly 1. In the default context, for data of moderate size, pi, kappa and the bias raise exactly what exact arithmetic raises (no spurious or missed division by zero), pi and kappa are 1 only for complete agreement, A_a and A_e are off by at most 1e-20, the coefficients by at most 2e-19/(1-A_e)^2 and the bias by at most 3e-20. But the bias can be negative for coders that agree completely, and the sign of kappa can depend on the order in which the set of coders is iterated.", "quantifier": "every rounding that is monotone, idempotent and keeps small integers; every valid dataset, comparison by B with the default weights; default context: types, n_t and totals up to 10^6", "why_tests_cant": "Tests compare a handful of datasets with assertAlmostEqual, and one run sees one hash seed.", "anchors": ["segeval/agreement/__init__.py:actual_agreement_linear", "segeval/agreement/pi.py:fleiss_pi_linear", "segeval/agreement/kappa.py:fleiss_kappa_linear", "segeval/agreement/bias.py:artstein_poesio_bias_linear"]}
{"id": "C74", "title": "Errors far apart do not influence each other", "statement": "If two segmentations agree on n_t - 1 consecutive potential boundary positions, boundary_edit_distance of the whole reports exactly the edits of the part before and the (shifted) edits of the part after, and raises exactly if it raises for one of them. Boundary similarity and segmentation similarity of the whole are at least the smaller of the values of the two parts; B is at most the larger if the positions in between have no boundary and both parts use all types. In particular joining the mass lists of two documents never gives a value below both.", "quantifier": "every pair of segmentations in every format split at an agreeing stretch, every n_t, default weights, every iteration order; types shared (small ints or same objects)", "why_tests_cant": "Independence of edits over unbounded documents with several types; tests check a few short strings.", "anchors": ["segeval/similarity/distance/multipleboundary.py:boundary_edit_distance", "segeval/similarity/boundary.py:boundary_similarity", "segeval/similarity/segmentation.py:segmentation_similarity"]}
{"id": "C75", "title": "Correcting an isolated error pays", "statement": "If the hypothesis is changed at one position to agree with the reference, and no other difference lies within reach of a transposition, the script loses exactly the edits of that position, segmentation similarity rises, and boundary similarity rises unless it stays 0 (as long as the correction does not change which types are in use, which is automatic for masses, positions and strings). It fails for corrections next to another difference (adding the right boundary beside a misplaced one lowers B from 5/6 to 3/4) and for removing the only boundary of the largest type (B falls from 32/45 to 1/2).", "quantifier": "every pair of segmentations, every position, every n_t, default weights", "why_tests_cant": "Monotonicity over all inputs; the tests contain only fixed pairs.", "anchors": ["segeval/similarity/boundary.py:boundary_similarity", "segeval/similarity/segmentation.py:segmentation_similarity", "segeval/similarity/weight.py:weight_t", "segeval/similarity/weight.py:weight_s"]}
{"id": "C76", "title": "Agreement coefficients are at least -1/3", "statement": "With boundary similarity and default weights, a kappa that is returned is never below -1/3: for any number of coders and items of any length when there is one boundary type, for two coders with any boundary types, and in general whenever all comparisons of an item have as many potential boundaries. A returned pi is never below -1/3 when all comparisons have the same number of potential boundaries. Both reach -1/3. Without that condition pi falls far below (-41/15 for three short items and a long one), while kappa of the same data is 0. All of these bounds also hold, and are reached, with fnc_compare=segmentation_similarity.", "quantifier": "every valid data set, every order of coders, every n_t", "why_tests_cant": "A bound over all data sets; the tests contain a dozen fixed ones.", "anchors": ["segeval/agreement/pi.py:fleiss_pi_linear", "segeval/agreement/kappa.py:fleiss_kappa_linear", "segeval/agreement/__init__.py:actual_agreement_linear"]}
{"id": "C77", "title": "Mean pairwise scores describe the dataset", "statement": "For a dataset whose coder names have no comma, summarize(boundary_similarity(dataset)) and summarize(segmentation_similarity(dataset)) have a mean in [0, 1] that is 1 exactly when the coders of every item place the same boundaries, a standard deviation of at most 1/2, and as many values as there are pairs of coders; pk and window_diff give means in [0, 1] likewise. boundary_similarity(dataset) returns whenever any two coders of an item code documents of one length with some boundary. Actual agreement lies between the least and the greatest pairwise boundary similarity.", "quantifier": "every dataset, every order of items and coders, permuted or not, every n_t and window size", "why_tests_cant": "It combines argument handling, pairwise loops, metrics and summaries over all datasets; tests check a few sample datasets to some digits.", "anchors": ["segeval/util/__init__.py:__fnc_metric__", "segeval/compute.py:compute_pairwise_values", "segeval/compute.py:summarize", "segeval/agreement/__init__.py:actual_agreement_linear"]}
{"id": "C78", "title": "Similarity under weight functions of the user", "statement": "For any weight functions, boundary similarity is 1 minus what they charge for the edit script over the number of edits and matches, and segmentation similarity 1 minus the charges over the potential boundaries. Charges between 0 and 1 per edit keep both between 0 and 1; positive charges make 1 mean complete agreement; dearer weights never raise either metric; the scaled default weights give at least the unscaled value, more exactly if there is a near miss or a confusion. The metrics return unless floats and Decimals are mixed.", "quantifier": "every triple of weight functions, every pair of segmentations, format and window", "why_tests_cant": "Weight functions are arbitrary user code; tests only use the two supplied pairs.", "anchors": ["segeval/similarity/boundary.py:__boundary_similarity__", "segeval/similarity/segmentation.py:__segmentation_similarity__", "segeval/similarity/__init__.py:__boundary_statistics__", "segeval/similarity/weight.py"]}
{"id": "C79", "title": "Results over whole datasets do not depend on the format of the data", "statement": "Recoding a dataset in another boundary format changes neither the pairwise boundary similarity, segmentation similarity or statistics nor any agreement coefficient; a Dataset is read in its own format whatever boundary_format is passed, a plain dict in the one passed, and both give the same coefficients. Pk and WindowDiff of a dataset are the same in masses, NLTK strings and labels, as long as each label stands for one segment.", "quantifier": "every dataset, every pair of formats, every keyword setting", "why_tests_cant": "Tests hold one dataset per format; the claim ranges over all datasets and pairs of formats.", "anchors": ["segeval/agreement/__init__.py:__fnc_metric__", "segeval/util/__init__.py:__fnc_metric__", "segeval/compute.py:compute_pairwise_values"]}
{"id": "C80", "title": "A constructed dataset holds what it was given, and sums keep the left operand's attributes", "statement": "Dataset(source, properties, boundary_types, boundary_format) holds exactly the codings of source, the set of coders that occur in it, the properties and format given, and the boundary types given or else {1}, and changes no other dataset. += and + never change properties, boundary types or format; the sum has those of the left operand, so adding a dataset in another format mixes formats silently.", "quantifier": "every source dict, every attribute, every heap of datasets", "why_tests_cant": "Tests build a few fixed datasets and look at some attributes; that no other dataset changes and that attributes survive every sum ranges over all heaps.", "anchors": ["segeval/data/__init__.py:Dataset.__init__", "segeval/data/__init__.py:Dataset.__iadd__", "segeval/data/__init__.py:Dataset.__add__"]}
{"id": "C81", "title": "TSV text is read as the table that was written", "statement": "A file holding a header line and one line per coding (coder, then masses), with cells plain or quoted, any single-character delimiter, Unix or Windows line ends and any notation int() accepts, loads as one item named after the file with exactly those codings (of several lines for a coder the last). It loads if and only if no later line is blank and all cells after the first column are integers; the first bad line decides between KeyError and ValueError.", "quantifier": "every table, every way of writing it, every delimiter", "why_tests_cant": "Tests load a handful of files; quoting, line ends, delimiters, digits and malformed lines combine without bound.", "anchors": ["segeval/data/tsv.py:input_linear_mass_tsv"]}
{"id": "C82", "title": "Position files are mass files with every coding converted", "statement": "input_linear_positions_tsv raises exactly when input_linear_mass_tsv does on the same file and with the same exception; otherwise the result has the same items, coders and attributes, and each coding is the masses of the segmentation that the labels in the file describe.", "quantifier": "every file text, every delimiter", "why_tests_cant": "Tests load one position file; the claim relates two loaders on every text.", "anchors": ["segeval/data/tsv.py:input_linear_positions_tsv", "segeval/format.py:convert_positions_to_masses"]}
{"id": "C83", "title": "Items are named after the file, and exactly files with the right extension are loaded", "statement": "name_from_filepath returns the last part of the path without its extension, or unchanged when it has none (no dot, or only leading dots). load_nested_folders_dict takes exactly the files whose names end in .tsv or .csv (TSV) or .json or .jsn (JSON), in upper or lower case, after a stem that is not all dots.", "quantifier": "every path and file name", "why_tests_cant": "Tests use a few well-behaved names; the corner cases are names with several, leading or no dots and dots in folder names.", "anchors": ["segeval/data/__init__.py:name_from_filepath", "segeval/data/__init__.py:load_nested_folders_dict"]}
{"id": "C84", "title": "A folder of TSV files loads as exactly the tables in it", "statement": "load_nested_folders_dict(path, 'tsv') on a tree whose tsv/csv files are tables yields exactly the codings of those tables, each under the folder names and the file's stem joined by commas, with exactly their coders; it always succeeds when no folder name or stem has a comma. Of files in one folder with the same stem only the last listed is loaded. A file with extension csv is read with the tab as delimiter, so a comma-separated file loads without error as coders named by whole lines, without masses.", "quantifier": "every folder tree, every table, every way of writing it", "why_tests_cant": "Tests load one fixed folder; trees, names and tables combine without bound, and loss of files or masses is silent.", "anchors": ["segeval/data/__init__.py:load_nested_folders_dict", "segeval/data/tsv.py:input_linear_mass_tsv"]}
{"id": "C85", "title": "A JSON file loads exactly if its text is a linear document, and holds exactly what the text says", "statement": "input_linear_mass_json on a file whose text is JSON for an object with segmentation_type 'linear' and items that are objects of arrays (or of strings or objects) returns a dataset with exactly the items, coders' codings and properties the text says, however it is spaced, escaped or ordered (for a key given twice the last value counts); every other text raises, and a text that is not JSON raises DataIOError.", "quantifier": "every text", "why_tests_cant": "Tests read a handful of files written by the library itself; whitespace, escapes, line ends, number forms and nesting combine without bound.", "anchors": ["segeval/data/jsonutils.py:input_linear_mass_json"]}
{"id": "C86", "title": "A written JSON file is valid, plain ASCII, reads back as the same dataset and depends only on its content", "statement": "For every dataset of integer codings, output_linear_mass_json writes a JSON text in printable ASCII (so that it reads the same under every locale's encoding) from which input_linear_mass_json gets the same items, codings and properties back, whatever characters occur in names; two datasets give the same text exactly if they have the same content, in whatever order it was added, and saving a loaded dataset reproduces the file.", "quantifier": "every dataset of integer codings, every property values", "why_tests_cant": "Tests write one dataset with plain names; escapes, nesting and insertion orders are unbounded.", "anchors": ["segeval/data/jsonutils.py:output_linear_mass_json", "segeval/data/jsonutils.py:__write_json__", "segeval/data/jsonutils.py:input_linear_mass_json"]}
{"id": "C87", "title": "A folder of JSON files loads as exactly the codings in them", "statement": "load_nested_folders_dict(path, 'json') yields exactly the codings of the json/jsn files of the tree, each under the folder names and its item joined by commas, with exactly their coders; of files in one folder that differ only in extension the last listed counts, and properties of the files are dropped. It succeeds if all these files are linear documents and no two codings get the same label and coder; otherwise the exception is that of one of the files, or DataIOError.", "quantifier": "every folder tree, every text of the files", "why_tests_cant": "Tests load one fixed folder; trees, names and documents combine without bound, and loss of codings is silent.", "anchors": ["segeval/data/__init__.py:load_nested_folders_dict", "segeval/data/jsonutils.py:input_linear_mass_json"]}
{"id": "C88", "title": "Kappa exceeds pi exactly when annotators are biased", "statement": "Fleiss' pi, Fleiss' kappa and Artstein and Poesio's bias are defined for the same data; unless the coders agree completely, kappa is above, equal to or below pi exactly as the bias is positive, zero or negative; under complete agreement pi and kappa are both 1. The same holds with fnc_compare=segmentation_similarity.", "quantifier": "every set of items with codings, every near-miss distance", "why_tests_cant": "Tests compare the coefficients of a few datasets with fixed numbers; their order for all data is an identity about quotients of sums.", "anchors": ["segeval/agreement/pi.py:__fleiss_pi_linear__", "segeval/agreement/kappa.py:__fleiss_kappa_linear__", "segeval/agreement/bias.py:__artstein_poesio_bias_linear__"]}
{"id": "C89", "title": "Repeating every item leaves agreement unchanged", "statement": "If every item's codings occur k times (under whatever item names and in whatever order) instead of once, then actual agreement, pi, kappa and bias keep their values and stay defined or undefined. The same holds with fnc_compare=segmentation_similarity.", "quantifier": "every data, every k > 0", "why_tests_cant": "The property relates results on datasets of unbounded size.", "anchors": ["segeval/agreement/__init__.py:__actual_agreement_linear__", "segeval/agreement/pi.py:__fleiss_pi_linear__", "segeval/agreement/kappa.py:__fleiss_kappa_linear__", "segeval/agreement/bias.py:__artstein_poesio_bias_linear__"]}
{"id": "C90", "title": "The order in which items and codings were added does not change the scores", "statement": "For the same items and codings in another order: a permuted pairwise comparison returns the same values under the same keys, and so does a comparison of two datasets; an unpermuted comparison with a symmetric metric (B and S) returns the same values, so that summarize gives the same numbers, though the coders in a key may be swapped; each succeeds for both orders or for neither. For metrics that are not symmetric (Pk, WindowDiff) the values of an unpermuted comparison do depend on the order.", "quantifier": "every dataset with coder names without commas, every rearrangement, every metric", "why_tests_cant": "Tests use one insertion order; a dependence on it shows only for particular orders and data.", "anchors": ["segeval/compute.py:compute_pairwise_values", "segeval/compute.py:summarize"]}
{"id": "C91", "title": "Scores survive saving to JSON and loading", "statement": "A dataset of masses written with output_linear_mass_json and read with input_linear_mass_json has the same scores: every metric compared over all ordered pairs gives the same values under the same keys, B and S give the same values over unordered pairs, and actual agreement, pi and kappa of the items agree. (The loaded Dataset itself has no coders, so that agreement raises unless its items are passed as a dict. Datasets in other boundary formats do not survive: the file does not record the format.)", "quantifier": "every dataset of positive integer masses by coders without commas in their names, every metric", "why_tests_cant": "Writing sorts the keys, so that items and codings come back in another order; that no score depends on it is a statement about all datasets and metrics.", "anchors": ["segeval/data/jsonutils.py:output_linear_mass_json", "segeval/data/jsonutils.py:input_linear_mass_json", "segeval/compute.py:compute_pairwise_values", "segeval/agreement/__init__.py:actual_agreement_linear"]}
{"id": "C92", "title": "Scores of a folder do not depend on the order in which files are listed", "statement": "If no folder has two data files that differ only in their extension, and load_nested_folders_dict succeeds for one order in which os.listdir lists the entries of the folders, then it succeeds for every other order, and pairwise scores, actual agreement, pi and kappa are the same.", "quantifier": "every folder tree of positive masses by coders without commas in their names, every listing order, every metric", "why_tests_cant": "A machine lists its files in one order; another file system gives another.", "anchors": ["segeval/data/__init__.py:load_nested_folders_dict", "segeval/compute.py:compute_pairwise_values", "segeval/agreement/__init__.py:actual_agreement_linear"]}
{"id": "C93", "title": "Exported names mean the same whatever was used before", "statement": "After import segeval, each of the 40 exported names other than summarize is the object that one source file defines by that name, whatever attributes were used, modules imported or attempts failed before. segeval.summarize is the function of segeval/compute.py if another part of the package was used before, and otherwise raises ImportError, again at each attempt. A name that is not exported raises AttributeError and changes nothing, unless it is a part of the package that is loaded. dir(segeval) lists the exported names and ten attributes of the package, all of them usable.", "quantifier": "every exported or other name, every history of attribute uses, imports and failures", "why_tests_cant": "A test run imports the modules in one order; the failure of summarize shows only when it is the first use, and the modules load each other on first use.", "anchors": ["segeval/__init__.py:module.__getattr__", "segeval/__init__.py:all_by_module", "segeval/compute.py:7", "segeval/util/__init__.py:7"]}
{"id": "C94", "title": "Modules can be imported in any order", "statement": "Every module of the package other than segeval.compute can be imported at any time, and then has the objects that its source defines. segeval.compute can be imported if and only if another part of the package was used before: it and segeval.util import each other. from segeval import * succeeds at any time with Python 3.7 or later; where dicts have another order it fails exactly if summarize comes first and nothing was used before.", "quantifier": "every module, every history of attribute uses, imports and failures, every order of the exported names", "why_tests_cant": "The number of import orders is not bounded by the number of modules once failures and repeats count; a test runner has always loaded other modules first.", "anchors": ["segeval/__init__.py:module", "segeval/compute.py:7", "segeval/util/__init__.py:7", "segeval/similarity/__init__.py:7-14"]}
{"id": "C95", "title": "Agreement measured with segmentation similarity", "statement": "With fnc_compare=segmentation_similarity, actual_agreement_linear is in [0,1], is 1 iff all coders place the same boundaries in every item, and is the mean of the segmentation similarities of all coder pairs over all items, each weighed by its positions times the square of the number of boundary types used; pi and kappa correct it for an expected agreement in [0,1), never exceed it, and are 1 iff all coders agree. No value depends on the order of coders, items or codings.", "quantifier": "every dataset of valid segmentations for which the value is defined, every n_t, every enumeration order; equal boundary types being one object (always so for the formats with one boundary type)", "why_tests_cant": "The tests never pass fnc_compare; the documentation shows one value of one dataset, and a pooling or order error shows only for unequal items.", "anchors": ["segeval/agreement/__init__.py:__actual_agreement_linear__", "segeval/similarity/segmentation.py:__segmentation_similarity__", "docs/user/quickstart.rst:137-140"]}
{"id": "C96", "title": "The comparison changes agreement in one direction only", "statement": "actual_agreement_linear, fleiss_pi_linear and fleiss_kappa_linear return a value with fnc_compare=segmentation_similarity exactly if they do with the default boundary_similarity; the value is never lower; the expected agreement that pi and kappa report, and the bias of artstein_poesio_bias_linear, are the same.", "quantifier": "every dataset of valid segmentations, every n_t, every enumeration order; equal boundary types being one object", "why_tests_cant": "It relates two configurations over all datasets; a pooled inequality can fail although every single comparison satisfies it.", "anchors": ["segeval/agreement/__init__.py:__actual_agreement_linear__", "segeval/agreement/pi.py:__fleiss_pi_linear__", "segeval/agreement/kappa.py:__fleiss_kappa_linear__", "segeval/agreement/bias.py:__artstein_poesio_bias_linear__"]}
{"id": "C97", "title": "Coders identified by ints", "statement": "Coders may be ints: every pairwise computation returns what it returns for the dataset with each coder n renamed to 'n'. An item with both a coder n and a coder 'n' loses the values of one of them. Items may not be ints: if an item labelled with an int has two or more coders, every pairwise computation raises, TypeError unless the metric raised before.", "quantifier": "every metric, permuted or not, one or two datasets, every enumeration order of items; for the first part items labelled with strings and no item with coders n and 'n'", "why_tests_cant": "The tests have string names, or ints in fixed samples only; the renaming has to hold for all datasets, and a collision shows only for particular mixtures of names.", "anchors": ["segeval/compute.py:__compute_pairwise_values__"]}
{"id": "C98", "title": "Saving datasets whose names are ints", "statement": "output_linear_mass_json raises (TypeError) exactly if a coding has boundary sets, if the items or the coders of one item are ints as well as strings, or if a property has an int name or an unwritable value. Otherwise input_linear_mass_json of the file gives the same items, codings and properties, with every name a string. Saving that again may give another file.", "quantifier": "every dataset with int or string names, list, tuple, string or set codings and arbitrary properties, without a property named items and with segmentation_type only 'linear'", "why_tests_cant": "The tests save one dataset with string names; failure depends on mixtures of key kinds anywhere in nested data.", "anchors": ["segeval/data/jsonutils.py:output_linear_mass_json", "segeval/data/jsonutils.py:__write_json__", "segeval/data/jsonutils.py:input_linear_mass_json"]}
{"id": "C99", "title": "What a failed save leaves behind", "statement": "If output_linear_mass_json raises, the file (which it emptied on opening) holds no JSON document: what it held before is lost, and input_linear_mass_json of it raises DataIOError.", "quantifier": "every dataset for which saving raises, whatever was written before the failure", "why_tests_cant": "The tests never make saving fail; the claim is about every prefix of a file at which writing can stop.", "anchors": ["segeval/data/jsonutils.py:__write_json__", "segeval/data/jsonutils.py:output_linear_mass_json", "segeval/data/jsonutils.py:__load_json__"]}
{"id": "C100", "title": "Values that do not fit the declared format", "statement": "A value that is no segmentation of the declared boundary_format (text or sets given as masses, ints given as boundary sets, anything but a string given as NLTK) makes every metric raise, on either side, and never yields a number. The format position accepts every sequence, and boundary and segmentation similarity treat equal elements as one label.", "quantifier": "every sequence of ints, sets or strings, every boundary format and keyword arguments", "why_tests_cant": "Tests give a handful of wrong values; the claim ranges over every sequence of every kind.", "anchors": ["segeval/similarity/__init__.py:__boundary_statistics__", "segeval/window/pk.py:__pk__", "segeval/window/windowdiff.py:__window_diff__", "segeval/format.py"]}
{"id": "C101", "title": "Nearer misses score higher", "statement": "If a hypothesis misplaces one boundary by d < n_t positions and differs in nothing else within n_t of the right and the wrong place, boundary_similarity is lower than with the boundary put right by exactly d/n_t divided by the number of edits and matches (segmentation_similarity by d/n_t over its denominator). So the right place beats a near miss, a near miss beats a farther one and any near miss beats leaving the boundary out, which is at least as good as a boundary out of reach.", "quantifier": "every pair of segmentations with an isolated near miss, any number of other edits, boundary types and window n_t", "why_tests_cant": "Tests compare a handful of placements; the claim ranges over every document, surrounding script and distance.", "anchors": ["segeval/similarity/boundary.py:__boundary_similarity__", "segeval/similarity/segmentation.py:__segmentation_similarity__", "segeval/similarity/weight.py:weight_t_scale", "segeval/similarity/distance/multipleboundary.py:__boundary_edit_distance__"]}
{"id": "C102", "title": "Names of boundary types matter only through their distances", "statement": "Renaming the boundary types of both segmentations so that distances between types are kept (a shift, a reversed order) changes neither boundary_similarity nor segmentation_similarity; boundary_edit_distance reports the renamed transpositions and as many additions and substitutions of the same total distance. If substitutions are only counted (weight_s), any renaming to distinct types leaves the similarities unchanged. Stretching the types does change the default similarities.", "quantifier": "every pair of boundary strings, every n_t, every renaming, the package's weight functions, every set iteration order, equal boundary types being one object (always so for ints from -5 to 256)", "why_tests_cant": "A relation between two runs on unboundedly many inputs and renamings; tests use a few fixed types.", "anchors": ["segeval/similarity/__init__.py:__boundary_statistics__", "segeval/similarity/weight.py:weight_s_scale", "segeval/similarity/distance/multipleboundary.py:boundary_edit_distance"]}
{"id": "C103", "title": "Confusion matrices are independent of each other", "statement": "Nothing done with one confusion matrix shows in another: every number read from a matrix and every set returned by its classes() is what it would be if no other matrix existed, also when the caller changes a set that classes() of another matrix returned. (False for the set that classes() of a matrix never written to returns: it is an attribute of the class, and whatever is put into it is a class of every matrix not written to; cells are never shared, and classes() is right again after a cell is written.)", "quantifier": "every number of matrices, every interleaving of cell reads, writes, row lookups and classes() calls on them, every change of returned sets, every type of labels", "why_tests_cant": "Quantifies over interleavings of operations on several objects with a shared attribute; tests use one matrix at a time.", "anchors": ["segeval/ml/__init__.py:ConfusionMatrix.__classes__", "segeval/ml/__init__.py:ConfusionMatrix.classes", "segeval/ml/__init__.py:_InnerConfusionMatrix.__setitem__"]}
{"id": "C104", "title": "A larger n_t never lowers the similarities", "statement": "For the same two segmentations, boundary_similarity and segmentation_similarity with a larger n_t are at least as large as with a smaller one; with n_t=1 and one boundary type they are the Jaccard index of the two sets of boundaries and the share of potential boundaries agreed on. (False with several boundary types and the default weights: a newly allowed transposition can take the place of a cheaper substitution. True with one type, more generally if at no position each segmentation has a type the other lacks, and always for unscaled weights.)", "quantifier": "every pair of segmentations in every format, every pair of n_t values for which both calls return, default and unscaled weight functions, every set iteration order, equal boundary types being one object", "why_tests_cant": "A relation between two runs with different parameters on unboundedly many inputs; tests fix n_t.", "anchors": ["segeval/similarity/boundary.py:__boundary_similarity__", "segeval/similarity/segmentation.py:__segmentation_similarity__", "segeval/similarity/weight.py:weight_t_scale", "segeval/similarity/distance/multipleboundary.py:boundary_edit_distance"]}
{"id": "C105", "title": "One minus a similarity is a distance", "statement": "One minus boundary_similarity, and one minus segmentation_similarity, satisfy the triangle inequality: the value for a and c is at most the sum of those for a and b and for b and c. (False for the default n_t=2, where two near misses in a row become a full miss, and for segmentation_similarity with several boundary types, where the normalisation depends on the pair; true for n_t up to 1 and one boundary type.)", "quantifier": "every three segmentations in every format, every n_t, every set iteration order", "why_tests_cant": "A relation between three runs on unboundedly many inputs; no test compares more than two segmentations.", "anchors": ["segeval/similarity/boundary.py:__boundary_similarity__", "segeval/similarity/segmentation.py:__segmentation_similarity__"]}
{"id": "C106", "title": "Agreement over joined data lies between the agreements of its parts", "statement": "If the items of two data sets by the same coders are put together (under any labels, in any order), the actual agreement (actual_agreement_linear) of the whole is between the actual agreements of the parts, strictly if they differ and equal to them if they are equal; so is pi's expected agreement. The same holds of actual agreement computed with fnc_compare=segmentation_similarity. [The chance-corrected coefficients do not have this property: kappa can be 0 on each of two parts and -1/3 on the whole, and pi can be higher on the whole than on either part; kappa's expected agreement can be 0 on both and 1/4 on the whole.]", "quantifier": "all pairs of data sets (dicts or Dataset objects) of the same coders for which agreement is defined, all ways of putting them together, all orders in which coders are iterated", "why_tests_cant": "A test fixes the parts; how a ratio of sums over coders and items behaves when items are added is a statement about all data sets.", "anchors": ["segeval/agreement/__init__.py:80", "segeval/agreement/pi.py:11", "segeval/agreement/kappa.py:11"]}
{"id": "C107", "title": "Exactly which substitutions are reported", "statement": "At each position the types that transpositions leave over on the side that has fewer are all paired with types left over on the other side: at the least total distance, without crossings (a smaller type never becomes a larger one than a larger type does), and, where several pairings are equally cheap, with the smallest types of the larger side. All other left-over types are additions. These rules leave exactly one possibility; e.g. a boundary of type t against types t-d and t+d is substituted by t-d, and t+d is an addition.", "quantifier": "every pair of equal-length boundary strings of ints, every n_t, every set iteration order", "why_tests_cant": "The choice is made by a nested search over all permutations of two sets; which of many equally cheap pairings is met first is a statement about all sets of all sizes.", "anchors": ["segeval/similarity/distance/multipleboundary.py:33", "segeval/similarity/distance/multipleboundary.py:boundary_edit_distance"]}
{"id": "C108", "title": "Exchanging hypothesis and reference exchanges precision and recall", "statement": "boundary_confusion_matrix(reference, hypothesis) is the transpose of boundary_confusion_matrix(hypothesis, reference), with the same classes. So the precision computed from one is the recall computed from the other, for each class, micro- and macro-averaged, and F1 is the same for both. For confusion matrices in general, exchanging the roles of predicted and actual labels exchanges precision and recall and turns the F-measure for beta into that for 1/beta.", "quantifier": "every pair of segmentations for which one of the matrices can be computed, each boundary format, the weights the package offers (the matrix is transposed for any weights), every n_t, every set and dict iteration order, every class and average; for general matrices every history of operations that puts no floats into cells, and every beta other than 0", "why_tests_cant": "It relates two runs on all pairs of segmentations, and it depends on which of several equally cheap edits each run reports.", "anchors": ["segeval/similarity/__init__.py:83", "segeval/ml/__init__.py:131", "segeval/ml/__init__.py:150", "segeval/ml/__init__.py:169"]}
{"id": "C109", "title": "Precision, recall and F1 of boundaries are tied to boundary similarity", "statement": "The micro-averaged precision (and recall) of boundary_confusion_matrix is (matches + credit of near misses) / (matches + credit of near misses + substitutions + additions). With unscaled weights it is never below boundary_similarity, and equal to it exactly when there are no near misses. With boundaries of one type and no near misses, precision is the share of the reference's boundaries that the hypothesis has, recall the share of the hypothesis's boundaries that the reference has (the roles are as C39 says), and F1 = 2B/(1+B).", "quantifier": "every pair of segmentations for which the matrix and the similarity are defined, each boundary format, the weights the package offers, every n_t > 0, every set and dict iteration order", "why_tests_cant": "It relates two computations of the package with different intermediate data over all inputs; tests compare each with single expected numbers.", "anchors": ["segeval/similarity/__init__.py:83", "segeval/similarity/boundary.py:13", "segeval/ml/__init__.py:131"]}
{"id": "C110", "title": "Rounding keeps precision, recall and F1 in range", "statement": "With the arithmetic actually used (Decimal, 28 digits), no precision, recall or F1 - per class, micro- or macro-averaged - of a confusion matrix with non-negative entries, in particular of boundary_confusion_matrix of two segmentations, leaves [0, 1]. On a matrix of counts, precision and recall of a class and the micro averages are the exact values rounded once, so micro precision and micro recall agree to the last digit. Not kept by rounding (refuted): equality of the micro averages when near misses give fractional credit; F1 between precision and recall; F1 unchanged when hypothesis and reference are exchanged; F-measures of other weights at most 1; macro averages independent of the iteration order of classes.", "quantifier": "every reachable confusion matrix with entries that are ints or Decimals, every monotone, idempotent rounding that keeps small integers (CPython's default context among them), every class and average, every iteration order of sets; totals up to the precision of the context", "why_tests_cant": "Tests compare single outputs rounded to a few digits; rounding effects show up in the last digit for particular values and iteration orders only.", "anchors": ["segeval/ml/__init__.py:63", "segeval/ml/__init__.py:95", "segeval/ml/__init__.py:18", "segeval/similarity/__init__.py:83"]}
{"id": "C111", "title": "A confusion matrix is intact after an exception, and dicts of matrices answer per matrix", "statement": "A precision, recall or fmeasure call that raises, and an increment of a cell that raises, leaves every cell of the matrix as it was; a call that raises adds no class. So after any history in which exceptions were caught, cells hold the last value written plus the increments that did not raise, classes() lists exactly the labels named, and later metric calls answer as if the calls that raised had not been made. A metric called on a dict of matrices gives each label what the metric gives for its matrix alone, also when one matrix object is the value of several labels; it raises exactly if one of them does, and then matrices of later labels are untouched. (Needs matrices without bare row lookups m[p], as C33; with one, a single call can give the same matrix two macro averages.)", "quantifier": "every history of reads, writes, increments, classes() and metric calls with any of them raising, every iteration order, every query, every dict of matrices with any sharing; int and Decimal entries for later answers", "why_tests_cant": "The state after an exception depends on where in the loops it was raised; no test catches an exception and goes on, and sharing matrices between labels is not tested.", "anchors": ["segeval/ml/__init__.py:18", "segeval/ml/__init__.py:52", "segeval/ml/__init__.py:63", "segeval/ml/__init__.py:218"]}
{"id": "C112", "title": "Rounding takes precision, recall and F-measure only a counted number of rounding errors from the exact values", "statement": "On a confusion matrix without negative cells, precision, recall and fmeasure computed with Decimal arithmetic raise exactly when (and what) exact arithmetic would raise, and otherwise differ from the exact value by at most 5n+12 relative rounding errors, n being the number of classes: for every class, average, beta and iteration order. With the default Decimal context that is less than (5n+12)*2/10^27. The confusion matrix of two segmentations has the labels of the exact one, each cell within N+1 rounding errors for N matches and edits, and its metrics within 6N+5n+18. (With negative cells the claim is false: a denominator can cancel to 0.)", "quantifier": "every rounding with a bounded relative error, every matrix reached by reads, writes and increments with int or Decimal entries that are not negative, every query, every pair of segmentations", "why_tests_cant": "The repository's tests compare a few values to six places; a bound on the error for all matrices and all numbers of classes, and that rounding never makes a call raise, cannot be sampled.", "anchors": ["segeval/ml/__init__.py:18", "segeval/ml/__init__.py:63", "segeval/ml/__init__.py:95", "segeval/similarity/__init__.py:83"]}
{"id": "C113", "title": "What one boundary can change in Pk and WindowDiff", "statement": "Two hypotheses that differ in d places have Pk (and WindowDiff) values against the same reference at most k*d/(n-k) apart (k*d/(n+k+1) for WindowDiff with the fix of Lamprier et al.); moving one boundary by d units changes them by at most 2*min(d,k)/(n-k). One boundary too many or too few costs WindowDiff exactly the number of windows over it, min(i+1, k, n-k, n-1-i), so less near the ends; it costs Pk only those of these windows that hold no other boundary. With the fix the cost is exactly k/(n+k+1) wherever the boundary is, and that of a boundary d units from its place exactly 2*min(d,k)/(n+k+1): a near miss scores better than leaving the boundary out if and only if 2*d < k.", "quantifier": "every pair of hypotheses and every reference of one length in any of the three formats, every window size (up to 255 for WindowDiff), every place", "why_tests_cant": "Tests compare values of a few segmentations; bounds on changes, and costs for all lengths, windows and places, are statements about pairs of arbitrary inputs.", "anchors": ["segeval/window/pk.py:17", "segeval/window/windowdiff.py:41"]}
{"id": "C114", "title": "One boundary changes boundary similarity by at most one over the boundaries of the reference, and segmentation similarity by at most one over the potential boundaries", "statement": "With the default weights and boundaries of one type, two segmentations that differ in d boundaries have boundary similarities to the same reference (one with at least one boundary) at most d divided by the number of boundaries of the reference apart, and segmentation similarities at most d divided by the number of potential boundaries apart; the bounds are reached. The same holds with the unscaled weight functions. With several types one boundary more changes boundary similarity by at most one over the number of boundaries of either segmentation, and segmentation similarity by at most one over the potential boundaries times the square of the number of types, provided that at no position each segmentation has a type the other lacks; without that proviso one boundary can change both by more.", "quantifier": "for all segmentations, references, formats and n_t, whatever the number and place of the differences", "why_tests_cant": "One boundary more can change how every other boundary after it is paired in the search for transpositions; that the pairings differ in one end only, and the credit by at most one, holds by an argument over the whole search and not by trying inputs.", "anchors": ["segeval/similarity/boundary.py", "segeval/similarity/segmentation.py", "segeval/similarity/__init__.py", "segeval/similarity/distance/multipleboundary.py"]}
{"id": "C115", "title": "Documents scored one by one and documents joined", "statement": "Joining two documents means to join their masses, or their NLTK strings with a boundary in between. With a fixed window size the probes over the place where they are joined are never in error for Pk, so that Pk times the number of probes is, for the joined document, the sum of what it is for the two: (n1+n2-k)*Pk = (n1-k)*Pk1 + (n2-k)*Pk2. WindowDiff gains between none and k windows in error.", "quantifier": "every two documents, each with a hypothesis and a reference of one length, in any of the three formats, and every fixed window size not larger than either document", "why_tests_cant": "It relates three evaluations of arbitrary segmentations; tests give values of single evaluations.", "anchors": ["segeval/window/pk.py:17", "segeval/window/windowdiff.py:41"]}
{"id": "C116", "title": "What a segmentation that refines another scores, and the baselines without boundaries and with all", "statement": "If one segmentation has all boundaries of the other, nothing counts as a near miss: boundary similarity is the ratio of their numbers of boundaries and segmentation similarity is one less the share of potential boundaries the coarser lacks (with several types: over potential boundaries times the square of the number of types), whatever n_t. A segmentation with a boundary everywhere therefore scores the share of potential boundaries the other has, with both similarities. The Pk of no boundaries at all is the share of probes that the reference separates, and together with the Pk of a boundary everywhere it makes up 1. On no boundaries at all WindowDiff and Pk are equal.", "quantifier": "every pair of segmentations of which one has all boundaries of the other, every n_t, every window size", "why_tests_cant": "The degenerate baselines are the first thing a user compares a method with; that their scores depend on the number of boundaries only, and not on where these are, is a statement about all references.", "anchors": ["segeval/similarity/boundary.py", "segeval/similarity/segmentation.py", "segeval/window/pk.py:17", "segeval/window/windowdiff.py:41"]}
{"id": "C117", "title": "Documents that begin or end alike", "statement": "Where two segmentations begin alike and end alike there are no edits, and the edits in between are those found without the common beginning and end, whatever n_t. Common beginnings and ends never lower boundary or segmentation similarity. Without boundaries in them (e.g. first or last segments longer by the same number of units for both coders) boundary similarity does not change at all, and what segmentation similarity lacks to 1 shrinks in proportion to the length: (1 - S') * (n + k) = (1 - S) * n. Common segments before and after raise boundary similarity unless it is 1.", "quantifier": "every pair of segmentations in any format, every common beginning and end, every n_t", "why_tests_cant": "The search for transpositions runs over the whole string, so that it is not influenced by stretches that agree has to be shown for every search, and the tests only have single documents.", "anchors": ["segeval/similarity/distance/multipleboundary.py", "segeval/similarity/boundary.py", "segeval/similarity/segmentation.py"]}
{"id": "C118", "title": "What changed boundaries can change in actual agreement", "statement": "Changing d boundaries in total over all codings of a data set (boundaries put or removed, lengths kept) changes actual agreement by at most 2 d / (number of boundaries of all codings), however many coders and items there are and wherever the changes are; with segmentation similarity as the comparison by at most 2 d / (number of potential boundaries of all codings). Both bounds are reached.", "quantifier": "every pair of data sets with the same items and coders in formats with one boundary type, every n_t", "why_tests_cant": "The tests compute single data sets; how far agreement moves for every possible change of every coding depends on how transpositions are rearranged in every pair of coders.", "anchors": ["segeval/agreement/__init__.py", "segeval/similarity/boundary.py", "segeval/similarity/segmentation.py", "segeval/similarity/distance/multipleboundary.py"]}
{"id": "C119", "title": "Actual agreement is the mean that its documentation gives", "statement": "actual_agreement_linear is what its docstring says: the mean over pairs of coders of the scores of the items, each score weighed by the size of the item (its number of potential boundaries). This holds with segmentation similarity as the comparison and one boundary type. To the letter (mass(i) as the size) it is false, the formula for more than two coders not even giving 1 for full agreement, and it is false for the default comparison (boundary similarity), whose scores are weighed by their numbers of edits and matches, and for several boundary types.", "quantifier": "every data set with equally long codings of each item in a format with one boundary type, any number of coders and items, every n_t", "why_tests_cant": "The tests fix the numbers the code gives; that they are those of the documented formula is a statement about all data sets, and false for some of them.", "anchors": ["segeval/agreement/__init__.py:80"]}
{"id": "C120", "title": "Kappa and pi are the published coefficients", "statement": "As the docstrings say, fleiss_kappa_linear is Davies and Fleiss' multi-kappa (for two coders Cohen's kappa) and fleiss_pi_linear is Fleiss' multi-pi (for two coders Scott's pi) of the positions classified as boundary or no boundary. This is false: even without near misses (segmentation similarity, n_t = 1), where actual agreement is the observed agreement of the published coefficients, expected agreement leaves out chance agreement on positions without a boundary. Kappa is therefore never below multi-kappa and equal to it only under complete agreement or if all coders but one place a boundary everywhere; pi over items of one size exceeds multi-pi unless agreement is complete, and with items of different sizes it can also be below.", "quantifier": "every data set in a format with one boundary type, any number of coders and items, n_t at most 1", "why_tests_cant": "The tests compare with numbers the code once gave; that these are not the coefficients named in the documentation, and by how much and in which direction they differ, is a statement about all data sets.", "anchors": ["segeval/agreement/kappa.py:11", "segeval/agreement/pi.py:11", "segeval/agreement/__init__.py:80"]}
{"id": "C121", "title": "The same codings in a TSV and a JSON file load alike", "statement": "A TSV file with a table of codings, and a JSON file whose only item has the name of the TSV file and holds the same codings, load as data sets with the same item, codings, coders, boundary types and format. All pairwise scores and agreement coefficients are then the same. The two files the data specification prints as equivalent are such a pair only once a comma that is missing from the printed JSON file is put in; as printed it raises DataIOError.", "quantifier": "every table of coder names and integer masses, however it is written as TSV (any quoting, any delimiter) and as JSON (any spacing, escapes, order of entries)", "why_tests_cant": "The tests load one file of each kind and compare with fixed dictionaries; that the formats are interchangeable is a statement about all tables and all ways to write them.", "anchors": ["segeval/data/tsv.py:14", "segeval/data/jsonutils.py:51", "docs/data_specification/data-specification.tex:199"]}
{"id": "C122", "title": "Agreement of many coders lies between the agreements of its pairs", "statement": "Actual agreement, kappa and pi of three or more coders are between the lowest and the highest of the same coefficient computed for only two of the coders; no value of the whole group is outside of what its pairs show.", "quantifier": "every data set with valid codings, any number of items and coders, any enumeration order of sets", "why_tests_cant": "The tests compare a few data sets with fixed numbers and never compute a coefficient for part of the coders; whether a group can be above all of its pairs is a statement about all data sets.", "anchors": ["segeval/agreement/__init__.py:80", "segeval/agreement/kappa.py:11", "segeval/agreement/pi.py:11"]}
{"id": "C123", "title": "Keyword arguments are taken as documented or refused", "statement": "Every keyword argument given to a metric or an agreement coefficient either is one of its documented parameters and then has its documented value or default in the call, or is refused: no misspelt keyword goes unnoticed, on two segmentations or on a dataset, and no documented keyword is without effect. In particular `one_minus` of the agreement coefficients returns one minus the value, and every comparison metric of the package can be given as `fnc_compare`. (True for all metrics of two segmentations, for datasets in which something is compared and for misspelt keywords of agreement. False: a misspelt keyword goes unnoticed on datasets without pairs; `one_minus`, `permuted` and `boundary_types` do nothing in agreement; Pk and WindowDiff as `fnc_compare` never give a coefficient; a second dataset can be smuggled in as `dataset_b` without the check of formats.)", "quantifier": "all sets of keyword arguments (values of the documented types, any further names), all segmentations, datasets, dicts and iteration orders", "why_tests_cant": "There are infinitely many misspelt names and combinations of keywords; the tests only pass documented keywords and never combine fnc_compare with the window metrics.", "anchors": ["segeval/util/__init__.py:31-83", "segeval/metric.py:10-15", "segeval/similarity/__init__.py:17-26,83-138", "segeval/similarity/boundary.py:12-45", "segeval/window/pk.py:17-18,66-68", "segeval/window/windowdiff.py:17-20,41-43,142-145", "segeval/compute.py:11-31", "segeval/agreement/__init__.py:16-30,135-157", "docs/api.rst:53-68,167-223"]}
{"id": "C124", "title": "Copies of a dataset", "statement": "A copy of a Dataset, made with its copy() method, copy.deepcopy, copy.copy or by pickling and unpickling, holds the same items, coders, properties, boundary types and boundary format as the original and so is scored alike by every function of the library. (True of copy(). False of the others: deep and pickled copies keep only the items, a shallow copy gets the items as properties.)", "quantifier": "All datasets, and for the scores all metrics and coefficients of the model.", "why_tests_cant": "Tests exercise copy() on sample data; that it keeps everything, and what the copies of the standard library lose, concerns every dataset, and the agreement of an incomplete copy differs only for data that a sample need not contain.", "anchors": ["segeval/data/__init__.py:27-57", "segeval/data/__init__.py:82-99"]}
{"id": "C125", "title": "Two datasets of one boundary format can be compared", "statement": "A metric given two datasets raises SegmentationMetricError because of their boundary formats exactly if the formats differ; if the formats are equal the shared items are compared, coder with coder, using that format and the keywords given. (True if equal formats are one object, as the members of BoundaryFormat are. False for an equal string made at run time.)", "quantifier": "All pairs of non-empty datasets, all format strings whether members of BoundaryFormat or made at run time, all metrics, all keywords.", "why_tests_cant": "The check compares string objects with `is not`; constants in a test file are always the same object, so a test does not see what happens with an equal string that was read or computed.", "anchors": ["segeval/util/__init__.py:64-76", "segeval/format.py:11", "segeval/util/lang.py:8-13", "segeval/compute.py:11-90"]}
{"id": "C126", "title": "Scores do not depend on the unit of measurement", "statement": "Counting the same segmentations in smaller units (every mass multiplied by m, as when words are counted instead of equally long sentences) leaves Pk, WindowDiff, boundary similarity and segmentation similarity unchanged. (True for Pk and WindowDiff when the window covers the same stretch, `window_size` multiplied by m. False for their rounded default window; with lamprier_fix the score rises a little, because it divides by one more than the number of windows; boundary similarity is unchanged if n_t is multiplied by m as well, and segmentation similarity then rises because there are more potential boundaries, 1 - S falling in their proportion; for the similarities with n_t at most m every near miss becomes a full miss: boundary similarity is then the Jaccard index of the boundaries and never higher than before.)", "quantifier": "all pairs of segmentations, all factors m, all window sizes, all n_t", "why_tests_cant": "A test compares scores in one unit; the claim relates infinitely many pairs of calls over all documents and factors.", "anchors": ["segeval/window/pk.py:17-63", "segeval/window/windowdiff.py:17-139", "segeval/window/__init__.py:18-67", "segeval/similarity/__init__.py:17-80", "segeval/similarity/boundary.py:12-39", "segeval/similarity/segmentation.py:12-39", "segeval/similarity/distance/multipleboundary.py:11-110"]}
{"id": "C127", "title": "Agreement does not depend on the unit of measurement", "statement": "Counting the same codings of a data set in smaller units (every mass and n_t multiplied by m) leaves actual agreement, Fleiss' pi and Fleiss' kappa unchanged. (True for actual agreement; false for pi and kappa: chance agreement falls because there are more places where no boundary was put, so neither coefficient falls, and for m of 2 or more pi rises strictly unless the coders agree completely, kappa unless they do or its chance agreement is 0. Measured with segmentation similarity, actual agreement rises, what is missing from 1 falling as the potential boundaries grow. The annotator bias of documents of one length shrinks with the square of the number of potential boundaries.)", "quantifier": "all data sets in a format with one boundary type, all coders and items, all factors m, all n_t", "why_tests_cant": "A test computes coefficients of given data; the claim relates the coefficients of every data set to those of every multiple of it.", "anchors": ["segeval/agreement/__init__.py:33-180", "segeval/agreement/pi.py:11-56", "segeval/agreement/kappa.py:11-65", "segeval/similarity/distance/multipleboundary.py:11-110", "segeval/agreement/bias.py:12-35"]}
{"id": "C128", "title": "Members of an enumeration can be told apart", "statement": "enum(*names, **members) makes exactly the given names attributes, no two of which have the same value; the keywords boundary_format and version therefore mean the member that was given. (False if a keyword's value is also the place of a name in the sequence or another keyword's value, and exactly then; a name given twice has its last place. True for BoundaryFormat, Field, SegmentationType and Average of the package. A plain string such as 'mass' is as good as BoundaryFormat.mass, but 'micro' is not Average.micro, which is 0.)", "quantifier": "all sequences of names and all keyword members; all values of boundary_format and version that are ints or strings", "why_tests_cant": "The package has no test of enum; a test would try a few enumerations, the claim is about every list of names and values.", "anchors": ["segeval/util/lang.py:8-13", "segeval/format.py:11", "segeval/data/jsonutils.py:13-20", "segeval/ml/__init__.py:15-48", "segeval/similarity/__init__.py:32-48"]}
{"id": "C129", "title": "A dataset is loaded from the path it was saved under, and nothing else changes", "statement": "output_linear_mass_json(path, dataset) changes no file but the one at path, input_linear_mass_json(path) then gives the dataset back, and datasets saved under different paths do not influence each other. (False if path is a folder: the file is output.json in it, path itself can never be loaded, and the next dataset saved there replaces the first. If the file cannot be opened nothing changes; if writing fails halfway, what the file held before is lost.)", "quantifier": "all disks, all paths, all datasets (names strings or ints)", "why_tests_cant": "A test writes a few files in one folder; the claim is about every state of the disk, every path and every order of saving.", "anchors": ["segeval/data/jsonutils.py:23-48", "segeval/data/jsonutils.py:51-92"]}
{"id": "C130", "title": "Listing coders twice does not change agreement", "statement": "Giving every coding of a data set under k names instead of one adds no information and leaves actual agreement, Fleiss' pi, Fleiss' kappa and the annotator bias unchanged. (False: a coder always agrees with a copy, so actual agreement rises for k of 2 or more unless it was 1, what is missing from 1 falling in the proportion of the added matches; the rate at which boundaries are placed is unchanged, so that pi rises unless it was 1; the agreement kappa expects by chance changes, but kappa still rises unless it was 1; the bias falls unless the coders place boundaries at one rate.)", "quantifier": "all data sets in a format with one boundary type, all coders and items, all k, all n_t", "why_tests_cant": "A test compares two given data sets; the claim relates infinitely many pairs of data sets.", "anchors": ["segeval/agreement/__init__.py:33-180", "segeval/agreement/pi.py:11-56", "segeval/agreement/kappa.py:11-65", "segeval/similarity/__init__.py:17-80", "segeval/agreement/bias.py:12-34"]}
