import Verif.Lemmas.MLDict
import Verif.Props.ML

/-!
# C111: confusion matrices across exceptions, and dicts of matrices

`lived` runs a program that catches every exception and goes on with the matrix as it is then;
`Query.runS` gives the matrix after a query in any case.
-/

namespace SegEval.Props

open SegEval Spec

/-- C111: the answer of a query is the one the other theorems are about. -/
theorem C111_answers {κ : Type} [DecidableEq κ] (o : ClassOrder κ) (site : List ℕ) (m : CM κ)
    (q : Query κ) :
    (∀ v m', q.run o site m = .ok (v, m') ↔ q.runS o site m = (.ok v, m')) ∧
    (∀ e, q.run o site m = .error e ↔ (q.runS o site m).1 = .error e) := by
  rw [← runS_forget]
  rcases q.runS o site m with ⟨e | v, m'⟩
  · constructor
    · intro v m''; simp [forget]
    · intro e'; simp [forget]
  · constructor
    · intro v' m''; simp [forget]
    · intro e'; simp [forget]

/-- C111: a query that raises leaves every cell as it was and makes no label: `classes()` and all
later operations find the labels they would have found. -/
theorem C111_query_raises {κ : Type} [DecidableEq κ] (o : ClassOrder κ) (site : List ℕ) (m : CM κ)
    (h : Reachable m) (q : Query κ) (e : PyErr) (he : (q.runS o site m).1 = .error e) :
    (∀ p a, cell (q.runS o site m).2 p a = cell m p a) ∧
    (∀ l, HasLabel (q.runS o site m).2 l ↔ HasLabel m l) ∧ Reachable (q.runS o site m).2 := by
  have hs := reachable_sound h
  have hk := runS_later o site q m hs
  refine ⟨hk.cells, fun l => ⟨fun hl => ?_, hk.more l⟩, reachable_later hk h⟩
  rcases hk.only l hl with hl | hl
  · exact hl
  · by_contra h0
    obtain ⟨x, hx⟩ := runS_off o site q m l (fun h1 => h0 (inUse_hasLabel h1)) hl
    rw [he] at hx
    cases hx

/-- C111: an increment that raises (a float added to a Decimal) leaves every cell as it was. -/
theorem C111_increment_raises {κ : Type} [DecidableEq κ] (m : CM κ) (p a : κ) (v : PyNum)
    (e : PyErr) (he : (m.incrS p a v).1 = .error e) (p' a' : κ) :
    cell (m.incrS p a v).2 p' a' = cell m p' a' := by
  unfold CM.incrS at he ⊢
  simp only at he ⊢
  cases h : (m.read p a).1.add v with
  | error e' => exact cell_read m p a p' a'
  | ok new => rw [h] at he; cases he

/-- C111: the matrix after any history with exceptions caught is one that a history without
exceptions can make, so that everything proved about those holds of it. -/
theorem C111_reachable {κ : Type} [DecidableEq κ] (o : ClassOrder κ) (k : ℕ) (ops : List (MOp κ)) :
    Reachable (lived o k ({} : CM κ) ops) :=
  (lived_ok o k ops {} sound_empty).2.2.2.2 ⟨o, k, [], rfl⟩

/-- C111: a cell holds the last value written plus the later increments that did not raise. -/
theorem C111_cells {κ : Type} [DecidableEq κ] (o : ClassOrder κ) (k : ℕ) (ops : List (MOp κ))
    (p a : κ) : cell (lived o k {} ops) p a = ops.foldl effect (fun _ _ => .int 0) p a := by
  have h0 : cell ({} : CM κ) = fun _ _ => .int 0 := by
    funext p a; rw [cell_eq]; rfl
  rw [← h0]
  exact (lived_ok o k ops {} sound_empty).2.1 p a

/-- C111: without bare row lookups `classes()` is exactly the labels of the matrix, which are those
named by the operations, raised or not. -/
theorem C111_classes {κ : Type} [DecidableEq κ] (o : ClassOrder κ) (k : ℕ) (ops : List (MOp κ))
    (hops : ∀ p, .look p ∉ ops) (l : κ) :
    (l ∈ (lived o k {} ops).classes.1 ↔ HasLabel (lived o k {} ops) l) ∧
    (HasLabel (lived o k {} ops) l ↔ ∃ op ∈ ops, op.names l) := by
  obtain ⟨_, _, h3, h4, _⟩ := lived_ok o k ops {} sound_empty
  refine ⟨classes_mem_of_fresh (h4 hops fresh_empty) l, ?_⟩
  rw [h3 l]
  constructor
  · rintro (⟨r, hr, _⟩ | h)
    · simp at hr
    · exact h
  · exact .inr

/-- C111: queries, raised or not, leave the answer of every per-class and micro-averaged query. -/
theorem C111_class_and_micro {κ : Type} [DecidableEq κ] (o o' o'' : ClassOrder κ) (k : ℕ)
    (site site' : List ℕ) (m : CM κ) (h : Reachable m) (hf : NoFloats m) (qs : List (Query κ))
    (q : Query κ) (hv : q.about ≠ none ∨ q.version ≠ .macro) :
    answer (q.run o'' site' (lived o k m (qs.map .ask))) = answer (q.run o' site m) := by
  have hs := reachable_sound h
  have hl := lived_asks o k qs m hs
  refine (answer_congr o' o'' site site' q hs (hl.sound hs) hf hl.cells ?_).symm
  intro h1 h2
  rcases hv with hv | hv
  · exact absurd h1 hv
  · exact absurd h2 hv

/-- C111: macro averages change only by the labels asked about that the matrix did not have, each of
which counts as one more class of value 0; queries that raise are no exception. -/
theorem C111_macro_after {κ : Type} [DecidableEq κ] (o o' o'' : ClassOrder κ) (j k : ℕ)
    (site site' : List ℕ) (ops : List (MOp κ)) (hops : ∀ p, .look p ∉ ops)
    (hf : NoFloats (lived o j {} ops)) (qs : List (Query κ)) (known unknown : Finset κ)
    (hk : ∀ l, l ∈ known ↔ HasLabel (lived o j {} ops) l)
    (hu : ∀ l, l ∈ unknown ↔ ¬ HasLabel (lived o j {} ops) l ∧ ∃ q ∈ qs, q.about = some l)
    (q : Query κ) (ha : q.about = none) (hv : q.version = .macro) :
    answer (q.run o'' site' (lived o k (lived o j {} ops) (qs.map .ask))) =
      (answer (q.run o' site (lived o j {} ops))).map
        (fun x : ℚ => x * known.card / (known.card + unknown.card)) := by
  obtain ⟨hs, _, _, h4, _⟩ := lived_ok o j ops ({} : CM κ) sound_empty
  have hfr := h4 hops fresh_empty
  have hl := lived_asks o k qs _ hs
  refine answer_macro o' o'' site site' q hs (hl.sound hs) hf hl.cells ha hv known unknown
    ?_ ?_ ?_ ?_
  · ext l; rw [classes_mem_of_fresh hfr, hk]
  · ext l
    rw [classes_mem_of_fresh (hl.fresh hfr), (lived_ok o k _ _ hs).2.2.1, Finset.mem_union, hk, hu]
    simp only [List.mem_map, exists_exists_and_eq_and, MOp.names]
    tauto
  · rw [Finset.disjoint_left]
    intro l h1 h2
    exact ((hu l).1 h2).1 ((hk l).1 h1)
  · intro l hl hin
    exact ((hu l).1 hl).1 (inUse_hasLabel hin)

/-- A history with three operations that raise: an increment of a Decimal by a float, the precision
of a class with only a Decimal zero, and an unknown average. -/
def exRaise : List (MOp ℤ) :=
  [.write 1 1 (.dec 5), .write 1 2 (.int 1), .write 2 2 (.int 3), .incr 1 1 (.flt 2),
    .write 3 3 (.dec 0), .ask (.precision (some 3) .micro), .ask (.recall none .other),
    .incr 1 2 (.int 1)]

example : (history ascZ 0 {} exRaise).isOk = false ∧ (∀ p, MOp.look p ∉ exRaise) ∧
    (lived ascZ 0 {} exRaise).classes.1 = {1, 2, 3} ∧
    cell (lived ascZ 0 {} exRaise) 1 1 = .dec 5 ∧ cell (lived ascZ 0 {} exRaise) 1 2 = .int 2 ∧
    answer ((Query.precision (some 1) .micro).run ascZ [] (lived ascZ 0 {} exRaise)) =
      some (5 / 7) := by
  refine ⟨by decide +kernel, fun p hp => ?_, by decide +kernel, by decide +kernel,
    by decide +kernel, by decide +kernel⟩
  simp [exRaise] at hp

/-- The row and the column of a class that raises are there afterwards, with zeros. -/
example : ((Query.precision (some 3) .micro).runS ascZ []
      (({} : CM ℤ).write 3 3 (.dec 0))).1 = .error .decimalInvalidOperation ∧
    ((({} : CM ℤ).write 3 3 (.dec 0)).incrS 3 3 (.flt 1)).1 = .error .typeError := by
  decide +kernel

/-- C111: a query on a dict of matrices answers for each label what it answers for the matrix of
that label alone, and raises exactly if it raises for one of them; also if one matrix is the value of
several labels.  No cell of any matrix changes. -/
theorem C111_dict {κ ι : Type} [DecidableEq κ] [DecidableEq ι] (o o' : ClassOrder κ)
    (site site' : List ℕ) (k : ℕ) (mats : ℕ → CM κ)
    (hm : ∀ i, ∃ (oi : ClassOrder κ) (j : ℕ) (ops : List (MOp κ)), (∀ p, .look p ∉ ops) ∧
      mats i = lived oi j {} ops)
    (hf : ∀ i, NoFloats (mats i)) (q : Query κ) (d : List (ι × ℕ)) (hd : (d.map Prod.fst).Nodup) :
    numbers (valueOverDictS (fun k m => q.runS o (k :: site) m) k d [] mats).1 =
      answers (fun i => answer (q.run o' site' (mats i))) d ∧
    ∀ i p a, cell ((valueOverDictS (fun k m => q.runS o (k :: site) m) k d [] mats).2 i) p a =
      cell (mats i) p a := by
  have hs : ∀ i, Sound (mats i) ∧ Fresh (mats i) := by
    intro i
    obtain ⟨oi, j, ops, h1, h2⟩ := hm i
    obtain ⟨h3, _, _, h4, _⟩ := lived_ok oi j ops ({} : CM κ) sound_empty
    rw [h2]
    exact ⟨h3, h4 h1 fresh_empty⟩
  obtain ⟨h1, h2⟩ := overDict_ok q o o' site site' mats (fun i => (hs i).1) hf d k [] mats
    (fun i => alike_refl q (hs i).1 (hs i).2) (by simpa using hd)
  refine ⟨?_, fun i => (h2 i).cells⟩
  rw [h1]
  simp

/-- C111: a query on a dict that raises stops at the first label whose matrix makes it raise; the
matrices that only later labels have are untouched. -/
theorem C111_dict_stops {κ ι : Type} [DecidableEq κ] [DecidableEq ι] (o o' : ClassOrder κ)
    (site site' : List ℕ) (k : ℕ) (mats : ℕ → CM κ)
    (hm : ∀ i, ∃ (oi : ClassOrder κ) (j : ℕ) (ops : List (MOp κ)), (∀ p, .look p ∉ ops) ∧
      mats i = lived oi j {} ops)
    (hf : ∀ i, NoFloats (mats i)) (q : Query κ) (d : List (ι × ℕ)) (e : PyErr)
    (h : (valueOverDictS (fun k m => q.runS o (k :: site) m) k d [] mats).1 = .error e) :
    ∃ d1 l i d2, d = d1 ++ (l, i) :: d2 ∧
      (∀ x ∈ d1, answer (q.run o' site' (mats x.2)) ≠ none) ∧
      answer (q.run o' site' (mats i)) = none ∧ ∀ j, (∀ x ∈ d1, x.2 ≠ j) → j ≠ i →
      (valueOverDictS (fun k m => q.runS o (k :: site) m) k d [] mats).2 j = mats j := by
  have hs : ∀ i, Sound (mats i) ∧ Fresh (mats i) := by
    intro i
    obtain ⟨oi, j, ops, h1, h2⟩ := hm i
    obtain ⟨h3, _, _, h4, _⟩ := lived_ok oi j ops ({} : CM κ) sound_empty
    rw [h2]
    exact ⟨h3, h4 h1 fresh_empty⟩
  exact overDict_stop q o o' site site' mats (fun i => (hs i).1) hf d k [] mats e
    (fun i => alike_refl q (hs i).1 (hs i).2) h

example : (valueOverDictS (fun k m => (Query.precision (some 3) .micro).runS ascZ [k] m) 0
      [("a", 0), ("b", 1), ("c", 2)] [] (fun i => if i = 1 then lived ascZ 0 {} exRaise
        else lived ascZ 0 {} [.write 3 3 (.int 1), .write 1 3 (.int 2)])).1 =
    .error .decimalInvalidOperation := by decide +kernel

/-- Two matrices for the example, the first under two labels. -/
def exMats : ℕ → CM ℤ
  | 0 => lived ascZ 0 {} [.write 1 1 (.int 5), .write 1 2 (.int 1), .incr 2 2 (.int 3)]
  | 1 => lived ascZ 0 {} [.write 4 4 (.int 1), .write 4 1 (.int 1)]
  | _ => {}

example : numbers (valueOverDictS (fun k m => (Query.precision none .macro).runS ascZ [k] m) 0
      [("a", 0), ("b", 1), ("c", 0)] [] exMats).1 =
    some [("a", 11 / 12), ("b", 1 / 4), ("c", 11 / 12)] := by decide +kernel

/-- C111 needs matrices without rows made by a bare lookup: with one, the same matrix has two macro
averages in one call. -/
theorem C111_dict_bare_row : ∃ (m : CM ℤ), Reachable m ∧
    numbers (valueOverDictS (fun k m => (Query.precision none .macro).runS ascZ [k] m) 0
      [("a", 0), ("b", 0)] [] (fun _ => m)).1 = some [("a", 5 / 12), ("b", 5 / 18)] := by
  refine ⟨lived ascZ 0 {} [.write 1 1 (.int 5), .write 1 2 (.int 1), .classes, .look 7],
    C111_reachable _ _ _, ?_⟩
  decide +kernel

end SegEval.Props
