import Verif.Spec.Documented
import Verif.Props.AgreementStep

/-!
# C119: actual agreement against its documentation
-/

namespace SegEval.Props

open SegEval Spec

theorem codedAs_stringOf {fmt : BoundaryFormat} {items : Items} (hv : AllValid fmt items) :
    CodedAs fmt items (stringOf fmt items) := by
  intro l m s hc
  obtain ⟨b, hb⟩ := hv l m s hc
  rw [stringOf_eq hc hb]
  exact hb

section
variable {o : ClassOrder Name} {rt : Runtime} {nT : ℤ} {kw : BoundaryFormat} {data : AgrData}

/-- Every coder coded every item. -/
theorem all_coded (hd : IsDict data.items)
    {x : PyNum} (h : actualAgreement o (compareB rt nT .default) kw data = .ok x) {it : Name × Codings}
    (hit : it ∈ data.items) {m n : Name} (hm : m ∈ getCoders data) (hn : n ∈ getCoders data)
    (hne : m ≠ n) : ∃ s, Coded data.items it.1 m s := by
  obtain ⟨hok, -⟩ := (actual_ok x).1 h
  have hg := dictGet_of_mem hd.1 hit
  rcases pair_order ((o.mem [] _ _).2 hm) ((o.mem [] _ _).2 hn) hne with hp | hp
  · obtain ⟨sa, sb, a1, a2, -⟩ := jobRow_parts (hok ((m, n), it) (mem_jobs.2 ⟨hp, hit⟩))
    exact ⟨sa, it.2, hg, a1⟩
  · obtain ⟨sa, sb, a1, a2, -⟩ := jobRow_parts (hok ((n, m), it) (mem_jobs.2 ⟨hp, hit⟩))
    exact ⟨sb, it.2, hg, a2⟩

/-- C119: measured with segmentation similarity on a format with one boundary type, actual agreement is
the documented mean, an item's size being its number of potential boundaries (its mass less one).  Not
so for the default comparison (`C119_boundary_refuted`) and for several types
(`C119_types_refuted`). -/
theorem C119_segmentation_partial {x : PyNum} (hd : IsDict data.items)
    (hv : AllValid (agrFormat kw data) data.items) (hf : agrFormat kw data ≠ .sets)
    {size : Name → ℕ} {score : Name → Name → Name → ℚ}
    (hP : ∀ label m s b, Coded data.items label m s → Denotes (agrFormat kw data) s b →
      size label = b.length)
    (hS : ∀ label m n sm sn y, Coded data.items label m sm → Coded data.items label n sn →
      Returns (segmentationSimilarity rt ⟨agrFormat kw data, false, false, nT, .default⟩ sm sn) y →
        score label m n = y)
    (h : actualAgreement o (compareS rt nT .default) kw data = .ok x) :
    x.val = documented data.items (getCoders data) size score := by
  set T := stringOf (agrFormat kw data) data.items with hT
  have hC : CodedAs (agrFormat kw data) data.items T := codedAs_stringOf hv
  obtain ⟨y, hy⟩ := (C96_actual hd hv (.inl hf)).1.1 ⟨x, h⟩
  rw [C95_weighted hd hv (.inl hf) (W := fun l m n => (T l m).length * (identifyTypes (T l m) (T l n)).card ^ 2)
    (S := score) (fun label m n sm sn bm bn cm cn dm dn => ⟨identifyTypes bm bn, fun t => mem_identifyTypes, by
      simp only [hT, stringOf_eq cm dm, stringOf_eq cn dn]⟩) hS h]
  have hw : ∀ m ∈ getCoders data, ∀ n ∈ (getCoders data).erase m, ∀ it ∈ data.items,
      ((T it.1 m).length * (identifyTypes (T it.1 m) (T it.1 n)).card ^ 2 : ℚ) = size it.1 := by
    intro m hm n hn it hit
    have hl : it.1 ∈ (data.items.map Prod.fst).toFinset :=
      List.mem_toFinset.2 (List.mem_map_of_mem hit)
    obtain ⟨-, h2, h3, h4⟩ := pair_strings hd hC hy hl hm (Finset.mem_of_mem_erase hn)
      (Finset.ne_of_mem_erase hn).symm hf
    obtain ⟨s, hs⟩ := all_coded hd hy hit hm (Finset.mem_of_mem_erase hn)
      (Finset.ne_of_mem_erase hn).symm
    rw [one_type_card h3 h4 h2, hP it.1 m s (T it.1 m) hs (hC _ _ _ hs)]
    simp
  have e1 : ∑ m ∈ getCoders data, ∑ n ∈ (getCoders data).erase m, (data.items.map (fun it =>
      ((T it.1 m).length * (identifyTypes (T it.1 m) (T it.1 n)).card ^ 2 : ℚ) * score it.1 m n)).sum =
      ∑ m ∈ getCoders data, ∑ n ∈ (getCoders data).erase m,
        (data.items.map (fun it => (size it.1 : ℚ) * score it.1 m n)).sum :=
    Finset.sum_congr rfl fun m hm => Finset.sum_congr rfl fun n hn =>
      congrArg List.sum (List.map_congr_left fun it hit => by rw [hw m hm n hn it hit])
  have e2 : ∑ m ∈ getCoders data, ∑ n ∈ (getCoders data).erase m, (data.items.map (fun it =>
      ((T it.1 m).length * (identifyTypes (T it.1 m) (T it.1 n)).card ^ 2 : ℚ))).sum =
      ∑ m ∈ getCoders data, ∑ n ∈ (getCoders data).erase m,
        (data.items.map (fun it => (size it.1 : ℚ))).sum :=
    Finset.sum_congr rfl fun m hm => Finset.sum_congr rfl fun n hn =>
      congrArg List.sum (List.map_congr_left fun it hit => hw m hm n hn it hit)
  have e3 : ∀ c : ℚ, ∑ m ∈ getCoders data, ∑ _n ∈ (getCoders data).erase m, c =
      (getCoders data).card * ((getCoders data).card - 1) * c := by
    intro c
    have := sum_pairs (getCoders data) (fun _ => c / 2)
    simp only [add_halves, Finset.sum_const, nsmul_eq_mul] at this ⊢
    rw [this]; ring
  rw [e1, e2, e3, documented]
  simp only [div_eq_mul_inv, ← Finset.sum_mul, mul_inv]
  ring

end

/-- Two coders of two items of different size. -/
def exDoc : AgrData :=
  .dict [("x".toList, [("a".toList, mass [2, 2]), ("b".toList, mass [2, 2])]),
    ("y".toList, [("a".toList, mass [1, 1, 1, 1, 1, 1]), ("b".toList, mass [6])])]

/-- For those the mean is `(3 * 1 + 5 * 0) / 8`. -/
example :
    actualAgreement ascN (compareS .ascending 2 .default) .mass exDoc = .ok (.dec (3 / 8)) ∧
    Returns (segmentationSimilarity .ascending {} (mass [2, 2]) (mass [2, 2])) 1 ∧
    Returns (segmentationSimilarity .ascending {} (mass [1, 1, 1, 1, 1, 1]) (mass [6])) 0 ∧
    documented exDoc.items (getCoders exDoc) (fun l => if l = "x".toList then 3 else 5)
      (fun l _ _ => if l = "x".toList then 1 else 0) = 3 / 8 :=
  ⟨by decide +kernel, ⟨.dec 1, by decide +kernel, by norm_num [PyNum.val]⟩,
    ⟨.dec 0, by decide +kernel, by norm_num [PyNum.val]⟩, by decide +kernel⟩

/-- C119 refuted for the default comparison, boundary similarity: each score is weighed by its number of
edits and matches instead.  Two coders who agree on one item of four units and disagree on another get
1/4 where the documented mean is 1/2; three coders of one item get 3/7 where it is 5/9. -/
theorem C119_boundary_refuted :
    (let d : AgrData := .dict [("x".toList, [("a".toList, mass [2, 2]), ("b".toList, mass [2, 2])]),
      ("y".toList, [("a".toList, mass [1, 1, 1, 1]), ("b".toList, mass [4])])]
     actualAgreement ascN (compareB .ascending 2 .default) .mass d = .ok (.dec (1 / 4)) ∧
     Returns (boundarySimilarity .ascending {} (mass [2, 2]) (mass [2, 2])) 1 ∧
     Returns (boundarySimilarity .ascending {} (mass [1, 1, 1, 1]) (mass [4])) 0 ∧
     documented d.items (getCoders d) (fun _ => 3) (fun l _ _ => if l = "x".toList then 1 else 0) =
       1 / 2) ∧
    (let d : AgrData := .dict [("x".toList, [("a".toList, mass [2, 2]), ("b".toList, mass [2, 2]),
      ("c".toList, mass [1, 1, 1, 1])])]
     actualAgreement ascN (compareB .ascending 2 .default) .mass d = .ok (.dec (3 / 7)) ∧
     Returns (boundarySimilarity .ascending {} (mass [2, 2]) (mass [1, 1, 1, 1])) (1 / 3) ∧
     documented d.items (getCoders d) (fun _ => 3)
       (fun _ m n => if m = "c".toList ∨ n = "c".toList then 1 / 3 else 1) = 5 / 9) :=
  ⟨⟨by decide +kernel, ⟨.dec 1, by decide +kernel, by norm_num [PyNum.val]⟩,
    ⟨.dec 0, by decide +kernel, by norm_num [PyNum.val]⟩, by decide +kernel⟩,
   ⟨by decide +kernel, ⟨.dec (1 / 3), by decide +kernel, by norm_num [PyNum.val]⟩, by decide +kernel⟩⟩

/-- C119 refuted for several types: items weigh as the square of the number of types in use, so that two
items of four units give 13/15 where the documented mean is 11/12. -/
theorem C119_types_refuted :
    let d : AgrData := .dict [("x".toList, [("a".toList, .sets [{1}, ∅, ∅]), ("b".toList, .sets [{1}, ∅, ∅])]),
      ("y".toList, [("a".toList, .sets [{1, 2}, ∅, ∅]), ("b".toList, .sets [∅, ∅, ∅])])]
    actualAgreement ascN (compareS .ascending 2 .default) .sets d = .ok (.dec (13 / 15)) ∧
    Returns (segmentationSimilarity .ascending kwSets (.sets [{1}, ∅, ∅]) (.sets [{1}, ∅, ∅])) 1 ∧
    Returns (segmentationSimilarity .ascending kwSets (.sets [{1, 2}, ∅, ∅]) (.sets [∅, ∅, ∅])) (5 / 6) ∧
    documented d.items (getCoders d) (fun _ => 3) (fun l _ _ => if l = "x".toList then 1 else 5 / 6) =
      11 / 12 :=
  ⟨by decide +kernel, ⟨.dec 1, by decide +kernel, by norm_num [PyNum.val]⟩,
    ⟨.dec (5 / 6), by decide +kernel, by norm_num [PyNum.val]⟩, by decide +kernel⟩

/-- C119 refuted for the formulas to the letter.  Two coders who disagree on an item of two units and agree
on one of four get 3/4, where weights mass(i) give 2/3; and coders who agree on everything get 1, where
the formula for more than two coders, mass(i) above and mass(i) - 1 below, gives 3/2. -/
theorem C119_letter_refuted :
    let size : Name → ℕ := fun l => if l = "x".toList then 2 else 4
    (let d : AgrData := .dict [("x".toList, [("a".toList, mass [2]), ("b".toList, mass [1, 1])]),
      ("y".toList, [("a".toList, mass [2, 2]), ("b".toList, mass [2, 2])])]
     actualAgreement ascN (compareS .ascending 2 .default) .mass d = .ok (.dec (3 / 4)) ∧
     Returns (segmentationSimilarity .ascending {} (mass [2]) (mass [1, 1])) 0 ∧
     Returns (segmentationSimilarity .ascending {} (mass [2, 2]) (mass [2, 2])) 1 ∧
     documented d.items (getCoders d) size (fun l _ _ => if l = "x".toList then 0 else 1) = 2 / 3) ∧
    (let d : AgrData := .dict [("x".toList, [("a".toList, mass [1, 1]), ("b".toList, mass [1, 1]),
        ("c".toList, mass [1, 1])]),
      ("y".toList, [("a".toList, mass [2, 2]), ("b".toList, mass [2, 2]), ("c".toList, mass [2, 2])])]
     actualAgreement ascN (compareS .ascending 2 .default) .mass d = .ok (.dec 1) ∧
     Returns (segmentationSimilarity .ascending {} (mass [1, 1]) (mass [1, 1])) 1 ∧
     documentedMany d.items (getCoders d) size (fun _ _ _ => 1) = 3 / 2) :=
  ⟨⟨by decide +kernel, ⟨.dec 0, by decide +kernel, by norm_num [PyNum.val]⟩,
    ⟨.dec 1, by decide +kernel, by norm_num [PyNum.val]⟩, by decide +kernel⟩,
   ⟨by decide +kernel, ⟨.dec 1, by decide +kernel, by norm_num [PyNum.val]⟩, by decide +kernel⟩⟩

end SegEval.Props
