import Verif.Props.Agreement
import Verif.Lemmas.AgreementRange

/-!
# C76: how low agreement coefficients can be
-/

namespace SegEval.Props

open SegEval Spec

section
variable {o : ClassOrder Name} {rt : Runtime} {nT : ℤ} {kw : BoundaryFormat} {data : AgrData}

/-- What every comparison contributes. -/
theorem job_bounds (hd : IsDict data.items) (hv : AllValid (agrFormat kw data) data.items)
    (hs : agrFormat kw data ≠ .sets ∨ AllShared rt (agrFormat kw data) data.items)
    (hr : RowsOk (compareB rt nT .default) (agrFormat kw data) (jobsOf o data)) :
    ∀ j ∈ jobsOf o data, ∃ sa sb a b, Coded data.items j.2.1 j.1.1 sa ∧ Coded data.items j.2.1 j.1.2 sb ∧
      j.1.1 ≠ j.1.2 ∧ Denotes (agrFormat kw data) sa a ∧ Denotes (agrFormat kw data) sb b ∧
      RowIs (agrFormat kw data) j (rowD (compareB rt nT .default) (agrFormat kw data) j) a b ∧
      (((rowD (compareB rt nT .default) (agrFormat kw data) j).ba +
        (rowD (compareB rt nT .default) (agrFormat kw data) j).bb -
        (rowD (compareB rt nT .default) (agrFormat kw data) j).pbs : ℤ) : ℚ) ≤
        (rowD (compareB rt nT .default) (agrFormat kw data) j).num.val ∧
      (rowD (compareB rt nT .default) (agrFormat kw data) j).den.val ≤
        ((rowD (compareB rt nT .default) (agrFormat kw data) j).pbs : ℚ) := by
  have hs' := hs.elim (fun h => allShared_of (rt := rt) h) (fun h => h)
  rintro ⟨⟨m, n⟩, ⟨label, cs⟩⟩ hj
  obtain ⟨a, b, hab⟩ := rowsAre_default hr _ hj
  obtain ⟨sa, sb, h1, h2, h3, h4, h5, h6⟩ := jobRow_parts (hr _ hj)
  obtain ⟨sa', sb', c1, c2, c3, c4⟩ := hab.coded
  rw [h1] at c1; rw [h2] at c2
  cases c1; cases c2
  simp only at h1 h2
  obtain ⟨hp, hit⟩ := mem_jobs.1 hj
  have hsub := (mem_combinations2 _ _ _).1 hp
  have hne : m ≠ n := by have := hsub.nodup (o.nodup [] _); simpa using this
  have hl := dictGet_of_mem hd.1 hit
  have cm : Coded data.items label m sa := ⟨cs, hl, h1⟩
  have cn : Coded data.items label n sb := ⟨cs, hl, h2⟩
  obtain ⟨a', da⟩ := hv _ _ _ cm
  obtain ⟨b', db⟩ := hv _ _ _ cn
  obtain rfl := denotes_unique da c3
  obtain rfl := denotes_unique db c4
  obtain ⟨k1, k2⟩ := compareB_bounds c3 c4 (hs' _ _ _ _ _ _ _ cm cn da db) h3
  refine ⟨sa, sb, a', b', cm, cn, hne, da, db, hab, ?_, ?_⟩
  · rw [hab.ba, hab.bb, hab.pbs]; push_cast at k1 ⊢; exact k1
  · rw [hab.pbs]; push_cast at k2 ⊢; exact k2

theorem kappa_ge_rows (hd : IsDict data.items) (hv : AllValid (agrFormat kw data) data.items)
    (hs : agrFormat kw data ≠ .sets ∨ AllShared rt (agrFormat kw data) data.items) {Q : Name → ℕ}
    (hQ : RowsOk (compareB rt nT .default) (agrFormat kw data) (jobsOf o data) → ∀ j ∈ jobsOf o data,
      (rowD (compareB rt nT .default) (agrFormat kw data) j).pbs = (Q j.2.1 : ℤ)) {v : PyNum}
    (h : fleissKappa o (compareB rt nT .default) kw false data = .ok (.value v)) :
    -1 / 3 ≤ v.val := by
  have hn := rowsNoFlt_default rt nT (agrFormat kw data) (jobsOf o data)
  obtain ⟨_, _, g2, g3, _, g5, g6⟩ := (fleissKappa_ok hn false _).1 h
  have hj := job_bounds hd hv hs g2
  have hne := denSum_nil g3
  obtain ⟨B, P, hC⟩ := counts_exist (agrFormat kw data) data.items
  have hr := rowsAre_default g2
  simp only [agrOut, Bool.false_eq_true, if_false, AgrOut.value.injEq] at g6
  rw [g6]
  refine coefficient_ge ?_ (lt_of_le_of_ne (kappa_unit hr hne).2.1 g5)
  refine kappa_least (B := B) (Q := Q) (o.nodup _ _) hne ?_ (hQ g2) ?_ ?_ ?_ ?_
  · rintro ⟨⟨m, n⟩, it⟩ hj'
    obtain ⟨r1, r2, _⟩ := row_counts hd hv hr hC hj'
    exact ⟨r1, r2⟩
  all_goals
    intro j hj'
    obtain ⟨sa, sb, a, b, _, _, _, _, _, hab, k1, k2⟩ := hj j hj'
  · exact hab.pbs_pos
  · exact ⟨hab.ba_nonneg.2.2.1, hab.ba_nonneg.2.2.2⟩
  · exact ⟨hab.nonneg, k1⟩
  · exact ⟨hab.den_pos, k2⟩

/-- C76: kappa is at least -1/3, when all comparisons of an item are of the same size. -/
theorem C76_kappa (hd : IsDict data.items) (hv : AllValid (agrFormat kw data) data.items)
    (hs : agrFormat kw data ≠ .sets ∨ AllShared rt (agrFormat kw data) data.items) {size : Name → ℕ}
    (hz : ItemSizes (agrFormat kw data) data.items size) {v : PyNum}
    (h : fleissKappa o (compareB rt nT .default) kw false data = .ok (.value v)) :
    -1 / 3 ≤ v.val := by
  refine kappa_ge_rows hd hv hs (Q := size) (fun g2 j hj => ?_) h
  obtain ⟨sa, sb, a, b, ca, cb, hne, da, db, hab, _, _⟩ := job_bounds hd hv hs g2 j hj
  obtain ⟨types, t1, t2⟩ := hz _ _ _ _ _ _ _ hne ca cb da db
  have : types = identifyTypes a b := by ext t; rw [t1, mem_identifyTypes]
  rw [hab.pbs, ← t2, this]

/-- C76: kappa is at least -1/3 in every format with a single boundary type, for any number of coders
and items of any size. -/
theorem C76_kappa_one_type (hd : IsDict data.items) (hv : AllValid (agrFormat kw data) data.items)
    (hf : agrFormat kw data ≠ .sets) {v : PyNum}
    (h : fleissKappa o (compareB rt nT .default) kw false data = .ok (.value v)) :
    -1 / 3 ≤ v.val := by
  have hs : agrFormat kw data ≠ .sets ∨ AllShared rt (agrFormat kw data) data.items := Or.inl hf
  -- the length of an item, as the first coder gives it
  refine kappa_ge_rows hd hv hs
    (Q := fun l => (stringOf (agrFormat kw data) data.items l
      ((o.order [] (getCoders data)).headD [])).length) (fun g2 j hj => ?_) h
  have hall := job_bounds hd hv hs g2
  obtain ⟨sa, sb, a, b, ca, cb, hne, da, db, hab, _, _⟩ := hall j hj
  obtain ⟨⟨m, n⟩, it⟩ := j
  simp only at ca cb hne
  obtain ⟨hp, hit⟩ := mem_jobs.1 hj
  have hsub := (mem_combinations2 _ _ _).1 hp
  have hone : (identifyTypes a b).card = 1 := by
    have h1 : identifyTypes a b ⊆ {1} := by
      intro t ht
      obtain ⟨p, hp | hp⟩ := mem_identifyTypes.1 ht
      · exact denotes_types da hf p hp
      · exact denotes_types db hf p hp
    have h2 : (identifyTypes a b).card ≤ 1 := by simpa using Finset.card_le_card h1
    have h3 := hab.pbs_pos
    rw [hab.pbs] at h3
    have h4 : 0 < a.length * (identifyTypes a b).card := by exact_mod_cast h3
    have := Nat.pos_of_mul_pos_left h4
    omega
  rw [hab.pbs, hone, mul_one]
  congr 1
  -- all coders give the item one length
  cases hcs : o.order [] (getCoders data) with
  | nil => rw [hcs] at hsub; simp at hsub
  | cons c rest =>
    simp only [List.headD_cons]
    by_cases hmc : m = c
    · rw [← hmc, stringOf_eq ca da]
    · have hm : m ∈ rest := by
        have : m ∈ o.order [] (getCoders data) := hsub.subset (by simp)
        rw [hcs, List.mem_cons] at this
        exact this.resolve_left hmc
      have hj' : ((c, m), it) ∈ jobsOf o data := by
        refine mem_jobs.2 ⟨(mem_combinations2 _ _ _).2 ?_, hit⟩
        rw [hcs]
        exact List.Sublist.cons_cons _ (List.singleton_sublist.2 hm)
      obtain ⟨sa', sb', a', b', ca', cb', _, da', db', hab', _, _⟩ := hall _ hj'
      simp only at ca' cb'
      have e1 := stringOf_eq cb' db'
      have e2 := stringOf_eq ca da
      have e3 := stringOf_eq ca' da'
      rw [e3, hab'.len, ← e1, e2]

/-- C76: kappa of two coders is at least -1/3, with any boundary types and items of any size. -/
theorem C76_kappa_two (hd : IsDict data.items) (hv : AllValid (agrFormat kw data) data.items)
    (hs : agrFormat kw data ≠ .sets ∨ AllShared rt (agrFormat kw data) data.items)
    (h2 : (getCoders data).card = 2) {v : PyNum}
    (h : fleissKappa o (compareB rt nT .default) kw false data = .ok (.value v)) :
    -1 / 3 ≤ v.val := by
  have hlen : (o.order [] (getCoders data)).length = 2 := by rw [order_length, h2]
  match hcs : o.order [] (getCoders data), hlen with
  | [m, n], _ =>
    obtain ⟨B, P, hC⟩ := counts_exist (agrFormat kw data) data.items
    refine kappa_ge_rows hd hv hs (Q := fun l => P l m n) (fun g2 j hj => ?_) h
    have hr := rowsAre_default g2
    obtain ⟨⟨m', n'⟩, it⟩ := j
    obtain ⟨hp, hit⟩ := mem_jobs.1 hj
    rw [hcs] at hp
    simp only [combinations2, List.map_cons, List.map_nil, List.append_nil, List.mem_cons,
      List.not_mem_nil, or_false, Prod.mk.injEq] at hp
    obtain ⟨rfl, rfl⟩ := hp
    exact (row_counts hd hv hr hC hj).2.2.1

/-- C76: pi is at least -1/3, when all comparisons are of the same size. -/
theorem C76_pi (hd : IsDict data.items) (hv : AllValid (agrFormat kw data) data.items)
    (hs : agrFormat kw data ≠ .sets ∨ AllShared rt (agrFormat kw data) data.items) {size : ℕ}
    (hz : SameSize (agrFormat kw data) data.items size) {v : PyNum}
    (h : fleissPi o (compareB rt nT .default) kw false data = .ok (.value v)) :
    -1 / 3 ≤ v.val := by
  have hn := rowsNoFlt_default rt nT (agrFormat kw data) (jobsOf o data)
  obtain ⟨_, g2, g3, _, g5, g6⟩ := (fleissPi_ok hn false _).1 h
  have hj := job_bounds hd hv hs g2
  have hne := denSum_nil g3
  have hr := rowsAre_default g2
  simp only [agrOut, Bool.false_eq_true, if_false, AgrOut.value.injEq] at g6
  rw [g6]
  have hP : ∀ j ∈ jobsOf o data,
      (rowD (compareB rt nT .default) (agrFormat kw data) j).pbs = (size : ℤ) := by
    intro j hj'
    obtain ⟨sa, sb, a, b, ca, cb, hne, da, db, hab, _, _⟩ := hj j hj'
    obtain ⟨types, t1, t2⟩ := hz _ _ _ _ _ _ _ hne ca cb da db
    have : types = identifyTypes a b := by ext t; rw [t1, mem_identifyTypes]
    rw [hab.pbs, ← t2, this]
  refine coefficient_ge ?_ (lt_of_le_of_ne (pi_unit hr hne).2.1 g5)
  refine pi_least (P := size) hne ?_ hP ?_ ?_ ?_ ?_
  · obtain ⟨j, hj'⟩ := List.exists_mem_of_ne_nil _ hne
    obtain ⟨sa, sb, a, b, _, _, _, _, _, hab, _, _⟩ := hj j hj'
    rw [← hP j hj']
    exact hab.pbs_pos
  all_goals
    intro j hj'
    obtain ⟨sa, sb, a, b, _, _, _, _, _, hab, k1, k2⟩ := hj j hj'
  · exact ⟨hab.ba_nonneg.1, hab.ba_nonneg.2.1⟩
  · exact ⟨hab.ba_nonneg.2.2.1, hab.ba_nonneg.2.2.2⟩
  · exact ⟨hab.nonneg, k1⟩
  · exact ⟨hab.den_pos, k2⟩

end

/-- Two items of two units; in each, one coder places the boundary and the other does not. -/
def exLow : AgrData :=
  .dict [("x".toList, [("a".toList, mass [1, 1]), ("b".toList, mass [2])]),
    ("y".toList, [("a".toList, mass [2]), ("b".toList, mass [1, 1])])]

theorem exLow_dict : IsDict exLow.items := by
  constructor
  · decide +kernel
  · intro it hit
    simp only [exLow, AgrData.items, List.mem_cons, List.not_mem_nil, or_false] at hit
    rcases hit with rfl | rfl <;> decide +kernel

theorem exLow_coded {label m : Name} {s : Seg} (h : Coded exLow.items label m s) :
    s = mass [1, 1] ∨ s = mass [2] := by
  obtain ⟨cs, h1, h2⟩ := h
  have h1 := dictGet_mem h1
  have h2 := dictGet_mem h2
  simp only [exLow, AgrData.items, List.mem_cons, List.not_mem_nil, or_false, Prod.mk.injEq] at h1
  rcases h1 with ⟨_, rfl⟩ | ⟨_, rfl⟩ <;>
    simp only [List.mem_cons, List.not_mem_nil, or_false, Prod.mk.injEq] at h2 <;> tauto

/-- C76: the bound is attained by valid data, by both coefficients. -/
theorem C76_attained :
    fleissKappa ascN (compareB .ascending 2 .default) .mass false exLow = .ok (.value (.dec (-1 / 3))) ∧
    fleissPi ascN (compareB .ascending 2 .default) .mass false exLow = .ok (.value (.dec (-1 / 3))) ∧
    IsDict exLow.items ∧ AllValid .mass exLow.items := by
  refine ⟨by decide +kernel, by decide +kernel, exLow_dict, fun label m s h => ?_⟩
  rcases exLow_coded h with rfl | rfl
  · exact ⟨_, massSeg_denotes [1, 1] (by simp) (by decide) [{1}] (by decide +kernel)⟩
  · exact ⟨_, massSeg_denotes [2] (by simp) (by decide) [∅] (by decide +kernel)⟩

theorem exLow_size : SameSize .mass exLow.items 1 := by
  have ha := massSeg_denotes [1, 1] (by simp) (by decide) [{1}] (by decide +kernel)
  have hb := massSeg_denotes [2] (by simp) (by decide) [∅] (by decide +kernel)
  intro label m n sm sn bm bn hne cm cn dm dn
  have key : (sm = mass [1, 1] ∧ sn = mass [2]) ∨ (sm = mass [2] ∧ sn = mass [1, 1]) := by
    obtain ⟨cs, h1, h2⟩ := cm
    obtain ⟨cs', h1', h3⟩ := cn
    rw [h1, Option.some.injEq] at h1'
    subst h1'
    have h1 := dictGet_mem h1
    have h2 := dictGet_mem h2
    have h3 := dictGet_mem h3
    simp only [exLow, AgrData.items, List.mem_cons, List.not_mem_nil, or_false, Prod.mk.injEq] at h1
    rcases h1 with ⟨_, rfl⟩ | ⟨_, rfl⟩ <;>
      simp only [List.mem_cons, List.not_mem_nil, or_false, Prod.mk.injEq] at h2 h3 <;>
      rcases h2 with ⟨rfl, rfl⟩ | ⟨rfl, rfl⟩ <;> rcases h3 with ⟨rfl, rfl⟩ | ⟨rfl, rfl⟩ <;>
      first | exact absurd rfl hne | simp
  refine ⟨identifyTypes bm bn, fun t => mem_identifyTypes, ?_⟩
  rcases key with ⟨rfl, rfl⟩ | ⟨rfl, rfl⟩
  · rw [denotes_unique dm (toBString_denotes ha), denotes_unique dn (toBString_denotes hb)]
    decide +kernel
  · rw [denotes_unique dm (toBString_denotes hb), denotes_unique dn (toBString_denotes ha)]
    decide +kernel

example : SameSize .mass exLow.items 1 ∧ ItemSizes .mass exLow.items (fun _ => 1) ∧
    (getCoders exLow).card = 2 :=
  ⟨exLow_size, exLow_size, by decide +kernel⟩

/-- Three short items in which both coders place the boundary, and a long one in which one coder
places all boundaries and the other none. -/
def exSink : AgrData :=
  .dict [("x".toList, [("a".toList, mass [1, 1]), ("b".toList, mass [1, 1])]),
    ("y".toList, [("a".toList, mass [1, 1]), ("b".toList, mass [1, 1])]),
    ("z".toList, [("a".toList, mass [1, 1]), ("b".toList, mass [1, 1])]),
    ("w".toList, [("a".toList, mass (List.replicate 22 1)), ("b".toList, mass [22])])]

/-- C76: with items of different size, pi can be far below -1/3 (kappa of the same data cannot). -/
theorem C76_pi_refuted :
    fleissPi ascN (compareB .ascending 2 .default) .mass false exSink =
      .ok (.value (.dec (-41 / 15))) ∧
    fleissKappa ascN (compareB .ascending 2 .default) .mass false exSink =
      .ok (.value (.dec 0)) := by
  decide +kernel

end SegEval.Props
