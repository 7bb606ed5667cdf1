import Verif.Lemmas.AgreementFacts

namespace SegEval

open Spec

/-! ## Coders and numbers of codings -/

theorem mem_getCoders_dict (items : Items) (c : Name) :
    c ∈ getCoders (.dict items) ↔ ∃ it ∈ items, ∃ e ∈ it.2, e.1 = c := by
  have inner : ∀ (l : Codings) (acc : Finset Name),
      c ∈ l.foldl (fun acc c => insert c.1 acc) acc ↔ c ∈ acc ∨ ∃ e ∈ l, e.1 = c := by
    intro l
    induction l with
    | nil => simp
    | cons e es ih =>
      intro acc
      rw [List.foldl_cons, ih]
      simp only [Finset.mem_insert, List.mem_cons, exists_eq_or_imp]
      constructor
      · rintro ((rfl | h) | h)
        · exact Or.inr (Or.inl rfl)
        · exact Or.inl h
        · exact Or.inr (Or.inr h)
      · rintro (h | rfl | h)
        · exact Or.inl (Or.inr h)
        · exact Or.inl (Or.inl rfl)
        · exact Or.inr h
  have outer : ∀ (l : Items) (acc : Finset Name),
      c ∈ l.foldl (fun acc it => it.2.foldl (fun acc c => insert c.1 acc) acc) acc ↔
        c ∈ acc ∨ ∃ it ∈ l, ∃ e ∈ it.2, e.1 = c := by
    intro l
    induction l with
    | nil => simp
    | cons it its ih =>
      intro acc
      rw [List.foldl_cons, ih, inner]
      simp only [List.mem_cons, exists_eq_or_imp, or_assoc]
  unfold getCoders
  rw [outer]
  simp

/-- For a plain dict the coders are those of the items. -/
theorem codersMatch_dict {items : Items} (hd : IsDict items) : CodersMatch (.dict items) := by
  intro c
  rw [mem_getCoders_dict]
  constructor
  · rintro ⟨⟨label, cs⟩, hit, ⟨c', s⟩, he, rfl⟩
    exact ⟨label, s, cs, dictGet_of_mem hd.1 hit, dictGet_of_mem (hd.2 _ hit) he⟩
  · rintro ⟨label, s, cs, h1, h2⟩
    exact ⟨_, dictGet_mem h1, _, dictGet_mem h2, rfl⟩

theorem mem_lengths (items : Items) (n : ℕ) :
    n ∈ (items.map (fun it => it.2.length)).foldl (fun s x => insert x s) (∅ : Finset ℕ) ↔
      ∃ it ∈ items, it.2.length = n := by
  refine Iff.trans (foldl_insert_mem (fun x => x) _ ∅ n) ?_
  simp

theorem equalCodings_of {items : Items} {k : ℕ} (hne : items ≠ [])
    (h : ∀ it ∈ items, it.2.length = k) : equalCodings items = true := by
  unfold equalCodings
  rw [decide_eq_true_eq, Finset.card_eq_one]
  refine ⟨k, ?_⟩
  ext n
  rw [mem_lengths, Finset.mem_singleton]
  constructor
  · rintro ⟨it, hit, rfl⟩; exact h it hit
  · rintro rfl
    obtain ⟨it, hit⟩ := List.exists_mem_of_ne_nil _ hne
    exact ⟨it, hit, h it hit⟩

theorem codings_count {cmp : Compare} {fmt : BoundaryFormat} {o : ClassOrder Name} {data : AgrData}
    (hd : IsDict data.items) (hc : CodersMatch data)
    (hr : RowsOk cmp fmt (jobsOf o data)) (hne : jobsOf o data ≠ []) :
    ∀ it ∈ data.items, it.2.length = (getCoders data).card := by
  intro it hit
  have hnd := hd.2 it hit
  have h2 := (jobs_ne_nil.1 hne).1
  have hall := (forall_combinations2 (fun c => ∃ s, dictGet it.2 c = some s)
    (o.order [] (getCoders data)) h2).1 (fun p hp => by
      obtain ⟨sa, sb, g1, g2, _⟩ := jobRow_parts (hr (p, it) (mem_jobs.2 ⟨hp, hit⟩))
      exact ⟨⟨sa, g1⟩, ⟨sb, g2⟩⟩)
  have hset : (it.2.map Prod.fst).toFinset = getCoders data := by
    ext c
    rw [List.mem_toFinset]
    constructor
    · intro h
      obtain ⟨⟨c', s⟩, he, rfl⟩ := List.mem_map.1 h
      obtain ⟨label, cs⟩ := it
      exact (hc _).2 ⟨label, s, cs, dictGet_of_mem hd.1 hit, dictGet_of_mem hnd he⟩
    · intro h
      obtain ⟨s, hs⟩ := hall c ((o.mem _ _ _).2 h)
      exact List.mem_map.2 ⟨_, dictGet_mem hs, rfl⟩
  rw [← hset, List.toFinset_card_of_nodup hnd, List.length_map]

theorem order_length (o : ClassOrder Name) (s : Finset Name) : (o.order [] s).length = s.card := by
  have : (o.order [] s).toFinset = s := by
    ext x; rw [List.mem_toFinset, o.mem]
  rw [← this, List.toFinset_card_of_nodup (o.nodup _ _), this]

/-! ## Independence of order -/

theorem jobs_map_perm {β : Type _} {l l' : List Name} {I I' : Items} (φ φ' : Job → β)
    (hl : l.Perm l')
    (h1 : ∀ m ∈ l, ∀ n ∈ l, m ≠ n →
      (I.map (fun it => φ ((m, n), it))).Perm (I'.map (fun it => φ' ((m, n), it))))
    (h2 : ∀ m ∈ l, ∀ n ∈ l, m ≠ n →
      (I'.map (fun it => φ' ((m, n), it))).Perm (I'.map (fun it => φ' ((n, m), it))))
    (hnd : l.Nodup) : ((jobs l I).map φ).Perm ((jobs l' I').map φ') := by
  have hsum : ∀ (L : List (Name × Name)) (J : Items) (ψ : Job → β),
      (((L.flatMap (fun p => J.map (fun it => (p, it)))).map ψ : List β) : Multiset β) =
        (L.map (fun p => ((J.map (fun it => ψ (p, it)) : List β) : Multiset β))).sum := by
    intro L J ψ
    induction L with
    | nil => rfl
    | cons p ps ih =>
      rw [List.flatMap_cons, List.map_append, ← Multiset.coe_add, ih, List.map_cons, List.sum_cons,
        List.map_map]
      rfl
  rw [← Multiset.coe_eq_coe]
  unfold jobs
  rw [hsum, hsum]
  have e1 : (combinations2 l).map (fun p => ((I.map (fun it => φ (p, it)) : List β) : Multiset β)) =
      (combinations2 l).map
        (fun p => ((I'.map (fun it => φ' ((p.1, p.2), it)) : List β) : Multiset β)) := by
    apply List.map_congr_left
    rintro ⟨m, n⟩ hp
    have hs := (mem_combinations2 _ _ _).1 hp
    have hne : m ≠ n := by have := hs.nodup hnd; simpa using this
    exact Multiset.coe_eq_coe.2 (h1 m (hs.subset (by simp)) n (hs.subset (by simp)) hne)
  rw [e1]
  exact (combos_perm (fun m n => ((I'.map (fun it => φ' ((m, n), it)) : List β) : Multiset β)) hl
    (fun x hx y hy => by
      by_cases hxy : x = y
      · rw [hxy]
      · exact Multiset.coe_eq_coe.2 (h2 x hx y hy hxy))).sum_eq

/-- What a job contributes, as seen by coder `c`, whichever of its two coders comes first. -/
def digest (cmp : Compare) (fmt : BoundaryFormat) (c : Name) (j : Job) :
    Option ((PyNum × PyNum) × (ℤ × ℤ) × (ℤ × ℤ)) :=
  match jobRow cmp fmt j with
  | .error _ => none
  | .ok r => some ((r.num, r.den), (r.pbs, r.ba + r.bb),
      ((if c = j.1.1 then r.ba else 0) + (if c = j.1.2 then r.bb else 0),
       (if c = j.1.1 then r.pbs else 0) + (if c = j.1.2 then r.pbs else 0)))

theorem digest_ok {cmp : Compare} {fmt : BoundaryFormat} {c : Name} {j : Job} :
    digest cmp fmt c j ≠ none ↔ jobRow cmp fmt j = .ok (rowD cmp fmt j) := by
  unfold digest rowD
  cases jobRow cmp fmt j <;> simp

theorem digest_eq {cmp : Compare} {fmt : BoundaryFormat} {c : Name} {j : Job}
    (h : jobRow cmp fmt j = .ok (rowD cmp fmt j)) :
    digest cmp fmt c j = some (((rowD cmp fmt j).num, (rowD cmp fmt j).den),
      ((rowD cmp fmt j).pbs, (rowD cmp fmt j).ba + (rowD cmp fmt j).bb),
      ((if c = j.1.1 then (rowD cmp fmt j).ba else 0) + (if c = j.1.2 then (rowD cmp fmt j).bb else 0),
       (if c = j.1.1 then (rowD cmp fmt j).pbs else 0) +
        (if c = j.1.2 then (rowD cmp fmt j).pbs else 0))) := by
  conv_lhs => unfold digest
  rw [h]

section
variable {cmp cmp' : Compare} {fmt : BoundaryFormat} {js js' : List Job}

/-- Two lists of jobs with the same contributions. -/
def SameJobs (cmp cmp' : Compare) (fmt : BoundaryFormat) (js js' : List Job) : Prop :=
  ∀ c, (js.map (digest cmp fmt c)).Perm (js'.map (digest cmp' fmt c))

theorem SameJobs.symm (h : SameJobs cmp cmp' fmt js js') : SameJobs cmp' cmp fmt js' js :=
  fun c => (h c).symm

theorem SameJobs.rowsOk (h : SameJobs cmp cmp' fmt js js') (ho : RowsOk cmp fmt js) :
    RowsOk cmp' fmt js' := by
  intro j hj
  rw [← digest_ok (c := [])]
  obtain ⟨j0, h0, he⟩ := List.mem_map.1 ((h []).mem_iff.2 (List.mem_map.2 ⟨j, hj, rfl⟩))
  rw [← he]
  exact digest_ok.2 (ho j0 h0)

theorem SameJobs.map (h : SameJobs cmp cmp' fmt js js')
    {β : Type _} (c : Name) (f : Job → β) (f' : Job → β)
    (g : Option ((PyNum × PyNum) × (ℤ × ℤ) × (ℤ × ℤ)) → β)
    (hf : ∀ j ∈ js, f j = g (digest cmp fmt c j)) (hf' : ∀ j ∈ js', f' j = g (digest cmp' fmt c j)) :
    (js.map f).Perm (js'.map f') := by
  have e1 : js.map f = (js.map (digest cmp fmt c)).map g := by
    rw [List.map_map]; exact List.map_congr_left hf
  have e2 : js'.map f' = (js'.map (digest cmp' fmt c)).map g := by
    rw [List.map_map]; exact List.map_congr_left hf'
  rw [e1, e2]
  exact (h c).map g

theorem SameJobs.num (h : SameJobs cmp cmp' fmt js js') (ho : RowsOk cmp fmt js) :
    pySum (partsOf cmp fmt js).numerators = pySum (partsOf cmp' fmt js').numerators ∧
    pySum (partsOf cmp fmt js).denominators = pySum (partsOf cmp' fmt js').denominators := by
  have ho' := h.rowsOk ho
  rw [(partsOf_lists cmp fmt js).1, (partsOf_lists cmp' fmt js').1, (partsOf_lists cmp fmt js).2,
    (partsOf_lists cmp' fmt js').2]
  constructor
  · exact pySum_perm (h.map [] _ _ (fun x => (x.map (fun y => y.1.1)).getD default)
      (fun j hj => by rw [digest_eq (ho j hj)]; rfl) (fun j hj => by rw [digest_eq (ho' j hj)]; rfl))
  · exact pySum_perm (h.map [] _ _ (fun x => (x.map (fun y => y.1.2)).getD default)
      (fun j hj => by rw [digest_eq (ho j hj)]; rfl) (fun j hj => by rw [digest_eq (ho' j hj)]; rfl))

theorem piAe_eq (cmp : Compare) (fmt : BoundaryFormat) (js : List Job) :
    piAe cmp fmt js = ((js.map (fun j => ((rowD cmp fmt j).ba + (rowD cmp fmt j).bb : ℤ) /
      ((rowD cmp fmt j).pbs : ℚ))).sum / ((2 * js.length : ℕ) : ℚ)) ^ 2 := by
  unfold piAe meanOf
  have e1 : ((js.flatMap (entriesOf cmp fmt)).map rateOf).sum =
      (js.map (fun j => ((rowD cmp fmt j).ba + (rowD cmp fmt j).bb : ℤ) /
        ((rowD cmp fmt j).pbs : ℚ))).sum := by
    induction js with
    | nil => rfl
    | cons j js ih =>
      rw [List.flatMap_cons, List.map_append, List.sum_append, ih, List.map_cons, List.sum_cons]
      congr 1
      simp only [entriesOf, rateOf, List.map_cons, List.map_nil, List.sum_cons, List.sum_nil]
      push_cast
      ring
  have e2 : ((js.flatMap (entriesOf cmp fmt)).map rateOf).length = 2 * js.length := by
    rw [List.length_map]
    clear e1
    induction js with
    | nil => rfl
    | cons j js ih =>
      rw [List.flatMap_cons, List.length_append, ih]
      simp only [entriesOf, List.length_cons, List.length_nil]
      omega
  rw [e1, e2]

theorem SameJobs.piAe (h : SameJobs cmp cmp' fmt js js') (ho : RowsOk cmp fmt js) :
    SegEval.piAe cmp fmt js = SegEval.piAe cmp' fmt js' := by
  have ho' := h.rowsOk ho
  have hlen : js.length = js'.length := by simpa using (h []).length_eq
  rw [piAe_eq, piAe_eq, hlen]
  congr 2
  exact (h.map [] _ _ (fun x => (x.map (fun y => (y.2.1.2 : ℚ) / (y.2.1.1 : ℚ))).getD 0)
    (fun j hj => by rw [digest_eq (ho j hj)]; rfl)
    (fun j hj => by rw [digest_eq (ho' j hj)]; rfl)).sum_eq

theorem SameJobs.pbs (h : SameJobs cmp cmp' fmt js js') (ho : RowsOk cmp fmt js)
    (hp : ∀ j ∈ js, (rowD cmp fmt j).pbs ≠ 0) : ∀ j ∈ js', (rowD cmp' fmt j).pbs ≠ 0 := by
  have ho' := h.rowsOk ho
  have hm := h.map [] (fun j => (rowD cmp fmt j).pbs) (fun j => (rowD cmp' fmt j).pbs)
    (fun x => (x.map (fun y => y.2.1.1)).getD 0)
    (fun j hj => by rw [digest_eq (ho j hj)]; rfl) (fun j hj => by rw [digest_eq (ho' j hj)]; rfl)
  intro j hj
  obtain ⟨j0, h0, he⟩ := List.mem_map.1 (hm.mem_iff.2 (List.mem_map.2 ⟨j, hj, rfl⟩))
  rw [← he]
  exact hp j0 h0

theorem tallyOf_eq (cmp : Compare) (fmt : BoundaryFormat) (js : List Job) (c : Name) :
    tallyOf cmp fmt js c =
      ((js.map (fun j => (if c = j.1.1 then (rowD cmp fmt j).ba else 0) +
        (if c = j.1.2 then (rowD cmp fmt j).bb else 0))).sum,
       (js.map (fun j => (if c = j.1.1 then (rowD cmp fmt j).pbs else 0) +
        (if c = j.1.2 then (rowD cmp fmt j).pbs else 0))).sum) := by
  unfold tallyOf tally
  induction js with
  | nil => rfl
  | cons j js ih =>
    rw [Prod.mk.injEq] at ih
    simp only [List.flatMap_cons, List.map_append, List.sum_append, ih.1, ih.2, List.map_cons,
      List.sum_cons, share]
    congr 2
    · split <;> split <;> simp
    · split <;> split <;> simp

theorem SameJobs.tallyOf (h : SameJobs cmp cmp' fmt js js') (ho : RowsOk cmp fmt js) (c : Name) :
    SegEval.tallyOf cmp fmt js c = SegEval.tallyOf cmp' fmt js' c := by
  have ho' := h.rowsOk ho
  rw [tallyOf_eq, tallyOf_eq]
  congr 1
  · exact (h.map c _ _ (fun x => (x.map (fun y => y.2.2.1)).getD 0)
      (fun j hj => by rw [digest_eq (ho j hj)]; rfl)
      (fun j hj => by rw [digest_eq (ho' j hj)]; rfl)).sum_eq
  · exact (h.map c _ _ (fun x => (x.map (fun y => y.2.2.2)).getD 0)
      (fun j hj => by rw [digest_eq (ho j hj)]; rfl)
      (fun j hj => by rw [digest_eq (ho' j hj)]; rfl)).sum_eq

end

/-- The row with the two coders exchanged. -/
def swapRow (r : Row) : Row := ⟨r.num, r.den, r.pbs, r.bb, r.ba⟩

/-- Exchanging the coders of a job, or the comparison, changes its row only as it should. -/
def RowsSym (cmp cmp' : Compare) (fmt : BoundaryFormat) (coders : List Name) (items : Items) : Prop :=
  ∀ m ∈ coders, ∀ n ∈ coders, m ≠ n → ∀ it ∈ items,
    (jobRow cmp fmt ((m, n), it)).toOption = (jobRow cmp' fmt ((m, n), it)).toOption ∧
    (jobRow cmp' fmt ((n, m), it)).toOption = ((jobRow cmp' fmt ((m, n), it)).toOption).map swapRow

theorem digest_option (cmp : Compare) (fmt : BoundaryFormat) (c : Name) (j : Job) :
    digest cmp fmt c j = ((jobRow cmp fmt j).toOption).map (fun r => ((r.num, r.den),
      (r.pbs, r.ba + r.bb),
      ((if c = j.1.1 then r.ba else 0) + (if c = j.1.2 then r.bb else 0),
       (if c = j.1.1 then r.pbs else 0) + (if c = j.1.2 then r.pbs else 0)))) := by
  unfold digest
  cases jobRow cmp fmt j <;> rfl

theorem jobRow_congr (cmp : Compare) (fmt : BoundaryFormat) (p : Name × Name)
    {it it' : Name × Codings} (h : ∀ c, dictGet it.2 c = dictGet it'.2 c) :
    jobRow cmp fmt (p, it) = jobRow cmp fmt (p, it') := by
  unfold jobRow
  simp only [h]

theorem dictGet_perm {α : Type _} {d d' : List (Name × α)} (h : d.Perm d')
    (hn : (d.map Prod.fst).Nodup) (c : Name) : dictGet d c = dictGet d' c := by
  have hn' : (d'.map Prod.fst).Nodup := (h.map Prod.fst).nodup_iff.1 hn
  apply Option.ext
  intro v
  rw [← mem_iff_dictGet hn, ← mem_iff_dictGet hn', h.mem_iff]

theorem rearranged_map {β : Type _} {a b : Items} (h : Rearranged a b) (hd : IsDict a)
    (f : Name × Codings → β)
    (hf : ∀ it it', it.1 = it'.1 → it.2.length = it'.2.length →
      (∀ c, dictGet it.2 c = dictGet it'.2 c) → f it = f it') :
    (a.map f).Perm (b.map f) := by
  obtain ⟨mid, h1, h2⟩ := h
  refine (h1.map f).trans ?_
  have hmid : ∀ e ∈ mid, (e.2.map Prod.fst).Nodup := fun e he => hd.2 e (h1.mem_iff.2 he)
  have : mid.map f = b.map f := by
    clear h1
    induction h2 with
    | nil => rfl
    | cons h _ ih =>
      rw [List.forall_mem_cons] at hmid
      rw [List.map_cons, List.map_cons, ih hmid.2]
      rw [hf _ _ h.1 h.2.length_eq (dictGet_perm h.2 hmid.1)]
  rw [this]

theorem rearranged_keys {a b : Items} (h : Rearranged a b) (hd : IsDict a) (c : Name) :
    (∃ it ∈ a, ∃ e ∈ it.2, e.1 = c) ↔ ∃ it ∈ b, ∃ e ∈ it.2, e.1 = c := by
  have hp := rearranged_map h hd (fun it => (dictGet it.2 c).isSome)
    (fun it it' _ _ h => by rw [h])
  have key : ∀ x : Items, (∃ it ∈ x, ∃ e ∈ it.2, e.1 = c) ↔
      true ∈ x.map (fun it => (dictGet it.2 c).isSome) := by
    intro x
    rw [List.mem_map]
    refine exists_congr (fun it => and_congr_right (fun _ => ?_))
    rw [Option.isSome_iff_exists, ← mem_dictKeys]
    simp [dictKeys]
  rw [key, key, hp.mem_iff]

theorem rearranged_lengths {a b : Items} (h : Rearranged a b) (hd : IsDict a) (n : ℕ) :
    (∃ it ∈ a, it.2.length = n) ↔ ∃ it ∈ b, it.2.length = n := by
  have hp := rearranged_map h hd (fun it => it.2.length) (fun it it' _ h _ => h)
  have key : ∀ x : Items, (∃ it ∈ x, it.2.length = n) ↔ n ∈ x.map (fun it => it.2.length) := by
    intro x; rw [List.mem_map]
  rw [key, key, hp.mem_iff]

theorem rearranged_equalCodings {a b : Items} (h : Rearranged a b) (hd : IsDict a) :
    equalCodings a = equalCodings b := by
  unfold equalCodings
  congr 3
  ext n
  rw [mem_lengths, mem_lengths, rearranged_lengths h hd]

theorem sameData_items {d d' : AgrData} (h : SameData d d') : Rearranged d.items d'.items := by
  cases h <;> assumption

theorem sameData_coders {d d' : AgrData} (h : SameData d d') (hd : IsDict d.items) :
    getCoders d = getCoders d' := by
  cases h with
  | dataset => rfl
  | dict a b h =>
    ext c
    rw [mem_getCoders_dict, mem_getCoders_dict, rearranged_keys h hd]

theorem sameData_format {d d' : AgrData} (h : SameData d d') (kw : BoundaryFormat) :
    agrFormat kw d = agrFormat kw d' := by
  cases h <;> rfl

theorem sameJobs {cmp cmp' : Compare} {fmt : BoundaryFormat} {o o' : ClassOrder Name}
    {d d' : AgrData} (h : SameData d d') (hd : IsDict d.items)
    (hs : RowsSym cmp cmp' fmt (o.order [] (getCoders d)) d.items) :
    SameJobs cmp cmp' fmt (jobsOf o d) (jobsOf o' d') := by
  intro c
  unfold jobsOf
  rw [← sameData_coders h hd]
  have hr := sameData_items h
  have back : ∀ p : Name × Name, (d.items.map (fun it => digest cmp' fmt c (p, it))).Perm
      (d'.items.map (fun it => digest cmp' fmt c (p, it))) := fun p =>
    rearranged_map hr hd _ (fun it it' _ _ h => by
      rw [digest_option, digest_option, jobRow_congr cmp' fmt p h])
  refine jobs_map_perm _ _ ?_ ?_ ?_ (o.nodup _ _)
  · rw [List.perm_ext_iff_of_nodup (o.nodup _ _) (o'.nodup _ _)]
    intro x; rw [o.mem, o'.mem]
  · intro m hm n hn hne
    have e : d.items.map (fun it => digest cmp fmt c ((m, n), it)) =
        d.items.map (fun it => digest cmp' fmt c ((m, n), it)) :=
      List.map_congr_left (fun it hit => by
        rw [digest_option, digest_option, (hs m hm n hn hne it hit).1])
    rw [e]
    exact back (m, n)
  · intro m hm n hn hne
    have e : d.items.map (fun it => digest cmp' fmt c ((m, n), it)) =
        d.items.map (fun it => digest cmp' fmt c ((n, m), it)) :=
      List.map_congr_left (fun it hit => by
        rw [digest_option, digest_option, (hs m hm n hn hne it hit).2, Option.map_map]
        congr 1
        funext r
        simp only [swapRow, Function.comp_def, Prod.mk.injEq, true_and]
        exact ⟨add_comm _ _, add_comm _ _, add_comm _ _⟩)
    refine (back (m, n)).symm.trans ?_
    rw [e]
    exact back (n, m)

/-! ## The three functions -/

section
variable {cmp cmp' : Compare} {kw : BoundaryFormat} {o o' : ClassOrder Name} {d d' : AgrData}

theorem parts_transfer (hsj : SameJobs cmp cmp' (agrFormat kw d) (jobsOf o d) (jobsOf o' d'))
    (hf : agrFormat kw d = agrFormat kw d') {p : AgrParts}
    (h : agreementParts cmp (agrFormat kw d) (o.order [] (getCoders d)) d.items = .ok p) :
    RowsOk cmp (agrFormat kw d) (jobsOf o d) ∧
      p = partsOf cmp (agrFormat kw d) (jobsOf o d) ∧
      agreementParts cmp' (agrFormat kw d') (o'.order [] (getCoders d')) d'.items =
        .ok (partsOf cmp' (agrFormat kw d) (jobsOf o' d')) ∧
      actualOfParts p = actualOfParts (partsOf cmp' (agrFormat kw d) (jobsOf o' d')) ∧
      decimalActual p = decimalActual (partsOf cmp' (agrFormat kw d) (jobsOf o' d')) := by
  obtain ⟨h1, h2⟩ := (agreementParts_ok _ _ _ _ _).1 h
  have h1' : RowsOk cmp (agrFormat kw d) (jobsOf o d) := h1
  obtain ⟨n1, n2⟩ := hsj.num h1'
  refine ⟨h1', h2, ?_, ?_, ?_⟩
  · rw [← hf]
    exact (agreementParts_ok _ _ _ _ _).2 ⟨hsj.rowsOk h1', rfl⟩
  · rw [h2]; unfold actualOfParts; rw [← n1, ← n2]; rfl
  · rw [h2]; unfold decimalActual; rw [← n1, ← n2]; rfl

theorem actual_transfer (hsj : SameJobs cmp cmp' (agrFormat kw d) (jobsOf o d) (jobsOf o' d'))
    (hf : agrFormat kw d = agrFormat kw d') {x : PyNum}
    (h : actualAgreement o cmp kw d = .ok x) : actualAgreement o' cmp' kw d' = .ok x := by
  unfold actualAgreement at h ⊢
  cases hp : agreementParts cmp (agrFormat kw d) (o.order [] (getCoders d)) d.items with
  | error e => rw [hp] at h; cases h
  | ok p =>
    rw [hp] at h
    obtain ⟨_, _, h3, h4, _⟩ := parts_transfer hsj hf hp
    rw [h3]
    simp only at h ⊢
    rw [← h4]; exact h

theorem pi_transfer (hsj : SameJobs cmp cmp' (agrFormat kw d) (jobsOf o d) (jobsOf o' d'))
    (hf : agrFormat kw d = agrFormat kw d') (he : equalCodings d.items = equalCodings d'.items)
    {rp : Bool} {x : AgrOut}
    (h : fleissPi o cmp kw rp d = .ok x) : fleissPi o' cmp' kw rp d' = .ok x := by
  unfold fleissPi at h ⊢
  rw [← he]
  by_cases hq : equalCodings d.items = false
  · rw [if_pos hq] at h; cases h
  · rw [if_neg hq] at h ⊢
    cases hp : agreementParts cmp (agrFormat kw d) (o.order [] (getCoders d)) d.items with
    | error e => rw [hp] at h; cases h
    | ok p =>
      rw [hp] at h
      obtain ⟨h1, h2, h3, h4, h5⟩ := parts_transfer hsj hf hp
      rw [h3]
      simp only at h ⊢
      rw [← h5]
      cases hd : decimalActual p with
      | error e => rw [hd] at h; cases h
      | ok aa =>
        rw [hd] at h
        simp only at h ⊢
        cases hx : piExpected p.codersBoundaries with
        | error e => rw [hx] at h; cases h
        | ok ae =>
          rw [hx] at h
          rw [h2] at hx
          obtain ⟨g1, g2, g3⟩ := (pi_ok _).1 hx
          have : piExpected (partsOf cmp' (agrFormat kw d) (jobsOf o' d')).codersBoundaries = .ok ae := by
            refine (pi_ok _).2 ⟨?_, hsj.pbs h1 g2, by rw [g3, hsj.piAe h1]⟩
            intro h0
            have := (hsj []).length_eq
            rw [h0] at this
            simp at this
            exact g1 this
          rw [this]
          exact h

theorem kappa_transfer (hsj : SameJobs cmp cmp' (agrFormat kw d) (jobsOf o d) (jobsOf o' d'))
    (hf : agrFormat kw d = agrFormat kw d') (he : equalCodings d.items = equalCodings d'.items)
    (hl : (∀ it ∈ d.items, 2 ≤ it.2.length) ↔ ∀ it ∈ d'.items, 2 ≤ it.2.length)
    (hc : getCoders d = getCoders d') {rp : Bool} {x : AgrOut}
    (h : fleissKappa o cmp kw rp d = .ok x) : fleissKappa o' cmp' kw rp d' = .ok x := by
  have hlen : ∀ y : Items, (y.filter (fun it => decide (it.2.length < 2))).length > 0 ↔
      ¬ ∀ it ∈ y, 2 ≤ it.2.length := by
    intro y
    rw [gt_iff_lt, List.length_pos_iff, ne_eq, List.filter_eq_nil_iff, not_iff_not]
    simp only [decide_eq_true_eq, not_lt]
  unfold fleissKappa at h ⊢
  by_cases hq0 : ∀ it ∈ d.items, 2 ≤ it.2.length
  · rw [if_neg (by rw [hlen]; exact not_not.2 hq0)] at h
    rw [if_neg (by rw [hlen]; exact not_not.2 (hl.1 hq0)), ← he]
    by_cases hq : equalCodings d.items = false
    · rw [if_pos hq] at h; cases h
    · rw [if_neg hq] at h ⊢
      cases hp : agreementParts cmp (agrFormat kw d) (o.order [] (getCoders d)) d.items with
      | error e => rw [hp] at h; cases h
      | ok p =>
        rw [hp] at h
        obtain ⟨h1, h2, h3, h4, h5⟩ := parts_transfer hsj hf hp
        rw [h3]
        simp only at h ⊢
        rw [← h5]
        cases hd : decimalActual p with
        | error e => rw [hd] at h; cases h
        | ok aa =>
          rw [hd] at h
          simp only at h ⊢
          cases hx : kappaExpected p.codersBoundaries with
          | error e => rw [hx] at h; cases h
          | ok ae =>
            rw [hx] at h
            rw [h2] at hx
            have hjne : jobsOf o d ≠ [] := by
              intro h0
              rw [h0] at hx
              have := ((kappaExpected_ok _ _).1 hx).1
              simp [partsOf] at this
            have hjne' : jobsOf o' d' ≠ [] := by
              intro h0
              have := (hsj []).length_eq
              rw [h0] at this
              simp at this
              exact hjne this
            obtain ⟨g1, g2⟩ := (kappa_ok hjne (o.nodup _ _) ae).1 hx
            have hpo : (o'.order [] (getCoders d')).Perm (o.order [] (getCoders d)) := by
              rw [List.perm_ext_iff_of_nodup (o'.nodup _ _) (o.nodup _ _)]
              intro x; rw [o.mem, o'.mem, hc]
            have : kappaExpected (partsOf cmp' (agrFormat kw d) (jobsOf o' d')).codersBoundaries =
                .ok ae := by
              refine (kappa_ok hjne' (o'.nodup _ _) ae).2 ⟨?_, ?_⟩
              · intro c hc'
                have := g1 c (hpo.mem_iff.1 hc')
                change (tallyOf cmp (agrFormat kw d) (jobsOf o d) c).2 ≠ 0 at this
                rw [hsj.tallyOf h1] at this
                exact this
              · rw [g2]
                congr 1
                have e : (o'.order [] (getCoders d')).map (tallyOf cmp' (agrFormat kw d) (jobsOf o' d')) =
                    (o'.order [] (getCoders d')).map (tallyOf cmp (agrFormat kw d) (jobsOf o d)) :=
                  List.map_congr_left (fun c _ => (hsj.tallyOf h1 c).symm)
                change kappaAe cmp (agrFormat kw d) (o.order [] (getCoders d)) (jobsOf o d) =
                  kappaAe cmp' (agrFormat kw d) (o'.order [] (getCoders d')) (jobsOf o' d')
                unfold kappaAe
                rw [e]
                exact (meanOf_perm (pairProducts_perm (hpo.map _))).symm
            rw [this]
            exact h
  · rw [if_pos ((hlen _).2 hq0)] at h; cases h

end

/-! ## The default comparison is symmetric -/

theorem compareB_same {rt rt' : Runtime} {nT : ℤ} {w : Weights} {fmt : BoundaryFormat}
    {a b a' b' : Seg} (ht : (a.truthy && b.truthy) = (a'.truthy && b'.truthy))
    (h : SameStats (boundaryStatistics rt fmt nT w a b) (boundaryStatistics rt' fmt nT w a' b')) :
    compareB rt nT w fmt a b = compareB rt' nT w fmt a' b' := by
  unfold compareB
  rw [ht]
  by_cases hb : (a'.truthy && b'.truthy) = true
  · rw [if_pos hb, if_pos hb]
    unfold boundarySimilarity
    rcases h with ⟨e, h1, h2⟩ | ⟨st, st', h1, h2, h3⟩
    · simp only [h1, h2]
    · simp only [h1, h2]
      have he : (st.edits.additions.length : ℤ) + (st.edits.substitutions.length : ℤ) +
          (st.edits.transpositions.length : ℤ) = (st'.edits.additions.length : ℤ) +
          (st'.edits.substitutions.length : ℤ) + (st'.edits.transpositions.length : ℤ) := by
        have := h3.edits
        simp only [editCount] at this
        exact_mod_cast this
      simp only [he, h3.count, h3.matches_, if_true]
      cases (PyNum.int ((st'.edits.additions.length : ℤ) + (st'.edits.substitutions.length : ℤ) +
        (st'.edits.transpositions.length : ℤ) + (st'.matches'.length : ℤ))).sub st'.countEdits <;> rfl
  · rw [if_neg hb, if_neg hb]

theorem jobRow_value {cmp : Compare} {fmt : BoundaryFormat} {m n : Name} {it : Name × Codings}
    {sa sb : Seg} {a b : BString} (h1 : dictGet it.2 m = some sa) (h2 : dictGet it.2 n = some sb)
    (g1 : toBString fmt sa = .ok a) (g2 : toBString fmt sb = .ok b) :
    jobRow cmp fmt ((m, n), it) = (cmp fmt sa sb).map (fun p => ⟨p.1, p.2,
      (a.length : ℤ) * ((identifyTypes a b).card : ℤ), boundaryCount a, boundaryCount b⟩) := by
  unfold jobRow
  simp only [h1, h2]
  cases h : cmp fmt sa sb with
  | error e => rfl
  | ok nd =>
    obtain ⟨num, den⟩ := nd
    simp only [potentialBoundaries, toBStrings, g1, g2, boundariesOf_eq g1, boundariesOf_eq g2]
    rfl

theorem compareB_length {rt : Runtime} {nT : ℤ} {w : Weights} {fmt : BoundaryFormat} {sa sb : Seg}
    {a b : BString} {p : PyNum × PyNum} (g1 : toBString fmt sa = .ok a)
    (g2 : toBString fmt sb = .ok b) (h : compareB rt nT w fmt sa sb = .ok p) :
    a.length = b.length := by
  unfold compareB at h
  by_cases ht : (sa.truthy && sb.truthy) = true
  · rw [if_pos ht] at h
    cases hb : boundarySimilarity rt ⟨fmt, false, true, nT, w⟩ sa sb with
    | error e => rw [hb] at h; cases h
    | ok v =>
      obtain ⟨st, hst⟩ := boundarySim_stats hb
      obtain ⟨a', b', k1, k2⟩ := boundaryStatistics_ok hst
      obtain ⟨k3, k4⟩ := toBStrings_parts k1
      rw [g1] at k3; cases k3
      rw [g2] at k4; cases k4
      exact (statistics_ok k2).1
  · rw [if_neg ht] at h; cases h

theorem sharedTypes_symm {rt : Runtime} {a b : BString} (h : SharedTypes rt a b) :
    SharedTypes rt b a := by
  intro p t ht
  exact h p t (by rw [missedAt, Finset.union_comm] at ht; exact ht)

theorem rowsSym_compareB {rt rt' : Runtime} {nT : ℤ} {w : Weights} (hw : Supplied w)
    {fmt : BoundaryFormat} {coders : List Name} {items : Items} (hd : IsDict items)
    (hv : AllValid fmt items) (hs : AllShared rt fmt items) (hs' : AllShared rt' fmt items) :
    RowsSym (compareB rt nT w) (compareB rt' nT w) fmt coders items := by
  rintro m _ n _ _ ⟨label, cs⟩ hit
  have hl := dictGet_of_mem hd.1 hit
  cases h1 : dictGet cs m with
  | none =>
    have e1 : ∀ c, jobRow c fmt ((m, n), (label, cs)) = .error .keyError := by
      intro c; unfold jobRow; simp only [h1]
    have e2 : ∀ c, ∃ e, jobRow c fmt ((n, m), (label, cs)) = .error e := by
      intro c; unfold jobRow; simp only [h1]
      cases dictGet cs n <;> exact ⟨_, rfl⟩
    obtain ⟨e, he⟩ := e2 (compareB rt' nT w)
    rw [e1, e1, he]
    exact ⟨rfl, rfl⟩
  | some sa =>
    cases h2 : dictGet cs n with
    | none =>
      have e1 : ∀ c, jobRow c fmt ((n, m), (label, cs)) = .error .keyError := by
        intro c; unfold jobRow; simp only [h2]
      have e2 : ∀ c, jobRow c fmt ((m, n), (label, cs)) = .error .keyError := by
        intro c; unfold jobRow; simp only [h1, h2]
      rw [e1, e2, e2]
      exact ⟨rfl, rfl⟩
    | some sb =>
      have cm : Coded items label m sa := ⟨cs, hl, h1⟩
      have cn : Coded items label n sb := ⟨cs, hl, h2⟩
      obtain ⟨a, da⟩ := hv _ _ _ cm
      obtain ⟨b, db⟩ := hv _ _ _ cn
      have s1 := hs _ _ _ _ _ _ _ cm cn da db
      have s2 := hs' _ _ _ _ _ _ _ cm cn da db
      have g1 := toBString_denotes da
      have g2 := toBString_denotes db
      have w1 := stats_swap (nT := nT) hw s1 s2
      have w2 := stats_swap (nT := nT) hw (sharedTypes_symm s2) (sharedTypes_symm s2)
      have c1 : compareB rt nT w fmt sa sb = compareB rt' nT w fmt sa sb := by
        refine compareB_same rfl ?_
        rw [boundaryStatistics_denotes da db, boundaryStatistics_denotes da db]
        exact w1.trans w2
      have c2 : compareB rt' nT w fmt sb sa = compareB rt' nT w fmt sa sb := by
        refine compareB_same (Bool.and_comm _ _) ?_
        rw [boundaryStatistics_denotes da db, boundaryStatistics_denotes db da]
        exact w2
      rw [jobRow_value (it := (label, cs)) h1 h2 g1 g2, jobRow_value (it := (label, cs)) h1 h2 g1 g2,
        jobRow_value (it := (label, cs)) h2 h1 g2 g1, c1, c2]
      refine ⟨rfl, ?_⟩
      cases hc : compareB rt' nT w fmt sa sb with
      | error e => rfl
      | ok p =>
        have hlen := compareB_length g1 g2 hc
        simp only [Except.map, Except.toOption, Option.map_some, swapRow, identifyTypes_comm b a, hlen]

end SegEval
