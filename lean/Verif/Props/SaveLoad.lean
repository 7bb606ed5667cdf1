import Verif.Lemmas.SaveLoad
import Verif.Props.Rearranged
import Verif.Props.JsonFolder

/-!
# C91, C92: scores of saved and loaded data
-/

namespace SegEval.Props

open SegEval Spec

theorem positive_valid {x : DS (List ℤ)} (h : PositiveMasses x) : AllValid .mass (asDataset x).items := by
  intro label c s hs
  obtain ⟨v, hv, rfl⟩ := (coded_asDataset x label c s).1 hs
  obtain ⟨h1, h2⟩ := h _ _ _ hv
  exact ⟨_, massSeg_denotes v h1 h2 _ (boundaryString_eq v h2 h1)⟩

theorem samePairs {x y : DS (List ℤ)} (hx : IsDict2 x.items) (hp : PositiveMasses x)
    (hc : ∀ label m v, Has x.items label m v → ',' ∉ m) (hne : x.items ≠ [])
    (hfx : x.boundaryFormat = .mass) (hfy : y.boundaryFormat = .mass)
    (h : Rearranged (asDataset x).items (asDataset y).items) : SamePairs (asDataset x) (asDataset y) := by
  have hd := asDataset_dict hx
  have hcc : NoCommas (asDataset x).items := by
    intro label m s hs
    obtain ⟨v, hv, _⟩ := (coded_asDataset x label m s).1 hs
    exact hc _ _ _ hv
  have hne1 : (asDataset x).items ≠ [] := by simpa [asDataset] using hne
  have hne2 : (asDataset y).items ≠ [] := by
    obtain ⟨mid, h1, h2⟩ := id h
    intro e
    rw [e] at h2
    cases h2
    exact hne1 (List.perm_nil.1 h1)
  have hfmt : (asDataset y).boundaryFormat = (asDataset x).boundaryFormat := by
    simp only [asDataset, hfx, hfy]
  refine ⟨?_, ?_⟩
  · intro o o' g k k'
    have hpairs : ∀ (o : ClassOrder Name) (k : BoundaryFormat) (z : Dataset) (out : List (Name × MetricOut)),
        z.items ≠ [] → (fncMetric o g k true { args := [.dataset z] } = .ok (.pairs out) ↔
          computePairwiseValues o (g z.boundaryFormat) true z.items none = .ok out) := by
      intro o k z out hz
      rw [C44_accepts o g k true _ (.dataset z) ⟨hz, Or.inl rfl⟩]
      simp only [reply]
      cases computePairwiseValues o (g z.boundaryFormat) true z.items none <;> simp [Except.map]
    simp only [hpairs _ _ _ _ hne1, hpairs _ _ _ _ hne2, hfmt]
    exact C90_permuted o o' hd hcc h (fun _ _ _ _ _ _ _ _ _ => Iff.rfl)
  · intro o o' rt rt' kw k k' f hw hr hf
    have := C90_similarity o o' (rt := rt) (rt' := rt') hw hr k k' false hfmt h hd hcc
      (by rw [show (asDataset x).boundaryFormat = .mass from hfx]; exact positive_valid hp)
      (Or.inl (by rw [show (asDataset x).boundaryFormat = .mass from hfx]; decide)) hf hne1
    exact ⟨this.1, fun out out' h1 h2 => (this.2 out out' h1 h2).1⟩

theorem sameAgreement {a b : AgrData} (h : SameData a b) (hd : IsDict a.items)
    (hf : agrFormat .mass a = .mass) (hv : AllValid .mass a.items) : SameAgreement a b := by
  intro o o' rt rt' nT w rp hw
  have hn : agrFormat .mass a ≠ .sets := by rw [hf]; decide
  rw [← hf] at hv
  exact ⟨C47_actual o o' rt rt' nT w hw .mass a b h hd hv (Or.inl hn),
    C47_pi o o' rt rt' nT w hw .mass rp a b h hd hv (Or.inl hn),
    C47_kappa o o' rt rt' nT w hw .mass rp a b h hd hv (Or.inl hn)⟩

/-! ## C91 -/

/-- C85: what else is known of a loaded dataset. -/
theorem C85_attributes {F : Floats} {text : Name} {d : DS (List JVal)} (h : inputJsonText F text = .ok d) :
    d.coders = ∅ ∧ d.boundaryTypes = {1} ∧ d.boundaryFormat = .mass := by
  obtain ⟨entries, hd, _⟩ := (C85_paired_loads F text).1 ⟨d, h⟩
  rw [inputJsonText_doc hd] at h
  obtain ⟨g, t, g', _, _, ht, _⟩ := id hd
  exact inputJson_attributes ht h

/-- C91: a dataset of masses that is saved to JSON and loaded has the same codings, so that comparing them
gives the same scores; the agreement coefficients are the same too, if the dataset is passed as a dict,
but raise for the loaded dataset itself (it has no coders, see C51).  Partial: as C86, the properties
contain no `items` nor another `segmentation_type`. -/
theorem C91_saved_partial (F : Floats) {x : DS (List ℤ)} (hd : IsDict2 x.items)
    (hj : PyJson F (.obj x.properties)) (hi : dictGet x.properties kItems = none)
    (hs : ∀ v, dictGet x.properties kSegType = some v → v = .str kLinear)
    (hf : x.boundaryFormat = .mass) (hp : PositiveMasses x) :
    ∃ y, inputJsonText F (outputJsonText x) = .ok (asLoaded y) ∧
      ((∀ label m v, Has x.items label m v → ',' ∉ m) → x.items ≠ [] →
        SamePairs (asDataset x) (asDataset y)) ∧
      SameAgreement (.dict (asDataset x).items) (.dict (asDataset y).items) ∧
      ∀ o cmp kw rp, (∃ e, actualAgreement o cmp kw (.dataset (asDataset y)) = .error e) ∧
        (∃ e, fleissPi o cmp kw rp (.dataset (asDataset y)) = .error e) ∧
        ∃ e, fleissKappa o cmp kw rp (.dataset (asDataset y)) = .error e := by
  obtain ⟨r, h1, h2, h3, h4, _⟩ := C86_round_trip_partial F hd hj hi hs
  obtain ⟨a1, _, a3⟩ := C85_attributes h1
  obtain ⟨y, rfl⟩ := exists_asLoaded h2 (fun l m t h => by
    obtain ⟨v, _, hv⟩ := (h4 l m t).1 h
    exact ⟨v, hv⟩)
  have hy := asLoaded_dict.1 h2
  have hr : Rearranged (asDataset x).items (asDataset y).items := by
    apply asDataset_rearranged hd hy
    · intro l
      rw [← h3, hasItem_asLoaded]
    · intro l m v
      have := h4 l m (v.map .num)
      rw [has_asLoaded] at this
      constructor
      · intro h
        obtain ⟨w, hw, e⟩ := this.2 ⟨v, h, rfl⟩
        rwa [nums_inj e]
      · intro h
        obtain ⟨w, hw, e⟩ := this.1 ⟨v, h, rfl⟩
        rwa [nums_inj e]
  refine ⟨y, h1, fun hc hne => samePairs hd hp hc hne hf a3 hr, ?_, ?_⟩
  · exact sameAgreement (.dict _ _ hr) (asDataset_dict hd) rfl (positive_valid hp)
  · intro o cmp kw rp
    have he : asDataset y = ⟨(asDataset y).items, ∅, (asDataset y).boundaryFormat⟩ := by
      simp only [asDataset]
      rw [show y.coders = ∅ from a1]
    rw [he]
    obtain ⟨e1, e2, e3⟩ := C51_unusable o cmp kw rp (asDataset y).items (asDataset y).boundaryFormat
    exact ⟨⟨_, e1⟩, e2, e3⟩

/-- One item with two codings. -/
def exSaved : DS (List ℤ) :=
  { items := [(nX, [(nM, [1, 1, 2]), (nN, [1, 2, 1])])], coders := {nM, nN},
    properties := [(['i', 'd'], .str ['é'])] }

/-- The hypotheses of `C91_saved_partial`. -/
example : IsDict2 exSaved.items ∧ PyJson exFloats (.obj exSaved.properties) ∧
    dictGet exSaved.properties kItems = none ∧
    (∀ v, dictGet exSaved.properties kSegType = some v → v = .str kLinear) ∧
    exSaved.boundaryFormat = .mass ∧ PositiveMasses exSaved ∧
    (∀ label m v, Has exSaved.items label m v → ',' ∉ m) ∧ exSaved.items ≠ [] := by
  have key : ∀ e ∈ exSaved.items, ∀ c ∈ e.2, (c.2 ≠ [] ∧ ∀ n ∈ c.2, 0 < n) ∧ ',' ∉ c.1 := by
    decide +kernel
  refine ⟨⟨by decide +kernel, by decide +kernel⟩, ?_, rfl, ?_, rfl, ?_, ?_, by simp [exSaved]⟩
  · exact .obj (by simp [exSaved]) (.cons (.str _) .nil)
  · intro v hv
    cases hv
  · rintro label m v ⟨c, h1, h2⟩
    exact (key _ (dictGet_mem h1) _ (dictGet_mem h2)).1
  · rintro label m v ⟨c, h1, h2⟩
    exact (key _ (dictGet_mem h1) _ (dictGet_mem h2)).2

/-- C91 is false for other boundary formats: the file does not record the format, so that two datasets
with different scores give the same file. -/
theorem C91_format :
    (∀ (x : DS (List ℤ)) (fmt : BoundaryFormat),
      outputJsonText { x with boundaryFormat := fmt } = outputJsonText x) ∧
    fncMetric ascN (fun fmt => boundarySimilarity .ascending { boundaryFormat := fmt }) .mass false
        { args := [.dataset (asDataset exSaved)] } =
      .ok (.pairs [("x,m,n".toList, .num (.dec (3 / 4)))]) ∧
    fncMetric ascN (fun fmt => boundarySimilarity .ascending { boundaryFormat := fmt }) .mass false
        { args := [.dataset (asDataset { exSaved with boundaryFormat := .position })] } =
      .ok (.pairs [("x,m,n".toList, .num (.dec (1 / 2)))]) := by
  refine ⟨fun _ _ => rfl, ?_, ?_⟩ <;> decide +kernel

/-! ## C92 -/

theorem mem_stems {V : Type _} {accept : Name → Bool} {l : List (Entry V)} {s : Name} :
    s ∈ stems accept l ↔ ∃ name c, Entry.file name c ∈ l ∧ Matches accept name ∧ s = (splitExt name).1 := by
  induction l with
  | nil => simp [stems]
  | cons e es ih =>
    cases e with
    | dir n sub => rw [stems, ih]; simp
    | file name content =>
      rw [stems]
      by_cases hm : Matches accept name
      · rw [if_pos hm, List.mem_cons, ih]
        constructor
        · rintro (rfl | ⟨n, c, h1, h2⟩)
          · exact ⟨name, content, List.mem_cons_self .., hm, rfl⟩
          · exact ⟨n, c, List.mem_cons_of_mem _ h1, h2⟩
        · rintro ⟨n, c, h1, h2, h3⟩
          rcases List.mem_cons.1 h1 with h1 | h1
          · cases h1; exact Or.inl h3
          · exact Or.inr ⟨n, c, h1, h2, h3⟩
      · rw [if_neg hm, ih]
        constructor
        · rintro ⟨n, c, h1, h2⟩; exact ⟨n, c, List.mem_cons_of_mem _ h1, h2⟩
        · rintro ⟨n, c, h1, h2, h3⟩
          rcases List.mem_cons.1 h1 with h1 | h1
          · cases h1; exact absurd h2 hm
          · exact ⟨n, c, h1, h2, h3⟩

theorem stems_nodup {V : Type _} {accept : Name → Bool} {l : List (Entry V)} (hn : (l.map entryName).Nodup)
    (h : ∀ name c name' c', Entry.file name c ∈ l → Entry.file name' c' ∈ l → Matches accept name →
      Matches accept name' → SameStem name name' → name = name') : (stems accept l).Nodup := by
  induction l with
  | nil => simp [stems]
  | cons e es ih =>
    rw [List.map_cons, List.nodup_cons] at hn
    have hes := ih hn.2 (fun n c n' c' h1 h2 => h n c n' c' (List.mem_cons_of_mem _ h1)
      (List.mem_cons_of_mem _ h2))
    cases e with
    | dir n sub => rw [stems]; exact hes
    | file name content =>
      rw [stems]
      by_cases hm : Matches accept name
      · rw [if_pos hm, List.nodup_cons]
        refine ⟨?_, hes⟩
        rw [mem_stems]
        rintro ⟨n, c, h1, h2, h3⟩
        have := h name content n c (List.mem_cons_self ..) (List.mem_cons_of_mem _ h1) hm h2
          ((sameStem_iff hm h2).2 h3)
        subst this
        exact hn.1 (List.mem_map.2 ⟨_, h1, rfl⟩)
      · rw [if_neg hm]
        exact hes

theorem twins_tsv {u : Unicode} {root : Name} {entries : List FsEntry} (hn : FsNames entries)
    (ht : NoTwins TsvName entries) : NoStemClash FileType.tsv.accepts (readTsvAll u root entries) := by
  intro inner hi
  refine stems_nodup (fsNames_distinct hn inner hi) ?_
  have key : ∃ path l, FsFolderIn entries l ∧ inner = readTsvAll u path l := by
    generalize hl : readTsvAll u root entries = e at hi
    clear hn ht
    induction hi generalizing root entries with
    | self => exact ⟨root, entries, .self, hl.symm⟩
    | inside hd _ ih =>
      subst hl
      obtain ⟨sub, h1, h2⟩ := mem_readTsv_dir.1 hd
      obtain ⟨path, l, h3, h4⟩ := ih h2.symm
      exact ⟨path, l, .inside h1 h3, h4⟩
  obtain ⟨path, l, hf, rfl⟩ := key
  intro n c n' c' h1 h2 m1 m2 hs
  obtain ⟨t, g1, _⟩ := mem_readTsv_file.1 h1
  obtain ⟨t', g2, _⟩ := mem_readTsv_file.1 h2
  exact ht l hf n t n' t' g1 g2 ((tsvName_iff n).2 m1) ((tsvName_iff n').2 m2) hs

theorem twins_json {F : Floats} {entries : List FsEntry} (hn : FsNames entries)
    (ht : NoTwins JsonName entries) : NoStemClash FileType.json.accepts (readJsonAll F entries) := by
  intro inner hi
  refine stems_nodup (jsonNames_distinct hn inner hi) ?_
  have key : ∃ l, FsFolderIn entries l ∧ inner = readJsonAll F l := by
    generalize hl : readJsonAll F entries = e at hi
    clear hn ht
    induction hi generalizing entries with
    | self => exact ⟨entries, .self, hl.symm⟩
    | inside hd _ ih =>
      subst hl
      obtain ⟨sub, h1, h2⟩ := mem_readJson_dir.1 hd
      obtain ⟨l, h3, h4⟩ := ih h2.symm
      exact ⟨l, .inside h1 h3, h4⟩
  obtain ⟨l, hf, rfl⟩ := key
  intro n c n' c' h1 h2 m1 m2 hs
  obtain ⟨t, g1, _⟩ := mem_readJson_file.1 h1
  obtain ⟨t', g2, _⟩ := mem_readJson_file.1 h2
  exact ht l hf n t n' t' g1 g2 ((jsonName_iff n).2 m1) ((jsonName_iff n').2 m2) hs

theorem scores_of_same {x y : DS (List ℤ)} (hx : IsDict2 x.items) (hy : IsDict2 y.items)
    (hi : ∀ l, HasItem y.items l ↔ HasItem x.items l) (h : ∀ l m v, Has y.items l m v ↔ Has x.items l m v)
    (hc : y.coders = x.coders) (hfx : x.boundaryFormat = .mass) (hfy : y.boundaryFormat = .mass)
    (hp : PositiveMasses x) :
    ((∀ label m v, Has x.items label m v → ',' ∉ m) → x.items ≠ [] →
      SamePairs (asDataset x) (asDataset y)) ∧
    SameAgreement (.dataset (asDataset x)) (.dataset (asDataset y)) := by
  have hr : Rearranged (asDataset x).items (asDataset y).items :=
    asDataset_rearranged hx hy (fun l => (hi l).symm) (fun l m v => (h l m v).symm)
  refine ⟨fun hcc hne => samePairs hx hp hcc hne hfx hfy hr, ?_⟩
  have e : asDataset y = ⟨(asDataset y).items, (asDataset x).coders, (asDataset x).boundaryFormat⟩ := by
    simp only [asDataset, hc, hfx, hfy]
  refine sameAgreement ?_ (asDataset_dict hx) hfx (positive_valid hp)
  rw [e]
  exact .dataset _ _ _ _ hr

/-- C92: the scores of a folder of TSV files do not depend on the order in which the operating system
lists the files. -/
theorem C92_tsv (u : Unicode) (root : Name) {entries entries' : List FsEntry} (hn : FsNames entries)
    (ht : NoTwins TsvName entries) (hs : Relisted entries entries') {x : DS (List ℤ)}
    (h : loadTsvFolder u root entries = .ok x) (hp : PositiveMasses x) :
    ∃ y, loadTsvFolder u root entries' = .ok y ∧
      ((∀ label m v, Has x.items label m v → ',' ∉ m) → x.items ≠ [] →
        SamePairs (asDataset x) (asDataset y)) ∧
      SameAgreement (.dataset (asDataset x)) (.dataset (asDataset y)) := by
  obtain ⟨y, h1, h2, h3, h4⟩ := C58_order_partial (d0 := {}) ⟨by simp, by simp⟩ (twins_tsv hn ht)
    (relisted_tsv hs u root) h
  obtain ⟨i1, i2, _⟩ := C58_exact_items (d0 := {}) ⟨by simp, by simp⟩ h
  obtain ⟨j1, j2, _⟩ := C58_exact_items (d0 := {}) ⟨by simp, by simp⟩ h1
  exact ⟨y, h1, scores_of_same i1 j1 h3 h4 h2 i2 j2 hp⟩

/-- C92: nor do those of a folder of JSON files. -/
theorem C92_json (F : Floats) {entries entries' : List FsEntry} (hn : FsNames entries)
    (ht : NoTwins JsonName entries) (hs : Relisted entries entries') {x : DS (List ℤ)}
    (h : loadJsonFolder F entries = .ok (asLoaded x)) (hp : PositiveMasses x) :
    ∃ y, loadJsonFolder F entries' = .ok (asLoaded y) ∧
      ((∀ label m v, Has x.items label m v → ',' ∉ m) → x.items ≠ [] →
        SamePairs (asDataset x) (asDataset y)) ∧
      SameAgreement (.dataset (asDataset x)) (.dataset (asDataset y)) := by
  obtain ⟨r, h1, h2, h3, h4⟩ := C58_order_partial (d0 := {}) ⟨by simp, by simp⟩ (twins_json hn ht)
    (relisted_json hs F) h
  obtain ⟨i1, i2, _⟩ := C58_exact_items (d0 := {}) ⟨by simp, by simp⟩ h
  obtain ⟨j1, j2, _⟩ := C58_exact_items (d0 := {}) ⟨by simp, by simp⟩ h1
  obtain ⟨y, rfl⟩ := exists_asLoaded j1 (fun l m t h => by
    obtain ⟨v, _, hv⟩ := (has_asLoaded x l m t).1 ((h4 l m t).1 h)
    exact ⟨v, hv⟩)
  refine ⟨y, h1, scores_of_same (asLoaded_dict.1 i1) (asLoaded_dict.1 j1) ?_ ?_ h2 i2 j2 hp⟩
  · intro l
    rw [← hasItem_asLoaded, h3, hasItem_asLoaded]
  · intro l m v
    have := h4 l m (v.map .num)
    rw [has_asLoaded, has_asLoaded] at this
    constructor
    · intro h
      obtain ⟨w, hw, e⟩ := this.1 ⟨v, h, rfl⟩
      rwa [nums_inj e]
    · intro h
      obtain ⟨w, hw, e⟩ := this.2 ⟨v, h, rfl⟩
      rwa [nums_inj e]

/-- Two tables of the same coders. -/
def exListed : List FsEntry :=
  [.file "a.tsv".toList "i\ts\nm\t2\t3\nn\t1\t4\n".toList, .file "b.csv".toList "i\ts\nn\t2\nm\t1\t1\n".toList]

/-- The hypotheses of `C92_tsv`. -/
example : FsNames exListed ∧ NoTwins TsvName exListed ∧ Relisted exListed exListed.reverse ∧
    ∃ x, loadTsvFolder asciiOnly [] exListed = .ok x ∧ PositiveMasses x ∧
      (∀ label m v, Has x.items label m v → ',' ∉ m) ∧ x.items.length = 2 ∧ x.coders = {nM, nN} := by
  have inside : ∀ inner, FsFolderIn exListed inner → inner = exListed := by
    intro inner h
    cases h with
    | self => rfl
    | inside hd => simp [exListed] at hd
  refine ⟨?_, ?_, .swap .., ?_⟩
  · intro inner h
    rw [inside inner h]
    exact ⟨by decide +kernel, by decide +kernel⟩
  · intro inner h
    rw [inside inner h]
    intro n t n' t' h1 h2 m1 m2 hs
    rw [sameStem_iff ((tsvName_iff _).1 m1) ((tsvName_iff _).1 m2)] at hs
    simp only [exListed, List.mem_cons, FsEntry.file.injEq, List.not_mem_nil, or_false] at h1 h2
    rcases h1 with ⟨rfl, _⟩ | ⟨rfl, _⟩ <;> rcases h2 with ⟨rfl, _⟩ | ⟨rfl, _⟩
    · rfl
    · exact absurd hs (by decide +kernel)
    · exact absurd hs (by decide +kernel)
    · rfl
  · have h : ((loadTsvFolder asciiOnly [] exListed).toOption.map DS.items =
          some [(['a'], [(nM, [2, 3]), (nN, [1, 4])]), (['b'], [(nN, [2]), (nM, [1, 1])])]) ∧
        (loadTsvFolder asciiOnly [] exListed).toOption.map DS.coders = some {nM, nN} := by
      constructor <;> decide +kernel
    cases hl : loadTsvFolder asciiOnly [] exListed with
    | error e => rw [hl] at h; cases h.1
    | ok x =>
      rw [hl] at h
      replace h := And.intro (Option.some.inj h.1) (Option.some.inj h.2)
      have key : ∀ e ∈ x.items, ∀ c ∈ e.2, (c.2 ≠ [] ∧ ∀ n ∈ c.2, 0 < n) ∧ ',' ∉ c.1 := by
        rw [h.1]
        decide +kernel
      refine ⟨x, rfl, ?_, ?_, by rw [h.1]; rfl, h.2⟩
      · rintro label m v ⟨c, h1, h2⟩
        exact (key _ (dictGet_mem h1) _ (dictGet_mem h2)).1
      · rintro label m v ⟨c, h1, h2⟩
        exact (key _ (dictGet_mem h1) _ (dictGet_mem h2)).2

end SegEval.Props
