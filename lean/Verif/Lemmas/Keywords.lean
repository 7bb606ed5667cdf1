import Verif.Spec.Keywords
import Verif.Lemmas.Compute
import Verif.Lemmas.Bed

/-!
# Lemmas: keyword arguments
-/

namespace SegEval

open SegEval.Spec

theorem update_similarity (k : Kwargs) : similarityDefaults.update k =
    { k with
      boundaryFormat := some (k.boundaryFormat.getD .mass), permuted := some (k.permuted.getD false),
      oneMinus := some (k.oneMinus.getD false), returnParts := some (k.returnParts.getD false),
      nT := some (k.nT.getD 2), boundaryTypes := some (k.boundaryTypes.getD none),
      weight := some (k.weight.getD .default) } := by
  simp [Kwargs.update, similarityDefaults, metricDefaults]

theorem update_window (k : Kwargs) : windowDefaults.update k =
    { k with
      boundaryFormat := some (k.boundaryFormat.getD .mass), permuted := some (k.permuted.getD true),
      oneMinus := some (k.oneMinus.getD false), returnParts := some (k.returnParts.getD false),
      windowSize := some (k.windowSize.getD none),
      fncRound := some (k.fncRound.getD roundHalfEven) } := by
  simp [Kwargs.update, windowDefaults, metricDefaults]

theorem update_windowDiff (k : Kwargs) : windowDiffDefaults.update k =
    { k with
      boundaryFormat := some (k.boundaryFormat.getD .mass), permuted := some (k.permuted.getD true),
      oneMinus := some (k.oneMinus.getD false), returnParts := some (k.returnParts.getD false),
      windowSize := some (k.windowSize.getD none),
      fncRound := some (k.fncRound.getD roundHalfEven),
      lamprierFix := some (k.lamprierFix.getD false) } := by
  simp [Kwargs.update, windowDiffDefaults, windowDefaults, metricDefaults]

/-- A name in a call is one of the package's keywords or one of the other names. -/
theorem mem_given {k : Kwargs} {n : Name} : n ∈ given k ↔
    (k.boundaryFormat.isSome ∧ n = "boundary_format".toList) ∨
    (k.permuted.isSome ∧ n = "permuted".toList) ∨
    (k.oneMinus.isSome ∧ n = "one_minus".toList) ∨
    (k.returnParts.isSome ∧ n = "return_parts".toList) ∨
    (k.nT.isSome ∧ n = "n_t".toList) ∨
    (k.boundaryTypes.isSome ∧ n = "boundary_types".toList) ∨
    (k.weight.isSome ∧ n = "weight".toList) ∨
    (k.windowSize.isSome ∧ n = "window_size".toList) ∨
    (k.fncRound.isSome ∧ n = "fnc_round".toList) ∨
    (k.lamprierFix.isSome ∧ n = "lamprier_et_al_2007_fix".toList) ∨
    (k.datasetB.isSome ∧ n = "dataset_b".toList) ∨ n ∈ k.others := by
  have h : ∀ (b : Bool) (m : Name), n ∈ (if b = true then [m] else []) ↔ (b = true ∧ n = m) := by
    intro b m; cases b <;> simp
  simp only [given, List.mem_append, h, or_assoc]

/-- The keywords that a similarity takes. -/
def simTakes (k : Kwargs) : Bool :=
  !(k.windowSize.isSome || k.fncRound.isSome || k.lamprierFix.isSome || k.datasetB.isSome ||
    !k.others.isEmpty)

/-- The keywords that `pk` takes. -/
def pkTakes (k : Kwargs) : Bool :=
  !(k.nT.isSome || k.boundaryTypes.isSome || k.weight.isSome || k.lamprierFix.isSome ||
    k.datasetB.isSome || !k.others.isEmpty)

/-- The keywords that `window_diff` takes. -/
def wdTakes (k : Kwargs) : Bool :=
  !(k.nT.isSome || k.boundaryTypes.isSome || k.weight.isSome || k.datasetB.isSome ||
    !k.others.isEmpty)

/-- The keywords that `boundary_statistics` takes. -/
def statTakes (k : Kwargs) : Bool := simTakes k && !(k.oneMinus.isSome || k.returnParts.isSome)

theorem bindSimilarity_update (k : Kwargs) (p : Option Bool) :
    bindSimilarity { similarityDefaults.update k with permuted := p } =
      if p = none ∧ simTakes k = true then .ok (askedSimilarity k) else .error .typeError := by
  rw [update_similarity]
  cases p with
  | some b => simp [bindSimilarity, Kwargs.delParts, bindStatistics]
  | none =>
    cases h : simTakes k with
    | true => simp_all [bindSimilarity, Kwargs.delParts, bindStatistics, simTakes, askedSimilarity]
    | false =>
      have h' : (k.windowSize.isSome || k.fncRound.isSome || k.lamprierFix.isSome ||
          k.datasetB.isSome || !k.others.isEmpty) = true := Bool.not_eq_false' .. ▸ h
      simp only [bindSimilarity, Kwargs.delParts, bindStatistics, Option.isSome_none,
        Option.isSome_some, Bool.false_or, Bool.and_self, if_true, h', Bool.false_eq_true, and_false,
        if_false]

theorem delParts_defaults : ∃ d, similarityDefaults.delParts = .ok d ∧ ∀ k : Kwargs, d.update k =
    { k with
      boundaryFormat := some (k.boundaryFormat.getD .mass), permuted := some (k.permuted.getD false),
      nT := some (k.nT.getD 2), boundaryTypes := some (k.boundaryTypes.getD none),
      weight := some (k.weight.getD .default) } := by
  refine ⟨_, rfl, fun k => ?_⟩
  simp [Kwargs.update, similarityDefaults, metricDefaults]

theorem bindPk_update (k : Kwargs) (p : Option Bool) :
    bindPk { windowDefaults.update k with permuted := p } =
      if p = none ∧ pkTakes k = true then
        .ok { askedWindow k with lamprierFix := false } else .error .typeError := by
  rw [update_window]
  cases p <;> cases h : pkTakes k <;>
    simp_all [bindPk, pkTakes, askedWindow]

theorem bindWindowDiff_update (k : Kwargs) (p : Option Bool) :
    bindWindowDiff { windowDiffDefaults.update k with permuted := p } =
      if p = none ∧ wdTakes k = true then .ok (askedWindow k) else .error .typeError := by
  rw [update_windowDiff]
  cases p <;> cases h : wdTakes k <;>
    simp_all [bindWindowDiff, wdTakes, askedWindow]

theorem simTakes_known {k : Kwargs} (hw : WrittenOnce k) (h : AllKnown similarityParameters k) :
    simTakes k = true := by
  by_contra hc
  have hk : ∀ n, n ∈ given k → n ∈ similarityParameters := h
  simp only [simTakes, Bool.not_eq_true', Bool.not_eq_false, Bool.or_eq_true] at hc
  rcases hc with (((hc | hc) | hc) | hc) | hc
  · exact absurd (hk "window_size".toList (mem_given.2 (by simp [hc]))) (by decide)
  · exact absurd (hk "fnc_round".toList (mem_given.2 (by simp [hc]))) (by decide)
  · exact absurd (hk "lamprier_et_al_2007_fix".toList (mem_given.2 (by simp [hc]))) (by decide)
  · exact absurd (hk "dataset_b".toList (mem_given.2 (by simp [hc]))) (by decide)
  · obtain ⟨n, hn⟩ := List.exists_mem_of_ne_nil k.others (by
      intro h0; rw [h0] at hc; simp at hc)
    exact absurd ((by decide : ∀ m ∈ similarityParameters, m ∈ ownNames) n
      (hk n (mem_given.2 (by simp [hn])))) (hw n hn)

theorem pkTakes_known {k : Kwargs} (hw : WrittenOnce k) (h : AllKnown pkParameters k) :
    pkTakes k = true := by
  by_contra hc
  have hk : ∀ n, n ∈ given k → n ∈ pkParameters := h
  simp only [pkTakes, Bool.not_eq_true', Bool.not_eq_false, Bool.or_eq_true] at hc
  rcases hc with ((((hc | hc) | hc) | hc) | hc) | hc
  · exact absurd (hk "n_t".toList (mem_given.2 (by simp [hc]))) (by decide)
  · exact absurd (hk "boundary_types".toList (mem_given.2 (by simp [hc]))) (by decide)
  · exact absurd (hk "weight".toList (mem_given.2 (by simp [hc]))) (by decide)
  · exact absurd (hk "lamprier_et_al_2007_fix".toList (mem_given.2 (by simp [hc]))) (by decide)
  · exact absurd (hk "dataset_b".toList (mem_given.2 (by simp [hc]))) (by decide)
  · obtain ⟨n, hn⟩ := List.exists_mem_of_ne_nil k.others (by
      intro h0; rw [h0] at hc; simp at hc)
    exact absurd ((by decide : ∀ m ∈ pkParameters, m ∈ ownNames) n
      (hk n (mem_given.2 (by simp [hn])))) (hw n hn)

theorem wdTakes_known {k : Kwargs} (hw : WrittenOnce k) (h : AllKnown windowDiffParameters k) :
    wdTakes k = true := by
  by_contra hc
  have hk : ∀ n, n ∈ given k → n ∈ windowDiffParameters := h
  simp only [wdTakes, Bool.not_eq_true', Bool.not_eq_false, Bool.or_eq_true] at hc
  rcases hc with (((hc | hc) | hc) | hc) | hc
  · exact absurd (hk "n_t".toList (mem_given.2 (by simp [hc]))) (by decide)
  · exact absurd (hk "boundary_types".toList (mem_given.2 (by simp [hc]))) (by decide)
  · exact absurd (hk "weight".toList (mem_given.2 (by simp [hc]))) (by decide)
  · exact absurd (hk "dataset_b".toList (mem_given.2 (by simp [hc]))) (by decide)
  · obtain ⟨n, hn⟩ := List.exists_mem_of_ne_nil k.others (by
      intro h0; rw [h0] at hc; simp at hc)
    exact absurd ((by decide : ∀ m ∈ windowDiffParameters, m ∈ ownNames) n
      (hk n (mem_given.2 (by simp [hn])))) (hw n hn)

theorem not_simTakes {k : Kwargs} (h : SomeUnknown similarityParameters k) : simTakes k = false := by
  obtain ⟨n, hn, hu⟩ := h
  rw [mem_given] at hn
  rcases hn with ⟨_, rfl⟩ | ⟨_, rfl⟩ | ⟨_, rfl⟩ | ⟨_, rfl⟩ | ⟨_, rfl⟩ | ⟨_, rfl⟩ | ⟨_, rfl⟩ | ⟨hs, -⟩ |
    ⟨hs, -⟩ | ⟨hs, -⟩ | ⟨hs, -⟩ | hs
  all_goals first
    | exact absurd (by decide) hu
    | (simp [simTakes, hs]; done)
    | (cases ho : k.others <;> simp_all [simTakes])

theorem not_pkTakes {k : Kwargs} (h : SomeUnknown pkParameters k) : pkTakes k = false := by
  obtain ⟨n, hn, hu⟩ := h
  rw [mem_given] at hn
  rcases hn with ⟨_, rfl⟩ | ⟨_, rfl⟩ | ⟨_, rfl⟩ | ⟨_, rfl⟩ | ⟨hs, -⟩ | ⟨hs, -⟩ | ⟨hs, -⟩ | ⟨_, rfl⟩ |
    ⟨_, rfl⟩ | ⟨hs, -⟩ | ⟨hs, -⟩ | hs
  all_goals first
    | exact absurd (by decide) hu
    | (simp [pkTakes, hs]; done)
    | (cases ho : k.others <;> simp_all [pkTakes])

theorem not_wdTakes {k : Kwargs} (h : SomeUnknown windowDiffParameters k) : wdTakes k = false := by
  obtain ⟨n, hn, hu⟩ := h
  rw [mem_given] at hn
  rcases hn with ⟨_, rfl⟩ | ⟨_, rfl⟩ | ⟨_, rfl⟩ | ⟨_, rfl⟩ | ⟨hs, -⟩ | ⟨hs, -⟩ | ⟨hs, -⟩ | ⟨_, rfl⟩ |
    ⟨_, rfl⟩ | ⟨_, rfl⟩ | ⟨hs, -⟩ | hs
  all_goals first
    | exact absurd (by decide) hu
    | (simp [wdTakes, hs]; done)
    | (cases ho : k.others <;> simp_all [wdTakes])

theorem statTakes_known {k : Kwargs} (hw : WrittenOnce k) (h : AllKnown statisticsParameters k) :
    statTakes k = true := by
  have h1 : simTakes k = true := simTakes_known hw (fun n hn =>
    (by decide : ∀ m ∈ statisticsParameters, m ∈ similarityParameters) n (h n hn))
  have h2 : k.oneMinus.isSome = false := by
    cases hc : k.oneMinus.isSome with
    | false => rfl
    | true => exact absurd (h "one_minus".toList (mem_given.2 (by simp [hc]))) (by decide)
  have h3 : k.returnParts.isSome = false := by
    cases hc : k.returnParts.isSome with
    | false => rfl
    | true => exact absurd (h "return_parts".toList (mem_given.2 (by simp [hc]))) (by decide)
  simp [statTakes, h1, h2, h3]

theorem not_statTakes {k : Kwargs} (h : SomeUnknown statisticsParameters k) : statTakes k = false := by
  obtain ⟨n, hn, hu⟩ := h
  rw [mem_given] at hn
  rcases hn with ⟨_, rfl⟩ | ⟨_, rfl⟩ | ⟨hs, -⟩ | ⟨hs, -⟩ | ⟨_, rfl⟩ | ⟨_, rfl⟩ | ⟨_, rfl⟩ | ⟨hs, -⟩ |
    ⟨hs, -⟩ | ⟨hs, -⟩ | ⟨hs, -⟩ | hs
  all_goals first
    | exact absurd (by decide) hu
    | (simp [statTakes, simTakes, hs]; done)
    | (cases ho : k.others <;> simp_all [statTakes, simTakes])

/-- A metric of two segmentations in terms of the keywords it takes. -/
theorem metricOfPair_eq {R : Type _} (run : Kwargs → Seg → Seg → Py R) {defaults k : Kwargs}
    (hp : (defaults.update k).permuted.isSome) {a b : Seg} (ha : a.truthy = true)
    (hb : b.truthy = true) :
    metricOfPair run defaults k a b = run { defaults.update k with permuted := none } a b := by
  simp [metricOfPair, ha, hb, Kwargs.delPermuted, hp]

/-- Comparisons that always fail leave no parts. -/
theorem agreementParts_fails {cmp : Compare} (hc : ∀ fmt a b, ∃ e, cmp fmt a b = .error e)
    {fmt : BoundaryFormat} {coders : List Name} {items : Items} {p : AgrParts}
    (h : agreementParts cmp fmt coders items = .ok p) : p = {} := by
  have hstep : ∀ (m n : Name) (acc : AgrParts) (it : Name × Codings),
      ∃ e, agreeStep cmp fmt m n acc it = .error e := by
    intro m n acc it
    unfold agreeStep
    cases dictGet it.2 m with
    | none => exact ⟨_, rfl⟩
    | some sa =>
      cases dictGet it.2 n with
      | none => exact ⟨_, rfl⟩
      | some sb =>
        obtain ⟨e, he⟩ := hc fmt sa sb
        exact ⟨e, by simp only [he]⟩
  have hin : ∀ (m n : Name) (acc q : AgrParts),
      forLoop items acc (agreeStep cmp fmt m n) = .ok q → q = acc := by
    intro m n acc q hq
    cases items with
    | nil => simpa [forLoop, eq_comm] using hq
    | cons it rest =>
      obtain ⟨e, he⟩ := hstep m n acc it
      simp [forLoop, he] at hq
  have hout : ∀ (l : List (Name × Name)) (acc q : AgrParts),
      forLoop l acc (fun acc mn => forLoop items acc (agreeStep cmp fmt mn.1 mn.2)) = .ok q →
        q = acc := by
    intro l
    induction l with
    | nil => intro acc q hq; simpa [forLoop, eq_comm] using hq
    | cons mn rest ih =>
      intro acc q hq
      simp only [forLoop] at hq
      cases hx : forLoop items acc (agreeStep cmp fmt mn.1 mn.2) with
      | error e => simp [hx] at hq
      | ok s =>
        simp only [hx] at hq
        rw [ih s q hq, hin _ _ _ _ hx]
  exact hout _ _ _ h

/-- Comparisons that agree on the format in force give the same parts. -/
theorem agreementParts_congr {cmp cmp' : Compare} {fmt : BoundaryFormat}
    (h : ∀ a b, cmp fmt a b = cmp' fmt a b) (coders : List Name) (items : Items) :
    agreementParts cmp fmt coders items = agreementParts cmp' fmt coders items := by
  have : ∀ m n, agreeStep cmp fmt m n = agreeStep cmp' fmt m n := by
    intro m n
    funext acc it
    unfold agreeStep
    simp only [h]
  simp only [agreementParts, this]

theorem agrFormat_idem (f : BoundaryFormat) (data : AgrData) :
    agrFormat (agrFormat f data) data = agrFormat f data := by cases data <;> rfl

theorem fleissPi_congr {cmp cmp' : Compare} {f : BoundaryFormat} {data : AgrData}
    (h : ∀ a b, cmp (agrFormat f data) a b = cmp' (agrFormat f data) a b) (o : ClassOrder Name)
    (rp : Bool) : fleissPi o cmp (agrFormat f data) rp data = fleissPi o cmp' f rp data := by
  simp only [fleissPi, agrFormat_idem, agreementParts_congr h]

theorem fleissKappa_congr {cmp cmp' : Compare} {f : BoundaryFormat} {data : AgrData}
    (h : ∀ a b, cmp (agrFormat f data) a b = cmp' (agrFormat f data) a b) (o : ClassOrder Name)
    (rp : Bool) : fleissKappa o cmp (agrFormat f data) rp data = fleissKappa o cmp' f rp data := by
  simp only [fleissKappa, agrFormat_idem, agreementParts_congr h]

theorem bias_congr {cmp cmp' : Compare} {f : BoundaryFormat} {data : AgrData}
    (h : ∀ a b, cmp (agrFormat f data) a b = cmp' (agrFormat f data) a b) (o : ClassOrder Name)
    (rp : Bool) :
    artsteinPoesioBias o cmp (agrFormat f data) rp data = artsteinPoesioBias o cmp' f rp data := by
  simp only [artsteinPoesioBias, fleissPi_congr h, fleissKappa_congr h]

/-- Comparisons that always fail give no coefficient. -/
theorem coefficients_fail {cmp : Compare} (hc : ∀ fmt a b, ∃ e, cmp fmt a b = .error e)
    (o : ClassOrder Name) (f : BoundaryFormat) (rp : Bool) (data : AgrData) (out : AgrOut) :
    fleissPi o cmp f rp data ≠ .ok out ∧ fleissKappa o cmp f rp data ≠ .ok out ∧
      artsteinPoesioBias o cmp f rp data ≠ .ok out := by
  have hpi : ∀ rp out, fleissPi o cmp f rp data ≠ .ok out := by
    intro rp out h
    unfold fleissPi at h
    split at h
    · simp at h
    · cases hp : agreementParts cmp (agrFormat f data) (o.order [] (getCoders data)) data.items with
      | error e => simp [hp] at h
      | ok p =>
        rw [hp, agreementParts_fails hc hp] at h
        simp [show decimalActual {} = .error .decimalInvalidOperation from by decide +kernel] at h
  refine ⟨hpi rp out, fun h => ?_, fun h => ?_⟩
  · unfold fleissKappa at h
    split at h
    · simp at h
    · split at h
      · simp at h
      · cases hp : agreementParts cmp (agrFormat f data) (o.order [] (getCoders data)) data.items with
        | error e => simp [hp] at h
        | ok p =>
          rw [hp, agreementParts_fails hc hp] at h
          simp [show decimalActual {} = .error .decimalInvalidOperation from by decide +kernel] at h
  · unfold artsteinPoesioBias at h
    cases hp : fleissPi o cmp f true data with
    | error e => simp [hp] at h
    | ok x => exact hpi true x hp

end SegEval
