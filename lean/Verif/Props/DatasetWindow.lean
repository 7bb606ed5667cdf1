import Verif.Props.DatasetFormat
import Verif.Props.Window

/-!
# C79: Pk and WindowDiff of whole datasets in other formats
-/

namespace SegEval.Props

open SegEval Spec

theorem uses_some_window (kw : WinKw) (hw : ∀ w, kw.windowSize = some w → 1 ≤ w) (pr : List Bool) :
    ∃ k : ℕ, 1 ≤ k ∧ UsesWindow kw pr k := by
  unfold UsesWindow
  cases h : kw.windowSize with
  | none =>
    set w : ℤ := max 2 (kw.fncRound (((pr.length : ℚ) + 1) / ((pr.count true : ℚ) + 1) / 2)) with hw'
    have h2 : 2 ≤ w := le_max_left _ _
    exact ⟨w.toNat, by omega, by simp only; omega⟩
  | some w =>
    have := hw w h
    exact ⟨w.toNat, by omega, by simp only; omega⟩

/-- C79: Pk of every pair of codings of a dataset, or of two datasets, is the same in masses, NLTK
strings and labels; labels are not used for two segments (see `C05_pk_repeated_labels`). -/
theorem C79_pk (o : ClassOrder Name) (kw : WinKw) (hw : ∀ w, kw.windowSize = some w → 1 ≤ w)
    (k k' : BoundaryFormat) (permuted : Bool) (c c' : CallArgs) (q q' : Request) (hc : Asks c q)
    (hc' : Asks c' q') (h : SameRequestBy SameForPk q q') :
    fncMetric o (fun f => pk { kw with boundaryFormat := f }) k permuted c =
      fncMetric o (fun f => pk { kw with boundaryFormat := f }) k' permuted c' := by
  refine call_recoded o _ _ ?_ k k' permuted hc hc' h
  rintro fmt fmt' a b a' b' ⟨hf, ⟨pa, ha, ha'⟩, ua, ua'⟩ ⟨_, ⟨pb, hb, hb'⟩, ub, ub'⟩
  obtain ⟨n, _, hn⟩ := uses_some_window kw hw pb
  exact C05_pk_formats_partial kw fmt fmt' hf.1 hf.2 a b a' b' pa pb ha hb ha' hb' ua ub ua' ub' n hn

/-- C79: so is WindowDiff; equal neighbouring labels are the same object, and with the fix labels are
in tuples and neither start nor end with 0. -/
theorem C79_window_diff (o : ClassOrder Name) (kw : WinKw)
    (hw : ∀ w, kw.windowSize = some w → 1 ≤ w)
    (k k' : BoundaryFormat) (permuted : Bool) (c c' : CallArgs) (q q' : Request) (hc : Asks c q)
    (hc' : Asks c' q') (h : SameRequestBy (SameForWindowDiff kw.lamprierFix) q q') :
    fncMetric o (fun f => windowDiff { kw with boundaryFormat := f }) k permuted c =
      fncMetric o (fun f => windowDiff { kw with boundaryFormat := f }) k' permuted c' := by
  refine call_recoded o _ _ ?_ k k' permuted hc hc' h
  rintro fmt fmt' a b a' b' ⟨hf, ⟨pa, ha, ha'⟩, na, pda⟩ ⟨_, ⟨pb, hb, hb'⟩, nb, pdb⟩
  obtain ⟨n, h1, hn⟩ := uses_some_window kw hw pb
  exact C05_window_diff_formats_partial kw fmt fmt' hf.1 hf.2 a b a' b' pa pb ha hb ha' hb' na.1 nb.1
    na.2 nb.2 (fun hx => ⟨(pda hx).1, (pdb hx).1, (pda hx).2, (pdb hx).2⟩) n h1 hn

/-! ## Examples -/

/-- One item by two coders, as masses and as labels. -/
def exByMass : Items := [("i".toList, [("a".toList, massSeg [2, 3, 1]), ("b".toList, massSeg [4, 2])])]
def exByLabel : Items :=
  [("i".toList, [("a".toList, labelSeg [7, 7, 3, 3, 3, 9]), ("b".toList, labelSeg [1, 1, 1, 1, 2, 2])])]

theorem labelSeg_unrepeated (l : List ℤ) (h : ∀ j < l.length, ∀ i < j, l[i]? = l[j]? →
    ∀ m < j, i ≤ m → l[m]? = l[m + 1]?) : Unrepeated .position (labelSeg l) := by
  intro i j x y hij hx hy hv
  simp only [List.getElem?_map, Option.map_eq_some_iff] at hx hy
  obtain ⟨a, ha, rfl⟩ := hx
  obtain ⟨b, hb, rfl⟩ := hy
  refine ⟨is_tag hv rfl, fun m h1 h2 => ?_⟩
  have hab : l[i]? = l[j]? := by rw [ha, hb]; exact congrArg some hv
  have hm := h j (List.getElem?_eq_some_iff.1 hb).1 i hij hab m h2 h1
  have hl : (l.map (fun m => (⟨m, 0⟩ : Obj))).map Obj.val = l := by simp [Function.comp_def]
  rw [hl]
  rintro ⟨x, y, hx, hy, hne⟩
  rw [hx, hy] at hm
  exact hne (Option.some.inj hm)

/-- The data satisfy the hypotheses. -/
theorem exByMass_labels : SameRequestBy SameForPk (.dataset ⟨exByLabel, ∅, .position⟩)
    (.dataset ⟨exByMass, ∅, .mass⟩) := by
  have key : ∀ l m, l ≠ [] → m ≠ [] → (∀ x ∈ m, 0 < x) → changes l = massPat m →
      (∀ j < l.length, ∀ i < j, l[i]? = l[j]? → ∀ m < j, i ≤ m → l[m]? = l[m + 1]?) →
      SameForPk .position .mass (labelSeg l) (massSeg m) := by
    intro l m hl hm hp he hu
    exact ⟨⟨.inr (.inr rfl), .inl rfl⟩, ⟨_, labelSeg_means l hl, he ▸ massSeg_means m hm hp⟩,
      labelSeg_unrepeated l hu, trivial⟩
  refine .dataset _ _ (.cons ⟨rfl, .cons ⟨rfl, key _ _ ?_ ?_ ?_ ?_ ?_⟩
    (.cons ⟨rfl, key _ _ ?_ ?_ ?_ ?_ ?_⟩ .nil)⟩ .nil)
  all_goals decide +kernel

example : fncMetric ascN (fun f => pk { boundaryFormat := f }) .mass false
      { args := [.dataset ⟨exByLabel, ∅, .position⟩] } =
    fncMetric ascN (fun f => pk { boundaryFormat := f }) .mass false
      { args := [.dataset ⟨exByMass, ∅, .mass⟩] } ∧
    fncMetric ascN (fun f => windowDiff { boundaryFormat := f }) .mass false
      { args := [.dataset ⟨exByLabel, ∅, .position⟩] } =
    fncMetric ascN (fun f => windowDiff { boundaryFormat := f }) .mass false
      { args := [.dataset ⟨exByMass, ∅, .mass⟩] } ∧
    fncMetric ascN (fun f => pk { boundaryFormat := f }) .mass false
      { args := [.dataset ⟨exByLabel, ∅, .position⟩] } =
    .ok (.pairs [("i,a,b".toList, .num (.dec (3 / 4)))]) := by decide +kernel

end SegEval.Props
