import Verif.Lemmas.Pairing
import Verif.Spec.Preferred

namespace SegEval

open Spec

/-! ## Sorting both sides of a pairing does not make it dearer -/

/-- The total distance of two lists, element by element. -/
def costL (x y : List ℤ) : ℤ := (List.zipWith (fun a b => |a - b|) x y).sum

theorem costL_cons (a b : ℤ) (x y : List ℤ) : costL (a :: x) (b :: y) = |a - b| + costL x y := by
  simp [costL]

theorem four_points {a b c d : ℤ} (h : a ≤ b) (h' : c ≤ d) :
    |a - c| + |b - d| ≤ |a - d| + |b - c| := by
  rcases abs_cases (a - c) with h1 | h1 <;> rcases abs_cases (b - d) with h2 | h2 <;>
  rcases abs_cases (a - d) with h3 | h3 <;> rcases abs_cases (b - c) with h4 | h4 <;> omega

theorem costL_orderedInsert (h : ℤ) : ∀ (s : List ℤ) (x : ℤ) (xs : List ℤ),
    (x :: xs).Pairwise (· ≤ ·) → xs.length = s.length →
    costL (x :: xs) (s.orderedInsert (· ≤ ·) h) ≤ |x - h| + costL xs s
  | [], x, xs, _, hl => by
    have : xs = [] := List.length_eq_zero_iff.1 hl
    subst this
    simp [costL]
  | s0 :: s, x, xs, hx, hl => by
    rw [List.orderedInsert_cons]
    by_cases hle : h ≤ s0
    · rw [if_pos hle, costL_cons]
    · rw [if_neg hle]
      cases xs with
      | nil => simp at hl
      | cons x1 xs =>
        rw [costL_cons, costL_cons]
        have h1 := costL_orderedInsert h s x1 xs (List.pairwise_cons.1 hx).2 (by simpa using hl)
        have h2 : x ≤ x1 := (List.pairwise_cons.1 hx).1 x1 (by simp)
        have h3 := four_points h2 (le_of_lt (not_le.1 hle))
        omega

theorem costL_sort_right : ∀ (x y : List ℤ), x.Pairwise (· ≤ ·) → x.length = y.length →
    costL x (y.insertionSort (· ≤ ·)) ≤ costL x y
  | [], [], _, _ => le_refl _
  | [], _ :: _, _, hl => by simp at hl
  | _ :: _, [], _, hl => by simp at hl
  | a :: x, b :: y, hx, hl => by
    have hl' : x.length = y.length := by simpa using hl
    rw [List.insertionSort_cons, costL_cons]
    have h1 := costL_orderedInsert b (y.insertionSort (· ≤ ·)) a x hx
      (by rw [List.length_insertionSort]; exact hl')
    have h2 := costL_sort_right x y (List.pairwise_cons.1 hx).2 hl'
    omega

theorem costL_perm {z z' : List (ℤ × ℤ)} (h : z.Perm z') :
    costL (z.map Prod.fst) (z.map Prod.snd) = costL (z'.map Prod.fst) (z'.map Prod.snd) := by
  have e : ∀ z : List (ℤ × ℤ), costL (z.map Prod.fst) (z.map Prod.snd) =
      (z.map (fun p => |p.1 - p.2|)).sum := by
    intro z
    induction z with
    | nil => rfl
    | cons p z ih => simp only [List.map_cons, costL_cons, ih, List.sum_cons]
  rw [e, e]
  exact (h.map _).sum_eq

theorem sort_eq_of_perm {l r : List ℤ} (h : r.Perm l) (hr : r.Pairwise (· ≤ ·)) :
    l.insertionSort (· ≤ ·) = r :=
  List.Perm.eq_of_pairwise' (List.pairwise_insertionSort (r := (· ≤ ·)) _) hr
    ((List.perm_insertionSort _ _).trans h.symm)

theorem costL_sort (x y : List ℤ) (hl : x.length = y.length) :
    costL (x.insertionSort (· ≤ ·)) (y.insertionSort (· ≤ ·)) ≤ costL x y := by
  let r : ℤ × ℤ → ℤ × ℤ → Prop := fun p q => p.1 ≤ q.1
  have htot : Std.Total r := ⟨fun p q => le_total p.1 q.1⟩
  have htr : IsTrans (ℤ × ℤ) r := ⟨fun _ _ _ h h' => le_trans (a := _) h h'⟩
  have hdec : DecidableRel r := fun p q => inferInstanceAs (Decidable (p.1 ≤ q.1))
  set z := (x.zip y).insertionSort r with hz
  have hp : z.Perm (x.zip y) := List.perm_insertionSort r _
  have hs : z.Pairwise r := List.pairwise_insertionSort (r := r) _
  have e1 : (x.zip y).map Prod.fst = x := List.map_fst_zip (le_of_eq hl)
  have e2 : (x.zip y).map Prod.snd = y := List.map_snd_zip (le_of_eq hl.symm)
  have h1 : z.map Prod.fst = x.insertionSort (· ≤ ·) := by
    refine (sort_eq_of_perm ?_ ?_).symm
    · conv_rhs => rw [← e1]
      exact hp.map _
    · exact List.pairwise_map.2 hs
  have h2 : (z.map Prod.snd).insertionSort (· ≤ ·) = y.insertionSort (· ≤ ·) := by
    refine sort_eq_of_perm ?_ (List.pairwise_insertionSort (r := (· ≤ ·)) _)
    refine (List.perm_insertionSort _ _).trans ?_
    conv_lhs => rw [← e2]
    exact (hp.map _).symm
  have h3 := costL_sort_right (z.map Prod.fst) (z.map Prod.snd)
    (by rw [h1]; exact List.pairwise_insertionSort (r := (· ≤ ·)) _) (by simp)
  rw [h2, costL_perm hp, e1, e2, h1] at h3
  exact h3

/-! ## The order of `itertools.permutations` -/

/-- Lexicographic order of lists. -/
def LexLe : List ℤ → List ℤ → Prop
  | [], _ => True
  | _ :: _, [] => False
  | a :: x, b :: y => a < b ∨ (a = b ∧ LexLe x y)

theorem LexLe.refl : ∀ x : List ℤ, LexLe x x
  | [] => trivial
  | _ :: x => Or.inr ⟨rfl, LexLe.refl x⟩

theorem LexLe.antisymm : ∀ {x y : List ℤ}, LexLe x y → LexLe y x → x = y
  | [], [], _, _ => rfl
  | [], _ :: _, _, h => absurd h id
  | _ :: _, [], h, _ => absurd h id
  | a :: x, b :: y, h, h' => by
    rcases h with h | ⟨rfl, h⟩
    · rcases h' with h' | ⟨rfl, _⟩ <;> omega
    · rcases h' with h' | ⟨_, h'⟩
      · omega
      · rw [LexLe.antisymm h h']

theorem LexLe.of_append : ∀ {x y u v : List ℤ}, x.length = y.length →
    LexLe (x ++ u) (y ++ v) → LexLe x y
  | [], _, _, _, _, _ => trivial
  | _ :: _, [], _, _, hl, _ => by simp at hl
  | a :: x, b :: y, u, v, hl, h => by
    rcases h with h | ⟨rfl, h⟩
    · exact Or.inl h
    · exact Or.inr ⟨rfl, LexLe.of_append (by simpa using hl) h⟩

/-- A sorted list comes first among its permutations. -/
theorem LexLe.of_sorted : ∀ {x y : List ℤ}, x.Pairwise (· ≤ ·) → x.Perm y → LexLe x y
  | [], _, _, _ => trivial
  | a :: x, [], _, hp => by simpa using hp.length_eq
  | a :: x, b :: y, hx, hp => by
    have hb : b ∈ a :: x := hp.mem_iff.2 (by simp)
    rcases List.mem_cons.1 hb with rfl | hb
    · exact Or.inr ⟨rfl, LexLe.of_sorted (List.pairwise_cons.1 hx).2 ((List.perm_cons b).1 hp)⟩
    · have hle := (List.pairwise_cons.1 hx).1 b hb
      rcases lt_or_eq_of_le hle with h | rfl
      · exact Or.inl h
      · exact Or.inr ⟨rfl, LexLe.of_sorted (List.pairwise_cons.1 hx).2 ((List.perm_cons a).1 hp)⟩

theorem LexLe.append_right : ∀ {x y : List ℤ} (u : List ℤ), x.length = y.length → LexLe x y →
    LexLe (x ++ u) (y ++ u)
  | [], y, u, hl, _ => by
    have : y = [] := List.length_eq_zero_iff.1 hl.symm
    subst this
    exact LexLe.refl _
  | _ :: _, [], _, hl, _ => by simp at hl
  | a :: x, b :: y, u, hl, h => by
    rcases h with h | ⟨rfl, h⟩
    · exact Or.inl h
    · exact Or.inr ⟨rfl, LexLe.append_right u (by simpa using hl) h⟩

theorem picks_sorted : ∀ {l : List ℤ}, l.Pairwise (· < ·) →
    (picks l).Pairwise (fun p q => p.1 < q.1) ∧ ∀ p ∈ picks l, p.2.Pairwise (· < ·)
  | [], _ => ⟨List.Pairwise.nil, by simp [picks]⟩
  | x :: xs, h => by
    obtain ⟨h1, h2⟩ := List.pairwise_cons.1 h
    obtain ⟨i1, _⟩ := picks_sorted h2
    refine ⟨?_, ?_⟩
    · rw [picks, List.pairwise_cons]
      refine ⟨?_, List.pairwise_map.2 i1⟩
      intro q hq
      obtain ⟨p, hp, rfl⟩ := List.mem_map.1 hq
      obtain ⟨l1, l2, e, _⟩ := mem_picks.1 hp
      exact h1 p.1 (by rw [e]; simp)
    · intro p hp
      obtain ⟨l1, l2, e1, e2⟩ := mem_picks.1 hp
      rw [e2]
      rw [e1] at h
      exact h.sublist (List.Sublist.append_left (List.sublist_cons_self _ _) _)

theorem permsOf_sorted : ∀ (n : ℕ) {l : List ℤ}, l.Pairwise (· < ·) →
    (permsOf n l).Pairwise (fun x y => LexLe x y ∧ x ≠ y)
  | 0, l, _ => by simp [permsOf]
  | n + 1, l, h => by
    obtain ⟨h1, h2⟩ := picks_sorted h
    rw [permsOf, List.pairwise_flatMap]
    refine ⟨?_, ?_⟩
    · intro p hp
      rw [List.pairwise_map]
      exact (permsOf_sorted n (h2 p hp)).imp (fun hxy => ⟨Or.inr ⟨rfl, hxy.1⟩,
        fun e => hxy.2 (List.cons.inj e).2⟩)
    · refine h1.imp ?_
      intro p q hpq x hx y hy
      obtain ⟨x', _, rfl⟩ := List.mem_map.1 hx
      obtain ⟨y', _, rfl⟩ := List.mem_map.1 hy
      exact ⟨Or.inl hpq, fun e => ne_of_lt hpq (List.cons.inj e).1⟩

theorem sortedZ_pairwise (s : Finset ℤ) : (sortedZ s).Pairwise (· ≤ ·) := by
  rcases s with ⟨⟨l⟩, h⟩
  exact List.pairwise_insertionSort (r := (· ≤ ·)) l

theorem pairwise_lt_of_nodup {l : List ℤ} (h : l.Pairwise (· ≤ ·)) (hn : l.Nodup) :
    l.Pairwise (· < ·) :=
  (h.and hn).imp (fun hxy => lt_of_le_of_ne hxy.1 hxy.2)

theorem sortedZ_strict (s : Finset ℤ) : (sortedZ s).Pairwise (· < ·) :=
  pairwise_lt_of_nodup (sortedZ_pairwise s) (sortedZ_nodup s)

/-! ## The first cheapest pair of permutations -/

theorem search_first (L : List (List ℤ × List ℤ)) (hL : L ≠ []) :
    ∃ pre q suf, L = pre ++ q :: suf ∧
      L.foldl (fun x q => searchStep x q.1 q.2) none = some (pairDelta (pairsOf q), pairsOf q) ∧
      (∀ q' ∈ pre, pairDelta (pairsOf q) < pairDelta (pairsOf q')) ∧
      ∀ q' ∈ L, pairDelta (pairsOf q) ≤ pairDelta (pairsOf q') := by
  induction L using List.reverseRecOn with
  | nil => exact absurd rfl hL
  | append_singleton L x ih =>
    rw [List.foldl_append]
    by_cases h0 : L = []
    · subst h0
      exact ⟨[], x, [], rfl, rfl, by simp, by simp⟩
    · obtain ⟨pre, q, suf, e, h1, h2, h3⟩ := ih h0
      rw [h1]
      simp only [List.foldl_cons, List.foldl_nil, searchStep]
      by_cases hlt : pairDelta (pairsOf x) < pairDelta (pairsOf q)
      · refine ⟨L, x, [], rfl, if_pos hlt, ?_, ?_⟩
        · intro q' hq'
          exact lt_of_lt_of_le hlt (h3 q' hq')
        · intro q' hq'
          rcases List.mem_append.1 hq' with h | h
          · exact le_of_lt (lt_of_lt_of_le hlt (h3 q' h))
          · rw [List.mem_singleton.1 h]
      · refine ⟨pre, q, suf ++ [x], by rw [e]; simp, if_neg hlt, h2, ?_⟩
        intro q' hq'
        rcases List.mem_append.1 hq' with h | h
        · exact h3 q' h
        · rw [List.mem_singleton.1 h]; exact not_lt.1 hlt

theorem loops_sorted (A B : Finset ℤ) :
    ((permutations (sortedZ A)).flatMap
      (fun pa => (permutations (sortedZ B)).map (fun pb => (pa, pb)))).Pairwise
      (fun q q' => LexLe q.1 q'.1 ∧ (q.1 = q'.1 → LexLe q.2 q'.2)) := by
  rw [List.pairwise_flatMap]
  refine ⟨?_, ?_⟩
  · intro pa _
    rw [List.pairwise_map]
    exact (permsOf_sorted _ (sortedZ_strict B)).imp (fun h => ⟨LexLe.refl _, fun _ => h.1⟩)
  · refine (permsOf_sorted _ (sortedZ_strict A)).imp ?_
    intro p q hpq x hx y hy
    obtain ⟨x', _, rfl⟩ := List.mem_map.1 hx
    obtain ⟨y', _, rfl⟩ := List.mem_map.1 hy
    exact ⟨hpq.1, fun h => absurd h hpq.2⟩

/-- The search returns the pairs of permutations `pa`, `pb` that no cheapest pair of permutations
precedes. -/
theorem bestPairs_first (A B : Finset ℤ) : ∃ pa pb : List ℤ, pa.Perm (sortedZ A) ∧
    pb.Perm (sortedZ B) ∧ bestPairs A B = pairsOf (pa, pb) ∧
    ∀ qa qb : List ℤ, qa.Perm (sortedZ A) → qb.Perm (sortedZ B) →
      pairDelta (pairsOf (qa, qb)) ≤ pairDelta (pairsOf (pa, pb)) →
      LexLe pa qa ∧ (pa = qa → LexLe pb qb) := by
  have hne : ((permutations (sortedZ A)).flatMap
      (fun pa => (permutations (sortedZ B)).map (fun pb => (pa, pb)))) ≠ [] := by
    intro h0
    have : (sortedZ A, sortedZ B) ∈ ((permutations (sortedZ A)).flatMap
        (fun pa => (permutations (sortedZ B)).map (fun pb => (pa, pb)))) := by
      simp only [List.mem_flatMap, List.mem_map]
      exact ⟨_, permutations_self _, _, permutations_self _, rfl⟩
    rw [h0] at this; simp at this
  obtain ⟨pre, q, suf, e, h1, h2, h3⟩ := search_first _ hne
  rw [← bestSubstitutions_eq] at h1
  have hq : q ∈ ((permutations (sortedZ A)).flatMap
      (fun pa => (permutations (sortedZ B)).map (fun pb => (pa, pb)))) := by rw [e]; simp
  simp only [List.mem_flatMap, List.mem_map] at hq
  obtain ⟨pa, hpa, pb, hpb, rfl⟩ := hq
  refine ⟨pa, pb, mem_permutations.1 hpa, mem_permutations.1 hpb, by rw [bestPairs, h1], ?_⟩
  intro qa qb hqa hqb hle
  have hmem : (qa, qb) ∈ ((permutations (sortedZ A)).flatMap
      (fun pa => (permutations (sortedZ B)).map (fun pb => (pa, pb)))) := by
    simp only [List.mem_flatMap, List.mem_map]
    exact ⟨_, mem_permutations.2 hqa, _, mem_permutations.2 hqb, rfl⟩
  have hs := loops_sorted A B
  rw [e] at hmem hs
  rcases List.mem_append.1 hmem with h | h
  · exact absurd hle (not_le.2 (h2 _ h))
  · rcases List.mem_cons.1 h with h | h
    · obtain ⟨rfl, rfl⟩ := Prod.mk.inj h
      exact ⟨LexLe.refl _, fun _ => LexLe.refl _⟩
    · exact (List.pairwise_cons.1 (List.pairwise_append.1 hs).2.1).1 _ h

theorem pairDelta_pairsOf {pa pb : List ℤ} (ha : pa.Nodup) (hb : pb.Nodup) :
    pairDelta (pairsOf (pa, pb)) = costL pa pb := by
  have hnz : (pa.zip pb).Nodup := by
    rcases le_total pa.length pb.length with hl | hl
    · have : ((pa.zip pb).map Prod.fst).Nodup := by rw [List.map_fst_zip hl]; exact ha
      exact List.Nodup.of_map _ this
    · have : ((pa.zip pb).map Prod.snd).Nodup := by rw [List.map_snd_zip hl]; exact hb
      exact List.Nodup.of_map _ this
  rw [pairDelta, pairsOf, List.sum_toFinset _ hnz, costL, List.zip, List.map_zipWith]

theorem costL_take_right (x y : List ℤ) (n : ℕ) (h : x.length ≤ n) :
    costL x (y.take n) = costL x y := by
  rw [costL, costL]
  congr 1
  apply List.ext_getElem?
  intro i
  simp only [List.getElem?_zipWith, List.getElem?_take]
  by_cases hi : i < n
  · rw [if_pos hi]
  · rw [if_neg hi, List.getElem?_eq_none (show x.length ≤ i by omega)]

theorem costL_swap (x y : List ℤ) : costL x y = costL y x := by
  rw [costL, costL, List.zipWith_comm]
  congr 2
  funext a b
  exact abs_sub_comm _ _

/-- Sort the first `n` elements. -/
def sortFirst (n : ℕ) (l : List ℤ) : List ℤ := (l.take n).insertionSort (· ≤ ·) ++ l.drop n

theorem sortFirst_perm (n : ℕ) (l : List ℤ) : (sortFirst n l).Perm l := by
  have h := (List.perm_insertionSort (· ≤ ·) (l.take n)).append_right (l.drop n)
  rw [List.take_append_drop] at h
  exact h

theorem sortFirst_take (n : ℕ) (l : List ℤ) :
    (sortFirst n l).take n = (l.take n).insertionSort (· ≤ ·) := by
  by_cases h : n ≤ l.length
  · rw [sortFirst, List.take_append_of_le_length (by simp [h])]
    exact List.take_of_length_le (by simp)
  · rw [sortFirst, List.drop_of_length_le (by omega), List.append_nil]
    exact List.take_of_length_le (by simp)

theorem sortFirst_le (n : ℕ) (l : List ℤ) : LexLe (sortFirst n l) l := by
  have h := LexLe.append_right (l.drop n) (by simp)
    (LexLe.of_sorted (List.pairwise_insertionSort (r := (· ≤ ·)) (l.take n))
      (List.perm_insertionSort (· ≤ ·) (l.take n)))
  rw [List.take_append_drop] at h
  exact h

theorem sort_of_perm_sortedZ {A : Finset ℤ} {pa : List ℤ} (h : pa.Perm (sortedZ A)) :
    pa.insertionSort (· ≤ ·) = sortedZ A :=
  sort_eq_of_perm h.symm (sortedZ_pairwise A)

/-- Sorting the smaller side and the used part of the larger one does not make a pairing dearer. -/
theorem costL_sortFirst {A : Finset ℤ} {pa pb : List ℤ} (ha : pa.Perm (sortedZ A))
    (hl : A.card ≤ pb.length) :
    costL (sortedZ A) (sortFirst A.card pb) ≤ costL pa pb := by
  have hla : pa.length = A.card := by rw [ha.length_eq, sortedZ_length]
  rw [← costL_take_right (sortedZ A) _ A.card (by rw [sortedZ_length]),
    ← costL_take_right pa _ A.card (by rw [hla]), sortFirst_take, ← sort_of_perm_sortedZ ha]
  exact costL_sort _ _ (by simp [hla, hl])

/-- Sets of sorted lists are compared like the lists. -/
theorem notAfter_of_lexLe : ∀ {x y : List ℤ}, x.length = y.length → x.Pairwise (· < ·) →
    y.Pairwise (· < ·) → LexLe x y → NotAfter x.toFinset y.toFinset
  | [], y, hl, _, _, _ => by
    have : y = [] := List.length_eq_zero_iff.1 hl.symm
    subst this
    intro z hz; simp at hz
  | _ :: _, [], hl, _, _, _ => by simp at hl
  | a :: x, b :: y, hl, hx, hy, h => by
    obtain ⟨hx1, hx2⟩ := List.pairwise_cons.1 hx
    obtain ⟨hy1, hy2⟩ := List.pairwise_cons.1 hy
    intro z hz
    simp only [Finset.mem_sdiff, List.mem_toFinset, List.mem_cons, not_or] at hz
    obtain ⟨hz1, hz2, hz3⟩ := hz
    rcases h with h | ⟨rfl, h⟩
    · refine ⟨a, ?_, ?_⟩
      · simp only [Finset.mem_sdiff, List.mem_toFinset, List.mem_cons, true_or, true_and, not_or]
        exact ⟨ne_of_lt h, fun hm => by have := hy1 a hm; omega⟩
      · rcases hz1 with rfl | hz1
        · exact h
        · exact lt_trans h (hy1 z hz1)
    · rcases hz1 with rfl | hz1
      · exact absurd rfl hz2
      · obtain ⟨w, hw, hwz⟩ := notAfter_of_lexLe (by simpa using hl) hx2 hy2 h z
          (by simp only [Finset.mem_sdiff, List.mem_toFinset]; exact ⟨hz1, hz3⟩)
        simp only [Finset.mem_sdiff, List.mem_toFinset] at hw
        refine ⟨w, ?_, hwz⟩
        simp only [Finset.mem_sdiff, List.mem_toFinset, List.mem_cons, not_or]
        exact ⟨Or.inr hw.1, fun e => by have := hx1 w hw.1; omega, hw.2⟩

theorem uncrossed_zip {x y : List ℤ} (hx : x.Pairwise (· < ·)) (hy : y.Pairwise (· < ·)) :
    Uncrossed (pairsOf (x, y)) := by
  intro p hp q hq h
  simp only [pairsOf, List.mem_toFinset] at hp hq
  obtain ⟨i, hi⟩ := List.mem_iff_getElem?.1 hp
  obtain ⟨j, hj⟩ := List.mem_iff_getElem?.1 hq
  rw [List.getElem?_zip_eq_some] at hi hj
  obtain ⟨hi1, ei1⟩ := List.getElem?_eq_some_iff.1 hi.1
  obtain ⟨hi2, ei2⟩ := List.getElem?_eq_some_iff.1 hi.2
  obtain ⟨hj1, ej1⟩ := List.getElem?_eq_some_iff.1 hj.1
  obtain ⟨hj2, ej2⟩ := List.getElem?_eq_some_iff.1 hj.2
  rcases lt_trichotomy i j with hij | rfl | hij
  · have := List.pairwise_iff_getElem.1 hy i j hi2 hj2 hij
    omega
  · rw [ei1] at ej1; omega
  · have := List.pairwise_iff_getElem.1 hx j i hj1 hi1 hij
    omega

theorem pairsOf_take_right {x y : List ℤ} {n : ℕ} (h : x.length ≤ n) :
    pairsOf (x, y.take n) = pairsOf (x, y) := by
  rw [pairsOf, pairsOf]
  congr 1
  apply List.ext_getElem?
  intro i
  simp only [List.zip, List.getElem?_zipWith, List.getElem?_take]
  by_cases hi : i < n
  · rw [if_pos hi]
  · rw [if_neg hi, List.getElem?_eq_none (show x.length ≤ i by omega)]

theorem pairsOf_take_left {x y : List ℤ} {n : ℕ} (h : y.length ≤ n) :
    pairsOf (x.take n, y) = pairsOf (x, y) := by
  rw [pairsOf, pairsOf]
  congr 1
  apply List.ext_getElem?
  intro i
  simp only [List.zip, List.getElem?_zipWith, List.getElem?_take]
  by_cases hi : i < n
  · rw [if_pos hi]
  · rw [if_neg hi, List.getElem?_eq_none (show y.length ≤ i by omega)]
    cases x[i]? <;> rfl

theorem typesOf_pairsOf {x y : List ℤ} (h : x.length = y.length) :
    typesOf (pairsOf (x, y)) = x.toFinset ∪ y.toFinset := by
  have e1 : (x.zip y).map Prod.fst = x := List.map_fst_zip (le_of_eq h)
  have e2 : (x.zip y).map Prod.snd = y := List.map_snd_zip (le_of_eq h.symm)
  rw [typesOf, pairsOf]
  congr 1
  · conv_rhs => rw [← e1]
    ext z; simp only [Finset.mem_image, List.mem_toFinset, List.mem_map]
  · conv_rhs => rw [← e2]
    ext z; simp only [Finset.mem_image, List.mem_toFinset, List.mem_map]

theorem toFinset_of_perm_sortedZ {A : Finset ℤ} {pa : List ℤ} (h : pa.Perm (sortedZ A)) :
    pa.toFinset = A := by
  ext z; rw [List.mem_toFinset, h.mem_iff, mem_sortedZ]

theorem toFinset_sort (l : List ℤ) : (l.insertionSort (· ≤ ·)).toFinset = l.toFinset := by
  ext z; rw [List.mem_toFinset, List.mem_toFinset, (List.perm_insertionSort _ _).mem_iff]

theorem notAfter_union {A U V : Finset ℤ} (h : NotAfter U V) (hU : _root_.Disjoint A U) :
    NotAfter (A ∪ U) (A ∪ V) := by
  rw [Finset.disjoint_left] at hU
  intro x hx
  simp only [Finset.mem_sdiff, Finset.mem_union, not_or] at hx
  obtain ⟨y, hy, hyx⟩ := h x (by
    rw [Finset.mem_sdiff]
    exact ⟨hx.1.resolve_left hx.2.1, hx.2.2⟩)
  rw [Finset.mem_sdiff] at hy
  refine ⟨y, ?_, hyx⟩
  simp only [Finset.mem_sdiff, Finset.mem_union, not_or]
  exact ⟨Or.inr hy.1, fun hA => hU hA hy.1, hy.2⟩

/-- The search reports the preferred pairing. -/
theorem bestPairs_preferred (A B : Finset ℤ) (hd : _root_.Disjoint A B) :
    Preferred A B (bestPairs A B) := by
  have hc := bestPairs_cheapest A B
  obtain ⟨pa, pb, hpa, hpb, e, hfirst⟩ := bestPairs_first A B
  have hna : pa.Nodup := hpa.nodup_iff.2 (sortedZ_nodup A)
  have hnb : pb.Nodup := hpb.nodup_iff.2 (sortedZ_nodup B)
  have hla : pa.length = A.card := by rw [hpa.length_eq, sortedZ_length]
  have hlb : pb.length = B.card := by rw [hpb.length_eq, sortedZ_length]
  have hnd : ∀ {X : Finset ℤ} {q : List ℤ}, q.Perm (sortedZ X) → q.Nodup :=
    fun h => h.nodup_iff.2 (sortedZ_nodup _)
  have hcost : ∀ {qa qb : List ℤ}, qa.Perm (sortedZ A) → qb.Perm (sortedZ B) →
      pairDelta (pairsOf (qa, qb)) = costL qa qb :=
    fun h h' => pairDelta_pairsOf (hnd h) (hnd h')
  have hstrict : ∀ (n : ℕ) {q : List ℤ}, q.Nodup →
      ((q.take n).insertionSort (· ≤ ·)).Pairwise (· < ·) := fun n q hq =>
    pairwise_lt_of_nodup (List.pairwise_insertionSort (r := (· ≤ ·)) _)
      ((List.perm_insertionSort _ _).nodup_iff.2 (hq.sublist (List.take_sublist _ _)))
  rcases le_total A.card B.card with hle | hle
  · have key : ∀ qa qb : List ℤ, qa.Perm (sortedZ A) → qb.Perm (sortedZ B) →
        pairDelta (pairsOf (qa, qb)) ≤ pairDelta (pairsOf (pa, pb)) →
        LexLe pa (sortedZ A) ∧ (pa = sortedZ A → LexLe pb (sortFirst A.card qb)) := by
      intro qa qb hqa hqb hq
      have hlq : qb.length = B.card := by rw [hqb.length_eq, sortedZ_length]
      have hp' := (sortFirst_perm A.card qb).trans hqb
      refine hfirst _ _ (List.Perm.refl _) hp' ?_
      rw [hcost (List.Perm.refl _) hp']
      rw [hcost hqa hqb] at hq
      exact le_trans (costL_sortFirst hqa (by omega)) hq
    obtain ⟨k1, k2⟩ := key pa pb hpa hpb (le_refl _)
    have epa : pa = sortedZ A := k1.antisymm (LexLe.of_sorted (sortedZ_pairwise A) hpa.symm)
    have epb : pb = sortFirst A.card pb := (k2 epa).antisymm (sortFirst_le _ _)
    have etake : pb.take A.card = (pb.take A.card).insertionSort (· ≤ ·) := by
      rw [← sortFirst_take, ← epb]
    have e' : bestPairs A B = pairsOf (sortedZ A, pb.take A.card) := by
      rw [e, pairsOf_take_right (by rw [sortedZ_length]), epa]
    have types : ∀ {qa qb : List ℤ}, qa.Perm (sortedZ A) → qb.Perm (sortedZ B) →
        typesOf (pairsOf (qa, qb)) = A ∪ (qb.take A.card).toFinset := by
      intro qa qb hqa hqb
      have hl1 : qa.length = A.card := by rw [hqa.length_eq, sortedZ_length]
      have hl2 : qb.length = B.card := by rw [hqb.length_eq, sortedZ_length]
      rw [← pairsOf_take_right (n := A.card) (by omega), typesOf_pairsOf (by simp; omega),
        toFinset_of_perm_sortedZ hqa]
    refine ⟨hc, ?_, ?_⟩
    · rw [e']
      exact uncrossed_zip (sortedZ_strict A) (by rw [etake]; exact hstrict _ hnb)
    · intro S' hS'
      obtain ⟨qa, qb, hqa, hqb, rfl⟩ := pairing_zip hS'.1
      have hlq : qb.length = B.card := by rw [hqb.length_eq, sortedZ_length]
      have h2 : pairDelta (pairsOf (qa, qb)) ≤ pairDelta (pairsOf (pa, pb)) := by
        have := hS'.2 _ hc.1
        rw [e] at this
        exact this
      have h3 := (key qa qb hqa hqb h2).2 epa
      rw [e, types hpa hpb, types hqa hqb]
      refine notAfter_union ?_ ?_
      · rw [← toFinset_sort (qb.take A.card)]
        refine notAfter_of_lexLe (by simp; omega) (by rw [etake]; exact hstrict _ hnb)
          (hstrict _ (hnd hqb)) ?_
        refine LexLe.of_append (u := pb.drop A.card) (v := qb.drop A.card) (by simp; omega) ?_
        rw [List.take_append_drop]
        exact h3
      · rw [Finset.disjoint_left] at hd ⊢
        intro x hx hx'
        exact hd hx ((mem_sortedZ B x).1 (hpb.mem_iff.1 (List.mem_of_mem_take
          (List.mem_toFinset.1 hx'))))
  · have key : ∀ qa qb : List ℤ, qa.Perm (sortedZ A) → qb.Perm (sortedZ B) →
        pairDelta (pairsOf (qa, qb)) ≤ pairDelta (pairsOf (pa, pb)) →
        LexLe pa (sortFirst B.card qa) ∧ (pa = sortFirst B.card qa → LexLe pb (sortedZ B)) := by
      intro qa qb hqa hqb hq
      have hlq : qa.length = A.card := by rw [hqa.length_eq, sortedZ_length]
      have hp' := (sortFirst_perm B.card qa).trans hqa
      refine hfirst _ _ hp' (List.Perm.refl _) ?_
      rw [hcost hp' (List.Perm.refl _), costL_swap]
      rw [hcost hqa hqb, costL_swap] at hq
      exact le_trans (costL_sortFirst hqb (by omega)) hq
    obtain ⟨k1, k2⟩ := key pa pb hpa hpb (le_refl _)
    have epa : pa = sortFirst B.card pa := k1.antisymm (sortFirst_le _ _)
    have epb : pb = sortedZ B :=
      (k2 epa).antisymm (LexLe.of_sorted (sortedZ_pairwise B) hpb.symm)
    have etake : pa.take B.card = (pa.take B.card).insertionSort (· ≤ ·) := by
      rw [← sortFirst_take, ← epa]
    have e' : bestPairs A B = pairsOf (pa.take B.card, sortedZ B) := by
      rw [e, pairsOf_take_left (by rw [sortedZ_length]), epb]
    have types : ∀ {qa qb : List ℤ}, qa.Perm (sortedZ A) → qb.Perm (sortedZ B) →
        typesOf (pairsOf (qa, qb)) = B ∪ (qa.take B.card).toFinset := by
      intro qa qb hqa hqb
      have hl1 : qa.length = A.card := by rw [hqa.length_eq, sortedZ_length]
      have hl2 : qb.length = B.card := by rw [hqb.length_eq, sortedZ_length]
      rw [← pairsOf_take_left (n := B.card) (by omega), typesOf_pairsOf (by simp; omega),
        toFinset_of_perm_sortedZ hqb, Finset.union_comm]
    refine ⟨hc, ?_, ?_⟩
    · rw [e']
      exact uncrossed_zip (by rw [etake]; exact hstrict _ hna) (sortedZ_strict B)
    · intro S' hS'
      obtain ⟨qa, qb, hqa, hqb, rfl⟩ := pairing_zip hS'.1
      have hlq : qa.length = A.card := by rw [hqa.length_eq, sortedZ_length]
      have h2 : pairDelta (pairsOf (qa, qb)) ≤ pairDelta (pairsOf (pa, pb)) := by
        have := hS'.2 _ hc.1
        rw [e] at this
        exact this
      have h3 := (key qa qb hqa hqb h2).1
      rw [e, types hpa hpb, types hqa hqb]
      refine notAfter_union ?_ ?_
      · rw [← toFinset_sort (qa.take B.card)]
        refine notAfter_of_lexLe (by simp; omega) (by rw [etake]; exact hstrict _ hna)
          (hstrict _ (hnd hqa)) ?_
        refine LexLe.of_append (u := pa.drop B.card) (v := qa.drop B.card) (by simp; omega) ?_
        rw [List.take_append_drop]
        exact h3
      · rw [Finset.disjoint_left] at hd ⊢
        intro x hx hx'
        exact hd ((mem_sortedZ A x).1 (hpa.mem_iff.1 (List.mem_of_mem_take
          (List.mem_toFinset.1 hx')))) hx

end SegEval
