import Verif.Spec.Format
import Mathlib.Algebra.Order.BigOperators.Group.List
import Mathlib.Algebra.Order.Group.Int
import Mathlib.Tactic.Ring
import Mathlib.Tactic.Linarith

namespace SegEval

open Spec

/-! ## Label changes -/

/-- The pattern of label changes. -/
def changes : List ℤ → List Bool
  | x :: y :: rest => decide (x ≠ y) :: changes (y :: rest)
  | _ => []

theorem changes_length : ∀ l : List ℤ, (changes l).length = l.length - 1
  | [] => rfl
  | [_] => rfl
  | x :: y :: rest => by simp [changes, changes_length (y :: rest)]

theorem changes_getElem? : ∀ (l : List ℤ) (i : ℕ), (changes l)[i]? = some true ↔ ChangeAt l i
  | [], i => by simp [changes, ChangeAt]
  | [x], i => by simp [changes, ChangeAt]
  | x :: y :: rest, 0 => by simp [changes, ChangeAt]
  | x :: y :: rest, i + 1 => by
    have := changes_getElem? (y :: rest) i
    simp only [changes, List.getElem?_cons_succ, this, ChangeAt]

/-- Two Boolean lists of the same length that are true at the same places are equal. -/
theorem pat_ext {p q : List Bool} (hl : p.length = q.length)
    (h : ∀ i : ℕ, p[i]? = some true ↔ q[i]? = some true) : p = q := by
  apply List.ext_getElem?
  intro i
  have hi := h i
  by_cases hp : i < p.length
  · have hq : i < q.length := hl ▸ hp
    rw [List.getElem?_eq_getElem hp, List.getElem?_eq_getElem hq] at hi ⊢
    simp only [Option.some.injEq, ← Bool.eq_iff_iff] at hi ⊢
    exact hi
  · rw [List.getElem?_eq_none (by omega), List.getElem?_eq_none (by omega)]

theorem labelsMean_iff (l : List ℤ) (pat : List Bool) :
    LabelsMean l pat ↔ l ≠ [] ∧ pat = changes l := by
  constructor
  · rintro ⟨h1, h2⟩
    refine ⟨by rintro rfl; simp at h1, pat_ext ?_ ?_⟩
    · rw [changes_length]; omega
    · intro i; rw [h2, changes_getElem?]
  · rintro ⟨h1, rfl⟩
    refine ⟨?_, fun i => changes_getElem? l i⟩
    rw [changes_length]
    have := List.length_pos_of_ne_nil h1
    omega

/-! ## Runs -/

/-- Run lengths from a change pattern. -/
def runsPat : ℕ → List Bool → List ℕ
  | n, [] => [n]
  | n, true :: bs => n :: runsPat 1 bs
  | n, false :: bs => runsPat (n + 1) bs

theorem runsAux_eq (c : ℤ) (n : ℕ) (l : List ℤ) : runsAux c n l = runsPat n (changes (c :: l)) := by
  induction l generalizing c n with
  | nil => rfl
  | cons y ys ih =>
    by_cases h : y = c
    · subst h; simp [runsAux, changes, runsPat, ih]
    · simp [runsAux, changes, runsPat, ih, h, Ne.symm h]

theorem runs_eq (l : List ℤ) (h : l ≠ []) : runs l = runsPat 1 (changes l) := by
  cases l with
  | nil => exact absurd rfl h
  | cons x xs => exact runsAux_eq x 1 xs

theorem runsPat_ne_nil (n : ℕ) (p : List Bool) : runsPat n p ≠ [] := by
  induction p generalizing n with
  | nil => simp [runsPat]
  | cons b bs ih => cases b <;> simp [runsPat, ih]

theorem runsPat_pos (n : ℕ) (hn : 0 < n) (p : List Bool) : ∀ m ∈ runsPat n p, 0 < m := by
  induction p generalizing n with
  | nil => simpa [runsPat] using hn
  | cons b bs ih =>
    cases b
    · exact ih (n + 1) (by omega)
    · intro m hm
      simp only [runsPat, List.mem_cons] at hm
      rcases hm with rfl | hm
      · exact hn
      · exact ih 1 (by omega) m hm

theorem runsPat_sum (n : ℕ) (p : List Bool) : (runsPat n p).sum = n + p.length := by
  induction p generalizing n with
  | nil => simp [runsPat]
  | cons b bs ih => cases b <;> simp [runsPat, ih] <;> omega

/-- The pattern described by positive masses. -/
def massPat : List ℤ → List Bool
  | [] => []
  | [m] => List.replicate (m - 1).toNat false
  | m :: m' :: rest => List.replicate (m - 1).toNat false ++ true :: massPat (m' :: rest)

theorem massPat_cons (m : ℤ) (l : List ℤ) (hl : l ≠ []) :
    massPat (m :: l) = List.replicate (m - 1).toNat false ++ true :: massPat l := by
  cases l with
  | nil => exact absurd rfl hl
  | cons _ _ => rfl

theorem runsPat_replicate (n k : ℕ) (p : List Bool) :
    runsPat n (List.replicate k false ++ p) = runsPat (n + k) p := by
  induction k generalizing n with
  | zero => simp
  | succ k ih => simp [List.replicate_succ, runsPat, ih]; congr 1; omega

theorem runsPat_massPat (l : List ℤ) (h : ∀ m ∈ l, 0 < m) (hl : l ≠ []) :
    (runsPat 1 (massPat l)).map Int.ofNat = l := by
  induction l with
  | nil => exact absurd rfl hl
  | cons m l ih =>
    have hm : 0 < m := h m (by simp)
    by_cases hl' : l = []
    · subst hl'
      have := runsPat_replicate 1 (m - 1).toNat []
      simp only [List.append_nil] at this
      simp only [massPat, this, runsPat, List.map_cons, List.map_nil, Int.ofNat_eq_natCast]
      congr 1; omega
    · rw [massPat_cons m l hl', runsPat_replicate]
      simp only [runsPat, List.map_cons, Int.ofNat_eq_natCast]
      rw [ih (fun m hm => h m (by simp [hm])) hl']; congr 1; omega

theorem massPat_runsPat (n : ℕ) (hn : 0 < n) (p : List Bool) :
    massPat ((runsPat n p).map Int.ofNat) = List.replicate (n - 1) false ++ p := by
  induction p generalizing n with
  | nil =>
    simp only [runsPat, List.map_cons, List.map_nil, massPat, List.append_nil]
    congr 1; simp only [Int.ofNat_eq_natCast]; omega
  | cons b bs ih =>
    cases b
    · rw [runsPat, ih (n + 1) (by omega)]
      have : n + 1 - 1 = (n - 1) + 1 := by omega
      rw [this, List.replicate_succ', List.append_assoc]; rfl
    · rw [runsPat, List.map_cons, massPat_cons _ _ (by simpa using runsPat_ne_nil 1 bs),
        ih 1 (by omega)]
      have : (Int.ofNat n - 1).toNat = n - 1 := by simp only [Int.ofNat_eq_natCast]; omega
      simp

theorem massPat_length (l : List ℤ) (h : ∀ m ∈ l, 0 < m) (hl : l ≠ []) :
    ((massPat l).length : ℤ) + 1 = l.sum := by
  induction l with
  | nil => exact absurd rfl hl
  | cons m l ih =>
    have hm : 0 < m := h m (by simp)
    by_cases hl' : l = []
    · subst hl'; simp [massPat]; omega
    · rw [massPat_cons m l hl']
      have := ih (fun m hm => h m (by simp [hm])) hl'
      simp only [List.length_append, List.length_replicate, List.length_cons, List.sum_cons]
      push_cast; omega

theorem innerEnd_cons (m : ℤ) (l : List ℤ) (e : ℤ) :
    InnerEnd (m :: l) e ↔ l ≠ [] ∧ (e = m ∨ InnerEnd l (e - m)) := by
  constructor
  · rintro ⟨before, after, h1, h2, h3, h4⟩
    cases before with
    | nil => exact absurd rfl h2
    | cons b bs =>
      simp only [List.cons_append, List.cons.injEq] at h1
      obtain ⟨rfl, rfl⟩ := h1
      refine ⟨by simp [h3], ?_⟩
      by_cases hbs : bs = []
      · left; subst hbs; simpa using h4.symm
      · right; refine ⟨bs, after, rfl, hbs, h3, ?_⟩
        simp only [List.sum_cons] at h4; omega
  · rintro ⟨hl, rfl | ⟨before, after, h1, h2, h3, h4⟩⟩
    · exact ⟨[e], l, rfl, by simp, hl, by simp⟩
    · refine ⟨m :: before, after, by simp [h1], by simp, h3, ?_⟩
      simp only [List.sum_cons]; omega

theorem innerEnd_pos (l : List ℤ) (h : ∀ m ∈ l, 0 < m) (e : ℤ) (he : InnerEnd l e) : 0 < e := by
  obtain ⟨before, after, h1, h2, h3, h4⟩ := he
  cases before with
  | nil => exact absurd rfl h2
  | cons b bs =>
    have hb : 0 < b := h b (by simp [h1])
    have : 0 ≤ bs.sum := List.sum_nonneg (fun x hx => (h x (by simp [h1, hx])).le)
    simp only [List.sum_cons] at h4; omega

theorem massPat_getElem? (l : List ℤ) (h : ∀ m ∈ l, 0 < m) (i : ℕ) :
    (massPat l)[i]? = some true ↔ InnerEnd l ((i : ℤ) + 1) := by
  induction l generalizing i with
  | nil =>
    simp only [massPat, List.getElem?_nil, reduceCtorEq, false_iff]
    rintro ⟨before, after, h1, h2, _⟩
    exact h2 (by simpa using (List.append_eq_nil_iff.1 h1.symm).1)
  | cons m l ih =>
    have hm : 0 < m := h m (by simp)
    rw [innerEnd_cons]
    by_cases hl' : l = []
    · subst hl'
      simp only [massPat, ne_eq, not_true_eq_false, false_and, iff_false]
      intro hc
      have := List.mem_of_getElem? hc
      simp at this
    · rw [massPat_cons m l hl']
      simp only [ne_eq, hl', not_false_eq_true, true_and]
      have hl2 : ∀ m ∈ l, 0 < m := fun m hm => h m (by simp [hm])
      rcases lt_trichotomy (i : ℤ) (m - 1) with hi | hi | hi
      · rw [List.getElem?_append_left (by simp; omega)]
        rw [List.getElem?_replicate]
        constructor
        · split <;> simp
        · rintro (h1 | h1)
          · omega
          · have := innerEnd_pos l hl2 _ h1; omega
      · rw [List.getElem?_append_right (by simp; omega)]
        have : i - (List.replicate (m - 1).toNat false).length = 0 := by simp; omega
        rw [this]
        simp only [List.getElem?_cons_zero, true_iff]
        left; omega
      · rw [List.getElem?_append_right (by simp; omega)]
        obtain ⟨k, hk⟩ : ∃ k, i - (List.replicate (m - 1).toNat false).length = k + 1 :=
          ⟨i - (m - 1).toNat - 1, by simp; omega⟩
        rw [hk, List.getElem?_cons_succ, ih hl2 k]
        have hk' : (k : ℤ) + 1 = (i : ℤ) + 1 - m := by
          simp only [List.length_replicate] at hk; omega
        rw [hk']
        constructor
        · exact fun h1 => Or.inr h1
        · rintro (h1 | h1)
          · omega
          · exact h1

theorem massMeans_iff (l : List ℤ) (pat : List Bool) :
    MassMeans l pat ↔ l ≠ [] ∧ (∀ m ∈ l, 0 < m) ∧ pat = massPat l := by
  constructor
  · rintro ⟨h1, h2, h3, h4⟩
    refine ⟨h1, h2, pat_ext ?_ ?_⟩
    · have := massPat_length l h2 h1; omega
    · intro i; rw [h4, massPat_getElem? l h2]
  · rintro ⟨h1, h2, rfl⟩
    exact ⟨h1, h2, massPat_length l h2 h1, massPat_getElem? l h2⟩

/-! ## Masses to positions -/

theorem changes_replicate_append (k : ℕ) (c : ℤ) (l : List ℤ) :
    changes (List.replicate (k + 1) c ++ l) = List.replicate k false ++ changes (c :: l) := by
  induction k with
  | zero => simp
  | succ k ih =>
    rw [List.replicate_succ, List.cons_append]
    have : List.replicate (k + 1) c ++ l = c :: (List.replicate k c ++ l) := by
      rw [List.replicate_succ, List.cons_append]
    rw [this] at ih ⊢
    simp only [changes, ne_eq, not_true_eq_false, decide_false, ih, List.replicate_succ,
      List.cons_append]

/-- The labels produced from masses, by value. -/
def posVals (i : ℕ) (ms : List ℤ) : List ℤ := (massesToPositionsFrom i ms).map Obj.val

theorem posVals_cons (i : ℕ) (m : ℤ) (ms : List ℤ) :
    posVals i (m :: ms) = List.replicate m.toNat ((i : ℤ) + 1) ++ posVals (i + 1) ms := by
  simp [posVals, massesToPositionsFrom]

theorem posVals_length (i : ℕ) (ms : List ℤ) (h : ∀ m ∈ ms, 0 < m) :
    ((posVals i ms).length : ℤ) = ms.sum := by
  induction ms generalizing i with
  | nil => simp [posVals, massesToPositionsFrom]
  | cons m ms ih =>
    have hm : 0 < m := h m (by simp)
    rw [posVals_cons, List.length_append, List.length_replicate, List.sum_cons]
    push_cast
    rw [ih (i + 1) (fun m hm => h m (by simp [hm]))]; omega

theorem posVals_head (i : ℕ) (m : ℤ) (ms : List ℤ) (hm : 0 < m) :
    ∃ rest, posVals i (m :: ms) = ((i : ℤ) + 1) :: rest := by
  obtain ⟨k, hk⟩ : ∃ k, m.toNat = k + 1 := ⟨m.toNat - 1, by omega⟩
  rw [posVals_cons, hk, List.replicate_succ]
  exact ⟨_, rfl⟩

theorem changes_posVals (i : ℕ) (ms : List ℤ) (h : ∀ m ∈ ms, 0 < m) :
    changes (posVals i ms) = massPat ms := by
  induction ms generalizing i with
  | nil => rfl
  | cons m ms ih =>
    have hm : 0 < m := h m (by simp)
    have ih' := ih (i + 1) (fun m hm => h m (by simp [hm]))
    obtain ⟨k, hk⟩ : ∃ k, m.toNat = k + 1 := ⟨m.toNat - 1, by omega⟩
    have hk' : (m - 1).toNat = k := by omega
    rw [posVals_cons, hk, changes_replicate_append]
    cases ms with
    | nil => simp [massPat, posVals, massesToPositionsFrom, changes, hk']
    | cons m' ms' =>
      rw [massPat_cons _ _ (by simp), hk', ← ih']
      obtain ⟨rest, hr⟩ := posVals_head (i + 1) m' ms' (h m' (by simp))
      rw [hr]
      simp [changes]

/-! ## Boundary strings -/

/-- A boundary set from a flag. -/
def bset (b : Bool) : Finset ℤ := if b then {1} else ∅

theorem pyModify_append {α : Type _} (d : List α) (x : α) (r : List α) (f : α → α) :
    pyModify (d ++ x :: r) (d.length : ℤ) f = .ok (d ++ f x :: r) := by
  have h1 : ¬ ((d.length : ℤ) < 0) := by omega
  simp only [pyModify, h1, if_false]
  rw [if_pos ⟨by omega, by simp⟩]
  have := List.modifyTailIdx_add (List.modifyHead f) 0 d (x :: r)
  simpa [List.modify] using this

theorem boundaryStringLoop_eq (ms : List ℤ) (h : ∀ m ∈ ms, 0 < m) (d : List (Finset ℤ))
    (hms : ms ≠ []) :
    boundaryStringLoop d.length (d ++ List.replicate (ms.sum - 1).toNat ∅) ms =
      .ok (d ++ (massPat ms).map bset) := by
  induction ms generalizing d with
  | nil => exact absurd rfl hms
  | cons m ms ih =>
    have hm : 0 < m := h m (by simp)
    have h' : ∀ m ∈ ms, 0 < m := fun m hm => h m (by simp [hm])
    by_cases hms' : ms = []
    · subst hms'
      have hf : ¬ ((d.length : ℤ) + m - 1 <
          ((d ++ List.replicate (m - 1).toNat (∅ : Finset ℤ)).length : ℤ)) := by
        simp only [List.length_append, List.length_replicate]; push_cast; omega
      simp only [List.sum_cons, List.sum_nil, add_zero, boundaryStringLoop]
      rw [if_neg hf]
      simp [massPat, bset]
    · have hs : 0 < ms.sum := List.sum_pos _ h' hms'
      obtain ⟨k, hk⟩ : ∃ k : ℕ, m = k + 1 := ⟨(m - 1).toNat, by omega⟩
      obtain ⟨j, hj⟩ : ∃ j : ℕ, ms.sum = j + 1 := ⟨(ms.sum - 1).toNat, by omega⟩
      have e1 : ((m :: ms).sum - 1).toNat = k + (j + 1) := by
        simp only [List.sum_cons]; omega
      have e2 : (m - 1).toNat = k := by omega
      have e3 : d ++ List.replicate (k + (j + 1)) (∅ : Finset ℤ) =
          (d ++ List.replicate k ∅) ++ ∅ :: List.replicate j ∅ := by
        rw [List.replicate_add, List.replicate_succ, List.append_assoc]
      have e4 : (d.length : ℤ) + m - 1 = ((d ++ List.replicate k (∅ : Finset ℤ)).length : ℤ) := by
        simp only [List.length_append, List.length_replicate]; push_cast; omega
      have hlt : (d.length : ℤ) + m - 1 <
          (((d ++ List.replicate k ∅) ++ ∅ :: List.replicate j (∅ : Finset ℤ)).length : ℤ) := by
        rw [e4, List.length_append]; simp
      rw [e1, e3]
      simp only [boundaryStringLoop]
      rw [if_pos hlt, e4, pyModify_append]
      simp only
      have e5 : (d.length : ℤ) + m =
          (((d ++ List.replicate k ∅) ++ [({1} : Finset ℤ)]).length : ℤ) := by
        simp only [List.length_append, List.length_replicate, List.length_singleton]
        push_cast; omega
      have e6 : (d ++ List.replicate k ∅) ++ insert (1 : ℤ) ∅ :: List.replicate j (∅ : Finset ℤ) =
          ((d ++ List.replicate k ∅) ++ [({1} : Finset ℤ)]) ++
            List.replicate (ms.sum - 1).toNat ∅ := by
        have : (ms.sum - 1).toNat = j := by omega
        rw [this]; simp
      rw [e5, e6, ih h' _ hms', massPat_cons _ _ hms', e2]
      simp [bset]

theorem boundaryString_eq (ms : List ℤ) (h : ∀ m ∈ ms, 0 < m) (hms : ms ≠ []) :
    boundaryStringFromMasses ms = .ok ((massPat ms).map bset) := by
  have := boundaryStringLoop_eq ms h [] hms
  simpa [boundaryStringFromMasses] using this

/-! ## NLTK strings -/

theorem splitOnChar_ne_nil (c : Char) (s : List Char) : splitOnChar c s ≠ [] := by
  induction s with
  | nil => simp [splitOnChar]
  | cons x xs ih =>
    simp only [splitOnChar]
    split
    · simp
    · split <;> simp

theorem nltk_massPat (c : Char) (s : List Char) :
    massPat (convertNltkToMasses s c) = s.map (fun x => decide (x = c)) := by
  induction s with
  | nil => simp [convertNltkToMasses, splitOnChar, massPat]
  | cons x xs ih =>
    simp only [convertNltkToMasses] at ih ⊢
    have hne := splitOnChar_ne_nil c xs
    by_cases hx : x = c
    · simp only [splitOnChar, hx, if_true, List.map_cons]
      rw [massPat_cons _ _ (by simpa using hne), ih]
      simp
    · simp only [splitOnChar, hx, if_false]
      obtain ⟨q, qs, hq⟩ : ∃ q qs, splitOnChar c xs = q :: qs := by
        cases hsp : splitOnChar c xs with
        | nil => exact absurd hsp hne
        | cons q qs => exact ⟨q, qs, rfl⟩
      rw [hq] at ih ⊢
      simp only [List.map_cons, List.length_cons, hx, decide_false] at ih ⊢
      rw [← ih]
      cases qs with
      | nil =>
        simp only [List.map_nil, massPat]
        have : ((((q.length + 1 : ℕ) : ℤ) + 1 - 1)).toNat = ((q.length : ℤ) + 1 - 1).toNat + 1 := by
          omega
        rw [this, List.replicate_succ]
      | cons r rs =>
        simp only [List.map_cons, massPat]
        have : ((((q.length + 1 : ℕ) : ℤ) + 1 - 1)).toNat = ((q.length : ℤ) + 1 - 1).toNat + 1 := by
          omega
        rw [this, List.replicate_succ, List.cons_append]

theorem nltk_pos (c : Char) (s : List Char) : ∀ m ∈ convertNltkToMasses s c, 0 < m := by
  intro m hm
  simp only [convertNltkToMasses, List.mem_map] at hm
  obtain ⟨seg, _, rfl⟩ := hm
  omega

theorem nltk_ne_nil (c : Char) (s : List Char) : convertNltkToMasses s c ≠ [] := by
  simpa [convertNltkToMasses] using splitOnChar_ne_nil c s

theorem stringMeans_iff (c : Char) (s : List Char) (pat : List Bool) :
    StringMeans c s pat ↔ pat = s.map (fun x => decide (x = c)) := by
  constructor
  · rintro ⟨h1, h2⟩
    refine pat_ext (by simp [h1]) ?_
    intro i; rw [h2]; simp
  · rintro rfl
    exact ⟨by simp, fun i => by simp⟩

theorem setsMean_iff (l : List (Finset ℤ)) (pat : List Bool) :
    SetsMean l pat ↔ l = pat.map bset := by
  constructor
  · rintro ⟨h1, h2⟩
    apply List.ext_getElem?
    intro i
    rw [List.getElem?_map]
    cases hp : pat[i]? with
    | none =>
      have : pat.length ≤ i := List.getElem?_eq_none_iff.1 hp
      simp [h1, this]
    | some b =>
      cases b
      · simp [((h2 i).2.1 hp), bset]
      · simp [((h2 i).1.1 hp), bset]
  · rintro rfl
    refine ⟨by simp, fun i => ?_⟩
    rw [List.getElem?_map]
    cases hp : pat[i]? with
    | none => simp
    | some b => cases b <;> simp [bset]

end SegEval
