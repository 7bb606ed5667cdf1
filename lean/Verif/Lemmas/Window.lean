import Verif.Lemmas.Metric
import Verif.Spec.Window

namespace SegEval

open Spec

/-! ## Counting loops -/

theorem forLoop_bounds {l : List ℕ} (f : ℤ → ℕ → Py ℤ)
    (h : ∀ acc i r, f acc i = .ok r → acc ≤ r ∧ r ≤ acc + 1) {acc r : ℤ}
    (hr : forLoop l acc f = .ok r) : acc ≤ r ∧ r ≤ acc + l.length := by
  induction l generalizing acc with
  | nil => simp only [forLoop, Except.ok.injEq] at hr; subst hr; simp
  | cons x xs ih =>
    simp only [forLoop] at hr
    split at hr
    · rename_i s hs
      have h1 := h _ _ _ hs
      have h2 := ih hr
      rw [List.length_cons]; push_cast; omega
    · cases hr

theorem forLoop_count (l : List ℕ) (f : ℤ → ℕ → Py ℤ) (p : ℕ → Prop) [DecidablePred p]
    (h : ∀ acc, ∀ i ∈ l, f acc i = .ok (if p i then acc + 1 else acc)) (acc : ℤ) :
    forLoop l acc f = .ok (acc + (l.countP (fun i => decide (p i)) : ℕ)) := by
  induction l generalizing acc with
  | nil => simp [forLoop]
  | cons x xs ih =>
    simp only [forLoop]
    rw [h acc x (by simp)]
    simp only
    rw [ih (fun acc i hi => h acc i (by simp [hi]))]
    by_cases hp : p x
    · simp [hp]; ring
    · simp [hp]

theorem countP_range (n : ℕ) (p : ℕ → Prop) [DecidablePred p] :
    (List.range n).countP (fun i => decide (p i)) = ((Finset.range n).filter p).card := by
  induction n with
  | zero => rfl
  | succ n ih =>
    rw [List.range_succ, List.countP_append, ih, Finset.range_add_one, Finset.filter_insert]
    by_cases hp : p n
    · simp [hp]
    · simp [hp]

/-! ## Slices -/

theorem pySlice_nat {α : Type _} (l : List α) (i k : ℕ) (h : i + k < l.length) :
    pySlice l i ((i : ℤ) + k + 1) = (l.drop i).take (k + 1) := by
  have h1 : pyClamp l.length (i : ℤ) = i := by unfold pyClamp; split <;> omega
  have h2 : pyClamp l.length ((i : ℤ) + k + 1) = i + k + 1 := by unfold pyClamp; split <;> omega
  rw [pySlice, h1, h2]
  congr 1
  omega

theorem endsAgree_slice (l : List Obj) (i k : ℕ) (h : i + k < l.length) :
    endsAgree (pySlice l i ((i : ℤ) + k + 1)) = .ok ((l[i]'(by omega)).is (l[i + k]'h)) := by
  rw [pySlice_nat l i k h]
  have hlen : ((l.drop i).take (k + 1)).length = k + 1 := by
    rw [List.length_take, List.length_drop]; omega
  have h0 : pyGet ((l.drop i).take (k + 1)) 0 = .ok (l[i]'(by omega)) := by
    have : ((l.drop i).take (k + 1))[0]? = some (l[i]'(by omega)) := by
      rw [List.getElem?_take_of_lt (by omega), List.getElem?_drop, Nat.add_zero,
        List.getElem?_eq_getElem]
    simp only [pyGet]
    simp [this]
  have h1 : pyGet ((l.drop i).take (k + 1)) (-1) = .ok (l[i + k]'h) := by
    have : ((l.drop i).take (k + 1))[k]? = some (l[i + k]'h) := by
      rw [List.getElem?_take_of_lt (by omega), List.getElem?_drop, List.getElem?_eq_getElem]
    simp only [pyGet, hlen]
    have e : ((if (-1 : ℤ) < 0 then (-1 : ℤ) + ((k + 1 : ℕ) : ℤ) else -1)) = (k : ℤ) := by
      rw [if_pos (by omega)]; push_cast; omega
    rw [e, if_pos (by omega), Int.toNat_natCast, this]
  rw [endsAgree, h0]
  simp only
  rw [h1]

/-! ## Labels and patterns -/

/-- Neighbouring units with equal labels are the same object. -/
def AdjOk (l : List Obj) : Prop := ∀ (i : ℕ) (x y : Obj), l[i]? = some x → l[i + 1]? = some y →
  x.val = y.val → x.is y = true

/-- Units with equal labels are in one segment and the same object. -/
def UnrepOk (l : List Obj) : Prop := ∀ (i j : ℕ) (x y : Obj), i < j → l[i]? = some x →
  l[j]? = some y → x.val = y.val → x.is y = true ∧ ∀ m, i ≤ m → m < j →
  ¬ ChangeAt (l.map Obj.val) m

theorem is_val {x y : Obj} (h : x.is y = true) : x.val = y.val := by
  simp only [Obj.is, Bool.and_eq_true, decide_eq_true_eq] at h; exact h.1

theorem is_refl (x : Obj) : x.is x = true := by simp [Obj.is]

theorem is_comm (x y : Obj) : x.is y = y.is x := by
  by_cases h : x.val = y.val
  · simp [Obj.is, h, eq_comm]
  · simp [Obj.is, h, Ne.symm h]

theorem is_tag {x y : Obj} (h : x.val = y.val) (ht : x.tag = y.tag) : x.is y = true := by
  simp [Obj.is, h, ht]

theorem count_zero_iff (p : List Bool) : p.count true = 0 ↔ ∀ m : ℕ, p[m]? ≠ some true := by
  rw [List.count_eq_zero]
  constructor
  · intro h m hm; exact h (List.mem_of_getElem? hm)
  · intro h hm
    obtain ⟨m, hm⟩ := List.mem_iff_getElem?.1 hm
    exact h m hm

theorem between_zero_iff (p : List Bool) (i k : ℕ) :
    between p i k = 0 ↔ ∀ m, i ≤ m → m < i + k → p[m]? ≠ some true := by
  rw [between, count_zero_iff]
  constructor
  · intro h m h1 h2 hm
    refine h (m - i) ?_
    rw [List.getElem?_take_of_lt (by omega), List.getElem?_drop]
    rwa [Nat.add_sub_cancel' h1]
  · intro h m hm
    by_cases hk : m < k
    · rw [List.getElem?_take_of_lt hk, List.getElem?_drop] at hm
      exact h (i + m) (by omega) (by omega) hm
    · rw [List.getElem?_eq_none] at hm
      · cases hm
      · rw [List.length_take]; omega

theorem no_change_val (l : List ℤ) (i k : ℕ) (h : ∀ m, i ≤ m → m < i + k → ¬ ChangeAt l m)
    (x y : ℤ) (hx : l[i]? = some x) (hy : l[i + k]? = some y) : x = y := by
  induction k generalizing y with
  | zero => rw [Nat.add_zero, hx] at hy; exact Option.some.inj hy
  | succ k ih =>
    have hlt : i + k + 1 < l.length := by
      by_contra hc
      rw [← Nat.add_assoc, List.getElem?_eq_none (by omega)] at hy; cases hy
    have hz : l[i + k]? = some (l[i + k]'(by omega)) := List.getElem?_eq_getElem _
    have h1 := ih (fun m a b => h m a (by omega)) _ hz
    have h2 := h (i + k) (by omega) (by omega)
    by_contra hne
    exact h2 ⟨_, y, hz, hy, by rw [← h1]; exact hne⟩

/-- Pk's probe in terms of the pattern. -/
theorem probe_agree {l : List Obj} (hl : UnrepOk l) (i k : ℕ) (h : i + k < l.length) :
    ((l[i]'(by omega)).is (l[i + k]'h) = true) ↔ between (changes (l.map Obj.val)) i k = 0 := by
  have hx : l[i]? = some (l[i]'(by omega)) := List.getElem?_eq_getElem _
  have hy : l[i + k]? = some (l[i + k]'h) := List.getElem?_eq_getElem _
  rw [between_zero_iff]
  constructor
  · intro his m h1 h2
    have := (hl i (i + k) _ _ (by omega) hx hy (is_val his)).2 m h1 h2
    rw [ne_eq, changes_getElem?]; exact this
  · intro hno
    rcases Nat.eq_zero_or_pos k with rfl | hk
    · exact is_refl _
    · refine (hl i (i + k) _ _ (by omega) hx hy ?_).1
      refine no_change_val (l.map Obj.val) i k (fun m h1 h2 => ?_) _ _ ?_ ?_
      · have := hno m h1 h2
        rwa [ne_eq, changes_getElem?] at this
      · rw [List.getElem?_map, hx]; rfl
      · rw [List.getElem?_map, hy]; rfl

theorem pkStep_eq {h r : List Obj} (hh : UnrepOk h) (hr : UnrepOk r) (hl : r.length = h.length)
    (k i : ℕ) (hi : i + k < r.length) (acc : ℤ) :
    pkStep h r k acc i = .ok (if PkError (changes (h.map Obj.val)) (changes (r.map Obj.val)) k i
      then acc + 1 else acc) := by
  rw [pkStep, endsAgree_slice r i k hi]
  simp only
  rw [endsAgree_slice h i k (by omega)]
  simp only
  have e1 := probe_agree hr i k hi
  have e2 := probe_agree hh i k (by omega)
  have e : PkError (changes (h.map Obj.val)) (changes (r.map Obj.val)) k i ↔
      (r[i]'(by omega)).is (r[i + k]'hi) ≠ (h[i]'(by omega)).is (h[i + k]'(by omega)) := by
    rw [PkError, ← e1, ← e2, ← Bool.eq_iff_iff, ne_eq, eq_comm]
  by_cases hp : PkError (changes (h.map Obj.val)) (changes (r.map Obj.val)) k i
  · rw [if_pos hp, if_pos (e.1 hp)]
  · rw [if_neg hp, if_neg (fun hc => hp (e.2 hc))]

theorem pkDifferences_eq {h r : List Obj} (hh : UnrepOk h) (hr : UnrepOk r)
    (hl : r.length = h.length) (hr0 : r ≠ []) (k : ℕ) :
    pkDifferences h r k =
      .ok (pkErrors (changes (h.map Obj.val)) (changes (r.map Obj.val)) k).card := by
  have hlen : (changes (r.map Obj.val)).length + 1 = r.length := by
    rw [changes_length, List.length_map]
    have := List.length_pos_of_ne_nil hr0
    omega
  have hrange : pyRange ((r.length : ℤ) - k) = List.range (r.length - k) := by
    rw [pyRange]; congr 1; omega
  rw [pkDifferences, hrange,
    forLoop_count _ _ (PkError (changes (h.map Obj.val)) (changes (r.map Obj.val)) k)
      (fun acc i hi => pkStep_eq hh hr hl k i (by rw [List.mem_range] at hi; omega) acc),
    countP_range, zero_add, pkErrors, hlen, windows]

/-! ## Counting changes -/

theorem countChanges_eq (l : List Obj) (h : AdjOk l) :
    countChanges l = (changes (l.map Obj.val)).count true := by
  match l with
  | [] => rfl
  | [x] => rfl
  | x :: y :: rest =>
    have ht : AdjOk (y :: rest) := fun i a b ha hb => h (i + 1) a b (by simpa using ha) (by simpa using hb)
    have ih := countChanges_eq (y :: rest) ht
    rw [countChanges, ih]
    simp only [List.map_cons, changes]
    rw [List.count_cons]
    by_cases hv : x.val = y.val
    · have := h 0 x y rfl rfl hv
      simp [this, hv]
    · have : x.is y = false := by
        rw [← Bool.not_eq_true]; intro hc; exact hv (is_val hc)
      simp [this, hv, add_comm]

theorem changes_drop_take (l : List ℤ) (i k : ℕ) :
    changes ((l.drop i).take (k + 1)) = ((changes l).drop i).take k := by
  have hlen : (changes ((l.drop i).take (k + 1))).length = (((changes l).drop i).take k).length := by
    simp only [changes_length, List.length_take, List.length_drop]; omega
  refine pat_ext hlen (fun m => ?_)
  rw [changes_getElem?]
  by_cases hm : m < k
  · rw [List.getElem?_take_of_lt hm, List.getElem?_drop, changes_getElem?]
    simp only [ChangeAt]
    rw [List.getElem?_take_of_lt (by omega), List.getElem?_take_of_lt (by omega),
      List.getElem?_drop, List.getElem?_drop, Nat.add_assoc]
  · rw [List.getElem?_eq_none (l := ((changes l).drop i).take k) (by rw [List.length_take]; omega)]
    simp only [ChangeAt, reduceCtorEq, iff_false]
    rintro ⟨x, y, _, hy, _⟩
    rw [List.getElem?_eq_none (by rw [List.length_take]; omega)] at hy
    cases hy

theorem adjOk_sub {l : List Obj} (h : AdjOk l) (i k : ℕ) : AdjOk ((l.drop i).take k) := by
  intro j x y hx hy
  have hj : j + 1 < k := by
    by_contra hc
    rw [List.getElem?_eq_none (by rw [List.length_take]; omega)] at hy; cases hy
  rw [List.getElem?_take_of_lt (by omega), List.getElem?_drop] at hx hy
  exact h (i + j) x y hx (by rwa [Nat.add_assoc])

theorem between_le (p : List Bool) (i k : ℕ) : between p i k ≤ k := by
  rw [between]
  refine (List.count_le_length).trans ?_
  rw [List.length_take]; omega

theorem isInt_small (m n : ℕ) (hm : m ≤ 256) : isInt m n = decide (m = n) := by
  unfold isInt smallInt
  have h1 : decide (-5 ≤ (m : ℤ)) = true := by rw [decide_eq_true_eq]; omega
  have h2 : decide ((m : ℤ) ≤ 256) = true := by rw [decide_eq_true_eq]; omega
  rw [h1, h2]
  by_cases h : m = n
  · simp [h]
  · have h' : ¬ (m : ℤ) = n := by omega
    simp only [h, h', decide_false, Bool.false_and]

theorem windowDiffers_eq {h r : List Obj} (hh : AdjOk h) (hr : AdjOk r) (hl : r.length = h.length)
    (k i : ℕ) (hi : i + k < r.length) (hk : k ≤ 255) :
    windowDiffers (r.zip h) k i =
      .ok (decide (WdError (changes (h.map Obj.val)) (changes (r.map Obj.val)) k i)) := by
  have hzl : (r.zip h).length = r.length := by rw [List.length_zip]; omega
  rw [windowDiffers]
  simp only
  rw [pySlice_nat (r.zip h) i k (by omega)]
  have hlen : (((r.zip h).drop i).take (k + 1)).length = k + 1 := by
    rw [List.length_take, List.length_drop]; omega
  have h1 : (((r.zip h).drop i).take (k + 1)).map Prod.fst = (r.drop i).take (k + 1) := by
    rw [List.map_take, List.map_drop, List.map_fst_zip (by omega)]
  have h2 : (((r.zip h).drop i).take (k + 1)).map Prod.snd = (h.drop i).take (k + 1) := by
    rw [List.map_take, List.map_drop, List.map_snd_zip (by omega)]
  have e0 : isInt ((((r.zip h).drop i).take (k + 1)).length : ℤ) ((k : ℤ) + 1) = true := by
    rw [hlen]
    have := isInt_small (k + 1) (k + 1) (by omega)
    simpa using this
  have c1 : countChanges ((r.drop i).take (k + 1)) = between (changes (r.map Obj.val)) i k := by
    rw [countChanges_eq _ (adjOk_sub hr i (k + 1)), List.map_take, List.map_drop,
      changes_drop_take, between]
  have c2 : countChanges ((h.drop i).take (k + 1)) = between (changes (h.map Obj.val)) i k := by
    rw [countChanges_eq _ (adjOk_sub hh i (k + 1)), List.map_take, List.map_drop,
      changes_drop_take, between]
  rw [if_pos e0, h1, h2, c1, c2, isInt_small _ _ ((between_le _ _ _).trans (by omega))]
  congr 1
  unfold WdError
  by_cases hc : between (changes (r.map Obj.val)) i k = between (changes (h.map Obj.val)) i k
  · simp [hc]
  · simp [hc, Ne.symm hc]

theorem sumDifferences_eq {h r : List Obj} (hh : AdjOk h) (hr : AdjOk r)
    (hl : r.length = h.length) (hr0 : r ≠ []) (k : ℕ) (hk : k ≤ 255) :
    sumDifferences (r.zip h) k =
      .ok (wdErrors (changes (h.map Obj.val)) (changes (r.map Obj.val)) k).card := by
  have hlen : (changes (r.map Obj.val)).length + 1 = r.length := by
    rw [changes_length, List.length_map]
    have := List.length_pos_of_ne_nil hr0
    omega
  have hzl : (r.zip h).length = r.length := by rw [List.length_zip]; omega
  have hrange : pyRange (((r.zip h).length : ℤ) - k) = List.range (r.length - k) := by
    rw [pyRange, hzl]; congr 1; omega
  rw [sumDifferences, hrange,
    forLoop_count _ _ (WdError (changes (h.map Obj.val)) (changes (r.map Obj.val)) k)
      (fun acc i hi => by
        rw [sumStep, windowDiffers_eq hh hr hl k i (by rw [List.mem_range] at hi; omega) hk]
        simp),
    countP_range, zero_add, wdErrors, hlen, windows]

/-! ## Arguments -/

/-- What the window metrics see of a segmentation. -/
structure Reads (fmt : BoundaryFormat) (seg : Seg) (pat : List Bool) (tup : Bool) (l : List Obj) :
    Prop where
  pos : toPositions fmt seg = .ok (tup, l)
  len : l.length = pat.length + 1
  pat : changes (l.map Obj.val) = pat

theorem Reads.ne_nil {fmt : BoundaryFormat} {seg : Seg} {pat : List Bool} {tup : Bool} {l : List Obj}
    (h : Reads fmt seg pat tup l) : l ≠ [] := by
  intro h0; have := h.len; rw [h0] at this; simp at this

theorem massPos_tag (i : ℕ) (ms : List ℤ) : ∀ x ∈ massesToPositionsFrom i ms, x.tag = 0 := by
  induction ms generalizing i with
  | nil => simp [massesToPositionsFrom]
  | cons m ms ih =>
    intro x hx
    rw [massesToPositionsFrom, List.mem_append] at hx
    rcases hx with hx | hx
    · rw [List.eq_of_mem_replicate hx]
    · exact ih (i + 1) x hx

/-- Labels of converted masses count the boundaries before them. -/
theorem posVals_get (i : ℕ) (ms : List ℤ) (h : ∀ m ∈ ms, 0 < m) (hne : ms ≠ []) (u : ℕ)
    (hu : u ≤ (massPat ms).length) :
    (posVals i ms)[u]? = some ((i : ℤ) + 1 + (((massPat ms).take u).count true : ℕ)) := by
  induction ms generalizing i u with
  | nil => exact absurd rfl hne
  | cons m ms ih =>
    have hm : 0 < m := h m (by simp)
    have h' : ∀ m ∈ ms, 0 < m := fun x hx => h x (by simp [hx])
    rw [posVals_cons]
    by_cases hms : ms = []
    · subst hms
      have hu' : u < m.toNat := by
        simp only [massPat, List.length_replicate] at hu; omega
      rw [List.getElem?_append_left (by simpa using hu'), List.getElem?_replicate, if_pos hu']
      simp [massPat, List.take_replicate, List.count_replicate]
    · rw [massPat_cons m ms hms] at hu ⊢
      by_cases hu' : u < m.toNat
      · rw [List.getElem?_append_left (by simpa using hu'), List.getElem?_replicate, if_pos hu']
        rw [List.take_append_of_le_length (by simp; omega)]
        simp [List.take_replicate, List.count_replicate]
      · rw [List.getElem?_append_right (by simp; omega), List.length_replicate]
        have hlen : (massPat (m :: ms)).length = (m - 1).toNat + 1 + (massPat ms).length := by
          rw [massPat_cons m ms hms]; simp; omega
        rw [ih (i + 1) h' hms (u - m.toNat) (by
          simp only [List.length_append, List.length_replicate, List.length_cons] at hu; omega)]
        have e : (List.replicate (m - 1).toNat false ++ true :: massPat ms).take u =
            List.replicate (m - 1).toNat false ++ true :: (massPat ms).take (u - m.toNat) := by
          rw [List.take_append, List.length_replicate, List.take_of_length_le (by simp; omega)]
          obtain ⟨j, hj⟩ : ∃ j, u - (m - 1).toNat = j + 1 := ⟨u - (m - 1).toNat - 1, by omega⟩
          rw [hj, List.take_succ_cons]
          congr 3; omega
        rw [e, List.count_append, List.count_cons]
        simp [List.count_replicate]
        ring

theorem count_take_split (p : List Bool) (i j : ℕ) (h : i ≤ j) :
    (p.take j).count true = (p.take i).count true + between p i (j - i) := by
  have : p.take j = p.take i ++ (p.drop i).take (j - i) := by
    rw [← List.take_add]; congr 1; omega
  rw [this, List.count_append, between]

theorem massPositions_unrep (ms : List ℤ) (h : ∀ m ∈ ms, 0 < m) (hne : ms ≠ []) :
    UnrepOk (convertMassesToPositions ms) := by
  intro i j x y hij hx hy hv
  have hvals : (convertMassesToPositions ms).map Obj.val = posVals 0 ms := rfl
  have hlen := posVals_length 0 ms h
  have hpl := massPat_length ms h hne
  have hj : j < (convertMassesToPositions ms).length := by
    by_contra hc; rw [List.getElem?_eq_none (by omega)] at hy; cases hy
  have hjl : (j : ℤ) < ms.sum := by
    rw [← hlen]
    have : (convertMassesToPositions ms).length = (posVals 0 ms).length := by
      rw [← hvals, List.length_map]
    omega
  have gx : (posVals 0 ms)[i]? = some x.val := by rw [← hvals, List.getElem?_map, hx]; rfl
  have gy : (posVals 0 ms)[j]? = some y.val := by rw [← hvals, List.getElem?_map, hy]; rfl
  rw [posVals_get 0 ms h hne i (by omega)] at gx
  rw [posVals_get 0 ms h hne j (by omega)] at gy
  have gx' := Option.some.inj gx
  have gy' := Option.some.inj gy
  refine ⟨is_tag hv ?_, ?_⟩
  · rw [massPos_tag 0 ms x (List.mem_of_getElem? hx), massPos_tag 0 ms y (List.mem_of_getElem? hy)]
  · have hz : between (massPat ms) i (j - i) = 0 := by
      have := count_take_split (massPat ms) i j hij.le
      omega
    intro m h1 h2
    rw [hvals, ← changes_getElem?, changes_posVals 0 ms h]
    exact (between_zero_iff _ _ _).1 hz m h1 (by omega)

theorem unrep_adj {l : List Obj} (h : UnrepOk l) : AdjOk l :=
  fun i x y hx hy hv => (h i (i + 1) x y (by omega) hx hy hv).1

theorem massPositions_reads (ms : List ℤ) (h : ∀ m ∈ ms, 0 < m) (hne : ms ≠ []) :
    (convertMassesToPositions ms).length = (massPat ms).length + 1 ∧
    changes ((convertMassesToPositions ms).map Obj.val) = massPat ms := by
  have hlen := posVals_length 0 ms h
  have hpl := massPat_length ms h hne
  have : (convertMassesToPositions ms).length = (posVals 0 ms).length := by
    simp [posVals, convertMassesToPositions]
  exact ⟨by omega, changes_posVals 0 ms h⟩

theorem reads_of_means {fmt : BoundaryFormat} (hf : WindowFormat fmt) {seg : Seg} {pat : List Bool}
    (h : Means fmt seg pat) : ∃ tup l, Reads fmt seg pat tup l ∧
      (Neighbours fmt seg → AdjOk l) ∧ (Unrepeated fmt seg → UnrepOk l) ∧
      (Paddable fmt seg → tup = true ∧ (∀ x, l.head? = some x → x.val ≠ 0) ∧
        ∀ x, l.getLast? = some x → x.val ≠ 0) := by
  have key : ∀ ms : List ℤ, (∀ m ∈ ms, 0 < m) → ms ≠ [] →
      ∀ x ∈ convertMassesToPositions ms, x.val ≠ 0 := by
    intro ms h hne x hx
    obtain ⟨u, hu⟩ := List.mem_iff_getElem?.1 hx
    have hr := massPositions_reads ms h hne
    have hul : u < (convertMassesToPositions ms).length := by
      by_contra hc; rw [List.getElem?_eq_none (by omega)] at hu; cases hu
    have g : (posVals 0 ms)[u]? = some x.val := by
      show (((convertMassesToPositions ms).map Obj.val)[u]?) = _
      rw [List.getElem?_map, hu]; rfl
    rw [posVals_get 0 ms h hne u (by omega)] at g
    have := Option.some.inj g
    push_cast at this
    omega
  match fmt, seg, h with
  | .mass, .ints t l, h =>
    obtain ⟨h1, h2, rfl⟩ := (massMeans_iff _ _).1 h
    have hr := massPositions_reads _ h2 h1
    have hu := massPositions_unrep _ h2 h1
    have hk := key _ h2 h1
    exact ⟨true, _, ⟨rfl, hr.1, hr.2⟩, fun _ => unrep_adj hu, fun _ => hu,
      fun _ => ⟨rfl, fun x hx => hk x (List.mem_of_mem_head? hx),
        fun x hx => hk x (List.mem_of_getLast? hx)⟩⟩
  | .nltk, .str s, h =>
    have hp := (stringMeans_iff _ _ _).1 h
    have h2 := nltk_pos '1' s
    have h1 := nltk_ne_nil '1' s
    have hr := massPositions_reads _ h2 h1
    have hu := massPositions_unrep _ h2 h1
    have hk := key _ h2 h1
    rw [nltk_massPat, ← hp] at hr
    exact ⟨true, _, ⟨rfl, hr.1, hr.2⟩, fun _ => unrep_adj hu, fun _ => hu,
      fun _ => ⟨rfl, fun x hx => hk x (List.mem_of_mem_head? hx),
        fun x hx => hk x (List.mem_of_getLast? hx)⟩⟩
  | .position, .ints t l, h =>
    obtain ⟨h1, rfl⟩ := (labelsMean_iff _ _).1 h
    refine ⟨t, l, ⟨rfl, ?_, rfl⟩, fun hn => hn, fun hu => hu, fun hp => hp⟩
    rw [changes_length, List.length_map]
    have : l ≠ [] := by rintro rfl; simp at h1
    have := List.length_pos_of_ne_nil this
    omega
  | .sets, _, _ => rcases hf with hf | hf | hf <;> cases hf

theorem positionsChecked_ok {fmt : BoundaryFormat} {hyp ref : Seg} {ph pr : List Bool}
    {th tr : Bool} {lh lr : List Obj} (hh : Reads fmt hyp ph th lh) (hr : Reads fmt ref pr tr lr)
    (hl : ph.length = pr.length) : positionsChecked fmt hyp ref = .ok ((th, lh), (tr, lr)) := by
  rw [positionsChecked, hr.pos]
  simp only
  rw [hh.pos]
  have : lr.length = lh.length := by rw [hr.len, hh.len, hl]
  simp [this]

theorem masses_sum (l : List Obj) : (convertPositionsToMasses l).sum = l.length := by
  by_cases hl : l = []
  · subst hl; rfl
  · have hv : l.map Obj.val ≠ [] := by simpa using hl
    rw [convertPositionsToMasses, runs_eq _ hv]
    have h2 := runsPat_sum 1 (changes (l.map Obj.val))
    rw [changes_length, List.length_map] at h2
    have h3 := List.length_pos_of_ne_nil hl
    have h4 : ∀ L : List ℕ, (L.map Int.ofNat).sum = ((L.sum : ℕ) : ℤ) := by
      intro L
      induction L with
      | nil => rfl
      | cons x xs ih => simp only [List.map_cons, List.sum_cons, ih, Int.ofNat_eq_natCast]; push_cast; rfl
    rw [h4, h2]; omega

end SegEval
