import Verif.Spec.Agreement
import Verif.Lemmas.Summary
import Verif.Lemmas.Swap

namespace SegEval

open Spec

/-! ## The loop as a list of jobs -/

abbrev Job := (Name × Name) × (Name × Codings)

instance : Inhabited PyNum := ⟨.int 0⟩

/-- What one job contributes. -/
structure Row where
  num : PyNum
  den : PyNum
  pbs : ℤ
  ba : ℤ
  bb : ℤ
  deriving Inhabited

def jobs (coders : List Name) (items : Items) : List Job :=
  (combinations2 coders).flatMap (fun p => items.map (fun it => (p, it)))

def jobRow (cmp : Compare) (fmt : BoundaryFormat) (j : Job) : Py Row :=
  match dictGet j.2.2 j.1.1 with
  | none => .error .keyError
  | some sa =>
    match dictGet j.2.2 j.1.2 with
    | none => .error .keyError
    | some sb =>
      match cmp fmt sa sb with
      | .error e => .error e
      | .ok (num, den) =>
        match potentialBoundaries fmt sa sb with
        | .error e => .error e
        | .ok pbs =>
          match boundariesOf fmt sa with
          | .error e => .error e
          | .ok ba =>
            match boundariesOf fmt sb with
            | .error e => .error e
            | .ok bb => .ok ⟨num, den, pbs, ba, bb⟩

def pushRow (m n : Name) (acc : AgrParts) (r : Row) : AgrParts :=
  { numerators := acc.numerators ++ [r.num]
    denominators := acc.denominators ++ [r.den]
    pbs := acc.pbs ++ [r.pbs]
    codersBoundaries := pushBoundaries (pushBoundaries
      (ensureCoder (ensureCoder acc.codersBoundaries m) n) m (r.ba, r.pbs)) n (r.bb, r.pbs) }

theorem agreeStep_eq (cmp : Compare) (fmt : BoundaryFormat) (j : Job) (acc : AgrParts) :
    agreeStep cmp fmt j.1.1 j.1.2 acc j.2 =
      match jobRow cmp fmt j with
      | .error e => .error e
      | .ok r => .ok (pushRow j.1.1 j.1.2 acc r) := by
  unfold agreeStep jobRow
  cases dictGet j.2.2 j.1.1 with
  | none => rfl
  | some sa =>
    simp only
    cases dictGet j.2.2 j.1.2 with
    | none => rfl
    | some sb =>
      simp only
      cases cmp fmt sa sb with
      | error e => rfl
      | ok nd =>
        obtain ⟨num, den⟩ := nd
        simp only
        cases potentialBoundaries fmt sa sb with
        | error e => rfl
        | ok pbs =>
          simp only
          cases boundariesOf fmt sa with
          | error e => rfl
          | ok ba =>
            simp only
            cases boundariesOf fmt sb with
            | error e => rfl
            | ok bb => rfl

theorem forLoop_append {α S : Type _} (xs ys : List α) (s : S) (f : S → α → Py S) :
    forLoop (xs ++ ys) s f =
      match forLoop xs s f with
      | .error e => .error e
      | .ok s' => forLoop ys s' f := by
  induction xs generalizing s with
  | nil => rfl
  | cons x xs ih =>
    simp only [List.cons_append, forLoop]
    cases f s x with
    | error e => rfl
    | ok s' => exact ih s'

theorem forLoop_map {α β S : Type _} (xs : List α) (g : α → β) (s : S) (f : S → β → Py S) :
    forLoop (xs.map g) s f = forLoop xs s (fun acc x => f acc (g x)) := by
  induction xs generalizing s with
  | nil => rfl
  | cons x xs ih =>
    simp only [List.map_cons, forLoop]
    cases f s (g x) with
    | error e => rfl
    | ok s' => exact ih s'

theorem forLoop_flatMap {α β S : Type _} (xs : List α) (g : α → List β) (s : S)
    (f : S → β → Py S) :
    forLoop (xs.flatMap g) s f = forLoop xs s (fun acc x => forLoop (g x) acc f) := by
  induction xs generalizing s with
  | nil => rfl
  | cons x xs ih =>
    rw [List.flatMap_cons, forLoop_append]
    simp only [forLoop]
    cases forLoop (g x) s f with
    | error e => rfl
    | ok s' => exact ih s'

def rowD (cmp : Compare) (fmt : BoundaryFormat) (j : Job) : Row :=
  match jobRow cmp fmt j with
  | .ok r => r
  | .error _ => default

theorem agreementParts_eq (cmp : Compare) (fmt : BoundaryFormat) (coders : List Name)
    (items : Items) :
    agreementParts cmp fmt coders items =
      forLoop (jobs coders items) {} (fun acc j =>
        match jobRow cmp fmt j with
        | .error e => .error e
        | .ok r => .ok (pushRow j.1.1 j.1.2 acc r)) := by
  unfold agreementParts jobs
  rw [forLoop_flatMap]
  congr 1
  funext acc p
  rw [forLoop_map]
  congr 1
  funext acc it
  exact agreeStep_eq cmp fmt (p, it) acc

/-- The parts made from the rows of the jobs. -/
def partsOf (cmp : Compare) (fmt : BoundaryFormat) (js : List Job) : AgrParts :=
  js.foldl (fun acc j => pushRow j.1.1 j.1.2 acc (rowD cmp fmt j)) {}

theorem rows_loop (cmp : Compare) (fmt : BoundaryFormat) (js : List Job) (acc p : AgrParts) :
    forLoop js acc (fun acc j =>
        match jobRow cmp fmt j with
        | .error e => .error e
        | .ok r => .ok (pushRow j.1.1 j.1.2 acc r)) = .ok p ↔
      (∀ j ∈ js, jobRow cmp fmt j = .ok (rowD cmp fmt j)) ∧
        p = js.foldl (fun acc j => pushRow j.1.1 j.1.2 acc (rowD cmp fmt j)) acc := by
  induction js generalizing acc with
  | nil => simp [forLoop, eq_comm]
  | cons j js ih =>
    simp only [forLoop, List.foldl_cons, List.forall_mem_cons]
    cases h : jobRow cmp fmt j with
    | error e => simp [rowD, h]
    | ok r =>
      have hr : rowD cmp fmt j = r := by simp [rowD, h]
      simp only [hr, true_and]
      exact ih _

theorem agreementParts_ok (cmp : Compare) (fmt : BoundaryFormat) (coders : List Name)
    (items : Items) (p : AgrParts) :
    agreementParts cmp fmt coders items = .ok p ↔
      (∀ j ∈ jobs coders items, jobRow cmp fmt j = .ok (rowD cmp fmt j)) ∧
        p = partsOf cmp fmt (jobs coders items) := by
  rw [agreementParts_eq]
  exact rows_loop cmp fmt _ _ _

theorem fold_lists (cmp : Compare) (fmt : BoundaryFormat) (js : List Job) (acc : AgrParts) :
    (js.foldl (fun acc j => pushRow j.1.1 j.1.2 acc (rowD cmp fmt j)) acc).numerators =
      acc.numerators ++ js.map (fun j => (rowD cmp fmt j).num) ∧
    (js.foldl (fun acc j => pushRow j.1.1 j.1.2 acc (rowD cmp fmt j)) acc).denominators =
      acc.denominators ++ js.map (fun j => (rowD cmp fmt j).den) := by
  induction js generalizing acc with
  | nil => simp
  | cons j js ih =>
    rw [List.foldl_cons]
    obtain ⟨h1, h2⟩ := ih (pushRow j.1.1 j.1.2 acc (rowD cmp fmt j))
    rw [h1, h2]
    simp [pushRow]

theorem partsOf_lists (cmp : Compare) (fmt : BoundaryFormat) (js : List Job) :
    (partsOf cmp fmt js).numerators = js.map (fun j => (rowD cmp fmt j).num) ∧
    (partsOf cmp fmt js).denominators = js.map (fun j => (rowD cmp fmt j).den) := by
  have := fold_lists cmp fmt js {}
  simpa [partsOf] using this

/-! ## The per-coder dict -/

theorem ensureCoder_get (d : List (Name × List (ℤ × ℤ))) (c k : Name) :
    dictGet (ensureCoder d c) k =
      if k = c then some ((dictGet d c).getD []) else dictGet d k := by
  unfold ensureCoder
  cases h : dictGet d c with
  | some v =>
    by_cases hk : k = c
    · subst hk; simp [h]
    · simp [hk]
  | none =>
    simp only [dictGet_set]
    simp

theorem pushBoundaries_get (d : List (Name × List (ℤ × ℤ))) (c k : Name) (x : ℤ × ℤ) :
    dictGet (pushBoundaries d c x) k =
      if k = c then some ((dictGet d c).getD [] ++ [x]) else dictGet d k := by
  unfold pushBoundaries
  rw [dictGet_set]

/-- What a job gives to coder `c`. -/
def share (cmp : Compare) (fmt : BoundaryFormat) (c : Name) (j : Job) : List (ℤ × ℤ) :=
  (if c = j.1.1 then [((rowD cmp fmt j).ba, (rowD cmp fmt j).pbs)] else []) ++
    (if c = j.1.2 then [((rowD cmp fmt j).bb, (rowD cmp fmt j).pbs)] else [])

theorem pushRow_get (cmp : Compare) (fmt : BoundaryFormat) (acc : AgrParts) (j : Job) (c : Name) :
    dictGet (pushRow j.1.1 j.1.2 acc (rowD cmp fmt j)).codersBoundaries c =
      if c = j.1.1 ∨ c = j.1.2 then
        some ((dictGet acc.codersBoundaries c).getD [] ++ share cmp fmt c j)
      else dictGet acc.codersBoundaries c := by
  unfold pushRow share
  simp only [pushBoundaries_get, ensureCoder_get]
  by_cases h1 : c = j.1.1
  · by_cases h2 : c = j.1.2
    · subst h1
      rw [← h2]
      simp
    · subst h1
      simp [h2]
  · by_cases h2 : c = j.1.2
    · subst h2
      simp [h1]
    · simp [h1, h2]

theorem fold_get (cmp : Compare) (fmt : BoundaryFormat) (js : List Job) (acc : AgrParts) (c : Name) :
    dictGet (js.foldl (fun acc j => pushRow j.1.1 j.1.2 acc (rowD cmp fmt j))
        acc).codersBoundaries c =
      if (∃ j ∈ js, c = j.1.1 ∨ c = j.1.2) then
        some ((dictGet acc.codersBoundaries c).getD [] ++ js.flatMap (share cmp fmt c))
      else dictGet acc.codersBoundaries c := by
  induction js generalizing acc with
  | nil => simp
  | cons j js ih =>
    rw [List.foldl_cons, ih, pushRow_get, List.flatMap_cons]
    by_cases h1 : c = j.1.1 ∨ c = j.1.2
    · rw [if_pos h1, if_pos (c := ∃ j' ∈ j :: js, c = j'.1.1 ∨ c = j'.1.2) ⟨j, by simp, h1⟩]
      by_cases h2 : ∃ j ∈ js, c = j.1.1 ∨ c = j.1.2
      · rw [if_pos h2]; simp
      · rw [if_neg h2]
        have : js.flatMap (share cmp fmt c) = [] := by
          rw [List.flatMap_eq_nil_iff]
          intro x hx
          have hx' : ¬ (c = x.1.1 ∨ c = x.1.2) := fun h => h2 ⟨x, hx, h⟩
          rw [not_or] at hx'
          simp [share, hx'.1, hx'.2]
        rw [this]; simp
    · rw [if_neg h1]
      have hs : share cmp fmt c j = [] := by
        rw [not_or] at h1
        simp [share, h1.1, h1.2]
      rw [hs, List.nil_append]
      by_cases h2 : ∃ j ∈ js, c = j.1.1 ∨ c = j.1.2
      · obtain ⟨x, hx, h⟩ := h2
        rw [if_pos ⟨x, hx, h⟩, if_pos ⟨x, by simp [hx], h⟩]
      · rw [if_neg h2, if_neg]
        rintro ⟨x, hx, h⟩
        rcases List.mem_cons.1 hx with rfl | hx
        · exact h1 h
        · exact h2 ⟨x, hx, h⟩

theorem ensureCoder_nodup (d : List (Name × List (ℤ × ℤ))) (c : Name) (h : (dictKeys d).Nodup) :
    (dictKeys (ensureCoder d c)).Nodup := by
  unfold ensureCoder
  split
  · exact h
  · exact keys_set_nodup _ _ _ h

theorem pushRow_nodup (m n : Name) (acc : AgrParts) (r : Row)
    (h : (dictKeys acc.codersBoundaries).Nodup) :
    (dictKeys (pushRow m n acc r).codersBoundaries).Nodup := by
  unfold pushRow pushBoundaries
  exact keys_set_nodup _ _ _ (keys_set_nodup _ _ _ (ensureCoder_nodup _ _ (ensureCoder_nodup _ _ h)))

theorem fold_nodup (cmp : Compare) (fmt : BoundaryFormat) (js : List Job) (acc : AgrParts)
    (h : (dictKeys acc.codersBoundaries).Nodup) :
    (dictKeys (js.foldl (fun acc j => pushRow j.1.1 j.1.2 acc (rowD cmp fmt j))
      acc).codersBoundaries).Nodup := by
  induction js generalizing acc with
  | nil => exact h
  | cons j js ih => exact ih _ (pushRow_nodup _ _ _ _ h)

theorem flat_set (d : List (Name × List (ℤ × ℤ))) (c : Name) (v : List (ℤ × ℤ)) :
    ((dictSet d c (((dictGet d c).getD []) ++ v)).flatMap Prod.snd).Perm (d.flatMap Prod.snd ++ v) := by
  cases hg : dictGet d c with
  | none =>
    rw [dictSet_new hg]
    simp
  | some v0 =>
    obtain ⟨pre, post, h1, h2⟩ := dictSet_split hg
    rw [Option.getD_some, h2, h1]
    simp only [List.flatMap_append, List.flatMap_cons, List.append_assoc]
    refine List.Perm.append_left _ (List.Perm.append_left _ ?_)
    exact List.perm_append_comm

theorem ensure_flat (d : List (Name × List (ℤ × ℤ))) (c : Name) :
    ((ensureCoder d c).flatMap Prod.snd).Perm (d.flatMap Prod.snd) := by
  unfold ensureCoder
  cases hg : dictGet d c with
  | some v => exact List.Perm.refl _
  | none => simp only; rw [dictSet_new hg]; simp

/-- All entries of a job. -/
def entriesOf (cmp : Compare) (fmt : BoundaryFormat) (j : Job) : List (ℤ × ℤ) :=
  [((rowD cmp fmt j).ba, (rowD cmp fmt j).pbs), ((rowD cmp fmt j).bb, (rowD cmp fmt j).pbs)]

theorem fold_flat (cmp : Compare) (fmt : BoundaryFormat) (js : List Job) (acc : AgrParts) :
    ((js.foldl (fun acc j => pushRow j.1.1 j.1.2 acc (rowD cmp fmt j))
      acc).codersBoundaries.flatMap Prod.snd).Perm
      (acc.codersBoundaries.flatMap Prod.snd ++ js.flatMap (entriesOf cmp fmt)) := by
  induction js generalizing acc with
  | nil => simp
  | cons j js ih =>
    rw [List.foldl_cons, List.flatMap_cons, ← List.append_assoc]
    refine (ih _).trans (List.Perm.append_right _ ?_)
    unfold pushRow pushBoundaries entriesOf
    refine (flat_set _ _ _).trans ?_
    refine (List.Perm.append_right _ (flat_set _ _ _)).trans ?_
    rw [List.append_assoc]
    exact List.Perm.append_right _ ((ensure_flat _ _).trans (ensure_flat _ _))

/-! ## Order of enumeration -/

theorem combos_perm {α β : Type _} (F : α → α → β) {l l' : List α} (h : l.Perm l')
    (hs : ∀ x ∈ l, ∀ y ∈ l, F x y = F y x) :
    ((combinations2 l).map (fun p => F p.1 p.2)).Perm
      ((combinations2 l').map (fun p => F p.1 p.2)) := by
  induction h with
  | nil => exact List.Perm.refl _
  | @cons x l l' h ih =>
    simp only [combinations2, List.map_append, List.map_map]
    refine List.Perm.append (h.map _) (ih (fun a ha b hb => hs a (by simp [ha]) b (by simp [hb])))
  | swap x y l =>
    simp only [combinations2, List.map_append, List.map_cons, List.map_map, List.cons_append]
    rw [hs y (by simp) x (by simp)]
    refine List.Perm.cons _ ?_
    rw [← List.append_assoc, ← List.append_assoc]
    exact List.Perm.append_right _ List.perm_append_comm
  | @trans l1 l2 l3 h1 h2 ih1 ih2 =>
    exact (ih1 hs).trans (ih2 (fun a ha b hb => hs a (h1.mem_iff.2 ha) b (h1.mem_iff.2 hb)))

theorem add_right_comm' (t x y : PyNum) :
    (t.add x).bind (fun s => s.add y) = (t.add y).bind (fun s => s.add x) := by
  cases t <;> cases x <;> cases y <;>
    simp [PyNum.add, Except.bind] <;> ring

theorem pySum_perm {l l' : List PyNum} (h : l.Perm l') : pySum l = pySum l' := by
  unfold pySum
  generalize PyNum.int 0 = s
  induction h generalizing s with
  | nil => rfl
  | cons x h ih =>
    simp only [forLoop]
    cases s.add x with
    | error e => rfl
    | ok s' => exact ih s'
  | swap x y l =>
    simp only [forLoop]
    have := add_right_comm' s x y
    cases h1 : s.add x with
    | error e =>
      cases h2 : s.add y with
      | error e' => rw [h1, h2] at this; simpa [Except.bind] using this.symm
      | ok s' =>
        rw [h1, h2] at this
        simp only [Except.bind] at this
        simp only [← this]
    | ok s' =>
      cases h2 : s.add y with
      | error e' =>
        rw [h1, h2] at this
        simp only [Except.bind] at this
        simp only [this]
      | ok s'' =>
        rw [h1, h2] at this
        simp only [Except.bind] at this
        simp only [this]
  | trans h1 h2 ih1 ih2 => exact (ih1 s).trans (ih2 s)

end SegEval
