import Verif.Lemmas.MLState

/-!
# Queries on a dict of matrices
-/

namespace SegEval

open Spec

variable {κ : Type _} [DecidableEq κ] {ι : Type _} [DecidableEq ι]

/-- `m'` is `m` with other queries made in between, as far as later answers to `q` can tell. -/
structure Alike (q : Query κ) (m m' : CM κ) : Prop where
  cells : ∀ p a, cell m' p a = cell m p a
  sound : Sound m'
  classes : q.about = none → q.version = .macro → m'.classes.1 = m.classes.1 ∧ Fresh m'

theorem alike_refl (q : Query κ) {m : CM κ} (hs : Sound m) (hf : Fresh m) : Alike q m m :=
  ⟨fun _ _ => rfl, hs, fun _ _ => ⟨rfl, hf⟩⟩

theorem alike_step (q : Query κ) (o : ClassOrder κ) (site : List ℕ) {m m' : CM κ}
    (h : Alike q m m') : Alike q m (q.runS o site m').2 := by
  have hk := runS_later o site q m' h.sound
  refine ⟨fun p a => (hk.cells p a).trans (h.cells p a), hk.sound h.sound, fun h1 h2 => ?_⟩
  obtain ⟨h3, h4⟩ := h.classes h1 h2
  refine ⟨?_, hk.fresh h4⟩
  rw [← h3]
  ext l
  rw [classes_mem_of_fresh (hk.fresh h4), classes_mem_of_fresh h4]
  exact ⟨fun h => (hk.only l h).elim id (fun h => by rw [h1] at h; cases h), hk.more l⟩

theorem alike_answer (q : Query κ) (o o' : ClassOrder κ) (site site' : List ℕ) {m m' : CM κ}
    (hs : Sound m) (hn : NoFloats m) (h : Alike q m m') :
    answer (q.run o' site' m') = answer (q.run o site m) :=
  (answer_congr o o' site site' q hs h.sound hn h.cells (fun h1 h2 => (h.classes h1 h2).1)).symm

theorem answer_of_runS (q : Query κ) (o : ClassOrder κ) (site : List ℕ) (m : CM κ) :
    answer (q.run o site m) = match (q.runS o site m).1 with
      | .ok v => some v.val
      | .error _ => none := by
  rw [← runS_forget]
  rcases q.runS o site m with ⟨_ | v, m'⟩ <;> rfl

theorem dictSet_fresh {α : Type _} (d : List (ι × α)) (l : ι) (v : α) (h : l ∉ d.map Prod.fst) :
    dictSet d l v = d ++ [(l, v)] :=
  dictSet_new (dictGet_none_iff.2 (fun e he h0 => h (List.mem_map.2 ⟨e, he, h0⟩))) v

/-- The answers of a query on a dict, and the matrices afterwards. -/
theorem overDict_ok (q : Query κ) (o o' : ClassOrder κ) (site site' : List ℕ) (mats : ℕ → CM κ)
    (hs : ∀ i, Sound (mats i)) (hn : ∀ i, NoFloats (mats i)) (d : List (ι × ℕ)) :
    ∀ (k : ℕ) (acc : List (ι × PyNum)) (now : ℕ → CM κ), (∀ i, Alike q (mats i) (now i)) →
      (acc.map Prod.fst ++ d.map Prod.fst).Nodup →
      numbers (valueOverDictS (fun k m => q.runS o (k :: site) m) k d acc now).1 =
        (answers (fun i => answer (q.run o' site' (mats i))) d).map
          (fun r => acc.map (fun e => (e.1, e.2.val)) ++ r) ∧
      ∀ i, Alike q (mats i)
        ((valueOverDictS (fun k m => q.runS o (k :: site) m) k d acc now).2 i) := by
  induction d with
  | nil =>
    intro k acc now ha _
    exact ⟨by simp [valueOverDictS, numbers, answers], ha⟩
  | cons e d ih =>
    obtain ⟨l, i⟩ := e
    intro k acc now ha hnd
    have h1 := alike_answer q o' o site' (k :: site) (hs i) (hn i) (ha i)
    rw [answer_of_runS] at h1
    have h2 := alike_step q o (k :: site) (ha i)
    have hup : ∀ j, Alike q (mats j)
        (Function.update now i (q.runS o (k :: site) (now i)).2 j) := by
      intro j
      by_cases hj : j = i
      · subst hj; rw [Function.update_self]; exact h2
      · rw [Function.update_of_ne hj]; exact ha j
    rw [valueOverDictS, answers, ← h1]
    rcases h3 : q.runS o (k :: site) (now i) with ⟨_ | v, m'⟩
    · rw [h3] at hup
      exact ⟨rfl, hup⟩
    · rw [h3] at hup
      have hl : l ∉ acc.map Prod.fst := by
        intro h0
        have := (List.nodup_append.1 hnd).2.2 l h0 l (by simp)
        exact this rfl
      simp only
      rw [dictSet_fresh acc l v hl]
      obtain ⟨h4, h5⟩ := ih (k + 1) (acc ++ [(l, v)]) _ hup (by
        simpa [List.append_assoc] using hnd)
      refine ⟨?_, h5⟩
      rw [h4]
      cases answers (fun i => answer (q.run o' site' (mats i))) d with
      | none => rfl
      | some xs => simp

/-- Where a query on a dict stops. -/
theorem overDict_stop (q : Query κ) (o o' : ClassOrder κ) (site site' : List ℕ) (mats : ℕ → CM κ)
    (hs : ∀ i, Sound (mats i)) (hn : ∀ i, NoFloats (mats i)) (d : List (ι × ℕ)) :
    ∀ (k : ℕ) (acc : List (ι × PyNum)) (now : ℕ → CM κ) (e : PyErr),
      (∀ i, Alike q (mats i) (now i)) →
      (valueOverDictS (fun k m => q.runS o (k :: site) m) k d acc now).1 = .error e →
      ∃ d1 l i d2, d = d1 ++ (l, i) :: d2 ∧
        (∀ x ∈ d1, answer (q.run o' site' (mats x.2)) ≠ none) ∧
        answer (q.run o' site' (mats i)) = none ∧ ∀ j, (∀ x ∈ d1, x.2 ≠ j) → j ≠ i →
        (valueOverDictS (fun k m => q.runS o (k :: site) m) k d acc now).2 j = now j := by
  induction d with
  | nil => intro k acc now e _ h; cases h
  | cons x d ih =>
    obtain ⟨l, i⟩ := x
    intro k acc now e ha h
    have h1 := alike_answer q o' o site' (k :: site) (hs i) (hn i) (ha i)
    rw [answer_of_runS] at h1
    have h2 := alike_step q o (k :: site) (ha i)
    rw [valueOverDictS] at h ⊢
    rcases h3 : q.runS o (k :: site) (now i) with ⟨_ | v, m'⟩
    · rw [h3] at h1
      exact ⟨[], l, i, d, rfl, by simp, h1.symm, fun j _ hj => Function.update_of_ne hj _ _⟩
    · rw [h3] at h h1 h2
      have hup : ∀ j, Alike q (mats j) (Function.update now i m' j) := by
        intro j
        by_cases hj : j = i
        · subst hj; rw [Function.update_self]; exact h2
        · rw [Function.update_of_ne hj]; exact ha j
      obtain ⟨d1, l', i', d2, rfl, h4, h4', h5⟩ := ih _ _ _ _ hup h
      refine ⟨(l, i) :: d1, l', i', d2, rfl, ?_, h4', fun j h6 h7 => ?_⟩
      · intro x hx
        rcases List.mem_cons.1 hx with rfl | hx
        · rw [← h1]; simp
        · exact h4 x hx
      · simp only
        rw [h5 j (fun x hx => h6 x (by simp [hx])) h7]
        exact Function.update_of_ne (Ne.symm (h6 (l, i) (by simp))) _ _

end SegEval
