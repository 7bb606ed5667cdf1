import Verif.Spec.Compute
import Verif.Lemmas.MLQuery

namespace SegEval

open Spec

theorem entryKey_eq (label m n : Name) : entryKey label m n = keyOf label m n := by
  simp [entryKey, joinComma, keyOf]

theorem split_at_sep {α : Type _} (c : α) (x y r s : List α) (hx : c ∉ x) (hy : c ∉ y)
    (h : x ++ c :: r = y ++ c :: s) : x = y ∧ r = s := by
  induction x generalizing y with
  | nil =>
    cases y with
    | nil => simpa using h
    | cons b y =>
      simp only [List.nil_append, List.cons_append, List.cons.injEq] at h
      exact absurd (by simp [h.1]) hy
  | cons a x ih =>
    cases y with
    | nil =>
      simp only [List.nil_append, List.cons_append, List.cons.injEq] at h
      exact absurd (by simp [h.1]) hx
    | cons b y =>
      simp only [List.cons_append, List.cons.injEq] at h
      obtain ⟨h1, h2⟩ := ih y (fun h => hx (by simp [h])) (fun h => hy (by simp [h])) h.2
      exact ⟨by rw [h.1, h1], h2⟩

theorem keyOf_inj {l l' m m' n n' : Name} (hm : ',' ∉ m) (hm' : ',' ∉ m') (hn : ',' ∉ n)
    (hn' : ',' ∉ n') (h : keyOf l m n = keyOf l' m' n') : l = l' ∧ m = m' ∧ n = n' := by
  have h1 := congrArg List.reverse h
  simp only [keyOf, List.reverse_append, List.reverse_cons, List.nil_append,
    List.cons_append, List.append_assoc] at h1
  obtain ⟨e1, e2⟩ := split_at_sep ',' _ _ _ _ (by simpa using hn) (by simpa using hn') h1
  obtain ⟨e3, e4⟩ := split_at_sep ',' _ _ _ _ (by simpa using hm) (by simpa using hm') e2
  exact ⟨List.reverse_injective e4, List.reverse_injective e3, List.reverse_injective e1⟩

/-! ## Dicts -/

section Dict

variable {κ α : Type _} [DecidableEq κ]

theorem keys_set_nodup (d : List (κ × α)) (k : κ) (v : α) (h : (dictKeys d).Nodup) :
    (dictKeys (dictSet d k v)).Nodup := by
  cases hg : dictGet d k with
  | none =>
    rw [dictSet_new hg, dictKeys, List.map_append]
    rw [dictGet_none_iff] at hg
    refine List.Nodup.append h (by simp) ?_
    intro x hx hx'
    simp only [List.map_cons, List.map_nil, List.mem_singleton] at hx'
    obtain ⟨e, he, rfl⟩ := List.mem_map.1 hx
    exact hg e he hx'
  | some v0 =>
    obtain ⟨pre, post, h1, h2⟩ := dictSet_split hg
    rw [h2]
    rw [h1] at h
    simpa [dictKeys] using h

theorem dictGet_of_mem {d : List (κ × α)} (h : (dictKeys d).Nodup) {k : κ} {v : α}
    (hm : (k, v) ∈ d) : dictGet d k = some v := by
  induction d with
  | nil => simp at hm
  | cons e es ih =>
    obtain ⟨k0, v0⟩ := e
    simp only [dictKeys, List.map_cons, List.nodup_cons] at h
    rcases List.mem_cons.1 hm with h1 | h1
    · cases h1; simp [dictGet]
    · have : k0 ≠ k := by
        rintro rfl
        exact h.1 (List.mem_map.2 ⟨_, h1, rfl⟩)
      simp only [dictGet, this, if_false]
      exact ih h.2 h1

theorem mem_iff_dictGet {d : List (κ × α)} (h : (dictKeys d).Nodup) {k : κ} {v : α} :
    (k, v) ∈ d ↔ dictGet d k = some v := ⟨dictGet_of_mem h, dictGet_mem⟩

theorem mem_dictKeys {d : List (κ × α)} {k : κ} : k ∈ dictKeys d ↔ ∃ v, dictGet d k = some v := by
  constructor
  · intro h
    cases hg : dictGet d k with
    | some v => exact ⟨v, rfl⟩
    | none =>
      rw [dictGet_none_iff] at hg
      obtain ⟨e, he, rfl⟩ := List.mem_map.1 h
      exact absurd rfl (hg e he)
  · rintro ⟨v, h⟩
    exact List.mem_map.2 ⟨_, dictGet_mem h, rfl⟩

theorem dictUpdate_get (d e : List (κ × α)) (he : (dictKeys e).Nodup) (k : κ) :
    dictGet (dictUpdate d e) k = (dictGet e k).or (dictGet d k) := by
  unfold dictUpdate
  induction e generalizing d with
  | nil => simp [dictGet]
  | cons x xs ih =>
    obtain ⟨k0, v0⟩ := x
    simp only [dictKeys, List.map_cons, List.nodup_cons] at he
    rw [List.foldl_cons, ih _ he.2, dictGet_set]
    simp only [dictGet]
    by_cases h : k0 = k
    · subst h
      have : dictGet xs k0 = none := by
        rw [dictGet_none_iff]
        intro e hm h0
        exact he.1 (List.mem_map.2 ⟨e, hm, h0⟩)
      simp [this]
    · simp [h, Ne.symm h]

theorem dictUpdate_nodup (d e : List (κ × α)) (hd : (dictKeys d).Nodup) :
    (dictKeys (dictUpdate d e)).Nodup := by
  unfold dictUpdate
  induction e generalizing d with
  | nil => exact hd
  | cons x xs ih =>
    rw [List.foldl_cons]
    exact ih _ (keys_set_nodup _ _ _ hd)

end Dict

/-! ## Coder pairs -/

theorem mem_combinations2 {α : Type _} (l : List α) (x y : α) :
    (x, y) ∈ combinations2 l ↔ [x, y].Sublist l := by
  induction l with
  | nil => simp [combinations2]
  | cons z zs ih =>
    rw [combinations2, List.mem_append, ih, List.mem_map]
    constructor
    · rintro (⟨w, hw, h⟩ | h)
      · cases h
        exact List.Sublist.cons_cons _ (List.singleton_sublist.2 hw)
      · exact List.Sublist.cons _ h
    · intro h
      cases h with
      | cons _ h => exact .inr h
      | cons_cons _ h => exact .inl ⟨y, List.singleton_sublist.1 h, rfl⟩

section Pairs

variable {R : Type _}

/-- The entries of one label: what `labelPairs` should hold. -/
def EntryOf (f : Seg → Seg → Py R) (label : Name) (permuted : Bool) (cm cn : Codings)
    (pairs : List (Name × Name)) (k : Name) (v : R) : Prop :=
  ∃ p ∈ pairs, ∃ sm sn, dictGet cm p.1 = some sm ∧ dictGet cn p.2 = some sn ∧
    ((k = entryKey label p.1 p.2 ∧ f sm sn = .ok v) ∨
      (permuted = true ∧ k = entryKey label p.2 p.1 ∧ f sn sm = .ok v))

theorem pairStep_cases (f : Seg → Seg → Py R) (label : Name) (permuted two : Bool) (cm cn : Codings)
    (acc : List (Name × R)) (p : Name × Name) {sm sn : Seg} (hm : dictGet cm p.1 = some sm)
    (hn : dictGet cn p.2 = some sn) :
    pairStep f label permuted two cm cn acc p =
      match f sm sn with
      | .error e => .error e
      | .ok v =>
        if (permuted && !two) = true then
          match f sn sm with
          | .error e => .error e
          | .ok v' => .ok (dictSet (dictSet acc (entryKey label p.1 p.2) v) (entryKey label p.2 p.1) v')
        else .ok (dictSet acc (entryKey label p.1 p.2) v) := by
  unfold pairStep
  rw [hm, hn]
  simp only
  cases f sm sn with
  | error e => rfl
  | ok v =>
    simp only
    split
    · cases f sn sm <;> rfl
    · rfl

/-- Two entries with one key have one value. -/
def Functional (E : Name → R → Prop) : Prop := ∀ k v v', E k v → E k v' → v = v'

theorem labelPairs_spec (f : Seg → Seg → Py R) (label : Name) (permuted two : Bool)
    (cm cn : Codings) (pairs : List (Name × Name))
    (hfun : Functional (EntryOf f label (permuted && !two) cm cn pairs)) {out : List (Name × R)}
    (h : labelPairs f label permuted two cm cn pairs = .ok out) :
    (dictKeys out).Nodup ∧ ∀ k v, dictGet out k = some v ↔
      EntryOf f label (permuted && !two) cm cn pairs k v := by
  unfold labelPairs at h
  have key : ∀ (ps done : List (Name × Name)) (acc out : List (Name × R)),
      (∀ p ∈ done ++ ps, p ∈ pairs) → (dictKeys acc).Nodup →
      (∀ k v, dictGet acc k = some v ↔ EntryOf f label (permuted && !two) cm cn done k v) →
      forLoop ps acc (pairStep f label permuted two cm cn) = .ok out →
      (dictKeys out).Nodup ∧ ∀ k v, dictGet out k = some v ↔
        EntryOf f label (permuted && !two) cm cn (done ++ ps) k v := by
    intro ps
    induction ps with
    | nil =>
      intro done acc out _ hn hi h
      cases h
      rw [List.append_nil]
      exact ⟨hn, hi⟩
    | cons p ps ih =>
      intro done acc out hsub hn hi h
      simp only [forLoop] at h
      cases h1 : pairStep f label permuted two cm cn acc p with
      | error e => rw [h1] at h; cases h
      | ok acc' =>
        rw [h1] at h
        simp only at h
        have happ : done ++ p :: ps = (done ++ [p]) ++ ps := by simp
        rw [happ] at hsub ⊢
        refine ih (done ++ [p]) acc' out hsub ?_ ?_ h
        · -- nodup
          unfold pairStep at h1
          split at h1
          · split at h1
            · cases h1
            · split at h1
              · split at h1
                · cases h1
                · cases h1; exact keys_set_nodup _ _ _ (keys_set_nodup _ _ _ hn)
              · cases h1; exact keys_set_nodup _ _ _ hn
          · cases h1
        · have hmono : ∀ k v, EntryOf f label (permuted && !two) cm cn done k v →
              EntryOf f label (permuted && !two) cm cn (done ++ [p]) k v := by
            rintro k v ⟨q, hq, h⟩
            exact ⟨q, by simp [hq], h⟩
          have hall : ∀ k v, EntryOf f label (permuted && !two) cm cn (done ++ [p]) k v →
              EntryOf f label (permuted && !two) cm cn pairs k v := by
            rintro k v ⟨q, hq, h⟩
            exact ⟨q, hsub q (List.mem_append_left _ hq), h⟩
          have hF : Functional (EntryOf f label (permuted && !two) cm cn (done ++ [p])) :=
            fun k v v' h h' => hfun k v v' (hall k v h) (hall k v' h')
          cases hm : dictGet cm p.1 with
          | none => rw [pairStep, hm] at h1; cases h1
          | some sm =>
            cases hnn : dictGet cn p.2 with
            | none => rw [pairStep, hm, hnn] at h1; cases h1
            | some sn =>
              rw [pairStep_cases f label permuted two cm cn acc p hm hnn] at h1
              cases hf1 : f sm sn with
              | error e => rw [hf1] at h1; cases h1
              | ok v1 =>
                rw [hf1] at h1
                simp only at h1
                have hE1 : EntryOf f label (permuted && !two) cm cn (done ++ [p])
                    (entryKey label p.1 p.2) v1 :=
                  ⟨p, by simp, sm, sn, hm, hnn, .inl ⟨rfl, hf1⟩⟩
                by_cases hp : (permuted && !two) = true
                · rw [if_pos hp] at h1
                  cases hf2 : f sn sm with
                  | error e => rw [hf2] at h1; cases h1
                  | ok v2 =>
                    rw [hf2] at h1
                    cases h1
                    have hE2 : EntryOf f label (permuted && !two) cm cn (done ++ [p])
                        (entryKey label p.2 p.1) v2 :=
                      ⟨p, by simp, sm, sn, hm, hnn, .inr ⟨hp, rfl, hf2⟩⟩
                    intro k v
                    rw [dictGet_set, dictGet_set]
                    constructor
                    · intro h
                      split at h
                      · rename_i hk; cases h; rw [hk]; exact hE2
                      · split at h
                        · rename_i hk; cases h; rw [hk]; exact hE1
                        · exact hmono k v ((hi k v).1 h)
                    · intro hE
                      split
                      · rename_i hk; rw [hk] at hE; rw [hF _ _ _ hE hE2]
                      · split
                        · rename_i hk; rw [hk] at hE; rw [hF _ _ _ hE hE1]
                        · rename_i hk2 hk1
                          rw [hi]
                          obtain ⟨q, hq, sm', sn', a1, a2, a3⟩ := hE
                          rcases List.mem_append.1 hq with hq | hq
                          · exact ⟨q, hq, sm', sn', a1, a2, a3⟩
                          · rw [List.mem_singleton] at hq
                            subst hq
                            rcases a3 with a3 | a3
                            · exact absurd a3.1 hk1
                            · exact absurd a3.2.1 hk2
                · rw [if_neg hp] at h1
                  cases h1
                  intro k v
                  rw [dictGet_set]
                  constructor
                  · intro h
                    split at h
                    · rename_i hk; cases h; rw [hk]; exact hE1
                    · exact hmono k v ((hi k v).1 h)
                  · intro hE
                    split
                    · rename_i hk; rw [hk] at hE; rw [hF _ _ _ hE hE1]
                    · rename_i hk1
                      rw [hi]
                      obtain ⟨q, hq, sm', sn', a1, a2, a3⟩ := hE
                      rcases List.mem_append.1 hq with hq | hq
                      · exact ⟨q, hq, sm', sn', a1, a2, a3⟩
                      · rw [List.mem_singleton] at hq
                        subst hq
                        rcases a3 with a3 | a3
                        · exact absurd a3.1 hk1
                        · exact absurd a3.1 hp
  exact key pairs [] [] out (by simp) (by simp [dictKeys]) (by
    intro k v
    constructor
    · intro h; simp [dictGet] at h
    · rintro ⟨p, hp, _⟩; simp at hp) h

/-- When the step of a label fails, the metric raised on one of its pairs (or a coder is missing,
which cannot happen for the pairs of the dataset). -/
theorem labelPairs_error (f : Seg → Seg → Py R) (label : Name) (permuted two : Bool)
    (cm cn : Codings) (pairs : List (Name × Name)) {e : PyErr}
    (hkeys : ∀ p ∈ pairs, (∃ s, dictGet cm p.1 = some s) ∧ ∃ s, dictGet cn p.2 = some s)
    (h : labelPairs f label permuted two cm cn pairs = .error e) :
    ∃ p ∈ pairs, ∃ sm sn, dictGet cm p.1 = some sm ∧ dictGet cn p.2 = some sn ∧
      (f sm sn = .error e ∨ ((permuted && !two) = true ∧ f sn sm = .error e)) := by
  unfold labelPairs at h
  generalize ([] : List (Name × R)) = acc at h
  induction pairs generalizing acc with
  | nil => cases h
  | cons p ps ih =>
    simp only [forLoop] at h
    obtain ⟨⟨sm, hm⟩, sn, hn⟩ := hkeys p (by simp)
    rw [pairStep_cases f label permuted two cm cn acc p hm hn] at h
    have rest : ∀ acc', forLoop ps acc' (pairStep f label permuted two cm cn) = .error e →
        ∃ q ∈ p :: ps, ∃ sm sn, dictGet cm q.1 = some sm ∧ dictGet cn q.2 = some sn ∧
          (f sm sn = .error e ∨ ((permuted && !two) = true ∧ f sn sm = .error e)) := by
      intro acc' h
      obtain ⟨q, hq, h⟩ := ih (fun p hp => hkeys p (by simp [hp])) acc' h
      exact ⟨q, by simp [hq], h⟩
    cases hf : f sm sn with
    | error e' =>
      rw [hf] at h
      simp only at h
      cases h
      exact ⟨p, by simp, sm, sn, hm, hn, .inl hf⟩
    | ok v =>
      rw [hf] at h
      simp only at h
      by_cases hp : (permuted && !two) = true
      · rw [if_pos hp] at h
        cases hf2 : f sn sm with
        | error e' =>
          rw [hf2] at h
          simp only at h
          cases h
          exact ⟨p, by simp, sm, sn, hm, hn, .inr ⟨hp, hf2⟩⟩
        | ok v2 => rw [hf2] at h; exact rest _ h
      · rw [if_neg hp] at h; exact rest _ h

end Pairs

theorem mem_labelSet (a : Items) (b : Option Items) (l : Name) :
    l ∈ labelSet a b ↔ l ∈ dictKeys a ∨ ∃ b', b = some b' ∧ l ∈ dictKeys b' := by
  unfold labelSet
  refine Iff.trans (foldl_insert_mem (fun x : Name => x) _ ∅ l) ?_
  cases b <;> simp

/-- The label loop, given what each label contributes. -/
theorem perLabel_loop {R : Type _} (step : List (Name × R) → Name → Py (List (Name × R)))
    (E : Name → Name → R → Prop)
    (hE : ∀ l l' k v v', E l k v → E l' k v' → v = v')
    (hstep : ∀ l acc acc', (dictKeys acc).Nodup → step acc l = .ok acc' →
      (dictKeys acc').Nodup ∧ ∃ lp : List (Name × R), (∀ k v, dictGet lp k = some v ↔ E l k v) ∧
        ∀ k, dictGet acc' k = (dictGet lp k).or (dictGet acc k))
    (ls : List Name) {out : List (Name × R)} (h : forLoop ls [] step = .ok out) :
    (dictKeys out).Nodup ∧ ∀ k v, dictGet out k = some v ↔ ∃ l ∈ ls, E l k v := by
  have key : ∀ (ls done : List Name) (acc out : List (Name × R)), (dictKeys acc).Nodup →
      (∀ k v, dictGet acc k = some v ↔ ∃ l ∈ done, E l k v) → forLoop ls acc step = .ok out →
      (dictKeys out).Nodup ∧ ∀ k v, dictGet out k = some v ↔ ∃ l ∈ done ++ ls, E l k v := by
    intro ls
    induction ls with
    | nil => intro done acc out hn hi h; cases h; rw [List.append_nil]; exact ⟨hn, hi⟩
    | cons l ls ih =>
      intro done acc out hn hi h
      simp only [forLoop] at h
      cases h1 : step acc l with
      | error e => rw [h1] at h; cases h
      | ok acc' =>
        rw [h1] at h
        obtain ⟨hn', lp, hlp, hget⟩ := hstep l acc acc' hn h1
        have happ : done ++ l :: ls = (done ++ [l]) ++ ls := by simp
        rw [happ]
        refine ih (done ++ [l]) acc' out hn' ?_ h
        intro k v
        rw [hget]
        cases hk : dictGet lp k with
        | none =>
          rw [Option.none_or, hi]
          constructor
          · rintro ⟨l', hl, h⟩; exact ⟨l', by simp [hl], h⟩
          · rintro ⟨l', hl, h⟩
            rcases List.mem_append.1 hl with hl | hl
            · exact ⟨l', hl, h⟩
            · rw [List.mem_singleton] at hl
              subst hl
              rw [← hlp, hk] at h; cases h
        | some v0 =>
          rw [Option.some_or, Option.some.injEq]
          have h0 := (hlp k v0).1 hk
          constructor
          · rintro rfl; exact ⟨l, by simp, h0⟩
          · rintro ⟨l', _, h⟩; exact hE _ _ _ _ _ h0 h
  exact key ls [] [] out (by simp [dictKeys]) (by simp [dictGet]) h

end SegEval
