import Verif.Spec.ML
import Verif.Lemmas.Metric

namespace SegEval

open Spec

section Dict

variable {κ α : Type _} [DecidableEq κ]

theorem dictGet_set (d : List (κ × α)) (k k' : κ) (v : α) :
    dictGet (dictSet d k v) k' = if k' = k then some v else dictGet d k' := by
  induction d with
  | nil =>
    by_cases h : k' = k
    · simp [dictSet, dictGet, h]
    · simp [dictSet, dictGet, h, Ne.symm h]
  | cons e es ih =>
    obtain ⟨k0, v0⟩ := e
    simp only [dictSet]
    by_cases h0 : k0 = k
    · subst h0
      rw [if_pos rfl]
      by_cases h : k' = k0
      · subst h; simp [dictGet]
      · simp [dictGet, h, Ne.symm h]
    · rw [if_neg h0]
      simp only [dictGet]
      rw [ih]
      by_cases h : k' = k
      · subst h; simp [h0]
      · simp [h]

theorem dictSet_split {d : List (κ × α)} {k : κ} {v0 : α} (h : dictGet d k = some v0) :
    ∃ pre post, d = pre ++ (k, v0) :: post ∧ ∀ v, dictSet d k v = pre ++ (k, v) :: post := by
  induction d with
  | nil => cases h
  | cons e es ih =>
    obtain ⟨k0, v1⟩ := e
    simp only [dictGet] at h
    by_cases h0 : k0 = k
    · subst h0
      rw [if_pos rfl, Option.some.injEq] at h
      subst h
      exact ⟨[], es, rfl, fun v => by simp [dictSet]⟩
    · rw [if_neg h0] at h
      obtain ⟨pre, post, h1, h2⟩ := ih h
      exact ⟨(k0, v1) :: pre, post, by rw [h1]; rfl, fun v => by simp [dictSet, h0, h2]⟩

theorem dictSet_new {d : List (κ × α)} {k : κ} (h : dictGet d k = none) (v : α) :
    dictSet d k v = d ++ [(k, v)] := by
  induction d with
  | nil => rfl
  | cons e es ih =>
    obtain ⟨k0, v1⟩ := e
    simp only [dictGet] at h
    by_cases h0 : k0 = k
    · rw [if_pos h0] at h; cases h
    · rw [if_neg h0] at h
      simp [dictSet, h0, ih h]

theorem dictGet_mem {d : List (κ × α)} {k : κ} {v : α} (h : dictGet d k = some v) : (k, v) ∈ d := by
  obtain ⟨pre, post, h1, _⟩ := dictSet_split h
  rw [h1]; simp

theorem dictGet_none_iff {d : List (κ × α)} {k : κ} : dictGet d k = none ↔ ∀ e ∈ d, e.1 ≠ k := by
  induction d with
  | nil => simp [dictGet]
  | cons e es ih =>
    obtain ⟨k0, v1⟩ := e
    simp only [dictGet, List.mem_cons, forall_eq_or_imp]
    by_cases h0 : k0 = k
    · simp [h0]
    · simp [h0, ih]

theorem keys_dictSet (d : List (κ × α)) (k l : κ) (v : α) :
    (∃ e ∈ dictSet d k v, e.1 = l) ↔ (∃ e ∈ d, e.1 = l) ∨ l = k := by
  cases h : dictGet d k with
  | none =>
    rw [dictSet_new h]
    simp only [List.mem_append, List.mem_singleton]
    constructor
    · rintro ⟨e, he | rfl, rfl⟩
      · exact .inl ⟨e, he, rfl⟩
      · exact .inr rfl
    · rintro (⟨e, he, rfl⟩ | rfl)
      · exact ⟨e, .inl he, rfl⟩
      · exact ⟨_, .inr rfl, rfl⟩
  | some v0 =>
    obtain ⟨pre, post, h1, h2⟩ := dictSet_split h
    rw [h2, h1]
    simp only [List.mem_append, List.mem_cons]
    constructor
    · rintro ⟨e, he | rfl | he, rfl⟩
      · exact .inl ⟨e, .inl he, rfl⟩
      · exact .inr rfl
      · exact .inl ⟨e, .inr (.inr he), rfl⟩
    · rintro (⟨e, he | rfl | he, rfl⟩ | rfl)
      · exact ⟨e, .inl he, rfl⟩
      · exact ⟨(k, v), .inr (.inl rfl), rfl⟩
      · exact ⟨e, .inr (.inr he), rfl⟩
      · exact ⟨_, .inr (.inl rfl), rfl⟩

end Dict

section Matrix

variable {κ : Type _} [DecidableEq κ]

namespace CM

theorem row_touch (m : CM κ) (p p' : κ) : (m.touch p).row p' = m.row p' := by
  unfold touch row
  cases h : dictGet m.rows p with
  | some _ => rfl
  | none =>
    simp only
    rw [dictGet_set]
    by_cases hp : p' = p
    · subst hp; simp [h]
    · simp [hp]

theorem touch_get (m : CM κ) (p : κ) : dictGet (m.touch p).rows p = some (m.row p) := by
  unfold touch row
  cases h : dictGet m.rows p with
  | some _ => simp [h]
  | none => simp [dictGet_set]

theorem row_write (m : CM κ) (p a p' : κ) (v : PyNum) :
    (m.write p a v).row p' = if p' = p then dictSet (m.row p) a v else m.row p' := by
  unfold write
  simp only
  rw [row_touch]
  unfold row
  simp only [dictGet_set]
  by_cases hp : p' = p
  · simp [hp]
  · simp only [hp, if_false]
    exact row_touch m p p'

end CM

theorem cell_eq (m : CM κ) (p a : κ) : cell m p a = (dictGet (m.row p) a).getD (.int 0) := by
  unfold cell CM.read
  simp only [CM.row_touch]
  cases dictGet (m.row p) a <;> rfl

theorem cell_touch (m : CM κ) (q p a : κ) : cell (m.touch q) p a = cell m p a := by
  rw [cell_eq, cell_eq, CM.row_touch]

theorem cell_write (m : CM κ) (p a : κ) (v : PyNum) (p' a' : κ) :
    cell (m.write p a v) p' a' = if p' = p ∧ a' = a then v else cell m p' a' := by
  rw [cell_eq, cell_eq, CM.row_write]
  by_cases hp : p' = p
  · subst hp
    rw [if_pos rfl, dictGet_set]
    by_cases ha : a' = a <;> simp [ha]
  · simp [hp]

theorem cell_read (m : CM κ) (p a p' a' : κ) : cell (m.read p a).2 p' a' = cell m p' a' := by
  have h : (m.read p a).2 = m.touch p ∨ (m.read p a).2 = (m.touch p).write p a (.int 0) ∧
      dictGet (m.row p) a = none := by
    unfold CM.read
    simp only [CM.row_touch]
    cases h : dictGet (m.row p) a with
    | some v => exact .inl rfl
    | none => exact .inr ⟨rfl, rfl⟩
  rcases h with h | ⟨h, hn⟩
  · rw [h, cell_touch]
  · rw [h, cell_write, cell_touch]
    split
    · rename_i hc
      rw [hc.1, hc.2, cell_eq, hn]; rfl
    · rfl

theorem cell_classes (m : CM κ) (p a : κ) : cell m.classes.2 p a = cell m p a := by
  rw [cell_eq, cell_eq]
  unfold CM.classes
  split <;> rfl

/-! ## Labels -/

theorem foldl_insert_mem {α β : Type _} [DecidableEq β] (f : α → β) (l : List α) (acc : Finset β)
    (x : β) : x ∈ l.foldl (fun acc c => insert (f c) acc) acc ↔ x ∈ acc ∨ ∃ c ∈ l, f c = x := by
  induction l generalizing acc with
  | nil => simp
  | cons y ys ih =>
    rw [List.foldl_cons, ih, Finset.mem_insert]
    simp only [List.mem_cons, exists_eq_or_imp]
    constructor
    · rintro ((rfl | h) | h)
      · exact .inr (.inl rfl)
      · exact .inl h
      · exact .inr (.inr h)
    · rintro (h | rfl | h)
      · exact .inl (.inr h)
      · exact .inl (.inl rfl)
      · exact .inr h

theorem mem_labels (m : CM κ) (l : κ) : l ∈ m.labels ↔ HasLabel m l := by
  have key : ∀ (rows : List (κ × List (κ × PyNum))) (acc : Finset κ),
      l ∈ rows.foldl (fun acc r => insert r.1 (r.2.foldl (fun acc c => insert c.1 acc) acc)) acc ↔
      l ∈ acc ∨ ∃ r ∈ rows, r.1 = l ∨ ∃ c ∈ r.2, c.1 = l := by
    intro rows
    induction rows with
    | nil => intro acc; simp
    | cons r rs ih =>
      intro acc
      rw [List.foldl_cons, ih, Finset.mem_insert, foldl_insert_mem]
      simp only [List.mem_cons, exists_eq_or_imp]
      constructor
      · rintro ((rfl | h | h) | h)
        · exact .inr (.inl (.inl rfl))
        · exact .inl h
        · exact .inr (.inl (.inr h))
        · exact .inr (.inr h)
      · rintro (h | (rfl | h) | h)
        · exact .inl (.inr (.inl h))
        · exact .inl (.inl rfl)
        · exact .inl (.inr (.inr h))
        · exact .inr h
  unfold CM.labels HasLabel
  rw [key]; simp

theorem hasLabel_touch (m : CM κ) (p l : κ) : HasLabel (m.touch p) l ↔ HasLabel m l ∨ l = p := by
  unfold CM.touch
  cases h : dictGet m.rows p with
  | some r =>
    simp only
    constructor
    · exact .inl
    · rintro (h' | rfl)
      · exact h'
      · exact ⟨_, dictGet_mem h, .inl rfl⟩
  | none =>
    unfold HasLabel
    simp only [dictSet_new h, List.mem_append, List.mem_singleton]
    constructor
    · rintro ⟨r, hr | rfl, h'⟩
      · exact .inl ⟨r, hr, h'⟩
      · rcases h' with rfl | ⟨c, hc, _⟩
        · exact .inr rfl
        · simp at hc
    · rintro (⟨r, hr, h'⟩ | rfl)
      · exact ⟨r, .inl hr, h'⟩
      · exact ⟨_, .inr rfl, .inl rfl⟩

theorem hasLabel_write (m : CM κ) (p a : κ) (v : PyNum) (l : κ) :
    HasLabel (m.write p a v) l ↔ HasLabel m l ∨ l = p ∨ l = a := by
  rw [← or_assoc, ← hasLabel_touch m p l]
  have hg := CM.touch_get m p
  have hrow := CM.row_touch m p p
  unfold CM.write
  simp only
  rw [hrow]
  obtain ⟨pre, post, h1, h2⟩ := dictSet_split hg
  unfold HasLabel
  simp only
  rw [h2, h1]
  simp only [List.mem_append, List.mem_cons]
  constructor
  · rintro ⟨r, hr | rfl | hr, h'⟩
    · exact .inl ⟨r, .inl hr, h'⟩
    · rcases h' with rfl | h'
      · exact .inl ⟨_, .inr (.inl rfl), .inl rfl⟩
      · rcases (keys_dictSet _ _ _ _).1 h' with h' | rfl
        · exact .inl ⟨_, .inr (.inl rfl), .inr h'⟩
        · exact .inr rfl
    · exact .inl ⟨r, .inr (.inr hr), h'⟩
  · rintro (⟨r, hr | rfl | hr, h'⟩ | rfl)
    · exact ⟨r, .inl hr, h'⟩
    · rcases h' with rfl | h'
      · exact ⟨_, .inr (.inl rfl), .inl rfl⟩
      · exact ⟨_, .inr (.inl rfl), .inr ((keys_dictSet _ _ _ _).2 (.inl h'))⟩
    · exact ⟨r, .inr (.inr hr), h'⟩
    · exact ⟨_, .inr (.inl rfl), .inr ((keys_dictSet _ _ _ _).2 (.inr rfl))⟩

omit [DecidableEq κ] in
theorem inUse_hasLabel {m : CM κ} {l : κ} (h : InUse m l) : HasLabel m l := by
  obtain ⟨r, hr, h | h⟩ := h
  · exact ⟨r, hr, .inl h.1⟩
  · exact ⟨r, hr, .inr h⟩

theorem inUse_touch (m : CM κ) (p l : κ) : InUse (m.touch p) l ↔ InUse m l := by
  unfold CM.touch
  cases h : dictGet m.rows p with
  | some r => rfl
  | none =>
    unfold InUse
    simp only [dictSet_new h, List.mem_append, List.mem_singleton]
    constructor
    · rintro ⟨r, hr | rfl, h'⟩
      · exact ⟨r, hr, h'⟩
      · simp at h'
    · rintro ⟨r, hr, h'⟩
      exact ⟨r, .inl hr, h'⟩

theorem cell_inUse {m : CM κ} {p a : κ} (h : cell m p a ≠ .int 0) : InUse m p ∧ InUse m a := by
  rw [cell_eq] at h
  unfold CM.row at h
  cases hr : dictGet m.rows p with
  | none => rw [hr] at h; simp [dictGet] at h
  | some r =>
    rw [hr] at h
    simp only [Option.getD_some] at h
    cases hc : dictGet r a with
    | none => rw [hc] at h; simp at h
    | some v =>
      have h1 := dictGet_mem hr
      have h2 := dictGet_mem hc
      exact ⟨⟨_, h1, .inl ⟨rfl, by intro h0; simp only at h0; rw [h0] at h2; simp at h2⟩⟩,
        ⟨_, h1, .inr ⟨_, h2, rfl⟩⟩⟩

/-! ## What an operation keeps -/

/-- The class list, when not marked dirty, has every label in use and only labels. -/
def Sound (m : CM κ) : Prop := m.dirty = false → (∀ l, InUse m l → l ∈ m.cached) ∧
  ∀ l ∈ m.cached, HasLabel m l

/-- The class list, when not marked dirty, is exact. -/
def Fresh (m : CM κ) : Prop := m.dirty = false → ∀ l, l ∈ m.cached ↔ HasLabel m l

/-- `m'` has the cells of `m` and at most the labels `L` more. -/
structure Same (m m' : CM κ) (L : κ → Prop) : Prop where
  cells : ∀ p a, cell m' p a = cell m p a
  sound : Sound m → Sound m'
  fresh : Fresh m → Fresh m'
  more : ∀ l, HasLabel m l → HasLabel m' l
  only : ∀ l, HasLabel m' l → HasLabel m l ∨ L l

theorem Same.refl (m : CM κ) (L : κ → Prop) : Same m m L :=
  ⟨fun _ _ => rfl, id, id, fun _ h => h, fun _ h => .inl h⟩

theorem Same.trans {m m' m'' : CM κ} {L L' : κ → Prop} (h : Same m m' L) (h' : Same m' m'' L') :
    Same m m'' (fun l => L l ∨ L' l) :=
  ⟨fun p a => (h'.cells p a).trans (h.cells p a), fun x => h'.sound (h.sound x),
    fun x => h'.fresh (h.fresh x), fun l x => h'.more l (h.more l x), fun l x => by
      rcases h'.only l x with x | x
      · rcases h.only l x with x | x
        · exact .inl x
        · exact .inr (.inl x)
      · exact .inr (.inr x)⟩

theorem Same.mono {m m' : CM κ} {L L' : κ → Prop} (h : Same m m' L)
    (hL : ∀ l, L l → HasLabel m l ∨ L' l) : Same m m' L' :=
  ⟨h.cells, h.sound, h.fresh, h.more, fun l x => by
    rcases h.only l x with x | x
    · exact .inl x
    · exact hL l x⟩

theorem same_classes (m : CM κ) (L : κ → Prop) : Same m m.classes.2 L := by
  refine ⟨cell_classes m, ?_, ?_, ?_, ?_⟩
  · intro hs
    unfold CM.classes
    split
    · intro _
      exact ⟨fun l hl => (mem_labels m l).2 (inUse_hasLabel hl), fun l hl => (mem_labels m l).1 hl⟩
    · exact hs
  · intro hs
    unfold CM.classes
    split
    · intro _ l
      exact mem_labels m l
    · exact hs
  · intro l h; unfold CM.classes; split <;> exact h
  · intro l h
    refine .inl ?_
    revert h
    unfold CM.classes; split <;> exact id

theorem classes_mem_of_sound {m : CM κ} (h : Sound m) :
    (∀ l, InUse m l → l ∈ m.classes.1) ∧ ∀ l ∈ m.classes.1, HasLabel m l := by
  unfold CM.classes
  cases hd : m.dirty with
  | true =>
    simp only [if_true]
    exact ⟨fun l hl => (mem_labels m l).2 (inUse_hasLabel hl), fun l hl => (mem_labels m l).1 hl⟩
  | false =>
    simp only [Bool.false_eq_true, if_false]
    exact h hd

theorem classes_mem_of_fresh {m : CM κ} (h : Fresh m) (l : κ) : l ∈ m.classes.1 ↔ HasLabel m l := by
  unfold CM.classes
  cases hd : m.dirty with
  | true => simp only [if_true]; exact mem_labels m l
  | false => simp only [Bool.false_eq_true, if_false]; exact h hd l

theorem write_dirty (m : CM κ) (p a : κ) (v : PyNum) : (m.write p a v).dirty = true := rfl

theorem read_cases (m : CM κ) (p a : κ) : (∃ v, m.read p a = (v, m)) ∨
    m.read p a = (.int 0, (m.touch p).write p a (.int 0)) := by
  unfold CM.read
  simp only [CM.row_touch]
  cases h : dictGet (m.row p) a with
  | none => exact .inr rfl
  | some v =>
    refine .inl ⟨v, ?_⟩
    have : m.touch p = m := by
      unfold CM.touch
      unfold CM.row at h
      cases hr : dictGet m.rows p with
      | none => rw [hr] at h; simp [dictGet] at h
      | some r => rfl
    simp only [this]

theorem same_read (m : CM κ) (p a : κ) : Same m (m.read p a).2 (fun l => l = p ∨ l = a) := by
  rcases read_cases m p a with ⟨v, h⟩ | h
  · rw [h]; exact Same.refl m _
  · refine ⟨cell_read m p a, ?_, ?_, ?_, ?_⟩
    · intro _; rw [h]; intro hd; cases hd
    · intro _; rw [h]; intro hd; cases hd
    · intro l hl; rw [h]
      exact (hasLabel_write _ _ _ _ _).2 (.inl ((hasLabel_touch _ _ _).2 (.inl hl)))
    · intro l hl
      rw [h] at hl
      rcases (hasLabel_write _ _ _ _ _).1 hl with hl | hl
      · rcases (hasLabel_touch _ _ _).1 hl with hl | hl
        · exact .inl hl
        · exact .inr (.inl hl)
      · exact .inr hl

theorem sound_touch {m : CM κ} (h : Sound m) (p : κ) : Sound (m.touch p) := by
  have hd : (m.touch p).dirty = m.dirty := by unfold CM.touch; split <;> rfl
  have hc : (m.touch p).cached = m.cached := by unfold CM.touch; split <;> rfl
  intro h0
  rw [hd] at h0
  rw [hc]
  exact ⟨fun l hl => (h h0).1 l ((inUse_touch m p l).1 hl),
    fun l hl => (hasLabel_touch m p l).2 (.inl ((h h0).2 l hl))⟩

/-! ## Sums over classes -/

theorem add_noFlt {x y : PyNum} (hx : x.NoFlt) (hy : y.NoFlt) :
    ∃ z, x.add y = .ok z ∧ z.val = x.val + y.val ∧ z.NoFlt := by
  cases x <;> cases y <;> first | exact absurd hx id | exact absurd hy id |
    exact ⟨_, rfl, by simp [PyNum.val], trivial⟩

theorem noFloats_same {m m' : CM κ} {L : κ → Prop} (h : Same m m' L) (hn : NoFloats m) :
    NoFloats m' := fun p a => by rw [h.cells]; exact hn p a

theorem sumCells_ok (f : κ → κ × κ) (cs : List κ) (t : PyNum) (m : CM κ) (ht : t.NoFlt)
    (hm : NoFloats m) : ∃ t' m', sumCells f cs (t, m) = .ok (t', m') ∧ t'.NoFlt ∧
      t'.val = t.val + (cs.map (fun c => entry m (f c).1 (f c).2)).sum ∧
      Same m m' (fun l => ∃ c ∈ cs, l = (f c).1 ∨ l = (f c).2) := by
  induction cs generalizing t m with
  | nil => exact ⟨t, m, rfl, ht, by simp, Same.refl m _⟩
  | cons c cs ih =>
    have hs := same_read m (f c).1 (f c).2
    obtain ⟨z, hz, hv, hzn⟩ := add_noFlt ht (hm (f c).1 (f c).2)
    obtain ⟨t', m', h1, h2, h3, h4⟩ := ih z (m.read (f c).1 (f c).2).2 hzn (noFloats_same hs hm)
    refine ⟨t', m', ?_, h2, ?_, ?_⟩
    · rw [sumCells]
      simp only
      have : t.add (m.read (f c).1 (f c).2).1 = .ok z := hz
      rw [this]
      exact h1
    · rw [h3, hv, List.map_cons, List.sum_cons, ← add_assoc]
      congr 2
      apply List.map_congr_left
      intro x _
      unfold entry
      rw [hs.cells]
    · refine (hs.trans h4).mono (fun l hl => .inr ?_)
      rcases hl with hl | ⟨x, hx, hl⟩
      · exact ⟨c, by simp, hl⟩
      · exact ⟨x, by simp [hx], hl⟩

theorem sum_order (o : ClassOrder κ) (site : List ℕ) (S : Finset κ) (f : κ → ℚ) :
    ((o.order site S).map f).sum = ∑ c ∈ S, f c := by
  have h : (o.order site S).toFinset = S := by
    ext x; rw [List.mem_toFinset, o.mem]
  rw [← h, List.sum_toFinset _ (o.nodup site S)]
  simp only [h]

omit [DecidableEq κ] in
theorem finsum_eq_sum {f : κ → ℚ} {S : Finset κ} (h : ∀ x, f x ≠ 0 → x ∈ S) :
    ∑ᶠ x, f x = ∑ x ∈ S, f x := by
  apply finsum_eq_sum_of_support_subset
  intro x hx
  exact h x hx

theorem entry_inUse {m : CM κ} {p a : κ} (h : entry m p a ≠ 0) : InUse m p ∧ InUse m a :=
  cell_inUse (fun h0 => h (by unfold entry; rw [h0]; simp [PyNum.val]))

/-- `classRatio` on a sound matrix: what it computes and what it leaves. -/
theorem classRatio_ok (o : ClassOrder κ) (site : List ℕ) (f : κ → κ × κ) (m : CM κ) (c : κ)
    (rp : Bool) (hs : Sound m) (hn : NoFloats m)
    (hf' : ∀ x, (f x).1 = x ∨ (f x).2 = x)
    (hf1 : ∀ x, ((f x).1 = c ∨ (f x).1 = x) ∧ ((f x).2 = c ∨ (f x).2 = x)) :
    ∃ d m', d.NoFlt ∧ d.val = ∑ᶠ x, entry m (f x).1 (f x).2 ∧
      Same m m' (fun l => l = c) ∧
      classRatio o site f m c rp =
        match finishClass rp (cell m c c) d with
        | .error e => .error e
        | .ok out => .ok (out, m') := by
  have hc := same_classes m (fun _ => False)
  have hS := classes_mem_of_sound hs
  obtain ⟨d, m2, h1, h2, h3, h4⟩ := sumCells_ok f (o.order site m.classes.1) (.int 0) m.classes.2
    trivial (noFloats_same hc hn)
  have hr := same_read m2 c c
  refine ⟨d, (m2.read c c).2, h2, ?_, ?_, ?_⟩
  · rw [h3, sum_order]
    rw [finsum_eq_sum (S := m.classes.1)]
    · simp only [PyNum.val, Int.cast_zero, zero_add]
      apply Finset.sum_congr rfl
      intro x _
      unfold entry
      rw [hc.cells]
    · intro x hx
      have := entry_inUse hx
      rcases hf' x with h | h
      · rw [h] at this; exact hS.1 x this.1
      · rw [h] at this; exact hS.1 x this.2
  · refine ((hc.trans h4).trans hr).mono ?_
    rintro l ((h | ⟨x, hx, hl⟩) | h)
    · exact h.elim
    · rw [o.mem] at hx
      have hx' := hS.2 x hx
      rcases hl with rfl | rfl
      · rcases (hf1 x).1 with h | h
        · exact .inr h
        · rw [h]; exact .inl hx'
      · rcases (hf1 x).2 with h | h
        · exact .inr h
        · rw [h]; exact .inl hx'
    · exact .inr (by rcases h with h | h <;> exact h)
  · rw [classRatio]
    simp only
    rw [h1]
    simp only
    have : (m2.read c c).1 = cell m c c := by
      have a := h4.cells c c
      have b := hc.cells c c
      rw [← b, ← a]; rfl
    rw [this]
    cases finishClass rp (cell m c c) d <;> rfl

end Matrix

end SegEval
