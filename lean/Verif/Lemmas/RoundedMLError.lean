import Verif.Lemmas.RoundedML
import Verif.Lemmas.RoundedBed
import Verif.Lemmas.MLBed

/-!
# How far rounding takes precision, recall and F-measure

The exact and the rounded computation run in step: the matrices keep the same shape, and numbers that
correspond are within a power of `u = 1 - eps` of each other.
-/

namespace SegEval

open Spec

/-! ## Numbers -/

/-- Not negative, and within `k` rounding errors of each other. -/
structure Near (u : ℚ) (k : ℕ) (x y : ℚ) : Prop where
  left : 0 ≤ x
  right : 0 ≤ y
  lower : u ^ k * y ≤ x
  upper : u ^ k * x ≤ y

section Numbers

variable {u : ℚ} {k l : ℕ} {x y x' y' : ℚ}

theorem near_refl (hu1 : u ≤ 1) (hu : 0 < u) (k : ℕ) (hx : 0 ≤ x) : Near u k x x :=
  have h : u ^ k * x ≤ x := mul_le_of_le_one_left hx (pow_le_one₀ hu.le hu1)
  ⟨hx, hx, h, h⟩

theorem near_mono (hu1 : u ≤ 1) (hu : 0 < u) (h : Near u k x y) (hkl : k ≤ l) : Near u l x y :=
  have hp : u ^ l ≤ u ^ k := pow_le_pow_of_le_one hu.le hu1 hkl
  ⟨h.left, h.right, (mul_le_mul_of_nonneg_right hp h.right).trans h.lower,
    (mul_le_mul_of_nonneg_right hp h.left).trans h.upper⟩

theorem near_zero (hu : 0 < u) (h : Near u k x y) : x = 0 ↔ y = 0 := by
  have hp := pow_pos hu k
  constructor
  · rintro rfl
    have := h.lower
    exact le_antisymm (nonpos_of_mul_nonpos_right this hp) h.right
  · rintro rfl
    have := h.upper
    exact le_antisymm (nonpos_of_mul_nonpos_right this hp) h.left

theorem near_add (h : Near u k x y) (h' : Near u k x' y') : Near u k (x + x') (y + y') :=
  ⟨add_nonneg h.left h'.left, add_nonneg h.right h'.right, by
    rw [mul_add]; exact add_le_add h.lower h'.lower, by
    rw [mul_add]; exact add_le_add h.upper h'.upper⟩

theorem near_mul (hu : 0 < u) (h : Near u k x y) (h' : Near u l x' y') :
    Near u (k + l) (x * x') (y * y') :=
  ⟨mul_nonneg h.left h'.left, mul_nonneg h.right h'.right, by
    rw [pow_add, mul_mul_mul_comm]
    exact mul_le_mul h.lower h'.lower (mul_nonneg (pow_pos hu l).le h'.right) h.left, by
    rw [pow_add, mul_mul_mul_comm]
    exact mul_le_mul h.upper h'.upper (mul_nonneg (pow_pos hu l).le h'.left) h.right⟩

theorem near_div (hu : 0 < u) (h : Near u k x y) (h' : Near u l x' y') (h0 : y' ≠ 0) :
    Near u (k + l) (x / x') (y / y') := by
  have h0' : x' ≠ 0 := fun h1 => h0 ((near_zero hu h').1 h1)
  have hy : 0 < y' := lt_of_le_of_ne h'.right (Ne.symm h0)
  have hx : 0 < x' := lt_of_le_of_ne h'.left (Ne.symm h0')
  refine ⟨div_nonneg h.left h'.left, div_nonneg h.right h'.right, ?_, ?_⟩
  · rw [← mul_div_assoc, div_le_div_iff₀ hy hx, pow_add]
    calc u ^ k * u ^ l * y * x' = (u ^ k * y) * (u ^ l * x') := by ring
      _ ≤ x * y' := mul_le_mul h.lower h'.upper (mul_nonneg (pow_pos hu l).le h'.left) h.left
  · rw [← mul_div_assoc, div_le_div_iff₀ hx hy, pow_add]
    calc u ^ k * u ^ l * x * y' = (u ^ k * x) * (u ^ l * y') := by ring
      _ ≤ y * x' := mul_le_mul h.upper h'.lower (mul_nonneg (pow_pos hu l).le h'.right) h.right

theorem near_round {r : ℚ → ℚ} {eps : ℚ} (he : 0 ≤ eps) (he1 : eps < 1) (ha : Accurate r eps)
    (h : Near (1 - eps) k x y) : Near (1 - eps) (k + 1) (r x) y := by
  have hu : 0 < 1 - eps := by linarith
  have h1 := abs_le.1 (ha x)
  rw [abs_of_nonneg h.left] at h1
  have hlow : (1 - eps) * x ≤ r x := by linarith [h1.1]
  have hup : r x ≤ (1 + eps) * x := by linarith [h1.2]
  refine ⟨(mul_nonneg hu.le h.left).trans hlow, h.right, ?_, ?_⟩
  · rw [pow_succ, mul_comm _ (1 - eps), mul_assoc]
    exact (mul_le_mul_of_nonneg_left h.lower hu.le).trans hlow
  · have hp := pow_pos hu k
    calc (1 - eps) ^ (k + 1) * r x ≤ (1 - eps) ^ (k + 1) * ((1 + eps) * x) :=
          mul_le_mul_of_nonneg_left hup (pow_pos hu _).le
      _ = ((1 - eps) ^ k * x) * (1 - eps * eps) := by rw [pow_succ]; ring
      _ ≤ ((1 - eps) ^ k * x) * 1 := mul_le_mul_of_nonneg_left
          (by linarith [mul_nonneg he he]) (mul_nonneg hp.le h.left)
      _ ≤ y := by rw [mul_one]; exact h.upper

/-- The distance in terms of `eps`. -/
theorem near_abs {eps : ℚ} (he1 : eps < 1) (h : Near (1 - eps) k x y) :
    |x - y| ≤ k * eps * max x y := by
  have hb : 1 + (k : ℚ) * (-eps) ≤ (1 + -eps) ^ k := one_add_mul_le_pow (by linarith) k
  have hb' : 1 - (k : ℚ) * eps ≤ (1 - eps) ^ k := by
    have : (1 : ℚ) + -eps = 1 - eps := by ring
    rw [this] at hb; linarith
  have h1 := h.lower
  have h2 := h.upper
  rcases le_total x y with hxy | hxy
  · rw [max_eq_right hxy, abs_sub_comm, abs_of_nonneg (by linarith)]
    have := mul_le_mul_of_nonneg_right hb' h.right
    linarith
  · rw [max_eq_left hxy, abs_of_nonneg (by linarith)]
    have := mul_le_mul_of_nonneg_right hb' h.left
    linarith

/-- The distance in terms of one of the numbers. -/
theorem near_abs_right {eps : ℚ} (he : 0 ≤ eps) (he1 : eps < 1) (h : Near (1 - eps) k x y)
    (hk : 2 * (k * eps) ≤ 1) : |x - y| ≤ 2 * (k * eps) * y := by
  have h1 := near_abs he1 h
  have hke : 0 ≤ (k : ℚ) * eps := mul_nonneg (by positivity) he
  rcases le_total x y with hxy | hxy
  · rw [max_eq_right hxy] at h1
    have := mul_nonneg hke h.right
    linarith
  · rw [max_eq_left hxy] at h1
    have h2 : x ≤ 2 * y := by
      have h3 := (abs_le.1 h1).2
      have h4 : (k : ℚ) * eps * x ≤ 1 / 2 * x := mul_le_mul_of_nonneg_right (by linarith) h.left
      linarith
    have := mul_le_mul_of_nonneg_left h2 hke
    linarith

end Numbers

/-- Two numbers of the code: equal ints, or Decimals within `k` rounding errors. -/
def NumRel (u : ℚ) (k : ℕ) : PyNum → PyNum → Prop
  | .int a, .int b => a = b ∧ 0 ≤ a
  | .dec a, .dec b => Near u k a b
  | _, _ => False

/-- What the arithmetic must satisfy. -/
structure ErrorOf (ρ : Rounding) (eps : ℚ) : Prop where
  nonneg : 0 ≤ eps
  lt_one : eps < 1
  dec : Accurate ρ.dec eps
  sq : Accurate ρ.sq eps

section Rel

variable {ρ : Rounding} {eps : ℚ} {k l : ℕ} {x y x' y' : PyNum}

theorem rel_mono (he : ErrorOf ρ eps) (h : NumRel (1 - eps) k x y) (hkl : k ≤ l) :
    NumRel (1 - eps) l x y := by
  cases x <;> cases y <;>
    first
    | exact h
    | exact near_mono (by linarith [he.nonneg]) (by linarith [he.lt_one]) h hkl

theorem rel_val (he : ErrorOf ρ eps) (h : NumRel (1 - eps) k x y) : Near (1 - eps) k x.val y.val := by
  cases x <;> cases y <;>
    first
    | exact h
    | exact h.elim
    | (obtain ⟨rfl, h0⟩ := h
       exact near_refl (by linarith [he.nonneg]) (by linarith [he.lt_one]) k
         (by simpa [PyNum.val] using h0))

theorem rel_add (he : ErrorOf ρ eps) (h : NumRel (1 - eps) k x y) (h' : NumRel (1 - eps) k x' y') :
    ∃ z w, PyNum.addR ρ x x' = .ok z ∧ y.add y' = .ok w ∧ NumRel (1 - eps) (k + 1) z w := by
  have hd : Near (1 - eps) (k + 1) (ρ.dec (x.val + x'.val)) (y.val + y'.val) :=
    near_round he.nonneg he.lt_one he.dec (near_add (rel_val he h) (rel_val he h'))
  cases x <;> cases y <;> try exact h.elim
  all_goals cases x' <;> cases y' <;> try exact h'.elim
  · exact ⟨_, _, rfl, rfl, by rw [h.1, h'.1], add_nonneg h.2 h'.2⟩
  · exact ⟨_, _, rfl, rfl, hd⟩
  · exact ⟨_, _, rfl, rfl, hd⟩
  · exact ⟨_, _, rfl, rfl, hd⟩

theorem rel_div (he : ErrorOf ρ eps) {a b : ℚ} (h : Near (1 - eps) k a b)
    (h' : NumRel (1 - eps) l x' y') :
    (∃ e, PyNum.truedivR ρ (.dec a) x' = .error e ∧ (PyNum.dec b).truediv y' = .error e) ∨
    ∃ z w, PyNum.truedivR ρ (.dec a) x' = .ok (.dec z) ∧ (PyNum.dec b).truediv y' = .ok (.dec w) ∧
      Near (1 - eps) (k + l + 1) z w := by
  have hu : 0 < 1 - eps := by linarith [he.lt_one]
  have hv := rel_val he h'
  have hx : (PyNum.dec a).truediv x' = PyNum.decDiv a x'.val := by
    cases x' <;> cases y' <;> first | rfl | exact h'.elim
  have hy : (PyNum.dec b).truediv y' = PyNum.decDiv b y'.val := by
    cases x' <;> cases y' <;> first | rfl | exact h'.elim
  rw [PyNum.truedivR, hx, hy, PyNum.decDiv, PyNum.decDiv]
  by_cases h0 : y'.val = 0
  · have h0' := (near_zero hu hv).2 h0
    rw [if_pos h0, if_pos h0']
    left
    by_cases ha : b = 0
    · rw [if_pos ha, if_pos ((near_zero hu h).2 ha)]
      exact ⟨_, rfl, rfl⟩
    · rw [if_neg ha, if_neg (fun h1 => ha ((near_zero hu h).1 h1))]
      exact ⟨_, rfl, rfl⟩
  · rw [if_neg h0, if_neg (fun h1 => h0 ((near_zero hu hv).1 h1))]
    exact .inr ⟨_, _, rfl, rfl, near_round he.nonneg he.lt_one he.dec (near_div hu h hv h0)⟩

end Rel

/-! ## Matrices of the same shape -/

section Matrices

variable {κ : Type _} [DecidableEq κ]

/-- Both values missing, or both there and related. -/
def MaybeRel (u : ℚ) (j : ℕ) (x y : Option PyNum) : Prop :=
  (x = none ∧ y = none) ∨ ∃ v w, x = some v ∧ y = some w ∧ NumRel u j v w

/-- The same matrix up to `j` rounding errors in its cells. -/
structure MatRel (u : ℚ) (j : ℕ) (m m' : CM κ) : Prop where
  get : ∀ p a, MaybeRel u j (dictGet (m.row p) a) (dictGet (m'.row p) a)
  label : ∀ l, HasLabel m l ↔ HasLabel m' l
  cached : m.cached = m'.cached
  dirty : m.dirty = m'.dirty

variable {u : ℚ} {j : ℕ} {m m' : CM κ}

theorem touch_cached (m : CM κ) (p : κ) : (m.touch p).cached = m.cached := by
  rw [CM.touch]; split <;> rfl

theorem touch_dirty (m : CM κ) (p : κ) : (m.touch p).dirty = m.dirty := by
  rw [CM.touch]; split <;> rfl

theorem matRel_touch (h : MatRel u j m m') (p : κ) : MatRel u j (m.touch p) (m'.touch p) where
  get q a := by rw [CM.row_touch, CM.row_touch]; exact h.get q a
  label l := by rw [hasLabel_touch, hasLabel_touch, h.label]
  cached := by rw [touch_cached, touch_cached, h.cached]
  dirty := by rw [touch_dirty, touch_dirty, h.dirty]

theorem write_cached (m : CM κ) (p a : κ) (v : PyNum) : (m.write p a v).cached = m.cached :=
  touch_cached m p

theorem matRel_write (h : MatRel u j m m') (p a : κ) {v v' : PyNum} (hv : NumRel u j v v') :
    MatRel u j (m.write p a v) (m'.write p a v') where
  get q b := by
    rw [CM.row_write, CM.row_write]
    split
    · rw [dictGet_set, dictGet_set]
      split
      · exact .inr ⟨_, _, rfl, rfl, hv⟩
      · exact h.get p b
    · exact h.get q b
  label l := by rw [hasLabel_write, hasLabel_write, h.label]
  cached := by rw [write_cached, write_cached, h.cached]
  dirty := rfl

theorem matRel_read (h : MatRel u j m m') (p a : κ) :
    NumRel u j (m.read p a).1 (m'.read p a).1 ∧ MatRel u j (m.read p a).2 (m'.read p a).2 := by
  have h1 := matRel_touch h p
  unfold CM.read
  simp only
  rcases h1.get p a with ⟨h3, h4⟩ | ⟨v, v', h3, h4, h5⟩ <;> rw [h3, h4]
  · have h0 : NumRel u j (.int 0) (.int 0) := ⟨rfl, le_refl 0⟩
    exact ⟨h0, matRel_write h1 p a h0⟩
  · exact ⟨h5, h1⟩

theorem matRel_classes (h : MatRel u j m m') :
    m.classes.1 = m'.classes.1 ∧ MatRel u j m.classes.2 m'.classes.2 := by
  have hl : m.labels = m'.labels := by
    ext l; rw [mem_labels, mem_labels, h.label]
  unfold CM.classes
  rw [h.dirty, hl]
  split
  · exact ⟨rfl, h.get, h.label, rfl, rfl⟩
  · exact ⟨h.cached, h⟩

theorem matRel_mono {ρ : Rounding} {eps : ℚ} (he : ErrorOf ρ eps) {i : ℕ} (hij : i ≤ j)
    (h : MatRel (1 - eps) i m m') : MatRel (1 - eps) j m m' :=
  ⟨fun p a => (h.get p a).imp id fun ⟨v, w, h1, h2, h3⟩ => ⟨v, w, h1, h2, rel_mono he h3 hij⟩,
    h.label, h.cached, h.dirty⟩

theorem matRel_cell (h : MatRel u j m m') (p a : κ) : NumRel u j (cell m p a) (cell m' p a) :=
  (matRel_read h p a).1

theorem matRel_refl {ρ : Rounding} {eps : ℚ} (he : ErrorOf ρ eps) (j : ℕ) (hf : NoFloats m)
    (hn : NonNeg m) : MatRel (1 - eps) j m m := by
  refine ⟨fun p a => ?_, fun _ => Iff.rfl, rfl, rfl⟩
  have h1 := hf p a
  have h2 := hn p a
  rw [cell_eq] at h1 h2
  cases h : dictGet (m.row p) a with
  | none => exact .inl ⟨rfl, rfl⟩
  | some v =>
    rw [h] at h1 h2
    simp only [Option.getD_some] at h1 h2
    refine .inr ⟨v, v, rfl, rfl, ?_⟩
    cases v with
    | int n => exact ⟨rfl, by simpa [PyNum.val] using h2⟩
    | dec q => exact near_refl (by linarith [he.nonneg]) (by linarith [he.lt_one]) j h2
    | flt q => exact h1.elim

/-- All labels, and all classes remembered, are in `S`. -/
def Within (S : Finset κ) (m : CM κ) : Prop :=
  (∀ l, HasLabel m l → l ∈ S) ∧ (m.dirty = false → m.cached ⊆ S)

theorem within_classes {S : Finset κ} (h : Within S m) : m.classes.1 ⊆ S ∧ Within S m.classes.2 := by
  have hl : m.labels ⊆ S := fun l hl => h.1 l ((mem_labels m l).1 hl)
  unfold CM.classes
  cases hd : m.dirty with
  | true => exact ⟨hl, h.1, fun _ => hl⟩
  | false => exact ⟨h.2 hd, h⟩

theorem read_kept (m : CM κ) (p a : κ) : (m.read p a).2.dirty = false →
    m.dirty = false ∧ (m.read p a).2.cached = m.cached := by
  unfold CM.read
  simp only
  split
  · exact fun h => ⟨(touch_dirty m p).symm.trans h, touch_cached m p⟩
  · exact fun h => by cases h

theorem within_read {S : Finset κ} (h : Within S m) {p a : κ} (hp : p ∈ S) (ha : a ∈ S) :
    Within S (m.read p a).2 := by
  refine ⟨fun l hl => ?_, fun hd => ?_⟩
  · rcases (hasLabel_read m p a l).1 hl with hl | rfl | rfl
    · exact h.1 l hl
    · exact hp
    · exact ha
  · obtain ⟨h1, h2⟩ := read_kept m p a hd
    rw [h2]
    exact h.2 h1

omit [DecidableEq κ] in
theorem within_sound {S : Finset κ} (h : Sound m) (hS : ∀ l, HasLabel m l → l ∈ S) : Within S m :=
  ⟨hS, fun hd l hl => hS l ((h hd).2 l hl)⟩

theorem matRel_within {S : Finset κ} (h : MatRel u j m m') (hw : Within S m') : Within S m :=
  ⟨fun l hl => hw.1 l ((h.label l).1 hl), fun hd => by
    rw [h.cached]; exact hw.2 (h.dirty ▸ hd)⟩

/-! ## The computations in step -/

/-- The state of both computations. -/
structure InStep (u : ℚ) (j : ℕ) (S : Finset κ) (m m' : CM κ) : Prop where
  rel : MatRel u j m m'
  within : Within S m

/-- Both raise the same error, or both return, related. -/
def Lock {α : Type _} (u : ℚ) (j : ℕ) (S : Finset κ) (R : α → α → Prop) (x y : MPy κ α) : Prop :=
  (∃ e, x = .error e ∧ y = .error e) ∨
  ∃ v w m m', x = .ok (v, m) ∧ y = .ok (w, m') ∧ R v w ∧ InStep u j S m m'

variable {ρ : Rounding} {eps : ℚ} {S : Finset κ}

theorem sumCells_lock (he : ErrorOf ρ eps) (f : κ → κ × κ) (cs : List κ)
    (hf : ∀ c ∈ cs, (f c).1 ∈ S ∧ (f c).2 ∈ S) (k : ℕ) (hk : j ≤ k) {t t' : PyNum}
    (ht : NumRel (1 - eps) k t t') (hm : InStep (1 - eps) j S m m') :
    Lock (1 - eps) j S (NumRel (1 - eps) (k + cs.length)) (sumCellsR ρ f cs (t, m))
      (sumCells f cs (t', m')) := by
  induction cs generalizing k t t' m m' with
  | nil => exact .inr ⟨_, _, _, _, rfl, rfl, ht, hm⟩
  | cons c cs ih =>
    obtain ⟨h1, h2⟩ := matRel_read hm.rel (f c).1 (f c).2
    obtain ⟨z, w, h3, h4, h5⟩ := rel_add he ht (rel_mono he h1 hk)
    rw [sumCellsR, sumCells]
    simp only
    rw [h3, h4]
    have := ih (fun x hx => hf x (by simp [hx])) (k + 1) (by omega) h5
      ⟨h2, within_read hm.within (hf c (by simp)).1 (hf c (by simp)).2⟩
    rw [List.length_cons, show k + (cs.length + 1) = k + 1 + cs.length by omega]
    exact this

/-- The results of a function of one class. -/
def OutRel (u : ℚ) (kv kn kd : ℕ) : ClassOut → ClassOut → Prop
  | .value x, .value y => NumRel u kv x y
  | .parts n d, .parts n' d' => NumRel u kn n n' ∧ NumRel u kd d d'
  | _, _ => False

theorem classOrder_length {site : List ℕ} (o : ClassOrder κ) (T : Finset κ) :
    (o.order site T).length = T.card := by
  have h1 := List.toFinset_card_of_nodup (o.nodup site T)
  rw [← h1]
  congr 1
  ext x
  rw [List.mem_toFinset, o.mem]

theorem classRatio_lock (he : ErrorOf ρ eps) (o : ClassOrder κ) (site : List ℕ) (f : κ → κ × κ)
    (c : κ) (rp : Bool) (hc : c ∈ S) (hf : ∀ x ∈ S, (f x).1 ∈ S ∧ (f x).2 ∈ S)
    (hm : InStep (1 - eps) j S m m') :
    Lock (1 - eps) j S (OutRel (1 - eps) (2 * j + S.card + 1) j (j + S.card))
      (classRatioR ρ o site f m c rp) (classRatio o site f m' c rp) := by
  obtain ⟨h1, h2⟩ := matRel_classes hm.rel
  obtain ⟨h3, h4⟩ := within_classes hm.within
  have hlen : (o.order site m.classes.1).length ≤ S.card := by
    rw [classOrder_length]; exact Finset.card_le_card h3
  rw [classRatioR, classRatio]
  simp only
  rw [← h1]
  have h0 : NumRel (1 - eps) j (.int 0) (.int 0) := ⟨rfl, le_refl 0⟩
  rcases sumCells_lock (S := S) he f (o.order site m.classes.1)
      (fun x hx => hf x (h3 ((o.mem _ _ _).1 hx))) j (le_refl _) h0 ⟨h2, h4⟩ with
    ⟨e, h5, h6⟩ | ⟨d, d', m2, m2', h5, h6, h7, h8⟩
  · rw [h5, h6]; exact .inl ⟨e, rfl, rfl⟩
  · rw [h5, h6]
    simp only
    obtain ⟨h9, h10⟩ := matRel_read h8.rel c c
    have hd : NumRel (1 - eps) (j + S.card) d d' := rel_mono he h7 (by omega)
    have hst : InStep (1 - eps) j S (m2.read c c).2 (m2'.read c c).2 :=
      ⟨h10, within_read h8.within hc hc⟩
    generalize (m2.read c c).1 = n at h9
    generalize (m2'.read c c).1 = n' at h9
    rw [finishClassR, finishClass]
    cases rp with
    | true => exact .inr ⟨_, _, _, _, rfl, rfl, ⟨h9, hd⟩, hst⟩
    | false =>
      simp only [Bool.false_eq_true, if_false]
      have hz : n.isZeroObj = n'.isZeroObj := by
        cases n <;> cases n' <;> first | exact h9.elim | rfl | (rw [h9.1])
      rw [← hz]
      cases n.isZeroObj with
      | true =>
        simp only [if_true]
        exact .inr ⟨_, _, _, _, rfl, rfl, near_refl (by linarith [he.nonneg])
          (by linarith [he.lt_one]) _ (le_refl 0), hst⟩
      | false =>
        simp only [Bool.false_eq_true, if_false]
        have hd' : NumRel (1 - eps) (j + S.card) d.toDecimal d'.toDecimal := rel_val he hd
        rcases rel_div he (rel_val he h9) hd' with ⟨e, h11, h12⟩ | ⟨z, w, h11, h12, h13⟩
        · rw [PyNum.toDecimal, h11, PyNum.toDecimal, h12]; exact .inl ⟨e, rfl, rfl⟩
        · rw [PyNum.toDecimal, h11, PyNum.toDecimal, h12]
          refine .inr ⟨_, _, _, _, rfl, rfl, ?_, hst⟩
          show Near _ _ _ _
          rw [show 2 * j + S.card + 1 = j + (j + S.card) + 1 by omega]
          exact h13

/-- The two versions of a function of one class run in step. -/
def FnLock (u : ℚ) (j : ℕ) (S : Finset κ) (kv kn kd : ℕ) (fR f : ClassFn κ) : Prop :=
  ∀ site m m' c rp, c ∈ S → InStep u j S m m' →
    Lock u j S (OutRel u kv kn kd) (fR site m c rp) (f site m' c rp)

theorem precision_lock (he : ErrorOf ρ eps) (o : ClassOrder κ) :
    FnLock (1 - eps) j S (2 * j + S.card + 1) j (j + S.card) (precisionClassR ρ o)
      (precisionClass o) := fun _ _ _ c rp hc hm =>
  classRatio_lock he o _ (fun x => (c, x)) c rp hc (fun _ hx => ⟨hc, hx⟩) hm

theorem recall_lock (he : ErrorOf ρ eps) (o : ClassOrder κ) :
    FnLock (1 - eps) j S (2 * j + S.card + 1) j (j + S.card) (recallClassR ρ o)
      (recallClass o) := fun _ _ _ c rp hc hm =>
  classRatio_lock he o _ (fun x => (x, c)) c rp hc (fun _ hx => ⟨hx, hc⟩) hm

theorem fFromRatios_near (he : ErrorOf ρ eps) (beta : ℚ) (rp : Bool) {a : ℕ} {p r p' r' : ℚ}
    (hp : Near (1 - eps) a p p') (hr : Near (1 - eps) a r r') :
    (∃ e, fFromRatiosR ρ beta rp p r = .error e ∧ fFromRatios beta rp p' r' = .error e) ∨
    ∃ x y, fFromRatiosR ρ beta rp p r = .ok x ∧ fFromRatios beta rp p' r' = .ok y ∧
      OutRel (1 - eps) (3 * a + 8) (2 * a + 4) (a + 3) x y := by
  have hu : 0 < 1 - eps := by linarith [he.lt_one]
  have hu1 : 1 - eps ≤ 1 := by linarith [he.nonneg]
  have hb2 : Near (1 - eps) 1 (ρ.sq (beta * beta)) (beta ^ 2) := by
    have h0 : 0 ≤ beta ^ 2 := sq_nonneg beta
    rw [← sq]
    exact near_round he.nonneg he.lt_one he.sq (near_refl hu1 hu 0 h0)
  have hb21 : Near (1 - eps) 2 (ρ.dec (1 + ρ.sq (beta * beta))) (1 + beta ^ 2) :=
    near_round he.nonneg he.lt_one he.dec
      (near_add (near_refl hu1 hu 1 zero_le_one) hb2)
  have hn1 := near_round he.nonneg he.lt_one he.dec (near_mul hu hb21 hp)
  have hn := near_round he.nonneg he.lt_one he.dec (near_mul hu hn1 hr)
  have hd1 := near_round he.nonneg he.lt_one he.dec (near_mul hu hb2 hp)
  have hd := near_round he.nonneg he.lt_one he.dec
    (near_add hd1 (near_mono hu1 hu hr (show a ≤ 1 + a + 1 by omega)))
  rw [show 2 + a + 1 + a + 1 = 2 * a + 4 by omega] at hn
  rw [show 1 + a + 1 + 1 = a + 3 by omega] at hd
  rw [fFromRatiosR, fFromRatios]
  have hz : (p = 0 ∨ r = 0) ↔ (p' = 0 ∨ r' = 0) := or_congr (near_zero hu hp) (near_zero hu hr)
  by_cases hc : rp = false ∧ (p' = 0 ∨ r' = 0)
  · rw [if_pos hc, if_pos ⟨hc.1, hz.2 hc.2⟩]
    exact .inr ⟨_, _, rfl, rfl, rfl, le_refl 0⟩
  · rw [if_neg hc, if_neg (fun h => hc ⟨h.1, hz.1 h.2⟩)]
    simp only
    cases rp with
    | true => exact .inr ⟨_, _, rfl, rfl, hn, hd⟩
    | false =>
      simp only [Bool.false_eq_true, if_false]
      have hd' : NumRel (1 - eps) (a + 3) (.dec (ρ.dec (ρ.dec (ρ.sq (beta * beta) * p) + r)))
        (.dec (beta ^ 2 * p' + r')) := hd
      rcases rel_div he hn hd' with ⟨e, h1, h2⟩ | ⟨z, w, h1, h2, h3⟩
      · rw [h1, h2]; exact .inl ⟨e, rfl, rfl⟩
      · rw [h1, h2]
        refine .inr ⟨_, _, rfl, rfl, ?_⟩
        show Near _ _ _ _
        rw [show 3 * a + 8 = 2 * a + 4 + (a + 3) + 1 by omega]
        exact h3

theorem fmeasure_lock (he : ErrorOf ρ eps) (o : ClassOrder κ) (beta : ℚ) (a : ℕ)
    (ha : a = 2 * j + S.card + 1) :
    FnLock (1 - eps) j S (3 * a + 8) (2 * a + 4) (a + 3) (fmeasureClassR ρ o beta)
      (fmeasureClass o beta) := by
  subst ha
  intro site m m' c rp hc hm
  rw [fmeasureClassR, fmeasureClass]
  rcases precision_lock he o site m m' c false hc hm with
    ⟨e, h1, h2⟩ | ⟨x, y, m1, m1', h1, h2, h3, h4⟩
  · rw [h1, h2]; exact .inl ⟨e, rfl, rfl⟩
  · rw [h1, h2]
    cases x with
    | parts _ _ =>
      cases y with
      | parts _ _ => exact .inl ⟨_, rfl, rfl⟩
      | value _ => exact h3.elim
    | value p =>
      cases y with
      | parts _ _ => exact h3.elim
      | value p' =>
        simp only
        rcases recall_lock he o site m1 m1' c false hc h4 with
          ⟨e, h5, h6⟩ | ⟨x, y, m2, m2', h5, h6, h7, h8⟩
        · rw [h5, h6]; exact .inl ⟨e, rfl, rfl⟩
        · rw [h5, h6]
          cases x with
          | parts _ _ =>
            cases y with
            | parts _ _ => exact .inl ⟨_, rfl, rfl⟩
            | value _ => exact h7.elim
          | value r =>
            cases y with
            | parts _ _ => exact h7.elim
            | value r' =>
              simp only
              rcases fFromRatios_near he beta rp (rel_val he h3) (rel_val he h7) with
                ⟨e, h9, h10⟩ | ⟨v, w, h9, h10, h11⟩
              · rw [h9, h10]; exact .inl ⟨e, rfl, rfl⟩
              · rw [h9, h10]; exact .inr ⟨_, _, _, _, rfl, rfl, h11, h8⟩

theorem microLoop_lock (he : ErrorOf ρ eps) {kv kn kd : ℕ} {fR f : ClassFn κ}
    (hf : FnLock (1 - eps) j S kv kn kd fR f) (site : List ℕ) (i : ℕ) (cs : List κ)
    (hcs : ∀ c ∈ cs, c ∈ S) {ln ld : ℕ} (hln : kn ≤ ln) (hld : kd ≤ ld) {n d n' d' : PyNum}
    (hn : NumRel (1 - eps) ln n n') (hd : NumRel (1 - eps) ld d d')
    (hm : InStep (1 - eps) j S m m') :
    Lock (1 - eps) j S (fun x y => NumRel (1 - eps) (ln + cs.length) x.1 y.1 ∧
        NumRel (1 - eps) (ld + cs.length) x.2 y.2)
      (microLoopR ρ fR site i cs (n, d) m) (microLoop f site i cs (n', d') m') := by
  induction cs generalizing i ln ld n d n' d' m m' with
  | nil => exact .inr ⟨_, _, _, _, rfl, rfl, ⟨hn, hd⟩, hm⟩
  | cons c cs ih =>
    rw [microLoopR, microLoop]
    rcases hf (i :: site) m m' c true (hcs c (by simp)) hm with
      ⟨e, h1, h2⟩ | ⟨x, y, m1, m1', h1, h2, h3, h4⟩
    · rw [h1, h2]; exact .inl ⟨e, rfl, rfl⟩
    · rw [h1, h2]
      cases x with
      | value _ =>
        cases y with
        | value _ => exact .inl ⟨_, rfl, rfl⟩
        | parts _ _ => exact h3.elim
      | parts a b =>
        cases y with
        | value _ => exact h3.elim
        | parts a' b' =>
          simp only
          obtain ⟨z, w, h5, h6, h7⟩ := rel_add he hn (rel_mono he h3.1 hln)
          obtain ⟨z', w', h8, h9, h10⟩ := rel_add he hd (rel_mono he h3.2 hld)
          rw [h5, h6, h8, h9]
          simp only
          have := ih (i + 1) (fun x hx => hcs x (by simp [hx])) (by omega) (by omega) h7 h10 h4
          rw [List.length_cons, show ln + (cs.length + 1) = ln + 1 + cs.length by omega,
            show ld + (cs.length + 1) = ld + 1 + cs.length by omega]
          exact this

theorem macroLoop_lock {u : ℚ} {kv kn kd : ℕ} {fR f : ClassFn κ}
    (hf : FnLock u j S kv kn kd fR f) (site : List ℕ) (i : ℕ) (cs : List κ)
    (hcs : ∀ c ∈ cs, c ∈ S) {acc acc' : List PyNum} (ha : List.Forall₂ (NumRel u kv) acc acc')
    (hm : InStep u j S m m') :
    Lock u j S (fun x y => List.Forall₂ (NumRel u kv) x y ∧ x.length = acc.length + cs.length)
      (macroLoop fR site i cs acc m) (macroLoop f site i cs acc' m') := by
  induction cs generalizing i acc acc' m m' with
  | nil => exact .inr ⟨_, _, _, _, rfl, rfl, ⟨ha, rfl⟩, hm⟩
  | cons c cs ih =>
    rw [macroLoop, macroLoop]
    rcases hf (i :: site) m m' c false (hcs c (by simp)) hm with
      ⟨e, h1, h2⟩ | ⟨x, y, m1, m1', h1, h2, h3, h4⟩
    · rw [h1, h2]; exact .inl ⟨e, rfl, rfl⟩
    · rw [h1, h2]
      cases x with
      | parts _ _ =>
        cases y with
        | parts _ _ => exact .inl ⟨_, rfl, rfl⟩
        | value _ => exact h3.elim
      | value v =>
        cases y with
        | parts _ _ => exact h3.elim
        | value v' =>
          simp only
          have := ih (i + 1) (fun x hx => hcs x (by simp [hx]))
            (acc := acc ++ [v]) (acc' := acc' ++ [v'])
            (List.rel_append ha (.cons h3 .nil)) h4
          rw [List.length_append, List.length_singleton] at this
          rw [List.length_cons, show acc.length + (cs.length + 1) = acc.length + 1 + cs.length by omega]
          exact this

theorem sum_lock (he : ErrorOf ρ eps) {kv k : ℕ} {l l' : List PyNum}
    (h : List.Forall₂ (NumRel (1 - eps) kv) l l') (hk : kv ≤ k) {a a' : ℚ}
    (ha : Near (1 - eps) k a a') :
    ∃ b b', forLoop l (.dec a) (PyNum.addR ρ) = .ok (.dec b) ∧
      forLoop l' (.dec a') PyNum.add = .ok (.dec b') ∧ Near (1 - eps) (k + l.length) b b' := by
  induction h generalizing k a a' with
  | nil => exact ⟨a, a', rfl, rfl, ha⟩
  | @cons x y l l' hx _ ih =>
    have ha' : NumRel (1 - eps) k (.dec a) (.dec a') := ha
    obtain ⟨z, w, h1, h2, h3⟩ := rel_add he ha' (rel_mono he hx hk)
    have hz : ∃ b b', z = .dec b ∧ w = .dec b' := by
      cases x <;> cases y <;> first
        | exact hx.elim
        | (simp only [PyNum.addR, PyNum.add] at h1 h2; cases h1; cases h2; exact ⟨_, _, rfl, rfl⟩)
    obtain ⟨b, b', rfl, rfl⟩ := hz
    simp only [forLoop]
    rw [h1, h2]
    simp only
    obtain ⟨c, c', h4, h5, h6⟩ := ih (k := k + 1) (by omega) h3
    refine ⟨c, c', h4, h5, ?_⟩
    rw [List.length_cons, show k + (l.length + 1) = k + 1 + l.length by omega]
    exact h6

theorem mean_lock (he : ErrorOf ρ eps) {kv : ℕ} {l l' : List PyNum}
    (h : List.Forall₂ (NumRel (1 - eps) kv) l l') :
    ∃ b b', pyMeanR ρ l = .ok b ∧ pyMean l' = .ok b' ∧
      NumRel (1 - eps) (kv + l.length + 1) b b' := by
  obtain ⟨b, b', h1, h2, h3⟩ := sum_lock he h (le_refl kv)
    (near_refl (by linarith [he.nonneg]) (by linarith [he.lt_one]) kv (le_refl 0))
  rw [pyMeanR, pyMean, h1, h2]
  simp only
  rw [← h.length_eq]
  by_cases h0 : 0 < l.length
  · rw [if_pos h0, if_pos h0]
    have hl : NumRel (1 - eps) 0 (.int l.length) (.int l.length) := ⟨rfl, by positivity⟩
    rcases rel_div he h3 hl with ⟨e, h4, h5⟩ | ⟨z, w, h4, h5, h6⟩
    · simp only [PyNum.truediv, PyNum.decDiv] at h5
      rw [if_neg (by exact_mod_cast h0.ne')] at h5
      cases h5
    · exact ⟨_, _, h4, h5, h6⟩
  · rw [if_neg h0, if_neg h0]
    exact ⟨_, _, rfl, rfl, rfl, le_refl 0⟩

theorem value_lock (he : ErrorOf ρ eps) (o : ClassOrder κ) {kv kn kd K : ℕ} {fR f : ClassFn κ}
    (hf : FnLock (1 - eps) j S kv kn kd fR f) (h1K : kv + S.card + 1 ≤ K)
    (h2K : kn + kd + 2 * S.card + 1 ≤ K) (site : List ℕ) (c : Option κ) (v : Average)
    (hc : ∀ x, c = some x → x ∈ S) (hm : InStep (1 - eps) j S m m') :
    Lock (1 - eps) j S (NumRel (1 - eps) K) (valueMicroMacroR ρ o fR site c v m)
      (valueMicroMacro o f site c v m') := by
  obtain ⟨h1, h2⟩ := matRel_classes hm.rel
  obtain ⟨h3, h4⟩ := within_classes hm.within
  have hu : 0 < 1 - eps := by linarith [he.lt_one]
  have hlen : (o.order (2 :: site) m.classes.1).length ≤ S.card := by
    rw [classOrder_length]; exact Finset.card_le_card h3
  have hcs : ∀ x ∈ o.order (2 :: site) m.classes.1, x ∈ S := fun x hx => h3 ((o.mem _ _ _).1 hx)
  have h0 : ∀ k, NumRel (1 - eps) k (.int 0) (.int 0) := fun k => ⟨rfl, le_refl 0⟩
  rw [valueMicroMacroR, valueMicroMacro]
  simp only
  rw [← h1]
  cases c with
  | some c =>
    simp only
    rcases hf (0 :: site) m.classes.2 m'.classes.2 c false (hc c rfl) ⟨h2, h4⟩ with
      ⟨e, h5, h6⟩ | ⟨x, y, m1, m1', h5, h6, h7, h8⟩
    · rw [h5, h6]; exact .inl ⟨e, rfl, rfl⟩
    · rw [h5, h6]
      cases x with
      | parts _ _ =>
        cases y with
        | parts _ _ => exact .inl ⟨_, rfl, rfl⟩
        | value _ => exact h7.elim
      | value x =>
        cases y with
        | parts _ _ => exact h7.elim
        | value y => exact .inr ⟨_, _, _, _, rfl, rfl, rel_mono he h7 (by omega), h8⟩
  | none =>
    cases v with
    | other => exact .inl ⟨_, rfl, rfl⟩
    | micro =>
      simp only
      rcases microLoop_lock he hf site 0 _ hcs (le_refl kn) (le_refl kd) (h0 kn) (h0 kd) ⟨h2, h4⟩ with
        ⟨e, h5, h6⟩ | ⟨⟨n, d⟩, ⟨n', d'⟩, m1, m1', h5, h6, ⟨h7, h7'⟩, h8⟩
      · rw [h5, h6]; exact .inl ⟨e, rfl, rfl⟩
      · rw [h5, h6]
        simp only at h7 h7' ⊢
        have hz := near_zero hu (rel_val he h7)
        by_cases hz' : n'.val = 0
        · rw [if_pos hz', if_pos (hz.2 hz')]
          exact .inr ⟨_, _, _, _, rfl, rfl, h0 K, h8⟩
        · rw [if_neg hz', if_neg (fun h => hz' (hz.1 h))]
          rw [PyNum.toDecimal, PyNum.toDecimal]
          rcases rel_div he (rel_val he h7) h7' with ⟨e, h9, h10⟩ | ⟨z, w, h9, h10, h11⟩
          · rw [h9, h10]; exact .inl ⟨e, rfl, rfl⟩
          · rw [h9, h10]
            exact .inr ⟨_, _, _, _, rfl, rfl,
              near_mono (by linarith [he.nonneg]) hu h11 (by omega), h8⟩
    | «macro» =>
      simp only
      rcases macroLoop_lock hf site 0 _ hcs (acc := []) (acc' := []) .nil ⟨h2, h4⟩ with
        ⟨e, h5, h6⟩ | ⟨l, l', m1, m1', h5, h6, ⟨h7, h7'⟩, h8⟩
      · rw [h5, h6]; exact .inl ⟨e, rfl, rfl⟩
      · rw [h5, h6]
        simp only
        obtain ⟨b, b', h9, h10, h11⟩ := mean_lock he h7
        rw [h9, h10]
        rw [List.length_nil] at h7'
        exact .inr ⟨_, _, _, _, rfl, rfl, rel_mono he h11 (by omega), h8⟩

/-- Every query, in step. -/
theorem run_lock (he : ErrorOf ρ eps) (o : ClassOrder κ) (site : List ℕ) (q : Query κ)
    (hq : ∀ c, q.about = some c → c ∈ S) (hm : InStep (1 - eps) j S m m') :
    Lock (1 - eps) j S (NumRel (1 - eps) (6 * j + 5 * S.card + 12)) (q.runR ρ o site m)
      (q.run o site m') := by
  cases q with
  | precision c v => exact value_lock he o (precision_lock he o) (by omega) (by omega) site c v hq hm
  | recall c v => exact value_lock he o (recall_lock he o) (by omega) (by omega) site c v hq hm
  | fmeasure c beta v =>
    exact value_lock he o (fmeasure_lock he o beta _ rfl) (by omega) (by omega) site c v hq hm

/-- Queries about related matrices: the same errors, and answers that are close. -/
theorem answers_close (he : ErrorOf ρ eps) (o : ClassOrder κ) (site : List ℕ) (q : Query κ)
    (hq : ∀ c, q.about = some c → c ∈ S) (hm : InStep (1 - eps) j S m m') :
    (∀ e, q.runR ρ o site m = .error e ↔ q.run o site m' = .error e) ∧
    ∀ x y, answer (q.runR ρ o site m) = some x → answer (q.run o site m') = some y →
      Near (1 - eps) (6 * j + 5 * S.card + 12) x y := by
  rcases run_lock he o site q hq hm with ⟨e, h1, h2⟩ | ⟨v, w, m1, m1', h1, h2, h3, _⟩
  · rw [h1, h2]
    exact ⟨fun _ => Iff.rfl, fun x y hx => by cases hx⟩
  · rw [h1, h2]
    refine ⟨fun e => ⟨fun h => (by cases h), fun h => (by cases h)⟩, fun x y hx hy => ?_⟩
    cases hx
    cases hy
    exact rel_val he h3

end Matrices

/-! ## The matrix of boundary edit distance -/

section Bed

variable {ρ : Rounding} {eps : ℚ}

/-- Filling a matrix: both raise the same error, or the results are related. -/
def FillLock {κ : Type _} [DecidableEq κ] (u : ℚ) (k : ℕ) (x y : Py (CM κ)) : Prop :=
  (∃ e, x = .error e ∧ y = .error e) ∨
  ∃ m m', x = .ok m ∧ y = .ok m' ∧ MatRel u k m m'

theorem incr_lock {κ : Type _} [DecidableEq κ] (he : ErrorOf ρ eps) {k : ℕ} {m m' : CM κ}
    (hm : MatRel (1 - eps) k m m') (p a : κ) {v v' : PyNum} (hv : NumRel (1 - eps) k v v') :
    FillLock (1 - eps) (k + 1) (m.incrR ρ p a v) (m'.incr p a v') := by
  obtain ⟨h1, h2⟩ := matRel_read hm p a
  obtain ⟨z, w, h3, h4, h5⟩ := rel_add he h1 hv
  rw [CM.incrR, CM.incr]
  simp only
  rw [h3, h4]
  exact .inr ⟨_, _, rfl, rfl, matRel_write (matRel_mono he (Nat.le_succ k) h2) p a h5⟩

theorem fill_loop {κ α : Type _} [DecidableEq κ] {u : ℚ} {k0 : ℕ} {f g : CM κ → α → Py (CM κ)}
    (l : List α) (h : ∀ x ∈ l, ∀ k m m', k0 ≤ k → MatRel u k m m' →
      FillLock u (k + 1) (f m x) (g m' x))
    {k : ℕ} (hk : k0 ≤ k) {m m' : CM κ} (hm : MatRel u k m m') :
    FillLock u (k + l.length) (forLoop l m f) (forLoop l m' g) := by
  induction l generalizing k m m' with
  | nil => exact .inr ⟨_, _, rfl, rfl, hm⟩
  | cons x xs ih =>
    simp only [forLoop]
    rcases h x (by simp) k m m' hk hm with ⟨e, h1, h2⟩ | ⟨m1, m1', h1, h2, h3⟩
    · rw [h1, h2]; exact .inl ⟨e, rfl, rfl⟩
    · rw [h1, h2]
      simp only
      have := ih (fun y hy => h y (by simp [hy])) (by omega) h3
      rw [List.length_cons, show k + (xs.length + 1) = k + 1 + xs.length by omega]
      exact this

theorem transposition_lock (he : ErrorOf ρ eps) (nT : ℤ) (hn : 0 ≤ nT) (t : Transposition) (k : ℕ)
    (hk : 1 ≤ k) {m m' : CM BLabel} (hm : MatRel (1 - eps) k m m') :
    FillLock (1 - eps) (k + 1) (addTranspositionR ρ (.defaultR ρ) nT m t)
      (addTransposition .default nT m' t) := by
  rw [addTranspositionR, addTransposition]
  have hs : Near (1 - eps) 0 ((spanSum [((t.start : ℤ), (t.stop : ℤ))] : ℤ) : ℚ)
      ((spanSum [((t.start : ℤ), (t.stop : ℤ))] : ℤ) : ℚ) :=
    near_refl (by linarith [he.nonneg]) (by linarith [he.lt_one]) 0 (by
      simp only [spanSum, add_zero]
      exact_mod_cast abs_nonneg _)
  have hn' : NumRel (1 - eps) 0 (.int nT) (.int nT) := ⟨rfl, hn⟩
  have hw : (Weights.defaultR ρ).t [t] nT =
      PyNum.truedivR ρ (.dec ((spanSum [((t.start : ℤ), (t.stop : ℤ))] : ℤ) : ℚ)) (.int nT) := rfl
  have hw' : Weights.default.t [t] nT =
      PyNum.truediv (.dec ((spanSum [((t.start : ℤ), (t.stop : ℤ))] : ℤ) : ℚ)) (.int nT) := rfl
  rw [hw, hw']
  rcases rel_div he hs hn' with ⟨e, h1, h2⟩ | ⟨z, w, h1, h2, h3⟩
  · rw [h1, h2]; exact .inl ⟨e, rfl, rfl⟩
  · rw [h1, h2]
    have h4 : NumRel (1 - eps) k (.dec z) (.dec w) :=
      near_mono (by linarith [he.nonneg]) (by linarith [he.lt_one]) h3 (by omega)
    exact incr_lock he hm _ _ h4

theorem matrix_lock (he : ErrorOf ρ eps) (nT : ℤ) (st : Statistics) (c : PyNum)
    (hn : 0 < st.edits.transpositions.length → 0 ≤ nT) :
    FillLock (1 - eps) (1 + (st.matches'.length + st.edits.transpositions.length +
        st.edits.substitutions.length + st.edits.additions.length))
      (matrixOfStatisticsR ρ (.defaultR ρ) nT { st with countEdits := c })
      (matrixOfStatistics .default nT st) := by
  have h0 : MatRel (1 - eps) 1 ({} : CM BLabel) {} :=
    ⟨fun _ _ => .inl ⟨rfl, rfl⟩, fun _ => Iff.rfl, rfl, rfl⟩
  have h1i : ∀ k, NumRel (1 - eps) k (.int 1) (.int 1) := fun k => ⟨rfl, by norm_num⟩
  rw [matrixOfStatisticsR, matrixOfStatistics]
  simp only [addMatchesR, addMatches, addTranspositions, addSubstitutionsR, addSubstitutions,
    addAdditions]
  rcases fill_loop (k0 := 1) st.matches'
      (fun t _ k m m' _ hm => incr_lock he hm (some t) (some t) (h1i k)) (le_refl 1) h0 with
    ⟨e, h1, h2⟩ | ⟨m1, m1', h1, h2, h3⟩
  · rw [h1, h2]; exact .inl ⟨e, rfl, rfl⟩
  rw [h1, h2]
  simp only
  rcases fill_loop (k0 := 1) st.edits.transpositions
      (fun t ht k m m' hk hm => transposition_lock he nT (hn (List.length_pos_of_mem ht)) t k hk hm) (by omega) h3 with
    ⟨e, h4, h5⟩ | ⟨m2, m2', h4, h5, h6⟩
  · rw [h4, h5]; exact .inl ⟨e, rfl, rfl⟩
  rw [h4, h5]
  simp only
  rcases fill_loop (k0 := 1) st.edits.substitutions
      (fun s _ k m m' _ hm => incr_lock he hm (some s.typeA) (some s.typeB) (h1i k)) (by omega) h6 with
    ⟨e, h7, h8⟩ | ⟨m3, m3', h7, h8, h9⟩
  · rw [h7, h8]; exact .inl ⟨e, rfl, rfl⟩
  rw [h7, h8]
  simp only
  have h10 := fill_loop (k0 := 1) (f := addAdditionR ρ) (g := addAddition) st.edits.additions
      (fun d _ k m m' _ hm => by
        rw [addAdditionR, addAddition]
        cases d.side
        · exact incr_lock he hm _ _ (h1i k)
        · exact incr_lock he hm _ _ (h1i k)) (by omega) h9
  rw [show 1 + (st.matches'.length + st.edits.transpositions.length +
    st.edits.substitutions.length + st.edits.additions.length) = 1 + st.matches'.length +
    st.edits.transpositions.length + st.edits.substitutions.length + st.edits.additions.length
    by omega]
  exact h10

/-- The confusion matrices of two segmentations, rounded and exact. -/
theorem bcm_lock (he : ErrorOf ρ eps) (rt : Runtime) (kw : SimKw) (a b : Seg) :
    (∃ e, boundaryConfusionMatrixR ρ rt { kw with weight := .defaultR ρ } a b = .error e ∧
      boundaryConfusionMatrix rt { kw with weight := .default } a b = .error e) ∨
    ∃ m m' st, boundaryConfusionMatrixR ρ rt { kw with weight := .defaultR ρ } a b = .ok m ∧
      boundaryConfusionMatrix rt { kw with weight := .default } a b = .ok m' ∧
      boundaryStatistics rt kw.boundaryFormat kw.nT .default a b = .ok st ∧
      MatRel (1 - eps) (1 + (st.matches'.length + st.edits.transpositions.length +
        st.edits.substitutions.length + st.edits.additions.length)) m m' := by
  rw [boundaryConfusionMatrixR, boundaryConfusionMatrix]
  simp only
  cases hs : boundaryStatistics rt kw.boundaryFormat kw.nT .default a b with
  | error e =>
    have h := hs
    rw [← boundaryStatisticsR_exact, ← weights_exact] at h
    rw [boundaryStatisticsR_error _ ρ h]
    exact .inl ⟨e, rfl, rfl⟩
  | ok st =>
    obtain ⟨R, sa, sb, hb⟩ := beside_of_exact ρ hs
    rw [hb.rounded]
    simp only
    have hn : 0 < st.edits.transpositions.length → 0 ≤ kw.nT := by
      intro h0
      by_contra hneg
      have h1 := hb.script.trans_ge
      have h2 := hb.script.trans_le
      have h3 : (st.edits.transpositions.length : ℤ) * kw.nT ≤ 0 :=
        mul_nonpos_of_nonneg_of_nonpos (by positivity) (by omega)
      omega
    rcases matrix_lock he kw.nT st (.dec (roundedCost ρ.dec kw.nT R st.edits)) hn with
      ⟨e, h1, h2⟩ | ⟨m, m', h1, h2, h3⟩
    · rw [h1, h2]; exact .inl ⟨e, rfl, rfl⟩
    · exact .inr ⟨m, m', st, h1, h2, rfl, h3⟩

theorem bcm_reachable {rt : Runtime} {kw : SimKw} {a b : Seg} {m : CM BLabel}
    (h : boundaryConfusionMatrix rt kw a b = .ok m) : Reachable m := by
  unfold boundaryConfusionMatrix at h
  cases hst : boundaryStatistics rt kw.boundaryFormat kw.nT kw.weight a b with
  | error e => rw [hst] at h; cases h
  | ok st => rw [hst] at h; exact (matrix_inv h).1

end Bed

end SegEval
