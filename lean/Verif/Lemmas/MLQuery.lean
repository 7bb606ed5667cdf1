import Verif.Lemmas.ML

namespace SegEval

open Spec

variable {κ : Type _} [DecidableEq κ]

/-! ## The values computed from the cells -/

/-- `__precision__`/`__recall__` of a numerator and a denominator. -/
def ratioOf (x : PyNum) (d : ℚ) : Option ℚ :=
  if x.isZeroObj then some 0 else if d = 0 then none else some (x.val / d)

noncomputable def rowTotal (m : CM κ) (c : κ) : ℚ := ∑ᶠ a, entry m c a
noncomputable def colTotal (m : CM κ) (c : κ) : ℚ := ∑ᶠ p, entry m p c

noncomputable def precisionOf (m : CM κ) (c : κ) : Option ℚ := ratioOf (cell m c c) (rowTotal m c)
noncomputable def recallOf (m : CM κ) (c : κ) : Option ℚ := ratioOf (cell m c c) (colTotal m c)

/-- The F-measure of two ratios. -/
def fOfRatios (beta p r : ℚ) : Option ℚ :=
  if p = 0 ∨ r = 0 then some 0
  else if beta ^ 2 * p + r = 0 then none
  else some ((1 + beta ^ 2) * p * r / (beta ^ 2 * p + r))

noncomputable def fOf (beta : ℚ) (m : CM κ) (c : κ) : Option ℚ :=
  match precisionOf m c, recallOf m c with
  | some p, some r => fOfRatios beta p r
  | _, _ => none

noncomputable def fParts (beta : ℚ) (m : CM κ) (c : κ) : Option (ℚ × ℚ) :=
  match precisionOf m c, recallOf m c with
  | some p, some r => some ((1 + beta ^ 2) * p * r, beta ^ 2 * p + r)
  | _, _ => none

/-- What a per-class function computes and that it keeps the cells. -/
structure ClassSpec (fnc : ClassFn κ) (val : CM κ → κ → Option ℚ)
    (parts : CM κ → κ → Option (ℚ × ℚ)) : Prop where
  value : ∀ site m c, Sound m → NoFloats m →
    (∃ x m', fnc site m c false = .ok (.value x, m') ∧ val m c = some x.val ∧ x.NoFlt ∧
      Same m m' (fun l => l = c)) ∨ (∃ e, fnc site m c false = .error e ∧ val m c = none)
  part : ∀ site m c, Sound m → NoFloats m →
    (∃ n d m', fnc site m c true = .ok (.parts n d, m') ∧ parts m c = some (n.val, d.val) ∧
      n.NoFlt ∧ d.NoFlt ∧ Same m m' (fun l => l = c)) ∨
    (∃ e, fnc site m c true = .error e ∧ parts m c = none)
  cong : ∀ m m' c, (∀ p a, cell m' p a = cell m p a) → val m' c = val m c ∧ parts m' c = parts m c
  off : ∀ m c, ¬ InUse m c → parts m c = some (0, 0)

theorem decDiv_cases (a b : ℚ) : (b ≠ 0 ∧ (PyNum.dec a).truediv (.dec b) = .ok (.dec (a / b))) ∨
    (b = 0 ∧ ∃ e, (PyNum.dec a).truediv (.dec b) = .error e) := by
  by_cases hb : b = 0
  · right
    refine ⟨hb, ?_⟩
    unfold PyNum.truediv
    simp only [PyNum.decDiv]
    by_cases ha : a = 0 <;> simp [hb, ha]
  · left
    refine ⟨hb, ?_⟩
    unfold PyNum.truediv
    simp [PyNum.decDiv, hb]

theorem rowTotal_congr {m m' : CM κ} (h : ∀ p a, cell m' p a = cell m p a) (c : κ) :
    rowTotal m' c = rowTotal m c := by
  unfold rowTotal entry; simp only [h]

theorem colTotal_congr {m m' : CM κ} (h : ∀ p a, cell m' p a = cell m p a) (c : κ) :
    colTotal m' c = colTotal m c := by
  unfold colTotal entry; simp only [h]

theorem precisionOf_congr {m m' : CM κ} (h : ∀ p a, cell m' p a = cell m p a) (c : κ) :
    precisionOf m' c = precisionOf m c := by
  unfold precisionOf; rw [rowTotal_congr h, h]

theorem recallOf_congr {m m' : CM κ} (h : ∀ p a, cell m' p a = cell m p a) (c : κ) :
    recallOf m' c = recallOf m c := by
  unfold recallOf; rw [colTotal_congr h, h]

theorem cell_off {m : CM κ} {c : κ} (h : ¬ InUse m c) (a : κ) :
    cell m c a = .int 0 ∧ cell m a c = .int 0 := by
  constructor
  · by_contra h0; exact h (cell_inUse h0).1
  · by_contra h0; exact h (cell_inUse h0).2

theorem rowTotal_off {m : CM κ} {c : κ} (h : ¬ InUse m c) : rowTotal m c = 0 := by
  unfold rowTotal entry
  simp only [(cell_off h _).1, PyNum.val, Int.cast_zero, finsum_zero]

theorem colTotal_off {m : CM κ} {c : κ} (h : ¬ InUse m c) : colTotal m c = 0 := by
  unfold colTotal entry
  simp only [(cell_off h _).2, PyNum.val, Int.cast_zero, finsum_zero]

theorem finish_value {x d : PyNum} {t : ℚ} (ht : d.val = t) :
    (∃ y, finishClass false x d = .ok (.value y) ∧ ratioOf x t = some y.val ∧ y.NoFlt) ∨
    (∃ e, finishClass false x d = .error e ∧ ratioOf x t = none) := by
  subst ht
  unfold finishClass ratioOf
  simp only [Bool.false_eq_true, if_false]
  cases hz : x.isZeroObj with
  | true => exact .inl ⟨_, rfl, rfl, trivial⟩
  | false =>
    simp only [Bool.false_eq_true, if_false]
    unfold PyNum.toDecimal
    rcases decDiv_cases x.val d.val with ⟨h0, h⟩ | ⟨h0, e, h⟩
    · rw [h]
      exact .inl ⟨_, rfl, by rw [if_neg h0]; rfl, trivial⟩
    · rw [h]
      exact .inr ⟨e, rfl, by rw [if_pos h0]⟩

theorem classRatio_spec (o : ClassOrder κ) (pre : List ℕ → List ℕ) (f : κ → κ → κ × κ)
    (tot : CM κ → κ → ℚ) (htot : ∀ m c, tot m c = ∑ᶠ x, entry m (f c x).1 (f c x).2)
    (hcong : ∀ m m' c, (∀ p a, cell m' p a = cell m p a) → tot m' c = tot m c)
    (hoff : ∀ m c, ¬ InUse m c → tot m c = 0)
    (hf' : ∀ c x, (f c x).1 = x ∨ (f c x).2 = x)
    (hf1 : ∀ c x, ((f c x).1 = c ∨ (f c x).1 = x) ∧ ((f c x).2 = c ∨ (f c x).2 = x)) :
    ClassSpec (fun site m c rp => classRatio o (pre site) (f c) m c rp)
      (fun m c => ratioOf (cell m c c) (tot m c)) (fun m c => some (entry m c c, tot m c)) := by
  refine ⟨?_, ?_, ?_, ?_⟩
  · intro site m c hs hn
    obtain ⟨d, m', h1, h2, h3, h4⟩ := classRatio_ok o (pre site) (f c) m c false hs hn (hf' c) (hf1 c)
    rw [← htot] at h2
    simp only [h4]
    rcases finish_value (x := cell m c c) h2 with ⟨y, e1, e2, e3⟩ | ⟨e, e1, e2⟩
    · exact .inl ⟨y, m', by rw [e1], e2, e3, h3⟩
    · exact .inr ⟨e, by rw [e1], e2⟩
  · intro site m c hs hn
    obtain ⟨d, m', h1, h2, h3, h4⟩ := classRatio_ok o (pre site) (f c) m c true hs hn (hf' c) (hf1 c)
    rw [← htot] at h2
    simp only [h4]
    exact .inl ⟨cell m c c, d, m', rfl, by rw [h2]; rfl, hn c c, h1, h3⟩
  · intro m m' c h
    simp only [entry]
    rw [hcong m m' c h, h]
    exact ⟨rfl, rfl⟩
  · intro m c h
    rw [hoff m c h, entry, (cell_off h c).1]
    simp [PyNum.val]

theorem precision_spec (o : ClassOrder κ) : ClassSpec (precisionClass o) precisionOf
    (fun m c => some (entry m c c, rowTotal m c)) :=
  classRatio_spec o (fun s => 0 :: s) (fun c x => (c, x)) rowTotal (fun _ _ => rfl)
    (fun _ _ c h => rowTotal_congr h c) (fun _ _ h => rowTotal_off h) (fun _ _ => .inr rfl)
    (fun _ _ => ⟨.inl rfl, .inr rfl⟩)

theorem recall_spec (o : ClassOrder κ) : ClassSpec (recallClass o) recallOf
    (fun m c => some (entry m c c, colTotal m c)) :=
  classRatio_spec o (fun s => 1 :: s) (fun c x => (x, c)) colTotal (fun _ _ => rfl)
    (fun _ _ c h => colTotal_congr h c) (fun _ _ h => colTotal_off h) (fun _ _ => .inl rfl)
    (fun _ _ => ⟨.inr rfl, .inl rfl⟩)

theorem fFromRatios_false (beta p r : ℚ) :
    (∃ y, fFromRatios beta false p r = .ok (.value y) ∧ fOfRatios beta p r = some y.val ∧ y.NoFlt) ∨
    (∃ e, fFromRatios beta false p r = .error e ∧ fOfRatios beta p r = none) := by
  unfold fFromRatios fOfRatios
  by_cases h : p = 0 ∨ r = 0
  · simp only [h, and_self, if_true]
    exact .inl ⟨_, rfl, by simp [PyNum.val], trivial⟩
  · simp only [h, and_false, if_false, Bool.false_eq_true]
    rcases decDiv_cases ((1 + beta ^ 2) * p * r) (beta ^ 2 * p + r) with ⟨h0, h⟩ | ⟨h0, e, h⟩
    · rw [h]
      exact .inl ⟨_, rfl, by rw [if_neg h0]; rfl, trivial⟩
    · rw [h]
      exact .inr ⟨e, rfl, by rw [if_pos h0]⟩

theorem fmeasure_spec (o : ClassOrder κ) (beta : ℚ) :
    ClassSpec (fmeasureClass o beta) (fOf beta) (fParts beta) := by
  refine ⟨?_, ?_, ?_, ?_⟩
  · intro site m c hs hn
    unfold fmeasureClass fOf
    rcases (precision_spec o).value site m c hs hn with ⟨x, m1, e1, e2, _, e4⟩ | ⟨e, e1, e2⟩
    · rw [e1]
      simp only
      rcases (recall_spec o).value site m1 c (e4.sound hs) (noFloats_same e4 hn) with
        ⟨y, m2, f1, f2, _, f4⟩ | ⟨e, f1, f2⟩
      · rw [f1]
        simp only
        rw [recallOf_congr e4.cells] at f2
        rw [e2, f2]
        simp only
        have hS : Same m m2 (fun l => l = c) := (e4.trans f4).mono (fun l h => .inr (by tauto))
        rcases fFromRatios_false beta x.val y.val with ⟨z, g1, g2, g3⟩ | ⟨e, g1, g2⟩
        · rw [g1]
          exact .inl ⟨z, m2, rfl, g2, g3, hS⟩
        · rw [g1]
          exact .inr ⟨e, rfl, g2⟩
      · rw [f1]
        rw [recallOf_congr e4.cells] at f2
        exact .inr ⟨e, rfl, by rw [e2, f2]⟩
    · rw [e1]
      exact .inr ⟨e, rfl, by rw [e2]⟩
  · intro site m c hs hn
    unfold fmeasureClass fParts
    rcases (precision_spec o).value site m c hs hn with ⟨x, m1, e1, e2, _, e4⟩ | ⟨e, e1, e2⟩
    · rw [e1]
      simp only
      rcases (recall_spec o).value site m1 c (e4.sound hs) (noFloats_same e4 hn) with
        ⟨y, m2, f1, f2, _, f4⟩ | ⟨e, f1, f2⟩
      · rw [f1]
        simp only
        rw [recallOf_congr e4.cells] at f2
        rw [e2, f2]
        simp only
        have hS : Same m m2 (fun l => l = c) := (e4.trans f4).mono (fun l h => .inr (by tauto))
        unfold fFromRatios
        simp only [Bool.true_eq_false, false_and, if_false, if_true]
        exact .inl ⟨_, _, m2, rfl, rfl, trivial, trivial, hS⟩
      · rw [f1]
        rw [recallOf_congr e4.cells] at f2
        exact .inr ⟨e, rfl, by rw [e2, f2]⟩
    · rw [e1]
      exact .inr ⟨e, rfl, by rw [e2]⟩
  · intro m m' c h
    unfold fOf fParts
    rw [precisionOf_congr h, recallOf_congr h]
    exact ⟨rfl, rfl⟩
  · intro m c h
    unfold fParts precisionOf recallOf
    rw [(cell_off h c).1]
    have h0 : ∀ d, ratioOf (.int 0) d = some 0 := fun d => if_pos rfl
    rw [h0, h0]
    simp

/-! ## Averages -/

theorem microLoop_ok {fnc : ClassFn κ} {val parts} (hf : ClassSpec fnc val parts) (site : List ℕ)
    (k : ℕ) (cs : List κ) (n d : PyNum) (m : CM κ) (hn : n.NoFlt) (hd : d.NoFlt) (hs : Sound m)
    (hm : NoFloats m) :
    (∃ n' d' m', microLoop fnc site k cs (n, d) m = .ok ((n', d'), m') ∧ n'.NoFlt ∧ d'.NoFlt ∧
      (∀ c ∈ cs, parts m c ≠ none) ∧
      n'.val = n.val + (cs.map (fun c => ((parts m c).getD (0, 0)).1)).sum ∧
      d'.val = d.val + (cs.map (fun c => ((parts m c).getD (0, 0)).2)).sum ∧
      Same m m' (fun l => l ∈ cs)) ∨
    (∃ e, microLoop fnc site k cs (n, d) m = .error e ∧ ∃ c ∈ cs, parts m c = none) := by
  induction cs generalizing k n d m with
  | nil => exact .inl ⟨n, d, m, rfl, hn, hd, by simp, by simp, by simp, Same.refl m _⟩
  | cons c cs ih =>
    rw [microLoop]
    rcases hf.part (k :: site) m c hs hm with ⟨n1, d1, m1, e1, e2, e3, e4, e5⟩ | ⟨e, e1, e2⟩
    · rw [e1]
      simp only
      obtain ⟨n2, a1, a2, a3⟩ := add_noFlt hn e3
      obtain ⟨d2, b1, b2, b3⟩ := add_noFlt hd e4
      rw [a1, b1]
      simp only
      have hp : ∀ x, parts m1 x = parts m x := fun x => (hf.cong m m1 x e5.cells).2
      rcases ih (k + 1) n2 d2 m1 a3 b3 (e5.sound hs) (noFloats_same e5 hm) with
        ⟨n', d', m', f1, f2, f3, f4, f5, f6, f7⟩ | ⟨e, f1, x, hx, f2⟩
      · refine .inl ⟨n', d', m', f1, f2, f3, ?_, ?_, ?_, ?_⟩
        · intro x hx
          rcases List.mem_cons.1 hx with rfl | hx
          · rw [e2]; simp
          · rw [← hp]; exact f4 x hx
        · rw [f5, a2]; simp only [hp, List.map_cons, List.sum_cons, e2, Option.getD_some, add_assoc]
        · rw [f6, b2]; simp only [hp, List.map_cons, List.sum_cons, e2, Option.getD_some, add_assoc]
        · refine (e5.trans f7).mono (fun l h => .inr ?_)
          rcases h with rfl | h <;> simp [*]
      · exact .inr ⟨e, f1, x, by simp [hx], by rw [← hp]; exact f2⟩
    · rw [e1]
      exact .inr ⟨e, rfl, c, by simp, e2⟩

theorem macroLoop_ok {fnc : ClassFn κ} {val parts} (hf : ClassSpec fnc val parts) (site : List ℕ)
    (k : ℕ) (cs : List κ) (acc : List PyNum) (m : CM κ) (ha : ∀ x ∈ acc, x.NoFlt) (hs : Sound m)
    (hm : NoFloats m) :
    (∃ acc' m', macroLoop fnc site k cs acc m = .ok (acc', m') ∧ (∀ x ∈ acc', x.NoFlt) ∧
      (∀ c ∈ cs, val m c ≠ none) ∧
      acc'.map PyNum.val = acc.map PyNum.val ++ cs.map (fun c => (val m c).getD 0) ∧
      Same m m' (fun l => l ∈ cs)) ∨
    (∃ e, macroLoop fnc site k cs acc m = .error e ∧ ∃ c ∈ cs, val m c = none) := by
  induction cs generalizing k acc m with
  | nil => exact .inl ⟨acc, m, rfl, ha, by simp, by simp, Same.refl m _⟩
  | cons c cs ih =>
    rw [macroLoop]
    rcases hf.value (k :: site) m c hs hm with ⟨x1, m1, e1, e2, e3, e5⟩ | ⟨e, e1, e2⟩
    · rw [e1]
      simp only
      have hp : ∀ x, val m1 x = val m x := fun x => (hf.cong m m1 x e5.cells).1
      rcases ih (k + 1) (acc ++ [x1]) m1 (by
          intro x hx
          rcases List.mem_append.1 hx with hx | hx
          · exact ha x hx
          · rw [List.mem_singleton.1 hx]; exact e3) (e5.sound hs) (noFloats_same e5 hm) with
        ⟨acc', m', f1, f2, f3, f4, f5⟩ | ⟨e, f1, x, hx, f2⟩
      · refine .inl ⟨acc', m', f1, f2, ?_, ?_, ?_⟩
        · intro x hx
          rcases List.mem_cons.1 hx with rfl | hx
          · rw [e2]; simp
          · rw [← hp]; exact f3 x hx
        · rw [f4]; simp [hp, e2]
        · refine (e5.trans f5).mono (fun l h => .inr ?_)
          rcases h with rfl | h <;> simp [*]
      · exact .inr ⟨e, f1, x, by simp [hx], by rw [← hp]; exact f2⟩
    · rw [e1]
      exact .inr ⟨e, rfl, c, by simp, e2⟩

theorem forLoop_add_noFlt (l : List PyNum) (t : PyNum) (hl : ∀ x ∈ l, x.NoFlt) (ht : t.NoFlt) :
    ∃ t', forLoop l t PyNum.add = .ok t' ∧ t'.NoFlt ∧ t'.val = t.val + (l.map PyNum.val).sum := by
  induction l generalizing t with
  | nil => exact ⟨t, rfl, ht, by simp⟩
  | cons x xs ih =>
    obtain ⟨z, h1, h2, h3⟩ := add_noFlt ht (hl x (by simp))
    obtain ⟨t', e1, e2, e3⟩ := ih z (fun y hy => hl y (by simp [hy])) h3
    refine ⟨t', ?_, e2, by rw [e3, h2]; simp [add_assoc]⟩
    simp only [forLoop, h1]
    exact e1

theorem pyMean_noFlt (l : List PyNum) (hl : ∀ x ∈ l, x.NoFlt) :
    ∃ x, pyMean l = .ok x ∧ x.val = (l.map PyNum.val).sum / l.length := by
  obtain ⟨t, h1, h2, h3⟩ := forLoop_add_noFlt l (.dec 0) hl trivial
  unfold pyMean
  rw [h1]
  simp only
  by_cases h : 0 < l.length
  · rw [if_pos h]
    have hne : (l.length : ℚ) ≠ 0 := by exact_mod_cast h.ne'
    have h3' : t.val = (l.map PyNum.val).sum := by rw [h3]; simp [PyNum.val]
    cases t with
    | flt q => exact absurd h2 id
    | int q =>
      refine ⟨_, by simp only [PyNum.truediv, PyNum.fltDiv, if_neg (by exact_mod_cast h.ne' : ¬ ((l.length : ℤ) : ℚ) = 0)]; rfl, ?_⟩
      rw [← h3']; simp [PyNum.val]
    | dec q =>
      refine ⟨_, by simp only [PyNum.truediv, PyNum.decDiv, if_neg (by exact_mod_cast h.ne' : ¬ ((l.length : ℤ) : ℚ) = 0)]; rfl, ?_⟩
      rw [← h3']; simp [PyNum.val]
  · rw [if_neg h]
    have : l = [] := by simpa using h
    subst this
    exact ⟨_, rfl, by simp [PyNum.val]⟩

/-- The micro average of per-class numerators and denominators. -/
noncomputable def microOf (parts : κ → Option (ℚ × ℚ)) : Option ℚ :=
  open Classical in
  if ∃ c, parts c = none then none
  else
    let n := ∑ᶠ c, ((parts c).getD (0, 0)).1
    let d := ∑ᶠ c, ((parts c).getD (0, 0)).2
    if n = 0 then some 0 else if d = 0 then none else some (n / d)

/-- The macro average of per-class values over a set of classes. -/
noncomputable def macroOf (S : Finset κ) (val : κ → Option ℚ) : Option ℚ :=
  open Classical in
  if ∃ c ∈ S, val c = none then none else some ((∑ c ∈ S, (val c).getD 0) / (S.card : ℚ))

theorem value_class {o : ClassOrder κ} {fnc : ClassFn κ} {val parts} (hf : ClassSpec fnc val parts)
    (site : List ℕ) (c : κ) (v : Average) (m : CM κ) (hs : Sound m) (hm : NoFloats m) :
    answer (valueMicroMacro o fnc site (some c) v m) = val m c ∧
    ∀ x m', valueMicroMacro o fnc site (some c) v m = .ok (x, m') → Same m m' (fun l => l = c) := by
  have hc := same_classes m (fun _ => False)
  unfold valueMicroMacro
  simp only
  have hp : val m.classes.2 c = val m c := (hf.cong _ _ c hc.cells).1
  rcases hf.value (0 :: site) m.classes.2 c (hc.sound hs) (noFloats_same hc hm) with
    ⟨x, m', e1, e2, _, e4⟩ | ⟨e, e1, e2⟩
  · rw [e1]
    refine ⟨by rw [← hp, e2]; rfl, ?_⟩
    intro y m'' h
    cases h
    exact (hc.trans e4).mono (fun l h => .inr (by tauto))
  · rw [e1]
    refine ⟨by rw [← hp, e2]; rfl, ?_⟩
    intro y m'' h
    cases h

theorem value_micro {o : ClassOrder κ} {fnc : ClassFn κ} {val parts} (hf : ClassSpec fnc val parts)
    (site : List ℕ) (m : CM κ) (hs : Sound m) (hm : NoFloats m) :
    answer (valueMicroMacro o fnc site none .micro m) = microOf (parts m) ∧
    ∀ x m', valueMicroMacro o fnc site none .micro m = .ok (x, m') → Same m m' (fun _ => False) := by
  have hc := same_classes m (fun _ => False)
  have hS := classes_mem_of_sound hs
  have hp : ∀ c, parts m.classes.2 c = parts m c := fun c => (hf.cong _ _ c hc.cells).2
  have hall : (∃ c, parts m c = none) ↔ ∃ c ∈ o.order (2 :: site) m.classes.1, parts m c = none := by
    constructor
    · rintro ⟨c, h⟩
      refine ⟨c, ?_, h⟩
      rw [o.mem]
      apply hS.1
      by_contra h0
      rw [hf.off m c h0] at h; cases h
    · rintro ⟨c, _, h⟩; exact ⟨c, h⟩
  have hsum : ∀ g : ℚ × ℚ → ℚ, g (0, 0) = 0 →
      ((o.order (2 :: site) m.classes.1).map (fun c => g ((parts m c).getD (0, 0)))).sum =
      ∑ᶠ c, g ((parts m c).getD (0, 0)) := by
    intro g hg
    rw [sum_order, finsum_eq_sum]
    intro c h
    apply hS.1
    by_contra h0
    rw [hf.off m c h0] at h
    exact h (by simpa using hg)
  unfold valueMicroMacro
  simp only
  rcases microLoop_ok hf site 0 (o.order (2 :: site) m.classes.1) (.int 0) (.int 0) m.classes.2
    trivial trivial (hc.sound hs) (noFloats_same hc hm) with
    ⟨n, d, m', e1, e2, e3, e4, e5, e6, e7⟩ | ⟨e, e1, e2⟩
  · rw [e1]
    simp only
    simp only [hp] at e4 e5 e6
    rw [hsum Prod.fst rfl] at e5
    rw [hsum Prod.snd rfl] at e6
    have hno : ¬ ∃ c, parts m c = none := by
      rw [hall]; rintro ⟨c, h1, h2⟩; exact e4 c h1 h2
    have e5' : ∑ᶠ c, ((parts m c).getD (0, 0)).1 = n.val := by rw [e5]; simp [PyNum.val]
    have e6' : ∑ᶠ c, ((parts m c).getD (0, 0)).2 = d.val := by rw [e6]; simp [PyNum.val]
    have hSame : Same m m' (fun _ => False) := (hc.trans e7).mono (by
      rintro l (h | h)
      · exact h.elim
      · rw [o.mem] at h; exact .inl (hS.2 l h))
    unfold microOf
    rw [if_neg hno]
    simp only
    rw [e5', e6']
    by_cases hn0 : n.val = 0
    · rw [if_pos hn0, if_pos hn0]
      refine ⟨by simp [answer, PyNum.val], ?_⟩
      intro x m'' h; cases h; exact hSame
    · rw [if_neg hn0, if_neg hn0]
      have hdec : (d.val ≠ 0 ∧ (n.toDecimal).truediv d = .ok (.dec (n.val / d.val))) ∨
          (d.val = 0 ∧ ∃ e, (n.toDecimal).truediv d = .error e) := by
        have := decDiv_cases n.val d.val
        cases d with
        | flt q => exact absurd e3 id
        | int q => exact this
        | dec q => exact this
      rcases hdec with ⟨h0, h⟩ | ⟨h0, e, h⟩
      · rw [h, if_neg h0]
        refine ⟨rfl, ?_⟩
        intro x m'' h; cases h; exact hSame
      · rw [h, if_pos h0]
        refine ⟨rfl, ?_⟩
        intro x m'' h; cases h
  · rw [e1]
    simp only [hp] at e2
    rw [← hall] at e2
    unfold microOf
    rw [if_pos e2]
    refine ⟨rfl, ?_⟩
    intro x m'' h; cases h

theorem value_macro {o : ClassOrder κ} {fnc : ClassFn κ} {val parts} (hf : ClassSpec fnc val parts)
    (site : List ℕ) (m : CM κ) (hs : Sound m) (hm : NoFloats m) :
    answer (valueMicroMacro o fnc site none .macro m) = macroOf m.classes.1 (val m) ∧
    ∀ x m', valueMicroMacro o fnc site none .macro m = .ok (x, m') → Same m m' (fun _ => False) := by
  have hc := same_classes m (fun _ => False)
  have hS := classes_mem_of_sound hs
  have hp : ∀ c, val m.classes.2 c = val m c := fun c => (hf.cong _ _ c hc.cells).1
  have hall : (∃ c ∈ m.classes.1, val m c = none) ↔
      ∃ c ∈ o.order (2 :: site) m.classes.1, val m c = none := by
    simp only [o.mem]
  unfold valueMicroMacro
  simp only
  rcases macroLoop_ok hf site 0 (o.order (2 :: site) m.classes.1) [] m.classes.2
    (by simp) (hc.sound hs) (noFloats_same hc hm) with
    ⟨acc, m', e1, e2, e3, e4, e5⟩ | ⟨e, e1, e2⟩
  · rw [e1]
    simp only
    simp only [hp, List.map_nil, List.nil_append] at e3 e4
    obtain ⟨x, f1, f2⟩ := pyMean_noFlt acc e2
    rw [f1]
    simp only
    have hlen : acc.length = m.classes.1.card := by
      have := congrArg List.length e4
      rw [List.length_map, List.length_map] at this
      rw [this]
      have hx : (o.order (2 :: site) m.classes.1).toFinset = m.classes.1 := by
        ext x; rw [List.mem_toFinset, o.mem]
      conv_rhs => rw [← hx]
      rw [List.toFinset_card_of_nodup (o.nodup _ _)]
    refine ⟨?_, ?_⟩
    · unfold macroOf
      rw [if_neg (by rw [hall]; rintro ⟨c, h1, h2⟩; exact e3 c h1 h2)]
      simp only [answer]
      rw [f2, e4, sum_order, hlen]
    · intro y m'' h
      cases h
      refine (hc.trans e5).mono ?_
      rintro l (h | h)
      · exact h.elim
      · rw [o.mem] at h; exact .inl (hS.2 l h)
  · rw [e1]
    simp only [hp] at e2
    rw [← hall] at e2
    unfold macroOf
    rw [if_pos e2]
    refine ⟨rfl, ?_⟩
    intro x m'' h; cases h

/-- Every query on a sound matrix keeps the cells, and adds at most the class asked about. -/
theorem query_same (o : ClassOrder κ) (site : List ℕ) (q : Query κ) (m : CM κ) (hs : Sound m)
    (hm : NoFloats m) {x : PyNum} {m' : CM κ} (h : q.run o site m = .ok (x, m')) :
    Same m m' (fun l => q.about = some l) := by
  have key : ∀ {fnc : ClassFn κ} {val parts}, ClassSpec fnc val parts → ∀ (c : Option κ) v,
      valueMicroMacro o fnc site c v m = .ok (x, m') → Same m m' (fun l => c = some l) := by
    intro fnc val parts hf c v h
    cases c with
    | some c => exact ((value_class hf site c v m hs hm).2 x m' h).mono (fun l h => .inr (by rw [h]))
    | none =>
      match v with
      | .micro => exact ((value_micro hf site m hs hm).2 x m' h).mono (fun l h => h.elim)
      | .macro => exact ((value_macro hf site m hs hm).2 x m' h).mono (fun l h => h.elim)
      | .other => cases h
  cases q with
  | precision c v => exact key (precision_spec o) c v h
  | recall c v => exact key (recall_spec o) c v h
  | fmeasure c b v => exact key (fmeasure_spec o b) c v h

end SegEval

namespace SegEval

open Spec

variable {κ : Type _} [DecidableEq κ]

/-! ## Without hypotheses on the values -/

theorem sumCells_keeps (f : κ → κ × κ) (cs : List κ) (t : PyNum) (m : CM κ) {t' : PyNum}
    {m' : CM κ} (h : sumCells f cs (t, m) = .ok (t', m')) :
    Same m m' (fun l => ∃ c ∈ cs, l = (f c).1 ∨ l = (f c).2) := by
  induction cs generalizing t m with
  | nil => cases h; exact Same.refl _ _
  | cons c cs ih =>
    have hs := same_read m (f c).1 (f c).2
    rw [sumCells] at h
    simp only at h
    cases ha : t.add (m.read (f c).1 (f c).2).1 with
    | error e => rw [ha] at h; cases h
    | ok z =>
      rw [ha] at h
      refine (hs.trans (ih z _ h)).mono (fun l hl => .inr ?_)
      rcases hl with hl | ⟨x, hx, hl⟩
      · exact ⟨c, by simp, hl⟩
      · exact ⟨x, by simp [hx], hl⟩

/-- A per-class function that keeps the cells of the matrix. -/
def Keeps (fnc : ClassFn κ) : Prop := ∀ site m c rp out m', Sound m →
  fnc site m c rp = .ok (out, m') → Same m m' (fun l => l = c)

theorem classRatio_keeps (o : ClassOrder κ) (site : List ℕ) (f : κ → κ × κ) (m : CM κ) (c : κ)
    (rp : Bool) (hs : Sound m)
    (hf1 : ∀ x, ((f x).1 = c ∨ (f x).1 = x) ∧ ((f x).2 = c ∨ (f x).2 = x)) {out : ClassOut}
    {m' : CM κ} (h : classRatio o site f m c rp = .ok (out, m')) : Same m m' (fun l => l = c) := by
  have hc := same_classes m (fun _ => False)
  have hS := classes_mem_of_sound hs
  rw [classRatio] at h
  simp only at h
  cases h1 : sumCells f (o.order site m.classes.1) (.int 0, m.classes.2) with
  | error e => rw [h1] at h; cases h
  | ok r =>
    obtain ⟨d, m2⟩ := r
    rw [h1] at h
    simp only at h
    have h4 := sumCells_keeps f _ _ _ h1
    have hr := same_read m2 c c
    have : m' = (m2.read c c).2 := by
      cases hfin : finishClass rp (m2.read c c).1 d with
      | error e => rw [hfin] at h; cases h
      | ok out' => rw [hfin] at h; cases h; rfl
    rw [this]
    refine ((hc.trans h4).trans hr).mono ?_
    rintro l ((h | ⟨x, hx, hl⟩) | h)
    · exact h.elim
    · rw [o.mem] at hx
      have hx' := hS.2 x hx
      rcases hl with rfl | rfl
      · rcases (hf1 x).1 with h | h
        · exact .inr h
        · rw [h]; exact .inl hx'
      · rcases (hf1 x).2 with h | h
        · exact .inr h
        · rw [h]; exact .inl hx'
    · exact .inr (by rcases h with h | h <;> exact h)

theorem precision_keeps (o : ClassOrder κ) : Keeps (precisionClass o) :=
  fun _ m c rp _ _ hs h => classRatio_keeps o _ (fun x => (c, x)) m c rp hs
    (fun _ => ⟨.inl rfl, .inr rfl⟩) h

theorem recall_keeps (o : ClassOrder κ) : Keeps (recallClass o) :=
  fun _ m c rp _ _ hs h => classRatio_keeps o _ (fun x => (x, c)) m c rp hs
    (fun _ => ⟨.inr rfl, .inl rfl⟩) h

theorem fmeasure_keeps (o : ClassOrder κ) (beta : ℚ) : Keeps (fmeasureClass o beta) := by
  intro site m c rp out m' hs h
  unfold fmeasureClass at h
  cases h1 : precisionClass o site m c false with
  | error e => rw [h1] at h; cases h
  | ok r =>
    obtain ⟨x, m1⟩ := r
    rw [h1] at h
    have s1 := precision_keeps o _ _ _ _ _ _ hs h1
    cases x with
    | parts _ _ => cases h
    | value p =>
      simp only at h
      cases h2 : recallClass o site m1 c false with
      | error e => rw [h2] at h; cases h
      | ok r =>
        obtain ⟨y, m2⟩ := r
        rw [h2] at h
        have s2 := recall_keeps o _ _ _ _ _ _ (s1.sound hs) h2
        cases y with
        | parts _ _ => cases h
        | value q =>
          simp only at h
          cases h3 : fFromRatios beta rp p.val q.val with
          | error e => rw [h3] at h; cases h
          | ok z =>
            rw [h3] at h
            cases h
            exact (s1.trans s2).mono (fun l h => .inr (by tauto))

theorem microLoop_keeps {fnc : ClassFn κ} (hf : Keeps fnc) (site : List ℕ) (k : ℕ) (cs : List κ)
    (n d : PyNum) (m : CM κ) (hs : Sound m) {r : PyNum × PyNum} {m' : CM κ}
    (h : microLoop fnc site k cs (n, d) m = .ok (r, m')) : Same m m' (fun l => l ∈ cs) := by
  induction cs generalizing k n d m with
  | nil => cases h; exact Same.refl _ _
  | cons c cs ih =>
    rw [microLoop] at h
    cases h1 : fnc (k :: site) m c true with
    | error e => rw [h1] at h; cases h
    | ok r1 =>
      obtain ⟨x, m1⟩ := r1
      rw [h1] at h
      have s1 := hf _ _ _ _ _ _ hs h1
      cases x with
      | value _ => cases h
      | parts n1 d1 =>
        simp only at h
        cases h2 : n.add n1 with
        | error e => rw [h2] at h; cases h
        | ok n2 =>
          rw [h2] at h
          simp only at h
          cases h3 : d.add d1 with
          | error e => rw [h3] at h; cases h
          | ok d2 =>
            rw [h3] at h
            refine (s1.trans (ih _ _ _ _ (s1.sound hs) h)).mono (fun l h => .inr ?_)
            rcases h with rfl | h <;> simp [*]

theorem macroLoop_keeps {fnc : ClassFn κ} (hf : Keeps fnc) (site : List ℕ) (k : ℕ) (cs : List κ)
    (acc : List PyNum) (m : CM κ) (hs : Sound m) {r : List PyNum} {m' : CM κ}
    (h : macroLoop fnc site k cs acc m = .ok (r, m')) : Same m m' (fun l => l ∈ cs) := by
  induction cs generalizing k acc m with
  | nil => cases h; exact Same.refl _ _
  | cons c cs ih =>
    rw [macroLoop] at h
    cases h1 : fnc (k :: site) m c false with
    | error e => rw [h1] at h; cases h
    | ok r1 =>
      obtain ⟨x, m1⟩ := r1
      rw [h1] at h
      have s1 := hf _ _ _ _ _ _ hs h1
      cases x with
      | parts _ _ => cases h
      | value v =>
        simp only at h
        refine (s1.trans (ih _ _ _ (s1.sound hs) h)).mono (fun l h => .inr ?_)
        rcases h with rfl | h <;> simp [*]

theorem value_keeps (o : ClassOrder κ) {fnc : ClassFn κ} (hf : Keeps fnc) (site : List ℕ)
    (c : Option κ) (v : Average) (m : CM κ) (hs : Sound m) {x : PyNum} {m' : CM κ}
    (h : valueMicroMacro o fnc site c v m = .ok (x, m')) : Same m m' (fun l => c = some l) := by
  have hc := same_classes m (fun _ => False)
  have hS := classes_mem_of_sound hs
  unfold valueMicroMacro at h
  simp only at h
  cases c with
  | some c =>
    simp only at h
    cases h1 : fnc (0 :: site) m.classes.2 c false with
    | error e => rw [h1] at h; cases h
    | ok r1 =>
      obtain ⟨y, m1⟩ := r1
      rw [h1] at h
      cases y with
      | parts _ _ => cases h
      | value v =>
        cases h
        exact (hc.trans (hf _ _ _ _ _ _ (hc.sound hs) h1)).mono (fun l h => .inr (by
          rcases h with h | h
          · exact h.elim
          · rw [h]))
  | none =>
    have fin : ∀ m1, Same m.classes.2 m1 (fun l => l ∈ o.order (2 :: site) m.classes.1) →
        Same m m1 (fun l => none = some l) := by
      intro m1 s1
      refine (hc.trans s1).mono ?_
      rintro l (h | h)
      · exact h.elim
      · rw [o.mem] at h; exact .inl (hS.2 l h)
    match v with
    | .micro =>
      simp only at h
      cases h1 : microLoop fnc site 0 (o.order (2 :: site) m.classes.1) (.int 0, .int 0)
          m.classes.2 with
      | error e => rw [h1] at h; cases h
      | ok r1 =>
        obtain ⟨⟨n, d⟩, m1⟩ := r1
        rw [h1] at h
        simp only at h
        have s1 := fin m1 (microLoop_keeps hf _ _ _ _ _ _ (hc.sound hs) h1)
        by_cases hn : n.val = 0
        · rw [if_pos hn] at h; cases h; exact s1
        · rw [if_neg hn] at h
          cases h2 : n.toDecimal.truediv d with
          | error e => rw [h2] at h; cases h
          | ok y => rw [h2] at h; cases h; exact s1
    | .macro =>
      simp only at h
      cases h1 : macroLoop fnc site 0 (o.order (2 :: site) m.classes.1) [] m.classes.2 with
      | error e => rw [h1] at h; cases h
      | ok r1 =>
        obtain ⟨l, m1⟩ := r1
        rw [h1] at h
        simp only at h
        have s1 := fin m1 (macroLoop_keeps hf _ _ _ _ _ (hc.sound hs) h1)
        cases h2 : pyMean l with
        | error e => rw [h2] at h; cases h
        | ok y => rw [h2] at h; cases h; exact s1
    | .other => cases h

/-- Every query on a sound matrix keeps the cells, and adds at most the class asked about. -/
theorem query_keeps (o : ClassOrder κ) (site : List ℕ) (q : Query κ) (m : CM κ) (hs : Sound m)
    {x : PyNum} {m' : CM κ} (h : q.run o site m = .ok (x, m')) :
    Same m m' (fun l => q.about = some l) := by
  cases q with
  | precision c v => exact value_keeps o (precision_keeps o) site c v m hs h
  | recall c v => exact value_keeps o (recall_keeps o) site c v m hs h
  | fmeasure c b v => exact value_keeps o (fmeasure_keeps o b) site c v m hs h

/-! ## Histories -/

omit [DecidableEq κ] in
theorem sound_empty : Sound ({} : CM κ) := by
  intro _
  constructor
  · rintro l ⟨r, hr, _⟩; simp at hr
  · intro l h; simp at h

omit [DecidableEq κ] in
theorem fresh_empty : Fresh ({} : CM κ) := by
  intro _ l
  constructor
  · intro h; simp at h
  · rintro ⟨r, hr, _⟩; simp at hr

theorem incr_inv {m : CM κ} {p a : κ} {v : PyNum} {m' : CM κ} (h : m.incr p a v = .ok m') :
    ∃ new, (cell m p a).add v = .ok new ∧ m' = (m.read p a).2.write p a new := by
  unfold CM.incr at h
  simp only at h
  cases h1 : (m.read p a).1.add v with
  | error e => rw [h1] at h; cases h
  | ok new => rw [h1] at h; cases h; exact ⟨new, h1, rfl⟩

theorem step_ok (o : ClassOrder κ) (site : List ℕ) (op : MOp κ) (m : CM κ) (hs : Sound m)
    {m' : CM κ} (h : op.run o site m = .ok m') :
    Sound m' ∧ ∀ p a, cell m' p a = effect (cell m) op p a := by
  cases op with
  | look p => cases h; exact ⟨sound_touch hs p, cell_touch m p⟩
  | read p a => cases h; exact ⟨(same_read m p a).sound hs, cell_read m p a⟩
  | write p a v => cases h; exact ⟨fun h => absurd h (by simp [write_dirty]), cell_write m p a v⟩
  | incr p a v =>
    obtain ⟨new, h1, rfl⟩ := incr_inv h
    refine ⟨fun h => absurd h (by simp [write_dirty]), ?_⟩
    intro p' a'
    rw [cell_write, cell_read]
    simp only [effect, h1]
  | classes => cases h; exact ⟨(same_classes m (fun _ => False)).sound hs, cell_classes m⟩
  | ask q =>
    simp only [MOp.run] at h
    cases h1 : q.run o site m with
    | error e => rw [h1] at h; cases h
    | ok r =>
      obtain ⟨x, m1⟩ := r
      rw [h1] at h
      cases h
      have := query_keeps o site q m hs h1
      exact ⟨this.sound hs, this.cells⟩

theorem history_sound (o : ClassOrder κ) (k : ℕ) (ops : List (MOp κ)) (m m' : CM κ) (hs : Sound m)
    (h : history o k m ops = .ok m') : Sound m' := by
  induction ops generalizing k m with
  | nil => cases h; exact hs
  | cons op ops ih =>
    rw [history] at h
    cases h1 : op.run o [k] m with
    | error e => rw [h1] at h; cases h
    | ok m1 =>
      rw [h1] at h
      exact ih _ _ (step_ok o [k] op m hs h1).1 h

theorem reachable_sound {m : CM κ} (h : Reachable m) : Sound m := by
  obtain ⟨o, k, ops, h⟩ := h
  exact history_sound o k ops {} m sound_empty h

end SegEval
