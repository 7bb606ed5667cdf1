import Verif.Spec.MLState
import Verif.Lemmas.MLBed

/-!
# The matrix after an operation that may have raised
-/

namespace SegEval

open Spec

variable {κ : Type _} [DecidableEq κ]

/-! ## The answers are those of `Model/ML` -/

/-- Forget the matrix of a run that raised. -/
def forget {α : Type _} (r : Py α × CM κ) : MPy κ α :=
  match r with
  | (.ok x, m) => .ok (x, m)
  | (.error e, _) => .error e

theorem sumCellsS_forget (f : κ → κ × κ) (cs : List κ) (t : PyNum) (m : CM κ) :
    forget (sumCellsS f cs t m) = sumCells f cs (t, m) := by
  induction cs generalizing t m with
  | nil => rfl
  | cons c cs ih =>
    rw [sumCellsS, sumCells]
    simp only
    cases t.add (m.read (f c).1 (f c).2).1 with
    | error e => rfl
    | ok z => exact ih _ _

theorem classRatioS_forget (o : ClassOrder κ) (site : List ℕ) (f : κ → κ × κ) (m : CM κ) (c : κ)
    (rp : Bool) : forget (classRatioS o site f m c rp) = classRatio o site f m c rp := by
  rw [classRatioS, classRatio]
  simp only
  rw [← sumCellsS_forget]
  rcases h : sumCellsS f (o.order site m.classes.1) (.int 0) m.classes.2 with ⟨_ | d, m2⟩
  · rfl
  · simp only [forget]
    cases finishClass rp (m2.read c c).1 d <;> rfl

/-- A function of one class with and without the matrix of a run that raised. -/
def Forgets (fS : ClassFnS κ) (f : ClassFn κ) : Prop :=
  ∀ site m c rp, forget (fS site m c rp) = f site m c rp

theorem precision_forgets (o : ClassOrder κ) : Forgets (precisionClassS o) (precisionClass o) :=
  fun _ _ _ _ => classRatioS_forget o _ _ _ _ _

theorem recall_forgets (o : ClassOrder κ) : Forgets (recallClassS o) (recallClass o) :=
  fun _ _ _ _ => classRatioS_forget o _ _ _ _ _

theorem fmeasure_forgets (o : ClassOrder κ) (beta : ℚ) :
    Forgets (fmeasureClassS o beta) (fmeasureClass o beta) := by
  intro site m c rp
  rw [fmeasureClassS, fmeasureClass, ← precision_forgets o]
  rcases precisionClassS o site m c false with ⟨_ | (p | _), m1⟩
  · rfl
  · simp only [forget]
    rw [← recall_forgets o]
    rcases recallClassS o site m1 c false with ⟨_ | (r | _), m2⟩
    · rfl
    · simp only [forget]
      cases fFromRatios beta rp p.val r.val <;> rfl
    · rfl
  · rfl

omit [DecidableEq κ] in
theorem microLoopS_forget {fS : ClassFnS κ} {f : ClassFn κ} (h : Forgets fS f) (site : List ℕ)
    (k : ℕ) (cs : List κ) (n d : PyNum) (m : CM κ) :
    forget (microLoopS fS site k cs (n, d) m) = microLoop f site k cs (n, d) m := by
  induction cs generalizing k n d m with
  | nil => rfl
  | cons c cs ih =>
    rw [microLoopS, microLoop, ← h]
    rcases fS (k :: site) m c true with ⟨_ | (_ | ⟨n1, d1⟩), m1⟩
    · rfl
    · rfl
    · simp only [forget]
      cases n.add n1 with
      | error e => rfl
      | ok n2 =>
        simp only
        cases d.add d1 with
        | error e => rfl
        | ok d2 => exact ih _ _ _ _

omit [DecidableEq κ] in
theorem macroLoopS_forget {fS : ClassFnS κ} {f : ClassFn κ} (h : Forgets fS f) (site : List ℕ)
    (k : ℕ) (cs : List κ) (acc : List PyNum) (m : CM κ) :
    forget (macroLoopS fS site k cs acc m) = macroLoop f site k cs acc m := by
  induction cs generalizing k acc m with
  | nil => rfl
  | cons c cs ih =>
    rw [macroLoopS, macroLoop, ← h]
    rcases fS (k :: site) m c false with ⟨_ | (_ | _), m1⟩
    · rfl
    · exact ih _ _ _
    · rfl

theorem valueS_forget {fS : ClassFnS κ} {f : ClassFn κ} (h : Forgets fS f) (o : ClassOrder κ)
    (site : List ℕ) (c : Option κ) (v : Average) (m : CM κ) :
    forget (valueMicroMacroS o fS site c v m) = valueMicroMacro o f site c v m := by
  rw [valueMicroMacroS, valueMicroMacro]
  simp only
  cases c with
  | some c =>
    simp only
    rw [← h]
    rcases fS (0 :: site) m.classes.2 c false with ⟨_ | (_ | _), m1⟩ <;> rfl
  | none =>
    cases v with
    | micro =>
      simp only
      rw [← microLoopS_forget h]
      rcases microLoopS fS site 0 _ _ _ with ⟨_ | ⟨n, d⟩, m1⟩
      · rfl
      · simp only [forget]
        by_cases hn : n.val = 0
        · rw [if_pos hn, if_pos hn]
        · rw [if_neg hn, if_neg hn]
          cases n.toDecimal.truediv d <;> rfl
    | «macro» =>
      simp only
      rw [← macroLoopS_forget h]
      rcases macroLoopS fS site 0 _ _ _ with ⟨_ | l, m1⟩
      · rfl
      · simp only [forget]
        cases pyMean l <;> rfl
    | other => rfl

theorem runS_forget (o : ClassOrder κ) (site : List ℕ) (m : CM κ) (q : Query κ) :
    forget (q.runS o site m) = q.run o site m := by
  cases q with
  | precision c v => exact valueS_forget (precision_forgets o) o site c v m
  | recall c v => exact valueS_forget (recall_forgets o) o site c v m
  | fmeasure c b v => exact valueS_forget (fmeasure_forgets o b) o site c v m

/-! ## The matrix afterwards -/

/-- Operations that only read. -/
def ReadOnly : MOp κ → Prop
  | .read _ _ => True
  | .classes => True
  | _ => False

/-- `m'` is `m` after reading cells and `classes()`, with at most the labels `L` more. -/
structure Later (m m' : CM κ) (L : κ → Prop) : Prop extends Same m m' L where
  trail : ∃ ops : List (MOp κ), (∀ op ∈ ops, ReadOnly op) ∧ ∀ o k, history o k m ops = .ok m'

theorem history_join (o : ClassOrder κ) (k : ℕ) (m m' : CM κ) (ops ops' : List (MOp κ))
    (h : history o k m ops = .ok m') :
    history o k m (ops ++ ops') = history o (k + ops.length) m' ops' := by
  induction ops generalizing k m with
  | nil => cases h; rfl
  | cons op ops ih =>
    rw [history] at h
    rw [List.cons_append, history]
    cases h1 : op.run o [k] m with
    | error e => rw [h1] at h; cases h
    | ok m1 =>
      rw [h1] at h
      simp only
      rw [ih _ _ h, List.length_cons]
      congr 1; omega

theorem later_refl (m : CM κ) (L : κ → Prop) : Later m m L :=
  ⟨Same.refl m L, [], by simp, fun _ _ => rfl⟩

theorem later_trans {m m' m'' : CM κ} {L L' : κ → Prop} (h : Later m m' L) (h' : Later m' m'' L') :
    Later m m'' (fun l => L l ∨ L' l) := by
  obtain ⟨s, ops, h1, h2⟩ := h
  obtain ⟨s', ops', h1', h2'⟩ := h'
  refine ⟨s.trans s', ops ++ ops', ?_, ?_⟩
  · intro op hop
    rcases List.mem_append.1 hop with hop | hop
    · exact h1 op hop
    · exact h1' op hop
  · intro o k
    rw [history_join o k m m' ops ops' (h2 o k), h2']

theorem later_mono {m m' : CM κ} {L L' : κ → Prop} (h : Later m m' L)
    (hL : ∀ l, L l → HasLabel m l ∨ L' l) : Later m m' L' := ⟨h.toSame.mono hL, h.trail⟩

theorem later_read (m : CM κ) (p a : κ) : Later m (m.read p a).2 (fun l => l = p ∨ l = a) :=
  ⟨same_read m p a, [.read p a], by simp [ReadOnly], fun _ _ => rfl⟩

theorem later_classes (m : CM κ) : Later m m.classes.2 (fun _ => False) :=
  ⟨same_classes m _, [.classes], by simp [ReadOnly], fun _ _ => rfl⟩

theorem sumCellsS_later (f : κ → κ × κ) (cs : List κ) (t : PyNum) (m : CM κ) :
    Later m (sumCellsS f cs t m).2 (fun l => ∃ c ∈ cs, l = (f c).1 ∨ l = (f c).2) := by
  induction cs generalizing t m with
  | nil => exact later_refl _ _
  | cons c cs ih =>
    rw [sumCellsS]
    simp only
    cases t.add (m.read (f c).1 (f c).2).1 with
    | error e => exact later_mono (later_read m _ _) (fun l hl => .inr ⟨c, by simp, hl⟩)
    | ok z =>
      refine later_mono (later_trans (later_read m (f c).1 (f c).2) (ih z _)) (fun l hl => .inr ?_)
      rcases hl with hl | ⟨x, hx, hl⟩
      · exact ⟨c, by simp, hl⟩
      · exact ⟨x, by simp [hx], hl⟩

/-- A function of one class after which the matrix has the cells it had. -/
def Leaves (fS : ClassFnS κ) : Prop := ∀ site m c rp, Sound m →
  Later m (fS site m c rp).2 (fun l => l = c)

theorem classRatioS_leaves (o : ClassOrder κ) (site : List ℕ) (f : κ → κ × κ) (m : CM κ) (c : κ)
    (rp : Bool) (hs : Sound m)
    (hf1 : ∀ x, ((f x).1 = c ∨ (f x).1 = x) ∧ ((f x).2 = c ∨ (f x).2 = x)) :
    Later m (classRatioS o site f m c rp).2 (fun l => l = c) := by
  have hS := classes_mem_of_sound hs
  have h4 := later_trans (later_classes m)
    (sumCellsS_later f (o.order site m.classes.1) (.int 0) m.classes.2)
  have h5 : Later m (sumCellsS f (o.order site m.classes.1) (.int 0) m.classes.2).2
      (fun l => l = c) := by
    refine later_mono h4 ?_
    rintro l (h | ⟨x, hx, hl⟩)
    · exact h.elim
    · rw [o.mem] at hx
      have hx' := hS.2 x hx
      rcases hl with rfl | rfl
      · rcases (hf1 x).1 with h | h
        · exact .inr h
        · rw [h]; exact .inl hx'
      · rcases (hf1 x).2 with h | h
        · exact .inr h
        · rw [h]; exact .inl hx'
  rw [classRatioS]
  simp only
  rcases h : sumCellsS f (o.order site m.classes.1) (.int 0) m.classes.2 with ⟨_ | d, m2⟩
  · rw [h] at h5; exact h5
  · rw [h] at h5
    exact later_mono (later_trans h5 (later_read m2 c c)) (fun l h => .inr (by tauto))

theorem precision_leaves (o : ClassOrder κ) : Leaves (precisionClassS o) :=
  fun _ m c rp hs => classRatioS_leaves o _ (fun x => (c, x)) m c rp hs
    (fun _ => ⟨.inl rfl, .inr rfl⟩)

theorem recall_leaves (o : ClassOrder κ) : Leaves (recallClassS o) :=
  fun _ m c rp hs => classRatioS_leaves o _ (fun x => (x, c)) m c rp hs
    (fun _ => ⟨.inr rfl, .inl rfl⟩)

theorem fmeasure_leaves (o : ClassOrder κ) (beta : ℚ) : Leaves (fmeasureClassS o beta) := by
  intro site m c rp hs
  have h1 := precision_leaves o site m c false hs
  rw [fmeasureClassS]
  rcases h : precisionClassS o site m c false with ⟨_ | (p | _), m1⟩
  · rw [h] at h1; exact h1
  · rw [h] at h1
    have h2 := recall_leaves o site m1 c false (h1.sound hs)
    simp only
    rcases h' : recallClassS o site m1 c false with ⟨_ | (r | _), m2⟩ <;> rw [h'] at h2 <;>
      exact later_mono (later_trans h1 h2) (fun l h => .inr (by tauto))
  · rw [h] at h1; exact h1

theorem microLoopS_leaves {fS : ClassFnS κ} (hf : Leaves fS) (site : List ℕ) (k : ℕ) (cs : List κ)
    (n d : PyNum) (m : CM κ) (hs : Sound m) :
    Later m (microLoopS fS site k cs (n, d) m).2 (fun l => l ∈ cs) := by
  induction cs generalizing k n d m with
  | nil => exact later_refl _ _
  | cons c cs ih =>
    have h1 := hf (k :: site) m c true hs
    have w : ∀ {m1}, Later m m1 (fun l => l = c) → Later m m1 (fun l => l ∈ c :: cs) :=
      fun h => later_mono h (fun l h => .inr (by simp [h]))
    rw [microLoopS]
    rcases h : fS (k :: site) m c true with ⟨_ | (_ | ⟨n1, d1⟩), m1⟩ <;> rw [h] at h1
    · exact w h1
    · exact w h1
    · simp only
      cases n.add n1 with
      | error e => exact w h1
      | ok n2 =>
        simp only
        cases d.add d1 with
        | error e => exact w h1
        | ok d2 =>
          refine later_mono (later_trans h1 (ih _ _ _ _ (h1.sound hs))) (fun l h => .inr ?_)
          rcases h with rfl | h <;> simp [*]

theorem macroLoopS_leaves {fS : ClassFnS κ} (hf : Leaves fS) (site : List ℕ) (k : ℕ) (cs : List κ)
    (acc : List PyNum) (m : CM κ) (hs : Sound m) :
    Later m (macroLoopS fS site k cs acc m).2 (fun l => l ∈ cs) := by
  induction cs generalizing k acc m with
  | nil => exact later_refl _ _
  | cons c cs ih =>
    have h1 := hf (k :: site) m c false hs
    rw [macroLoopS]
    rcases h : fS (k :: site) m c false with ⟨_ | (v | _), m1⟩ <;> rw [h] at h1
    · exact later_mono h1 (fun l h => .inr (by simp [h]))
    · refine later_mono (later_trans h1 (ih (k + 1) (acc ++ [v]) m1 (h1.sound hs)))
        (fun l h => .inr ?_)
      rcases h with rfl | h <;> simp [*]
    · exact later_mono h1 (fun l h => .inr (by simp [h]))

theorem valueS_leaves (o : ClassOrder κ) {fS : ClassFnS κ} (hf : Leaves fS) (site : List ℕ)
    (c : Option κ) (v : Average) (m : CM κ) (hs : Sound m) :
    Later m (valueMicroMacroS o fS site c v m).2 (fun l => c = some l) := by
  have hc := later_classes m
  have hS := classes_mem_of_sound hs
  rw [valueMicroMacroS]
  simp only
  cases c with
  | some c =>
    simp only
    have h1 := later_mono (later_trans hc (hf (0 :: site) m.classes.2 c false (hc.sound hs)))
      (L' := fun l => some c = some l) (fun l h => .inr (by
        rcases h with h | h
        · exact h.elim
        · rw [h]))
    rcases h : fS (0 :: site) m.classes.2 c false with ⟨_ | (_ | _), m1⟩ <;> rw [h] at h1 <;>
      exact h1
  | none =>
    have fin : ∀ m1, Later m.classes.2 m1 (fun l => l ∈ o.order (2 :: site) m.classes.1) →
        Later m m1 (fun l => none = some l) := by
      intro m1 s1
      refine later_mono (later_trans hc s1) ?_
      rintro l (h | h)
      · exact h.elim
      · rw [o.mem] at h; exact .inl (hS.2 l h)
    cases v with
    | micro =>
      simp only
      have h1 := fin _ (microLoopS_leaves hf site 0 (o.order (2 :: site) m.classes.1) (.int 0)
        (.int 0) m.classes.2 (hc.sound hs))
      rcases h : microLoopS fS site 0 (o.order (2 :: site) m.classes.1) (.int 0, .int 0)
          m.classes.2 with ⟨_ | ⟨n, d⟩, m1⟩ <;> rw [h] at h1
      · exact h1
      · simp only
        split <;> exact h1
    | «macro» =>
      simp only
      have h1 := fin _ (macroLoopS_leaves hf site 0 (o.order (2 :: site) m.classes.1) []
        m.classes.2 (hc.sound hs))
      rcases h : macroLoopS fS site 0 (o.order (2 :: site) m.classes.1) []
          m.classes.2 with ⟨_ | l, m1⟩ <;> rw [h] at h1 <;> exact h1
    | other => exact fin _ (later_refl _ _)

/-- After any query, also one that raised, the matrix has the cells it had, and at most the class
asked about is new. -/
theorem runS_later (o : ClassOrder κ) (site : List ℕ) (q : Query κ) (m : CM κ) (hs : Sound m) :
    Later m (q.runS o site m).2 (fun l => q.about = some l) := by
  cases q with
  | precision c v => exact valueS_leaves o (precision_leaves o) site c v m hs
  | recall c v => exact valueS_leaves o (recall_leaves o) site c v m hs
  | fmeasure c b v => exact valueS_leaves o (fmeasure_leaves o b) site c v m hs

theorem reachable_later {m m' : CM κ} {L : κ → Prop} (h : Later m m' L) (hr : Reachable m) :
    Reachable m' := by
  obtain ⟨o, k, ops, h1⟩ := hr
  obtain ⟨ops', _, h2⟩ := h.trail
  exact ⟨o, k, ops ++ ops', by rw [history_join o k _ m ops ops' h1, h2]⟩

/-! ## A label the matrix does not have never makes a query raise -/

theorem sumCellsS_off (f : κ → κ × κ) (cs : List κ) (m : CM κ)
    (h : ∀ c ∈ cs, cell m (f c).1 (f c).2 = .int 0) :
    (sumCellsS f cs (.int 0) m).1 = .ok (.int 0) := by
  induction cs generalizing m with
  | nil => rfl
  | cons c cs ih =>
    rw [sumCellsS]
    simp only
    have h1 : (m.read (f c).1 (f c).2).1 = .int 0 := h c (by simp)
    rw [h1]
    refine ih _ (fun x hx => ?_)
    rw [cell_read]
    exact h x (by simp [hx])

theorem classRatioS_off (o : ClassOrder κ) (site : List ℕ) (f : κ → κ × κ) (m : CM κ) (c : κ)
    (h : ∀ x, cell m (f x).1 (f x).2 = .int 0) (hc : cell m c c = .int 0) :
    (classRatioS o site f m c false).1 = .ok (.value (.dec 0)) := by
  have h1 := sumCellsS_off f (o.order site m.classes.1) m.classes.2
    (fun x _ => by rw [cell_classes]; exact h x)
  have h2 := (sumCellsS_later f (o.order site m.classes.1) (.int 0) m.classes.2).cells c c
  rw [cell_classes, hc] at h2
  rw [classRatioS]
  simp only
  rcases h3 : sumCellsS f (o.order site m.classes.1) (.int 0) m.classes.2 with ⟨r, m2⟩
  rw [h3] at h1 h2
  cases h1
  have h4 : (m2.read c c).1 = .int 0 := h2
  simp only
  rw [h4]
  rfl

theorem cell_of_not_inUse {m : CM κ} {c : κ} (h : ¬ InUse m c) (a : κ) :
    cell m c a = .int 0 ∧ cell m a c = .int 0 := by
  constructor
  · by_contra h0; exact h (cell_inUse h0).1
  · by_contra h0; exact h (cell_inUse h0).2

theorem runS_off (o : ClassOrder κ) (site : List ℕ) (q : Query κ) (m : CM κ) (c : κ)
    (h : ¬ InUse m c) (hq : q.about = some c) : ∃ x, (q.runS o site m).1 = .ok x := by
  have hcl : ∀ p a, cell m.classes.2 p a = cell m p a := cell_classes m
  have hp : ∀ site (m' : CM κ), (∀ p a, cell m' p a = cell m p a) →
      (precisionClassS o site m' c false).1 = .ok (.value (.dec 0)) := fun site m' h' =>
    classRatioS_off o _ _ m' c (fun x => (h' _ _).trans (cell_of_not_inUse h x).1)
      ((h' _ _).trans (cell_of_not_inUse h c).1)
  have hr : ∀ site (m' : CM κ), (∀ p a, cell m' p a = cell m p a) →
      (recallClassS o site m' c false).1 = .ok (.value (.dec 0)) := fun site m' h' =>
    classRatioS_off o _ _ m' c (fun x => (h' _ _).trans (cell_of_not_inUse h x).2)
      ((h' _ _).trans (cell_of_not_inUse h c).1)
  have key : ∀ (fS : ClassFnS κ) (v : Average),
      (∃ x, (fS (0 :: site) m.classes.2 c false).1 = .ok (.value x)) →
      ∃ x, (valueMicroMacroS o fS site (some c) v m).1 = .ok x := by
    rintro fS v ⟨x, hx⟩
    rw [valueMicroMacroS]
    simp only
    rcases h3 : fS (0 :: site) m.classes.2 c false with ⟨r, m2⟩
    rw [h3] at hx
    cases hx
    exact ⟨x, rfl⟩
  cases q with
  | precision c' v => cases hq; exact key _ v ⟨_, hp _ _ hcl⟩
  | recall c' v => cases hq; exact key _ v ⟨_, hr _ _ hcl⟩
  | fmeasure c' b v =>
    cases hq
    refine key _ v ⟨.int 0, ?_⟩
    have h1 := hp (0 :: site) _ hcl
    have h2 : ∀ p a, cell (precisionClassS o (0 :: site) m.classes.2 c false).2 p a =
        cell m p a := by
      intro p a
      rw [← hcl p a, precisionClassS, classRatioS]
      simp only
      have h3 := (sumCellsS_later (fun x => (c, x)) (o.order (0 :: 0 :: site) m.classes.2.classes.1)
        (.int 0) m.classes.2.classes.2).cells p a
      rw [cell_classes] at h3
      rcases h4 : sumCellsS (fun x => (c, x)) (o.order (0 :: 0 :: site) m.classes.2.classes.1)
        (.int 0) m.classes.2.classes.2 with ⟨_ | d, m2⟩ <;> rw [h4] at h3
      · exact h3
      · simp only
        rw [cell_read]; exact h3
    rw [fmeasureClassS]
    rcases h3 : precisionClassS o (0 :: site) m.classes.2 c false with ⟨r, m2⟩
    rw [h3] at h1 h2
    cases h1
    have h5 := hr (0 :: site) m2 h2
    simp only
    rcases h4 : recallClassS o (0 :: site) m2 c false with ⟨r, m3⟩
    rw [h4] at h5
    cases h5
    simp [fFromRatios, PyNum.val]

/-- The labels after a query, also one that raised. -/
theorem runS_labels (o : ClassOrder κ) (site : List ℕ) (q : Query κ) (m : CM κ) (hs : Sound m)
    (l : κ) : HasLabel (q.runS o site m).2 l ↔ HasLabel m l ∨ q.about = some l := by
  have hk := runS_later o site q m hs
  constructor
  · exact hk.only l
  · rintro (h | h)
    · exact hk.more l h
    · by_cases hl : HasLabel m l
      · exact hk.more l hl
      · obtain ⟨x, hx⟩ := runS_off o site q m l (fun h0 => hl (inUse_hasLabel h0)) h
        have h1 : q.run o site m = .ok (x, (q.runS o site m).2) := by
          rw [← runS_forget]
          rcases h3 : q.runS o site m with ⟨r, m2⟩
          rw [h3] at hx
          cases hx
          rfl
        exact query_adds o site q m h1 h

/-! ## Histories in which operations may raise -/

theorem incrS_after (m : CM κ) (p a : κ) (v : PyNum) :
    (∃ new, (cell m p a).add v = .ok new ∧ (m.incrS p a v).2 = (m.read p a).2.write p a new) ∨
    ((∃ e, (cell m p a).add v = .error e) ∧ (m.incrS p a v).2 = (m.read p a).2) := by
  unfold CM.incrS cell
  simp only
  cases (m.read p a).1.add v with
  | error e => exact .inr ⟨⟨e, rfl⟩, rfl⟩
  | ok new => exact .inl ⟨new, rfl, rfl⟩

theorem after_ok (o : ClassOrder κ) (site : List ℕ) (op : MOp κ) (m : CM κ) (hs : Sound m) :
    Sound (op.after o site m) ∧ (∀ p a, cell (op.after o site m) p a = effect (cell m) op p a) ∧
    (∀ l, HasLabel (op.after o site m) l ↔ HasLabel m l ∨ op.names l) ∧
    ((∀ p, op ≠ .look p) → Fresh m → Fresh (op.after o site m)) ∧
    (Reachable m → Reachable (op.after o site m)) := by
  have reach : ∀ (op' : MOp κ) (m' : CM κ), (∀ o site, op'.run o site m = .ok m') →
      Reachable m → Reachable m' := by
    rintro op' m' h ⟨o', k, ops, h1⟩
    refine ⟨o', k, ops ++ [op'], ?_⟩
    rw [history_join o' k _ m ops _ h1, history, h]
    rfl
  cases op with
  | look p =>
    exact ⟨sound_touch hs p, cell_touch m p, hasLabel_touch m p, fun h => absurd rfl (h p),
      reach (.look p) _ (fun _ _ => rfl)⟩
  | read p a =>
    exact ⟨(same_read m p a).sound hs, cell_read m p a, hasLabel_read m p a,
      fun _ => (same_read m p a).fresh, reach (.read p a) _ (fun _ _ => rfl)⟩
  | write p a v =>
    exact ⟨fun h => absurd h (by simp [MOp.after, write_dirty]), cell_write m p a v,
      hasLabel_write m p a v, fun _ _ h => absurd h (by simp [MOp.after, write_dirty]),
      reach (.write p a v) _ (fun _ _ => rfl)⟩
  | incr p a v =>
    simp only [MOp.after]
    rcases incrS_after m p a v with ⟨new, h1, h2⟩ | ⟨⟨e, h1⟩, h2⟩ <;> rw [h2]
    · refine ⟨fun h => absurd h (by simp [write_dirty]), ?_, ?_,
        fun _ _ h => absurd h (by simp [write_dirty]), ?_⟩
      · intro p' a'
        rw [cell_write, cell_read]
        simp only [effect, h1]
      · intro l
        rw [hasLabel_write, hasLabel_read]
        simp only [MOp.names]
        tauto
      · refine reach (.incr p a v) _ (fun _ _ => ?_)
        show m.incr p a v = _
        unfold CM.incr
        simp only
        have h3 : (m.read p a).1.add v = .ok new := h1
        rw [h3]
    · refine ⟨(same_read m p a).sound hs, ?_, hasLabel_read m p a,
        fun _ => (same_read m p a).fresh, reach (.read p a) _ (fun _ _ => rfl)⟩
      intro p' a'
      rw [cell_read]
      simp only [effect, h1]
      split
      · rename_i h3; rw [h3.1, h3.2]
      · rfl
  | classes =>
    refine ⟨(later_classes m).sound hs, cell_classes m, ?_, fun _ => (later_classes m).fresh,
      reach .classes _ (fun _ _ => rfl)⟩
    intro l
    simp only [MOp.names, or_false]
    exact ⟨fun h => ((later_classes m).only l h).elim id (fun h => h.elim), (later_classes m).more l⟩
  | ask q =>
    have h := runS_later o site q m hs
    exact ⟨h.sound hs, h.cells, runS_labels o site q m hs, fun _ => h.fresh, reachable_later h⟩

theorem lived_ok (o : ClassOrder κ) (k : ℕ) (ops : List (MOp κ)) (m : CM κ) (hs : Sound m) :
    Sound (lived o k m ops) ∧
    (∀ p a, cell (lived o k m ops) p a = ops.foldl effect (cell m) p a) ∧
    (∀ l, HasLabel (lived o k m ops) l ↔ HasLabel m l ∨ ∃ op ∈ ops, op.names l) ∧
    ((∀ p, .look p ∉ ops) → Fresh m → Fresh (lived o k m ops)) ∧
    (Reachable m → Reachable (lived o k m ops)) := by
  induction ops generalizing k m with
  | nil => exact ⟨hs, fun _ _ => rfl, by simp [lived], fun _ h => h, id⟩
  | cons op ops ih =>
    obtain ⟨a1, a2, a3, a4, a5⟩ := after_ok o [k] op m hs
    obtain ⟨b1, b2, b3, b4, b5⟩ := ih (k + 1) (op.after o [k] m) a1
    refine ⟨b1, ?_, ?_, ?_, fun h => b5 (a5 h)⟩
    · intro p a
      rw [lived, b2, List.foldl_cons, show cell (op.after o [k] m) = effect (cell m) op from
        funext fun p => funext fun a => a2 p a]
    · intro l
      rw [lived, b3, a3]
      simp only [List.mem_cons, exists_eq_or_imp, or_assoc]
    · intro h hf
      exact b4 (fun p hp => h p (by simp [hp])) (a4 (fun p hp => h p (by simp [hp])) hf)

/-- What a sequence of queries leaves, whether they raised or not. -/
theorem lived_asks (o : ClassOrder κ) (k : ℕ) (qs : List (Query κ)) (m : CM κ) (hs : Sound m) :
    Later m (lived o k m (qs.map .ask)) (fun l => ∃ q ∈ qs, q.about = some l) := by
  induction qs generalizing k m with
  | nil => exact later_refl _ _
  | cons q qs ih =>
    have h := runS_later o [k] q m hs
    rw [List.map_cons, lived]
    refine later_mono (later_trans h (ih (k + 1) _ (h.sound hs))) (fun l hl => .inr ?_)
    rcases hl with hl | ⟨q', hq, hl⟩
    · exact ⟨q, by simp, hl⟩
    · exact ⟨q', by simp [hq], hl⟩

end SegEval
