import Verif.Lemmas.Joined
import Verif.Props.Symmetries

/-!
# C115: documents scored one by one and joined
-/

namespace SegEval.Props

open SegEval Spec

/-- C115: to join documents is to join their masses. -/
theorem C115_masses (t t₁ t₂ : Bool) (l₁ l₂ : List Obj) (p₁ p₂ : List Bool)
    (h₁ : Means .mass (.ints t₁ l₁) p₁) (h₂ : Means .mass (.ints t₂ l₂) p₂) :
    Means .mass (.ints t (l₁ ++ l₂)) (joined p₁ p₂) := by
  obtain ⟨n₁, q₁, rfl⟩ := (massMeans_iff _ _).1 h₁
  obtain ⟨n₂, q₂, rfl⟩ := (massMeans_iff _ _).1 h₂
  show MassMeans ((l₁ ++ l₂).map Obj.val) _
  rw [massMeans_iff, List.map_append, massPat_joined _ _ n₁ n₂]
  refine ⟨by simp [n₁], fun m hm => ?_, rfl⟩
  rcases List.mem_append.1 hm with h | h
  · exact q₁ m h
  · exact q₂ m h

/-- C115: or their NLTK strings, with a boundary between them. -/
theorem C115_strings (s₁ s₂ : List Char) (p₁ p₂ : List Bool) (h₁ : Means .nltk (.str s₁) p₁)
    (h₂ : Means .nltk (.str s₂) p₂) : Means .nltk (.str (s₁ ++ '1' :: s₂)) (joined p₁ p₂) := by
  obtain ⟨a₁, b₁⟩ := h₁
  obtain ⟨a₂, b₂⟩ := h₂
  refine ⟨by simp [joined, a₁, a₂], fun i => ?_⟩
  rw [joined]
  rcases Nat.lt_trichotomy i p₁.length with h | h | h
  · rw [List.getElem?_append_left h, List.getElem?_append_left (by omega)]
    exact b₁ i
  · subst h
    rw [List.getElem?_append_right (le_refl _), List.getElem?_append_right (by omega), a₁]
    simp
  · obtain ⟨j, rfl⟩ := Nat.exists_eq_add_of_lt h
    rw [List.getElem?_append_right (by omega), List.getElem?_append_right (by omega), a₁,
      show p₁.length + j + 1 - p₁.length = j + 1 by omega]
    simpa using b₂ j

theorem windows_cast {n k : ℕ} (h : k ≤ n) : ((windows n k : ℕ) : ℚ) = n - k := by
  rw [windows, Nat.cast_sub h]

section
variable (kw : WinKw) (h h₁ h₂ r r₁ r₂ : Seg)
  (ph₁ ph₂ pr₁ pr₂ : List Bool) (k : ℕ)

/-- C115: the probes over the end of a document are never in error.  With a fixed window the Pk of two
joined documents, times its number of probes, is the sum of the same over the two. -/
theorem C115_pk (hf : WindowFormat kw.boundaryFormat)
    (hk : kw.windowSize = some (k : ℤ)) (hrp : kw.returnParts = false)
    (hom : kw.oneMinus = false)
    (hh : Means kw.boundaryFormat h (joined ph₁ ph₂)) (hr : Means kw.boundaryFormat r (joined pr₁ pr₂))
    (hh₁ : Means kw.boundaryFormat h₁ ph₁) (hr₁ : Means kw.boundaryFormat r₁ pr₁)
    (hh₂ : Means kw.boundaryFormat h₂ ph₂) (hr₂ : Means kw.boundaryFormat r₂ pr₂)
    (uh : Unrepeated kw.boundaryFormat h) (ur : Unrepeated kw.boundaryFormat r)
    (uh₁ : Unrepeated kw.boundaryFormat h₁) (ur₁ : Unrepeated kw.boundaryFormat r₁)
    (uh₂ : Unrepeated kw.boundaryFormat h₂) (ur₂ : Unrepeated kw.boundaryFormat r₂)
    (hl₁ : ph₁.length = pr₁.length) (hl₂ : ph₂.length = pr₂.length)
    (k₁ : k ≤ pr₁.length + 1) (k₂ : k ≤ pr₂.length + 1) (x x₁ x₂ : ℚ)
    (hx : Returns (pk kw h r) x) (hx₁ : Returns (pk kw h₁ r₁) x₁) (hx₂ : Returns (pk kw h₂ r₂) x₂) :
    x * ((pr₁.length + 1) + (pr₂.length + 1) - k) =
      x₁ * (pr₁.length + 1 - k) + x₂ * (pr₂.length + 1 - k) := by
  have hw : ∀ pr, UsesWindow kw pr k := fun pr => by unfold UsesWindow; rw [hk]
  have hl : (joined ph₁ ph₂).length = (joined pr₁ pr₂).length := by simp [joined, hl₁, hl₂]
  rw [returns_unique hx (C60_pk_formula kw hf h r _ _ hh hr uh ur hl k (hw _) hrp hom),
    returns_unique hx₁ (C60_pk_formula kw hf h₁ r₁ _ _ hh₁ hr₁ uh₁ ur₁ hl₁ k (hw _) hrp hom),
    returns_unique hx₂ (C60_pk_formula kw hf h₂ r₂ _ _ hh₂ hr₂ uh₂ ur₂ hl₂ k (hw _) hrp hom),
    pkErrors_joined hl₁]
  have hn : (joined pr₁ pr₂).length + 1 = (pr₁.length + 1) + (pr₂.length + 1) := by
    simp only [joined, List.length_append, List.length_cons]; omega
  have z : ∀ p q : List Bool, k ≤ q.length + 1 → ((pkErrors p q k).card : ℚ) /
      (windows (q.length + 1) k : ℕ) * (q.length + 1 - k) = (pkErrors p q k).card := by
    intro p q hq
    have e := windows_cast hq
    push_cast at e
    rw [← e]
    rcases Nat.eq_zero_or_pos (windows (q.length + 1) k) with h0 | h0
    · have : (pkErrors p q k).card = 0 := by
        unfold pkErrors; rw [h0]; simp
      simp [this]
    · exact div_mul_cancel₀ _ (by exact_mod_cast h0.ne')
  rw [z _ _ k₁, z _ _ k₂, hn]
  have e := windows_cast (n := (pr₁.length + 1) + (pr₂.length + 1)) (k := k) (by omega)
  push_cast at e
  rw [← e]
  rcases Nat.eq_zero_or_pos (windows ((pr₁.length + 1) + (pr₂.length + 1)) k) with h0 | h0
  · unfold windows at h0
    have z1 : (pkErrors ph₁ pr₁ k).card = 0 := by
      unfold pkErrors windows; rw [show pr₁.length + 1 - k = 0 by omega]; simp
    have z2 : (pkErrors ph₂ pr₂ k).card = 0 := by
      unfold pkErrors windows; rw [show pr₂.length + 1 - k = 0 by omega]; simp
    simp [z1, z2]
  · rw [div_mul_cancel₀ _ (by exact_mod_cast h0.ne')]
    push_cast; ring

/-- C115: WindowDiff gains between none and `k` windows in error. -/
theorem C115_window_diff (hf : WindowFormat kw.boundaryFormat)
    (hk : kw.windowSize = some (k : ℤ)) (hrp : kw.returnParts = false)
    (hom : kw.oneMinus = false) (hfix : kw.lamprierFix = false)
    (hh : Means kw.boundaryFormat h (joined ph₁ ph₂)) (hr : Means kw.boundaryFormat r (joined pr₁ pr₂))
    (hh₁ : Means kw.boundaryFormat h₁ ph₁) (hr₁ : Means kw.boundaryFormat r₁ pr₁)
    (hh₂ : Means kw.boundaryFormat h₂ ph₂) (hr₂ : Means kw.boundaryFormat r₂ pr₂)
    (uh : Neighbours kw.boundaryFormat h) (ur : Neighbours kw.boundaryFormat r)
    (uh₁ : Neighbours kw.boundaryFormat h₁) (ur₁ : Neighbours kw.boundaryFormat r₁)
    (uh₂ : Neighbours kw.boundaryFormat h₂) (ur₂ : Neighbours kw.boundaryFormat r₂)
    (hl₁ : ph₁.length = pr₁.length) (hl₂ : ph₂.length = pr₂.length)
    (k₁ : k < pr₁.length + 1) (k₂ : k < pr₂.length + 1) (x x₁ x₂ : ℚ)
    (hx : Returns (windowDiff kw h r) x) (hx₁ : Returns (windowDiff kw h₁ r₁) x₁)
    (hx₂ : Returns (windowDiff kw h₂ r₂) x₂) :
    x₁ * (pr₁.length + 1 - k) + x₂ * (pr₂.length + 1 - k) ≤
      x * ((pr₁.length + 1) + (pr₂.length + 1) - k) ∧
    x * ((pr₁.length + 1) + (pr₂.length + 1) - k) ≤
      x₁ * (pr₁.length + 1 - k) + x₂ * (pr₂.length + 1 - k) + k := by
  have hw : ∀ pr, UsesWindow kw pr k := fun pr => by unfold UsesWindow; rw [hk]
  have hl : (joined ph₁ ph₂).length = (joined pr₁ pr₂).length := by simp [joined, hl₁, hl₂]
  have hn : (joined pr₁ pr₂).length + 1 = (pr₁.length + 1) + (pr₂.length + 1) := by
    simp only [joined, List.length_append, List.length_cons]; omega
  rw [((C61_returns_iff kw hf h r _ _ hh hr uh ur hl k (hw _) (by omega) hfix hrp hom x).1 hx).2,
    ((C61_returns_iff kw hf h₁ r₁ _ _ hh₁ hr₁ uh₁ ur₁ hl₁ k (hw _) k₁ hfix hrp hom x₁).1 hx₁).2,
    ((C61_returns_iff kw hf h₂ r₂ _ _ hh₂ hr₂ uh₂ ur₂ hl₂ k (hw _) k₂ hfix hrp hom x₂).1 hx₂).2, hn]
  have e := windows_cast (n := (pr₁.length + 1) + (pr₂.length + 1)) (k := k) (by omega)
  have e₁ := windows_cast k₁.le
  have e₂ := windows_cast k₂.le
  push_cast at e e₁ e₂
  rw [← e, ← e₁, ← e₂]
  have w : windows ((pr₁.length + 1) + (pr₂.length + 1)) k ≠ 0 := by unfold windows; omega
  have w₁ : windows (pr₁.length + 1) k ≠ 0 := by unfold windows; omega
  have w₂ : windows (pr₂.length + 1) k ≠ 0 := by unfold windows; omega
  rw [div_mul_cancel₀ _ (by exact_mod_cast w₁), div_mul_cancel₀ _ (by exact_mod_cast w₂),
    div_mul_cancel₀ _ (by exact_mod_cast w)]
  obtain ⟨a, b⟩ := wdErrors_joined (p₁ := ph₁) (p₂ := ph₂) (r₁ := pr₁) (r₂ := pr₂) hl₁ k
  exact ⟨by exact_mod_cast a, by exact_mod_cast b⟩

end

/-- Two documents of six units: each has two probes of four in error, and joined four of ten.  A
boundary close to the end puts one window in error alone, and two when documents are joined. -/
example : Means .mass (massSeg [2, 4]) [false, true, false, false, false] ∧
    Means .mass (massSeg [6]) [false, false, false, false, false] ∧
    Means .mass (massSeg [2, 4, 6]) (joined [false, true, false, false, false] (List.replicate 5 false)) ∧
    Returns (pk { windowSize := some 2 } (massSeg [2, 4]) (massSeg [6])) (1 / 2) ∧
    Returns (pk { windowSize := some 2 } (massSeg [6]) (massSeg [2, 4])) (1 / 2) ∧
    Returns (pk { windowSize := some 2 } (massSeg [2, 4, 6]) (massSeg [6, 2, 4])) (4 / 10) ∧
    Returns (windowDiff { windowSize := some 2 } (massSeg [5, 1]) (massSeg [6])) (1 / 4) ∧
    Returns (windowDiff { windowSize := some 2 } (massSeg [6]) (massSeg [6])) 0 ∧
    Returns (windowDiff { windowSize := some 2 } (massSeg [5, 1, 6]) (massSeg [6, 6])) (2 / 10) :=
  ⟨(massMeans_iff _ _).2 ⟨by decide, by decide, by decide⟩,
    (massMeans_iff _ _).2 ⟨by decide, by decide, by decide⟩,
    (massMeans_iff _ _).2 ⟨by decide, by decide, by decide⟩,
    ⟨.dec (1 / 2), by decide +kernel, by norm_num [PyNum.val]⟩,
    ⟨.dec (1 / 2), by decide +kernel, by norm_num [PyNum.val]⟩,
    ⟨.dec (2 / 5), by decide +kernel, by norm_num [PyNum.val]⟩,
    ⟨.dec (1 / 4), by decide +kernel, by norm_num [PyNum.val]⟩,
    ⟨.dec 0, by decide +kernel, by norm_num [PyNum.val]⟩,
    ⟨.dec (1 / 5), by decide +kernel, by norm_num [PyNum.val]⟩⟩

end SegEval.Props
