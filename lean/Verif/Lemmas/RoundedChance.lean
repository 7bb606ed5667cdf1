import Verif.Lemmas.RoundedCoefficients

/-!
# Chance correction with rounding
-/

namespace SegEval

open Spec

section

variable {ρ : Rounding} {rt : Runtime} {nT : ℤ} {o : ClassOrder Name} {kw : BoundaryFormat}
  {data : AgrData} {l : List (Comparison × Job)} {p p' : AgrParts}

theorem AgrPair.job_mem (h : AgrPair ρ rt nT o kw data l p p') {t : Comparison × Job}
    (ht : t ∈ l) : t.2 ∈ jobsOf o data := by
  rw [← h.jobs]; exact List.mem_map.2 ⟨t, ht, rfl⟩

/-- A row and the strings of its comparison. -/
theorem AgrPair.row_strings (h : AgrPair ρ rt nT o kw data l p p') {t : Comparison × Job}
    (ht : t ∈ l) : ∃ a b, RowIs (agrFormat kw data) t.2
        (rowD (compareB rt nT .default) (agrFormat kw data) t.2) a b ∧
      (editCount t.1.edits = 0 ↔ a = b) ∧ ∃ mx mn, Extremes a b mx mn ∧ t.1.range = mx - mn + 1 := by
  obtain ⟨a, b, hr⟩ := h.rows t.2 (h.job_mem ht)
  obtain ⟨u, v, sa, sb, d1, d2, g1, g2, g3, g4⟩ := h.parts.strings t ht
  obtain ⟨u', v', d1', d2', g1', g2'⟩ := hr.coded
  rw [d1] at d1'; cases d1'
  rw [d2] at d2'; cases d2'
  rw [g1] at g1'; cases g1'
  rw [g2] at g2'; cases g2'
  exact ⟨_, _, hr, g3, g4⟩

theorem AgrPair.complete_iff (h : AgrPair ρ rt nT o kw data l p p') (hd : IsDict data.items)
    (hc : CodersMatch data) (hv : AllValid (agrFormat kw data) data.items) :
    (∀ t ∈ l, editCount t.1.edits = 0) ↔ CompleteAgreement (agrFormat kw data) data.items := by
  rw [← SegEval.complete_iff hd hc hv h.rows]
  constructor
  · intro h0 j hj a b hab
    rw [← h.jobs] at hj
    obtain ⟨t, ht, rfl⟩ := List.mem_map.1 hj
    obtain ⟨a', b', hr, h1, -⟩ := h.row_strings ht
    obtain ⟨u, v, d1, d2, g1, g2⟩ := hab.coded
    obtain ⟨u', v', d1', d2', g1', g2'⟩ := hr.coded
    rw [d1] at d1'; cases d1'
    rw [d2] at d2'; cases d2'
    rw [g1] at g1'; cases g1'
    rw [g2] at g2'; cases g2'
    exact h1.1 (h0 t ht)
  · intro h0 t ht
    obtain ⟨a, b, hr, h1, -⟩ := h.row_strings ht
    exact h1.2 (h0 _ (h.job_mem ht) a b hr)

theorem AgrPair.range_le (h : AgrPair ρ rt nT o kw data l p p') (hd : IsDict data.items)
    (hc : CodersMatch data) (hv : AllValid (agrFormat kw data) data.items) {M : ℤ}
    (hM : TypesWithin (agrFormat kw data) data.items M) : ∀ t ∈ l, t.1.range ≤ M := by
  intro t ht
  obtain ⟨a, b, hr, -, mx, mn, hx, e⟩ := h.row_strings ht
  have := (pairs_iff hd hc hv h.rows (fun a b => ∀ t t', UsesType a b t → UsesType a b t' →
    t - t' < M) (fun a b _ hq t t' ht ht' => hq t t'
      (by obtain ⟨q, hq⟩ := ht; exact ⟨q, hq.symm⟩) (by obtain ⟨q, hq⟩ := ht'; exact ⟨q, hq.symm⟩))).2
    hM t.2 (h.job_mem ht) a b hr mx mn hx.usedMax hx.usedMin
  omega

end

/-! ## Chance correction -/

/-- Actual and expected agreement, exact and rounded, for data of moderate size. -/
structure ChanceFacts (complete : Prop) (aa aa' ae ae' : ℚ) : Prop where
  aa_unit : 0 ≤ aa ∧ aa ≤ 1
  aa'_unit : 0 ≤ aa' ∧ aa' ≤ 1
  aa_close : |aa' - aa| ≤ 1 / 10 ^ 20
  aa_one : complete → aa = 1 ∧ aa' = 1
  aa_gap : ¬complete → aa ≤ 1 - 1 / 10 ^ 12
  ae_unit : 0 ≤ ae ∧ ae ≤ 1
  ae'_unit : 0 ≤ ae' ∧ ae' ≤ 1
  ae_close : |ae' - ae| ≤ 1 / 10 ^ 20
  ae_cases : (ae = 1 ∧ ae' = 1) ∨ ae ≤ 1 - 1 / (2 * 10 ^ 12)

theorem accurate_zero_iff {r : ℚ → ℚ} {eps : ℚ} (ha : Accurate r eps) (he : eps < 1) (q : ℚ) :
    r q = 0 ↔ q = 0 := by
  constructor
  · intro h
    have := ha q
    rw [h, zero_sub, abs_neg] at this
    by_contra hq
    have hp := abs_pos.2 hq
    nlinarith
  · rintro rfl
    have := ha 0
    simpa using this

namespace ChanceFacts

variable {C : Prop} {aa aa' ae ae' : ℚ}

theorem aa'_lt (h : ChanceFacts C aa aa' ae ae') (hC : ¬C) : aa' ≤ 1 - 9 / 10 ^ 13 := by
  have h1 := h.aa_gap hC
  have h2 := (abs_le.1 h.aa_close).2
  norm_num at h1 h2 ⊢
  linarith

theorem ae'_lt (h : ChanceFacts C aa aa' ae ae') (h1 : ae ≤ 1 - 1 / (2 * 10 ^ 12)) :
    ae' ≤ 1 - 4 / 10 ^ 13 := by
  have h2 := (abs_le.1 h.ae_close).2
  norm_num at h1 h2 ⊢
  linarith

theorem aa_iff (h : ChanceFacts C aa aa' ae ae') : (aa = 1 ↔ C) ∧ (aa' = 1 ↔ C) := by
  refine ⟨⟨fun h1 => ?_, fun hC => (h.aa_one hC).1⟩, ⟨fun h1 => ?_, fun hC => (h.aa_one hC).2⟩⟩
  · by_contra hC
    have := h.aa_gap hC
    rw [h1] at this
    norm_num at this
  · by_contra hC
    have := h.aa'_lt hC
    rw [h1] at this
    norm_num at this

theorem ae_iff (h : ChanceFacts C aa aa' ae ae') : ae = 1 ↔ ae' = 1 := by
  rcases h.ae_cases with ⟨h1, h2⟩ | h1
  · simp [h1, h2]
  · have h2 := h.ae'_lt h1
    constructor
    · rintro rfl; norm_num at h1
    · rintro rfl; norm_num at h2

/-- The same calls raise the same exceptions. -/
theorem same_errors (h : ChanceFacts C aa aa' ae ae') (rp : Bool) (e : PyErr) :
    finishAgreementR .exact rp (.dec aa) (.dec ae) = .error e ↔
      finishAgreementR .cpython rp (.dec aa') (.dec ae') = .error e := by
  rw [finishAgreementR_eq, finishAgreementR_eq]
  have hz := accurate_zero_iff cpython_accurate (by norm_num)
  have e1 : Rounding.exact.dec (1 - ae) = 0 ↔ ae = 1 := by
    change 1 - ae = 0 ↔ _
    rw [sub_eq_zero, eq_comm]
  have e2 : Rounding.cpython.dec (1 - ae') = 0 ↔ ae = 1 := by
    rw [hz, sub_eq_zero, eq_comm, h.ae_iff]
  by_cases h1 : ae = 1
  · rw [if_pos (e1.2 h1), if_pos (e2.2 h1)]
    have h2 := h.ae_iff.1 h1
    have e3 : Rounding.exact.dec (aa - ae) = 0 ↔ C := by
      change aa - ae = 0 ↔ _
      rw [sub_eq_zero, h1, h.aa_iff.1]
    have e4 : Rounding.cpython.dec (aa' - ae') = 0 ↔ C := by
      rw [hz, sub_eq_zero, h2, h.aa_iff.2]
    by_cases hC : C
    · rw [if_pos (e3.2 hC), if_pos (e4.2 hC)]
    · rw [if_neg (fun h0 => hC (e3.1 h0)), if_neg (fun h0 => hC (e4.1 h0))]
  · rw [if_neg (fun h0 => h1 (e1.1 h0)), if_neg (fun h0 => h1 (e2.1 h0))]
    simp

theorem ok_iff (h : ChanceFacts C aa aa' ae ae') (rp : Bool) (out : AgrOut) :
    finishAgreementR .cpython rp (.dec aa') (.dec ae') = .ok out ↔
      ae ≤ 1 - 1 / (2 * 10 ^ 12) ∧ out = if rp then .parts (.dec aa') (.dec ae')
        else .value (.dec (Rounding.cpython.dec (Rounding.cpython.dec (aa' - ae') /
          Rounding.cpython.dec (1 - ae')))) := by
  have hz := accurate_zero_iff cpython_accurate (by norm_num)
  have e2 : Rounding.cpython.dec (1 - ae') = 0 ↔ ae = 1 := by
    rw [hz, sub_eq_zero, eq_comm, h.ae_iff]
  rw [finishAgreementR_eq]
  rcases h.ae_cases with ⟨h1, h2⟩ | h1
  · rw [if_pos (e2.2 h1)]
    constructor
    · intro h0; cases h0
    · rintro ⟨h0, -⟩; rw [h1] at h0; norm_num at h0
  · have hne : ae ≠ 1 := by rintro rfl; norm_num at h1
    rw [if_neg (fun h0 => hne (e2.1 h0))]
    rw [Except.ok.injEq, eq_comm]
    exact ⟨fun h0 => ⟨h1, h0⟩, fun h0 => h0.2⟩

theorem value_one_iff (h : ChanceFacts C aa aa' ae ae') (h1 : ae ≤ 1 - 1 / (2 * 10 ^ 12)) :
    Rounding.cpython.dec (Rounding.cpython.dec (aa' - ae') / Rounding.cpython.dec (1 - ae')) = 1 ↔
      C := by
  have hf := cpython_faithful
  have ha := cpython_accurate
  have hone : Rounding.cpython.dec 1 = 1 := hf.one (by norm_num)
  have hg' : 4 / 10 ^ 13 ≤ 1 - ae' := by have := h.ae'_lt h1; linarith
  have hpos : 0 < 1 - ae' := lt_of_lt_of_le (by norm_num) hg'
  set r := Rounding.cpython.dec
  have hy := ha (1 - ae')
  rw [abs_of_pos hpos] at hy
  have hy1 : (1 - ae') * (1 - 1 / (2 * 10 ^ 27)) ≤ r (1 - ae') := by
    have := (abs_le.1 hy).1
    linarith
  have hypos : 0 < r (1 - ae') := lt_of_lt_of_le (by positivity) hy1
  constructor
  · intro hv
    by_contra hC
    have hlt := h.aa'_lt hC
    by_cases hs : aa' - ae' ≤ 0
    · have h2 : r (aa' - ae') ≤ 0 := by rw [← hf.zero]; exact hf.mono hs
      have h3 : r (aa' - ae') / r (1 - ae') ≤ 0 := div_nonpos_of_nonpos_of_nonneg h2 hypos.le
      have h4 := hf.mono h3
      rw [hf.zero] at h4
      change r _ ≤ 0 at h4
      rw [hv] at h4
      norm_num at h4
    · push Not at hs
      have hx := ha (aa' - ae')
      rw [abs_of_pos hs] at hx
      have hx1 : r (aa' - ae') ≤ (aa' - ae') * (1 + 1 / (2 * 10 ^ 27)) := by
        have := (abs_le.1 hx).2
        linarith
      have hx0 : 0 ≤ r (aa' - ae') := hf.nonneg hs.le
      have hq := ha (r (aa' - ae') / r (1 - ae'))
      rw [abs_of_nonneg (div_nonneg hx0 hypos.le)] at hq
      have hq1 := (abs_le.1 hq).2
      change r _ - _ ≤ _ at hq1
      rw [hv] at hq1
      have hq2 : (1 - 1 / 10 ^ 27 : ℚ) ≤ r (aa' - ae') / r (1 - ae') := by
        norm_num at hq1 ⊢
        linarith
      rw [le_div_iff₀ hypos] at hq2
      have h5 : (aa' - ae') ≤ (1 - ae') * (1 - 9 / 10 ^ 13) := by
        have := h.ae'_unit.1
        have := h.ae'_unit.2
        nlinarith
      have h6 : (1 - 1 / 10 ^ 27 : ℚ) * ((1 - ae') * (1 - 1 / (2 * 10 ^ 27))) ≤
          ((1 - ae') * (1 - 9 / 10 ^ 13)) * (1 + 1 / (2 * 10 ^ 27)) := by
        refine le_trans (mul_le_mul_of_nonneg_left hy1 (by norm_num)) (le_trans hq2 (le_trans hx1 ?_))
        exact mul_le_mul_of_nonneg_right h5 (by norm_num)
      have h7 : 0 ≤ (1 - ae') * ((1 - 9 / 10 ^ 13) * (1 + 1 / (2 * 10 ^ 27)) -
          (1 - 1 / 10 ^ 27) * (1 - 1 / (2 * 10 ^ 27))) := by linarith
      have h8 := nonneg_of_mul_nonneg_right h7 hpos
      norm_num at h8
  · intro hC
    rw [(h.aa_one hC).2, div_self hypos.ne']
    exact hone

theorem value_le (h : ChanceFacts C aa aa' ae ae') (h1 : ae ≤ 1 - 1 / (2 * 10 ^ 12)) :
    Rounding.cpython.dec (Rounding.cpython.dec (aa' - ae') / Rounding.cpython.dec (1 - ae')) ≤ 1 := by
  have hf := cpython_faithful
  have ha := cpython_accurate
  have hg' : 4 / 10 ^ 13 ≤ 1 - ae' := by have := h.ae'_lt h1; linarith
  have hpos : 0 < 1 - ae' := lt_of_lt_of_le (by norm_num) hg'
  have hnn : 0 ≤ Rounding.cpython.dec (1 - ae') := hf.nonneg hpos.le
  have hle := hf.mono (show aa' - ae' ≤ 1 - ae' by have := h.aa'_unit.2; linarith)
  have := hf.mono (div_le_one_of_le₀ hle hnn)
  rwa [hf.one (by norm_num)] at this

theorem value_close (h : ChanceFacts C aa aa' ae ae') (h1 : ae ≤ 1 - 1 / (2 * 10 ^ 12)) :
    |Rounding.cpython.dec (Rounding.cpython.dec (aa' - ae') / Rounding.cpython.dec (1 - ae')) -
      (aa - ae) / (1 - ae)| * (1 - ae) ^ 2 ≤ 2 / 10 ^ 19 := by
  have ha := cpython_accurate
  have hg : 1 / (2 * 10 ^ 12) ≤ 1 - ae := by linarith
  have hgp : 0 < 1 - ae := lt_of_lt_of_le (by norm_num) hg
  have hae := h.ae_close
  have haa := h.aa_close
  set g := 1 - ae with hgd
  set g' := 1 - ae' with hgd'
  have hgg : |g' - g| ≤ 1 / 10 ^ 20 := by
    rw [hgd, hgd', show 1 - ae' - (1 - ae) = -(ae' - ae) by ring, abs_neg]; exact hae
  have hg1 : g ≤ 1 := by have := h.ae_unit.1; linarith
  have hg'1 : g' ≤ 1 := by have := h.ae'_unit.1; linarith
  have hg' : g / 2 ≤ g' := by
    have := (abs_le.1 hgg).1
    have h2 : (1 : ℚ) / 10 ^ 20 ≤ (1 / (2 * 10 ^ 12)) / 2 := by norm_num
    linarith
  have hg'p : 0 < g' := by linarith
  set x := aa' - ae' with hx
  set G := Rounding.cpython.dec g' with hG
  set X := Rounding.cpython.dec x with hX
  have eG := ha g'
  have eX := ha x
  rw [abs_of_pos hg'p] at eG
  rw [← hG] at eG
  rw [← hX] at eX
  have hx1 : |x| ≤ 1 := by
    rw [abs_le]
    have := h.aa'_unit; have := h.ae'_unit
    constructor <;> linarith
  set v := (aa - ae) / g with hv
  have hvg : v * g = aa - ae := by rw [hv, div_mul_cancel₀ _ hgp.ne']
  have hvg1 : |v| * g ≤ 1 := by
    rw [← abs_of_pos hgp, ← abs_mul, hvg, abs_le]
    have := h.aa_unit; have := h.ae_unit
    constructor <;> linarith
  have hxd : |x - (aa - ae)| ≤ 2 / 10 ^ 20 := by
    rw [abs_le] at haa hae ⊢
    constructor <;> linarith
  have hG3 : g / 3 ≤ G := by
    have := (abs_le.1 eG).1
    have : (1 / (2 * 10 ^ 27) : ℚ) * g' ≤ g' / 3 := by
      rw [div_eq_mul_one_div g' 3, mul_comm]
      exact mul_le_mul_of_nonneg_left (by norm_num) hg'p.le
    linarith
  have hGp : 0 < G := by linarith
  have hGg : |G - g| ≤ 1 / 10 ^ 20 + 1 / (2 * 10 ^ 27) := by
    have : (1 / (2 * 10 ^ 27) : ℚ) * g' ≤ 1 / (2 * 10 ^ 27) :=
      mul_le_of_le_one_right (by norm_num) hg'1
    have := abs_sub_le G g' g
    linarith
  -- the quotient
  have hXv : |X - v * G| * g ≤ 4 / 10 ^ 20 - 1 / 10 ^ 21 := by
    have h2 : |X - v * G| ≤ 1 / (2 * 10 ^ 27) + 2 / 10 ^ 20 + |v| * |G - g| := by
      rw [show X - v * G = (X - x) + (x - (aa - ae)) + -(v * (G - g)) by rw [← hvg]; ring]
      refine le_trans (abs_add_le _ _) ?_
      rw [abs_neg, abs_mul]
      have h3 := abs_add_le (X - x) (x - (aa - ae))
      have : (1 / (2 * 10 ^ 27) : ℚ) * |x| ≤ 1 / (2 * 10 ^ 27) :=
        mul_le_of_le_one_right (by norm_num) hx1
      linarith
    have h3 : |v| * |G - g| * g ≤ 1 / 10 ^ 20 + 1 / (2 * 10 ^ 27) := by
      rw [mul_right_comm]
      refine le_trans (mul_le_mul_of_nonneg_right hvg1 (abs_nonneg _)) ?_
      rw [one_mul]; exact hGg
    have h4 : (1 / (2 * 10 ^ 27) + 2 / 10 ^ 20 : ℚ) * g ≤ 1 / (2 * 10 ^ 27) + 2 / 10 ^ 20 :=
      mul_le_of_le_one_right (by norm_num) hg1
    have h5 := mul_le_mul_of_nonneg_right h2 hgp.le
    norm_num at h3 h4 h5 ⊢
    linarith
  have hQ : |X / G - v| * g ^ 2 ≤ 12 / 10 ^ 20 - 3 / 10 ^ 21 := by
    have e1 : |X / G - v| = |X - v * G| / G := by
      rw [← abs_of_pos hGp, ← abs_div, abs_of_pos hGp, sub_div, mul_div_cancel_right₀ _ hGp.ne']
    have e2 : |X / G - v| * g ≤ 3 * |X - v * G| := by
      rw [e1, div_mul_eq_mul_div, div_le_iff₀ hGp]
      have := abs_nonneg (X - v * G)
      nlinarith
    have := mul_le_mul_of_nonneg_right e2 hgp.le
    rw [pow_two, ← mul_assoc]
    linarith
  have hvv : |v| * g ^ 2 ≤ 1 := by
    rw [pow_two, ← mul_assoc]
    exact mul_le_one₀ hvg1 hgp.le hg1
  have hr := ha (X / G)
  have h2 := abs_sub_le (Rounding.cpython.dec (X / G)) (X / G) v
  have h3 : |X / G| ≤ |X / G - v| + |v| := by
    have := abs_add_le (X / G - v) v
    rwa [sub_add_cancel] at this
  have h4 : |Rounding.cpython.dec (X / G) - v| ≤
      1 / (2 * 10 ^ 27) * (|X / G - v| + |v|) + |X / G - v| := by
    have := mul_le_mul_of_nonneg_left h3 (by norm_num : (0 : ℚ) ≤ 1 / (2 * 10 ^ 27))
    linarith
  have h5 := mul_le_mul_of_nonneg_right h4 (by positivity : 0 ≤ g ^ 2)
  refine le_trans h5 ?_
  have e : (1 / (2 * 10 ^ 27) * (|X / G - v| + |v|) + |X / G - v|) * g ^ 2 =
      (1 / (2 * 10 ^ 27) + 1) * (|X / G - v| * g ^ 2) + 1 / (2 * 10 ^ 27) * (|v| * g ^ 2) := by ring
  rw [e]
  have h6 := mul_le_mul_of_nonneg_left hQ (by norm_num : (0 : ℚ) ≤ 1 / (2 * 10 ^ 27) + 1)
  have h7 := mul_le_mul_of_nonneg_left hvv (by norm_num : (0 : ℚ) ≤ 1 / (2 * 10 ^ 27))
  refine le_trans (add_le_add h6 h7) ?_
  norm_num

end ChanceFacts

/-! ## The facts for pi and kappa -/

theorem denominators_sum {ρ : Rounding} {nT : ℤ} {fmt : BoundaryFormat}
    {l : List (Comparison × Job)} {p p' : AgrParts} (h : PartsPair ρ nT fmt l p p') :
    (p.denominators.map PyNum.val).sum = (denTotal l : ℚ) := by
  rw [h.den, List.map_map]
  unfold denTotal
  push_cast
  rw [List.map_map]
  congr 1

section

variable {rt : Runtime} {nT : ℤ} {o : ClassOrder Name} {kw : BoundaryFormat}
  {data : AgrData} {l : List (Comparison × Job)} {p p' : AgrParts}

theorem small_compound {k : ℕ} (hk : (k : ℚ) ≤ 3 * 10 ^ 6) :
    (1 + 1 / (2 * 10 ^ 27) : ℚ) ^ k - 1 ≤ k / 10 ^ 27 := by
  refine le_trans (compound_le (by norm_num) k ?_) (le_of_eq (by ring))
  have := mul_le_mul_of_nonneg_right hk (by norm_num : (0 : ℚ) ≤ 1 / (2 * 10 ^ 27))
  refine le_trans this ?_
  norm_num

/-- What is shared by the two coefficients. -/
theorem chanceFacts_of (h : AgrPair .cpython rt nT o kw data l p p') (hne : l ≠ [])
    (hd : IsDict data.items) (hc : CodersMatch data)
    (hv : AllValid (agrFormat kw data) data.items) (hn : nT ≤ 10 ^ 6)
    (hM : TypesWithin (agrFormat kw data) data.items (10 ^ 6)) (hD : denTotal l ≤ 10 ^ 6)
    {ae ae' : ℚ} (h1 : 0 ≤ ae ∧ ae ≤ 1) (h2 : 0 ≤ ae' ∧ ae' ≤ 1) (h3 : |ae' - ae| ≤ 1 / 10 ^ 20)
    (h4 : (ae = 1 ∧ ae' = 1) ∨ ae ≤ 1 - 1 / (2 * 10 ^ 12)) :
    ChanceFacts (CompleteAgreement (agrFormat kw data) data.items) (aaOf id nT l)
      (aaOf Rounding.cpython.dec nT l) ae ae' := by
  have hlen : l.length ≤ 10 ^ 6 := le_trans (length_le_denTotal h.parts.good) hD
  have hlq : (l.length : ℚ) ≤ 10 ^ 6 := by exact_mod_cast hlen
  have hDq : (denTotal l : ℚ) ≤ 10 ^ 6 := by exact_mod_cast hD
  refine ⟨aaOf_bounds (Comparison.id_faithful _) h.parts.good hne le_rfl,
    aaOf_bounds cpython_faithful h.parts.good hne (le_trans hD (by norm_num)), ?_, ?_, ?_, h1, h2, h3,
    h4⟩
  · refine le_trans (aaOf_accurate cpython_accurate (by norm_num) h.parts.good hne) ?_
    refine le_trans (small_compound (by push_cast; linarith)) ?_
    push_cast
    rw [div_le_iff₀ (by norm_num)]
    norm_num
    linarith
  · intro hC
    have h0 := (h.complete_iff hd hc hv).2 hC
    exact ⟨aaOf_full (Comparison.id_faithful _) h.parts.good hne le_rfl h0,
      aaOf_full cpython_faithful h.parts.good hne (le_trans hD (by norm_num)) h0⟩
  · intro hC
    rw [← h.complete_iff hd hc hv] at hC
    push Not at hC
    obtain ⟨t, ht, h0⟩ := hC
    refine le_trans (aaOf_gap h.parts.good hn (h.range_le hd hc hv hM) ht h0) ?_
    have hpos : (0 : ℚ) < denTotal l := by exact_mod_cast denTotal_pos h.parts.good hne
    have : (1 : ℚ) / 10 ^ 12 ≤ 1 / (((10 ^ 6 : ℤ) : ℚ) * denTotal l) := by
      refine one_div_le_one_div_of_le (by push_cast; positivity) ?_
      push_cast
      linarith
    linarith

theorem piFacts (h : AgrPair .cpython rt nT o kw data l p p') (hne : l ≠ [])
    (hd : IsDict data.items) (hc : CodersMatch data)
    (hv : AllValid (agrFormat kw data) data.items) (hn : nT ≤ 10 ^ 6)
    (hM : TypesWithin (agrFormat kw data) data.items (10 ^ 6)) (hD : denTotal l ≤ 10 ^ 6)
    (hP : p.pbs.sum ≤ 10 ^ 6) :
    ChanceFacts (CompleteAgreement (agrFormat kw data) data.items) (aaOf id nT l)
      (aaOf Rounding.cpython.dec nT l) (exactPiAe (p.codersBoundaries.flatMap Prod.snd))
      (roundedPiAe .cpython (p.codersBoundaries.flatMap Prod.snd)) := by
  have hlen : l.length ≤ 10 ^ 6 := le_trans (length_le_denTotal h.parts.good) hD
  have hlq : (l.length : ℚ) ≤ 10 ^ 6 := by exact_mod_cast hlen
  have hlpos := List.length_pos_iff.2 hne
  have hfl := h.flat_length
  have hf : p.codersBoundaries.flatMap Prod.snd ≠ [] := by
    rw [← List.length_pos_iff, hfl]; omega
  have hsmall : (p.codersBoundaries.flatMap Prod.snd).length ≤ 10 ^ 28 := by
    rw [hfl]
    exact le_trans (Nat.mul_le_mul_left 2 hlen) (by norm_num)
  refine chanceFacts_of h hne hd hc hv hn hM hD (exactPiAe_unit hf h.flat_rates)
    (roundedPiAe_unit cpython_faithful cpython_sq_faithful hf h.flat_rates hsmall) ?_ ?_
  · refine le_trans (roundedPiAe_accurate cpython_faithful cpython_accurate (by norm_num)
      cpython_sq_accurate (by norm_num) hf h.flat_rates hsmall) ?_
    rw [hfl]
    have := small_compound (k := 2 * l.length + 2) (by push_cast; linarith)
    push_cast at this
    have h2 : (2 * (l.length : ℚ) + 2) / 10 ^ 27 ≤ (2 * 10 ^ 6 + 2) / 10 ^ 27 := by
      rw [div_le_div_iff_of_pos_right (by norm_num)]; linarith
    norm_num at this h2 ⊢
    linarith
  · by_cases hfull : ∀ q ∈ p.codersBoundaries.flatMap Prod.snd, q.1 = q.2
    · refine .inl ⟨?_, roundedPiAe_full cpython_faithful cpython_sq_faithful hf h.flat_rates hsmall
        hfull⟩
      rw [← roundedPiAe_exact]
      exact roundedPiAe_full (Comparison.id_faithful _) (Comparison.id_faithful _) hf h.flat_rates
        le_rfl hfull
    · right
      have := exactPiAe_gap h.flat_rates (P := (p.pbs.sum : ℚ)) (fun q hq => by
        exact_mod_cast h.flat_pbs q hq) hfull
      refine le_trans this ?_
      rw [hfl]
      have hPq : (p.pbs.sum : ℚ) ≤ 10 ^ 6 := by exact_mod_cast hP
      have hPp : (0 : ℚ) < p.pbs.sum := by
        obtain ⟨q, hq⟩ := List.exists_mem_of_ne_nil _ hf
        have h1 := h.flat_pbs q hq
        have h2 := (h.flat_rates q hq).2.2
        exact_mod_cast (by omega : 0 < p.pbs.sum)
      have hlp : (0 : ℚ) < l.length := by exact_mod_cast hlpos
      generalize p.pbs.sum = P at hPq hPp ⊢
      have : (1 : ℚ) / (2 * 10 ^ 12) ≤ 1 / (((2 * l.length : ℕ) : ℚ) * P) := by
        refine one_div_le_one_div_of_le (by push_cast; positivity) ?_
        push_cast
        have := mul_le_mul hlq hPq hPp.le (by norm_num)
        norm_num at this ⊢
        linarith
      linarith

theorem kappaFacts (h : AgrPair .cpython rt nT o kw data l p p') (hne : l ≠ [])
    (hd : IsDict data.items) (hc : CodersMatch data)
    (hv : AllValid (agrFormat kw data) data.items) (hn : nT ≤ 10 ^ 6)
    (hM : TypesWithin (agrFormat kw data) data.items (10 ^ 6)) (hD : denTotal l ≤ 10 ^ 6)
    (hP : p.pbs.sum ≤ 10 ^ 6) :
    ChanceFacts (CompleteAgreement (agrFormat kw data) data.items) (aaOf id nT l)
      (aaOf Rounding.cpython.dec nT l)
      (exactKappaAe (p.codersBoundaries.map fun e => tally e.2))
      (roundedKappaAe .cpython (p.codersBoundaries.map fun e => tally e.2)) := by
  have hlen : l.length ≤ 10 ^ 6 := le_trans (length_le_denTotal h.parts.good) hD
  obtain ⟨h2', hk⟩ := h.combos_le hne
  have h2 : 2 ≤ (p.codersBoundaries.map fun e => tally e.2).length := by simpa using h2'
  have hkn : (combinations2 (p.codersBoundaries.map fun e => tally e.2)).length ≤ 10 ^ 6 :=
    le_trans hk hlen
  have hkq : ((combinations2 (p.codersBoundaries.map fun e => tally e.2)).length : ℚ) ≤ 10 ^ 6 := by
    exact_mod_cast hkn
  have hkp := List.length_pos_iff.2 ((combinations2_ne_nil _).2 h2)
  have hr := h.tally_rates hne
  have hsmall : (combinations2 (p.codersBoundaries.map fun e => tally e.2)).length ≤ 10 ^ 28 :=
    le_trans hkn (by norm_num)
  refine chanceFacts_of h hne hd hc hv hn hM hD (exactKappaAe_unit h2 hr)
    (roundedKappaAe_unit cpython_faithful h2 hr hsmall) ?_ ?_
  · refine le_trans (roundedKappaAe_accurate cpython_accurate (by norm_num) h2 hr) ?_
    refine le_trans (small_compound (by push_cast; linarith)) ?_
    push_cast
    rw [div_le_iff₀ (by norm_num)]
    norm_num
    linarith
  · by_cases hfull : ∀ q ∈ p.codersBoundaries.map fun e => tally e.2, q.1 = q.2
    · refine .inl ⟨?_, roundedKappaAe_full cpython_faithful h2 hr hsmall hfull⟩
      rw [← roundedKappaAe_exact]
      exact roundedKappaAe_full (Comparison.id_faithful _) h2 hr le_rfl hfull
    · right
      have := exactKappaAe_gap h2 hr (P := ((2 * p.pbs.sum : ℤ) : ℚ)) (fun q hq => by
        exact_mod_cast h.tally_pbs hne q hq) hfull
      refine le_trans this ?_
      have hPq : (p.pbs.sum : ℚ) ≤ 10 ^ 6 := by exact_mod_cast hP
      have hPp : (0 : ℚ) < p.pbs.sum := by
        obtain ⟨q, hq⟩ := List.exists_mem_of_length_pos (l := p.codersBoundaries.map fun e => tally e.2)
          (by omega)
        have h1 := h.tally_pbs hne q hq
        have h2 := (hr q hq).2.2
        exact_mod_cast (by omega : 0 < p.pbs.sum)
      have hlp : (0 : ℚ) < (combinations2 (p.codersBoundaries.map fun e => tally e.2)).length := by
        exact_mod_cast hkp
      generalize p.pbs.sum = P at hPq hPp ⊢
      have : (1 : ℚ) / (2 * 10 ^ 12) ≤
          1 / ((combinations2 (p.codersBoundaries.map fun e => tally e.2)).length *
            ((2 * P : ℤ) : ℚ)) := by
        refine one_div_le_one_div_of_le (by push_cast; positivity) ?_
        push_cast
        have := mul_le_mul hkq hPq hPp.le (by norm_num)
        norm_num at this ⊢
        linarith
      linarith

end

end SegEval
