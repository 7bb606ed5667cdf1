import Verif.Props.FinerAgreement
import Verif.Props.AgreementS
import Verif.Props.Weights

/-!
# C127: annotator bias in smaller units
-/

namespace SegEval.Props

open SegEval Spec

variable {o o' : ClassOrder Name} {rt : Runtime} {nT nT' : ℤ} {kw kw' : BoundaryFormat}
  {data data' : AgrData} {S S' : Name → Name → BString} {m : ℕ}

theorem actual_of_pi {aa ae : PyNum}
    (h : fleissPi o (compareB rt nT .default) kw true data = .ok (.parts aa ae)) :
    ∃ x, actualAgreement o (compareB rt nT .default) kw data = .ok x := by
  have hn := rowsNoFlt_default rt nT (agrFormat kw data) (jobsOf o data)
  obtain ⟨-, g2, g3, -⟩ := (fleissPi_ok hn true _).1 h
  obtain ⟨x, hx⟩ := (actualOfParts_defined hn).2 g3
  exact ⟨x, (actual_ok x).2 ⟨g2, hx⟩⟩

section
variable (H : SmallerUnits kw kw' data data' S S' m) {L : ℕ}
  (hlen : ∀ l ∈ (data.items.map Prod.fst).toFinset, ∀ c ∈ getCoders data, (S l c).length = L)
  {y : PyNum} (hy : actualAgreement o (compareB rt nT .default) kw data = .ok y)
include H hlen hy

/-- In documents of one length all possible positions grow alike. -/
theorem possible_finer {l c d : Name} (hl : l ∈ (data.items.map Prod.fst).toFinset)
    (hc : c ∈ getCoders data) (hd : d ∈ (getCoders data).erase c) :
    boundaryCount (S' l c) = boundaryCount (S l c) ∧ 0 < L ∧
    (0 : ℚ) < ((S l c).length * (identifyTypes (S l c) (S l d)).card : ℕ) ∧
    (((S' l c).length * (identifyTypes (S' l c) (S' l d)).card : ℕ) : ℚ) * L =
      ((S l c).length * (identifyTypes (S l c) (S l d)).card : ℕ) * (m * (L + 1) - 1) := by
  obtain ⟨r1, r2, -⟩ := rate_finer H hy hl hc hd
  have e := hlen l hl c hc
  refine ⟨r1, by rw [e] at r2; exact Nat.pos_of_mul_pos_right r2, by exact_mod_cast r2, ?_⟩
  have hf : (((finer m (∅ : Finset ℤ) (S l c)).length : ℕ) : ℚ) + 1 = m * (L + 1) := by
    rw [← e]
    exact_mod_cast finer_length (d := (∅ : Finset ℤ)) H.pos (S l c)
  rw [H.finer, H.finer, identifyTypes_finer H.pos, e]
  push_cast
  rw [show (((finer m (∅ : Finset ℤ) (S l c)).length : ℕ) : ℚ) = m * (L + 1) - 1 by linarith]
  ring

theorem meanRate_scaled :
    meanRate data'.items (getCoders data') (fun l c => boundaryCount (S' l c))
      (fun l c d => (S' l c).length * (identifyTypes (S' l c) (S' l d)).card) * (m * (L + 1) - 1) =
    meanRate data.items (getCoders data) (fun l c => boundaryCount (S l c))
      (fun l c d => (S l c).length * (identifyTypes (S l c) (S l d)).card) * L := by
  have lab : ∀ c d : Name, (data'.items.map (fun it => (boundaryCount (S' it.1 c) : ℚ) /
      ((S' it.1 c).length * (identifyTypes (S' it.1 c) (S' it.1 d)).card : ℕ))).sum =
      ∑ l ∈ (data.items.map Prod.fst).toFinset, (boundaryCount (S' l c) : ℚ) /
      ((S' l c).length * (identifyTypes (S' l c) (S' l d)).card : ℕ) := by
    intro c d
    rw [← H.labels]
    exact label_sum H.dict' (fun l => (boundaryCount (S' l c) : ℚ) /
      ((S' l c).length * (identifyTypes (S' l c) (S' l d)).card : ℕ))
  have lab0 : ∀ c d : Name, (data.items.map (fun it => (boundaryCount (S it.1 c) : ℚ) /
      ((S it.1 c).length * (identifyTypes (S it.1 c) (S it.1 d)).card : ℕ))).sum =
      ∑ l ∈ (data.items.map Prod.fst).toFinset, (boundaryCount (S l c) : ℚ) /
      ((S l c).length * (identifyTypes (S l c) (S l d)).card : ℕ) := fun c d =>
    label_sum H.dict (fun l => (boundaryCount (S l c) : ℚ) /
      ((S l c).length * (identifyTypes (S l c) (S l d)).card : ℕ))
  have hl : data'.items.length = data.items.length := by
    rw [label_count H.dict', label_count H.dict, H.labels]
  simp only [meanRate, H.coders, hl, lab, lab0, div_mul_eq_mul_div]
  congr 1
  simp only [Finset.sum_mul]
  refine Finset.sum_congr rfl fun c hc => Finset.sum_congr rfl fun d hd =>
    Finset.sum_congr rfl fun l hl => ?_
  obtain ⟨r1, r2, r3, r4⟩ := possible_finer H hlen hy hl hc hd
  have hm : (1 : ℚ) ≤ m := by exact_mod_cast H.pos
  have hL : (0 : ℚ) < L := by exact_mod_cast r2
  have hL' : (0 : ℚ) < m * (L + 1) - 1 := by nlinarith
  rw [r1]
  have hP' : (0 : ℚ) < ((S' l c).length * (identifyTypes (S' l c) (S' l d)).card : ℕ) := by
    refine (mul_pos_iff_of_pos_right hL).1 ?_
    rw [r4]; exact mul_pos r3 hL'
  rw [div_mul_eq_mul_div, div_mul_eq_mul_div, div_eq_div_iff hP'.ne' r3.ne']
  linear_combination (-(boundaryCount (S l c) : ℚ)) * r4

theorem coderRate_scaled {c : Name} (hc : c ∈ getCoders data) :
    coderRate data'.items (getCoders data') (fun l c => boundaryCount (S' l c))
      (fun l c d => (S' l c).length * (identifyTypes (S' l c) (S' l d)).card) c * (m * (L + 1) - 1) =
    coderRate data.items (getCoders data) (fun l c => boundaryCount (S l c))
      (fun l c d => (S l c).length * (identifyTypes (S l c) (S l d)).card) c * L := by
  obtain ⟨hC, hne⟩ := some_pair hy
  obtain ⟨d, hd, hcd⟩ := other_coder hC hc
  have hd' : d ∈ (getCoders data).erase c := Finset.mem_erase.2 ⟨hcd.symm, hd⟩
  have num : (data'.items.map (fun it => (boundaryCount (S' it.1 c) : ℚ))).sum =
      ∑ l ∈ (data.items.map Prod.fst).toFinset, (boundaryCount (S l c) : ℚ) := by
    rw [label_sum H.dict' (fun l => (boundaryCount (S' l c) : ℚ)), H.labels]
    exact Finset.sum_congr rfl fun l hl => by rw [(rate_finer H hy hl hc hd').1]
  have num0 : (data.items.map (fun it => (boundaryCount (S it.1 c) : ℚ))).sum =
      ∑ l ∈ (data.items.map Prod.fst).toFinset, (boundaryCount (S l c) : ℚ) :=
    label_sum H.dict (fun l => (boundaryCount (S l c) : ℚ))
  have den : ∀ d, (data'.items.map (fun it =>
      (((S' it.1 c).length * (identifyTypes (S' it.1 c) (S' it.1 d)).card : ℕ) : ℚ))).sum =
      ∑ l ∈ (data.items.map Prod.fst).toFinset,
        (((S' l c).length * (identifyTypes (S' l c) (S' l d)).card : ℕ) : ℚ) := by
    intro d
    rw [← H.labels]
    exact label_sum H.dict' (fun l => (((S' l c).length * (identifyTypes (S' l c) (S' l d)).card : ℕ) : ℚ))
  have den0 : ∀ d, (data.items.map (fun it =>
      (((S it.1 c).length * (identifyTypes (S it.1 c) (S it.1 d)).card : ℕ) : ℚ))).sum =
      ∑ l ∈ (data.items.map Prod.fst).toFinset,
        (((S l c).length * (identifyTypes (S l c) (S l d)).card : ℕ) : ℚ) := fun d =>
    label_sum H.dict (fun l => (((S l c).length * (identifyTypes (S l c) (S l d)).card : ℕ) : ℚ))
  simp only [coderRate, H.coders, num, num0, den, den0]
  obtain ⟨it, hit⟩ := List.exists_mem_of_ne_nil _ hne
  have hl : it.1 ∈ (data.items.map Prod.fst).toFinset := List.mem_toFinset.2 (List.mem_map_of_mem hit)
  have hden : (0 : ℚ) < ∑ d ∈ (getCoders data).erase c, ∑ l ∈ (data.items.map Prod.fst).toFinset,
      (((S l c).length * (identifyTypes (S l c) (S l d)).card : ℕ) : ℚ) :=
    Finset.sum_pos (fun d hd => Finset.sum_pos (fun l hl =>
      (possible_finer H hlen hy hl hc hd).2.2.1) ⟨_, hl⟩) ⟨d, hd'⟩
  have hscale : (∑ d ∈ (getCoders data).erase c, ∑ l ∈ (data.items.map Prod.fst).toFinset,
      (((S' l c).length * (identifyTypes (S' l c) (S' l d)).card : ℕ) : ℚ)) * L =
      (∑ d ∈ (getCoders data).erase c, ∑ l ∈ (data.items.map Prod.fst).toFinset,
      (((S l c).length * (identifyTypes (S l c) (S l d)).card : ℕ) : ℚ)) * (m * (L + 1) - 1) := by
    simp only [Finset.sum_mul]
    exact Finset.sum_congr rfl fun d hd => Finset.sum_congr rfl fun l hl =>
      (possible_finer H hlen hy hl hc hd).2.2.2
  have hm : (1 : ℚ) ≤ m := by exact_mod_cast H.pos
  have hL : (0 : ℚ) < L := by exact_mod_cast (possible_finer H hlen hy hl hc hd').2.1
  have hL' : (0 : ℚ) < m * (L + 1) - 1 := by nlinarith
  generalize (∑ d ∈ (getCoders data).erase c, ∑ l ∈ (data.items.map Prod.fst).toFinset,
      (((S' l c).length * (identifyTypes (S' l c) (S' l d)).card : ℕ) : ℚ)) = D' at *
  generalize (∑ d ∈ (getCoders data).erase c, ∑ l ∈ (data.items.map Prod.fst).toFinset,
      (((S l c).length * (identifyTypes (S l c) (S l d)).card : ℕ) : ℚ)) = D at *
  have hD' : 0 < D' := by
    refine (mul_pos_iff_of_pos_right hL).1 ?_
    rw [hscale]; exact mul_pos hden hL'
  rw [div_mul_eq_mul_div, div_mul_eq_mul_div, div_eq_div_iff hD'.ne' hden.ne']
  linear_combination (-(∑ _d ∈ (getCoders data).erase c,
    ∑ l ∈ (data.items.map Prod.fst).toFinset, (boundaryCount (S l c) : ℚ))) * hscale

end

/-- C127: if the documents have one length (`L` potential boundaries in the former units), both expected
agreements and with them the annotator bias shrink with the square of the number of potential
boundaries. -/
theorem C127_bias (H : SmallerUnits kw kw' data data' S S' m) {L : ℕ}
    (hlen : ∀ l ∈ (data.items.map Prod.fst).toFinset, ∀ c ∈ getCoders data, (S l c).length = L)
    {v v' p p' k k' : PyNum}
    (h : artsteinPoesioBias o (compareB rt nT .default) kw false data = .ok (.value v))
    (hp : artsteinPoesioBias o (compareB rt nT .default) kw true data = .ok (.parts p k))
    (h' : artsteinPoesioBias o' (compareB rt nT' .default) kw' false data' = .ok (.value v'))
    (hp' : artsteinPoesioBias o' (compareB rt nT' .default) kw' true data' = .ok (.parts p' k')) :
    p'.val * (m * (L + 1) - 1) ^ 2 = p.val * L ^ 2 ∧ k'.val * (m * (L + 1) - 1) ^ 2 = k.val * L ^ 2 ∧
    v'.val * (m * (L + 1) - 1) ^ 2 = v.val * L ^ 2 := by
  obtain ⟨a1, q1, a2, k1, b, f1, f2, f3, f4⟩ := bias_ok.1 h
  obtain ⟨_, _, _, _, _, g1, g2, -, g4⟩ := bias_ok.1 hp
  rw [f1] at g1; rw [f2] at g2
  cases g1; cases g2
  obtain ⟨a1', q1', a2', k1', b', f1', f2', f3', f4'⟩ := bias_ok.1 h'
  obtain ⟨_, _, _, _, _, g1', g2', -, g4'⟩ := bias_ok.1 hp'
  rw [f1'] at g1'; rw [f2'] at g2'
  cases g1'; cases g2'
  simp only [Bool.false_eq_true, if_false, if_true, AgrOut.value.injEq, AgrOut.parts.injEq] at f4 f4' g4 g4'
  obtain ⟨rfl, rfl⟩ := g4
  obtain ⟨rfl, rfl⟩ := g4'
  subst f4 f4'
  obtain ⟨y, hy⟩ := actual_of_pi f1
  have e1 := C63_pi H.dict H.coded.valid (counts_codedAs H.coded) f1
  have e1' := C63_pi H.dict' H.coded'.valid (counts_codedAs H.coded') f1'
  have e2 := C63_kappa H.dict H.coded.valid (counts_codedAs H.coded) f2
  have e2' := C63_kappa H.dict' H.coded'.valid (counts_codedAs H.coded') f2'
  have s1 := meanRate_scaled H hlen hy
  have s2 := fun {c} => coderRate_scaled (c := c) H hlen hy
  have P1 : p'.val * (m * (L + 1) - 1) ^ 2 = p.val * L ^ 2 := by
    rw [e1, e1', ← mul_pow, ← mul_pow, s1]
  have K1 : k'.val * (m * (L + 1) - 1) ^ 2 = k.val * L ^ 2 := by
    rw [e2, e2', meanProduct, meanProduct, H.coders, div_mul_eq_mul_div, div_mul_eq_mul_div]
    rw [H.coders] at s2
    congr 1
    simp only [Finset.sum_mul]
    refine Finset.sum_congr rfl fun c hc => Finset.sum_congr rfl fun d hd => ?_
    have sc := s2 hc
    have sd := s2 (Finset.mem_of_mem_erase hd)
    have e := congrArg₂ (· * ·) sc sd
    linear_combination e
  refine ⟨P1, K1, ?_⟩
  rw [sub_val f3, sub_val f3', sub_mul, sub_mul, P1, K1]

/-- Two coders of one document, in units of which `k` make one. -/
def exUnitsBias (k : ℤ) : AgrData := .dict
  [("x".toList, [("a".toList, mass [2 * k, 2 * k]), ("b".toList, mass [k, k, 2 * k])])]

/-- Three potential boundaries become seven: the bias falls from 1/36 to 1/196. -/
example :
    artsteinPoesioBias ascN (compareB .ascending 2 .default) .mass false (exUnitsBias 1) =
      .ok (.value (.dec (1 / 36))) ∧
    artsteinPoesioBias ascN (compareB .ascending 4 .default) .mass false (exUnitsBias 2) =
      .ok (.value (.dec (1 / 196))) ∧
    (1 / 196 : ℚ) * (2 * (3 + 1) - 1) ^ 2 = 1 / 36 * 3 ^ 2 := by
  refine ⟨by decide +kernel, by decide +kernel, by norm_num⟩

/-- What the coders placed. -/
def exUnitsBiasS (c : Name) : BString := if c = "a".toList then [∅, {1}, ∅] else [{1}, {1}, ∅]

/-- The data above meets the hypotheses. -/
example : SmallerUnits .mass .mass (exUnitsBias 1) (exUnitsBias 2) (fun _ => exUnitsBiasS)
    (fun _ c => finer 2 ∅ (exUnitsBiasS c)) 2 ∧ ∀ c : Name, (exUnitsBiasS c).length = 3 := by
  have hd : ∀ k, IsDict (exUnitsBias k).items := by
    intro k
    refine ⟨by simp [exUnitsBias, AgrData.items], fun it hit => ?_⟩
    simp only [exUnitsBias, AgrData.items, List.mem_cons, List.not_mem_nil, or_false] at hit
    subst hit; simp
  have coded : ∀ k : ℤ, ∀ l c seg, Coded (exUnitsBias k).items l c seg →
      (c = "a".toList ∧ seg = mass [2 * k, 2 * k]) ∨ (c = "b".toList ∧ seg = mass [k, k, 2 * k]) := by
    rintro k l c seg ⟨cs, h1, h2⟩
    have h3 := dictGet_mem h1
    simp only [exUnitsBias, AgrData.items, List.mem_cons, List.not_mem_nil, or_false,
      Prod.mk.injEq] at h3
    obtain ⟨rfl, rfl⟩ := h3
    have h4 := dictGet_mem h2
    simp only [List.mem_cons, List.not_mem_nil, or_false, Prod.mk.injEq] at h4
    exact h4
  refine ⟨⟨hd 1, hd 2, by decide, by decide, by simp [exUnitsBias, AgrData.items], by decide +kernel,
    by decide, ?_, ?_, fun _ _ => rfl⟩, fun c => by unfold exUnitsBiasS; split <;> rfl⟩
  · intro l c seg h
    rcases coded 1 l c seg h with ⟨rfl, rfl⟩ | ⟨rfl, rfl⟩ <;>
      exact massSeg_denotes _ (by simp) (by decide) _ (by beta_reduce; decide +kernel)
  · intro l c seg h
    rcases coded 2 l c seg h with ⟨rfl, rfl⟩ | ⟨rfl, rfl⟩ <;>
      exact massSeg_denotes _ (by simp) (by decide) _ (by beta_reduce; decide +kernel)

end SegEval.Props
