import Verif.Props.Copies
import Verif.Props.FinerBias

/-!
# C130: kappa when every coder occurs several times
-/

namespace SegEval.Props

open SegEval Spec

section
variable {ι : Type} [DecidableEq ι] {C C' : Finset ι} {who : ι → ι} {k : ℕ}

theorem square_pair {a b : ℚ} (a0 : 0 ≤ a) (a1 : a ≤ 1) (b0 : 0 ≤ b) (b1 : b ≤ 1) :
    a * a + b * b ≤ 1 + a * b := by
  rcases le_total a b with h | h
  · nlinarith [mul_nonneg a0 (sub_nonneg.2 h), mul_nonneg b0 (sub_nonneg.2 b1)]
  · nlinarith [mul_nonneg b0 (sub_nonneg.2 h), mul_nonneg a0 (sub_nonneg.2 a1)]

theorem erase_const (C : Finset ι) (f : ι → ℚ) :
    (∑ c ∈ C, ∑ _d ∈ C.erase c, f c) = (C.card - 1) * ∑ c ∈ C, f c := by
  rw [erase_sum C (fun c _ => f c)]
  simp only [Finset.sum_const, nsmul_eq_mul]
  rw [← Finset.mul_sum]; ring

theorem erase_const' (C : Finset ι) (f : ι → ℚ) :
    (∑ c ∈ C, ∑ d ∈ C.erase c, f d) = (C.card - 1) * ∑ c ∈ C, f c := by
  rw [erase_sum C (fun _ d => f d)]
  simp only [Finset.sum_const, nsmul_eq_mul]
  ring

/-- The mean of squares against the mean of products, for rates between 0 and 1. -/
theorem squares_le {r : ι → ℚ} (h0 : ∀ c, 0 ≤ r c ∧ r c ≤ 1) :
    2 * ((C.card - 1) * ∑ c ∈ C, r c * r c) ≤
      (C.card - 1) * C.card + ∑ c ∈ C, ∑ d ∈ C.erase c, r c * r d := by
  have h : ∑ c ∈ C, ∑ d ∈ C.erase c, (r c * r c + r d * r d) ≤
      ∑ c ∈ C, ∑ d ∈ C.erase c, (1 + r c * r d) :=
    Finset.sum_le_sum fun c _ => Finset.sum_le_sum fun d _ =>
      square_pair (h0 c).1 (h0 c).2 (h0 d).1 (h0 d).2
  simp only [Finset.sum_add_distrib] at h
  rw [erase_const C (fun c => r c * r c), erase_const' C (fun c => r c * r c),
    erase_const C (fun _ => 1), Finset.sum_const, nsmul_eq_mul, mul_one] at h
  linarith

end

/-- What is missing from kappa, before and after. -/
theorem missing_falls {k n D B E E' Q X X' : ℚ} (hk : 1 ≤ k) (hn : 2 ≤ n) (hD : 0 < D)
    (hB : D ≤ 2 * (n - 1) * B) (hE : 0 < E) (hE' : 0 < E') (hQ : E ≤ 2 * Q) (hX : 0 ≤ X)
    (h1 : X' * (k * D + (k - 1) * B) = X * (k * D))
    (h2 : E' * (k * n - 1) = k * (n - 1) * E + (k - 1) * Q) :
    X' / E' ≤ X / E ∧ (X' / E' = X / E ↔ k = 1 ∨ X = 0) := by
  have hB0 : 0 < B := by
    by_contra hc
    have : 2 * (n - 1) * B ≤ 0 := mul_nonpos_of_nonneg_of_nonpos (by linarith) (not_lt.1 hc)
    linarith
  have hQ0 : 0 < Q := by linarith
  have hM : 0 < k * D + (k - 1) * B :=
    add_pos_of_pos_of_nonneg (mul_pos (by linarith) hD) (mul_nonneg (by linarith) hB0.le)
  have hkn : 0 < k * n - 1 := by nlinarith
  have id : (E' * (k * D + (k - 1) * B) - k * D * E) * (k * n - 1) =
      (k - 1) * (k * D * (Q - E / 2) + k * (E / 2) * (2 * (n - 1) * B - D) + B * (k - 1) * Q) := by
    linear_combination (k * D + (k - 1) * B) * h2
  have g1 : 0 ≤ k * D * (Q - E / 2) :=
    mul_nonneg (mul_nonneg (by linarith) hD.le) (by linarith)
  have g2 : 0 ≤ k * (E / 2) * (2 * (n - 1) * B - D) :=
    mul_nonneg (mul_nonneg (by linarith) (by linarith)) (by linarith)
  have g3 : 0 ≤ B * (k - 1) * Q := mul_nonneg (mul_nonneg hB0.le (by linarith)) hQ0.le
  have id2 : (X * E' - X' * E) * (k * D + (k - 1) * B) =
      X * (E' * (k * D + (k - 1) * B) - k * D * E) := by linear_combination -E * h1
  have s0 : 0 ≤ E' * (k * D + (k - 1) * B) - k * D * E := by
    have : 0 ≤ (E' * (k * D + (k - 1) * B) - k * D * E) * (k * n - 1) := by
      rw [id]; exact mul_nonneg (by linarith) (by linarith)
    exact nonneg_of_mul_nonneg_left this hkn
  have s1 : 0 ≤ X * E' - X' * E := by
    have : 0 ≤ (X * E' - X' * E) * (k * D + (k - 1) * B) := by
      rw [id2]; exact mul_nonneg hX s0
    exact nonneg_of_mul_nonneg_left this hM
  refine ⟨by rw [div_le_div_iff₀ hE' hE]; linarith, ?_⟩
  rw [div_eq_div_iff hE'.ne' hE.ne']
  constructor
  · intro he
    rw [he, sub_self, zero_mul] at id2
    rcases mul_eq_zero.1 id2.symm with h3 | h3
    · exact .inr h3
    · rw [h3, zero_mul] at id
      rcases mul_eq_zero.1 id.symm with h4 | h4
      · exact .inl (by linarith)
      · have h5 : B * (k - 1) * Q = 0 := by linarith
        rcases mul_eq_zero.1 h5 with h6 | h6
        · rcases mul_eq_zero.1 h6 with h7 | h7
          · exact absurd h7 hB0.ne'
          · exact .inl (by linarith)
        · exact absurd h6 hQ0.ne'
  · intro he
    have : X * (E' * (k * D + (k - 1) * B) - k * D * E) = 0 := by
      rcases he with he | he
      · subst he
        have : (E' * (1 * D + (1 - 1) * B) - 1 * D * E) * (1 * n - 1) = 0 := by rw [id]; ring
        rw [(mul_eq_zero.1 this).resolve_right hkn.ne', mul_zero]
      · rw [he, zero_mul]
    rw [this] at id2
    have := (mul_eq_zero.1 id2).resolve_right hM.ne'
    linarith

/-- Edits and matches are at most the boundaries of both strings. -/
theorem size_le {rt : Runtime} {nT : ℤ} {a b : BString} (hl : a.length = b.length) (ha : Only 1 a)
    (hb : Only 1 b) : plainSize rt nT a b ≤ boundaryCount a + boundaryCount b := by
  have he := only_edits (rt := rt) ha hb hl nT
  have h1 := (edits_misses hl (only_shared ha hb (one_small rt)) (oneSided_of_oneType ha hb) he).1
  have h2 := count_all hl
  rw [← Chain.misses_card hl] at h2
  rw [plainSize]
  exact_mod_cast (show editCount (editsOf rt a b nT) + matchCount a b ≤ boundaryCount a + boundaryCount b by
    omega)

section
variable {o o' : ClassOrder Name} {rt : Runtime} {nT : ℤ} {kw kw' : BoundaryFormat}
  {data data' : AgrData} {S S' : Name → Name → BString} {who : Name → Name} {k : ℕ}
  (H : Copied kw kw' data data' S S' who k)
include H

/-- A copy places boundaries as often as the coder. -/
theorem share_copies (c : Name) :
    boundaryShare data'.items S' c = boundaryShare data.items S (who c) := by
  rw [boundaryShare, boundaryShare, label_sum H.dict' (fun l => (placedAt (S' l c) : ℚ)),
    label_sum H.dict' (fun l => ((S' l c).length : ℚ)),
    label_sum H.dict (fun l => (placedAt (S l (who c)) : ℚ)),
    label_sum H.dict (fun l => ((S l (who c)).length : ℚ)), H.labels]
  simp only [H.same]

/-- The agreement kappa expects by chance, for the coders and for their copies. -/
theorem expected_copies {x x' aa ae aa' ae' : PyNum}
    (hx : actualAgreement o (compareB rt nT .default) kw data = .ok x)
    (hx' : actualAgreement o' (compareB rt nT .default) kw' data' = .ok x')
    (hp : fleissKappa o (compareB rt nT .default) kw true data = .ok (.parts aa ae))
    (hp' : fleissKappa o' (compareB rt nT .default) kw' true data' = .ok (.parts aa' ae')) :
    ae.val = (∑ m ∈ getCoders data, ∑ n ∈ (getCoders data).erase m,
      boundaryShare data.items S m * boundaryShare data.items S n) /
      ((getCoders data).card * ((getCoders data).card - 1)) ∧
    ae'.val = (k ^ 2 * (∑ m ∈ getCoders data, ∑ n ∈ (getCoders data).erase m,
      boundaryShare data.items S m * boundaryShare data.items S n) + k * (k - 1) *
      ∑ c ∈ getCoders data, boundaryShare data.items S c * boundaryShare data.items S c) /
      (k * (getCoders data).card * (k * (getCoders data).card - 1)) := by
  have e := C63_kappa H.dict H.coded.valid (counts_codedAs H.coded) hp
  have e' := C63_kappa H.dict' H.coded'.valid (counts_codedAs H.coded') hp'
  have r1 : ∑ m ∈ getCoders data, ∑ n ∈ (getCoders data).erase m,
      coderRate data.items (getCoders data) (fun l m => boundaryCount (S l m))
        (fun l m n => (S l m).length * (identifyTypes (S l m) (S l n)).card) m *
      coderRate data.items (getCoders data) (fun l m => boundaryCount (S l m))
        (fun l m n => (S l m).length * (identifyTypes (S l m) (S l n)).card) n =
      ∑ m ∈ getCoders data, ∑ n ∈ (getCoders data).erase m,
        boundaryShare data.items S m * boundaryShare data.items S n :=
    Finset.sum_congr rfl fun m hm => Finset.sum_congr rfl fun n hn => by
      rw [rate_share H.dict H.one H.coded hx hm,
        rate_share H.dict H.one H.coded hx (Finset.mem_of_mem_erase hn)]
  have r2 : ∑ m ∈ getCoders data', ∑ n ∈ (getCoders data').erase m,
      coderRate data'.items (getCoders data') (fun l m => boundaryCount (S' l m))
        (fun l m n => (S' l m).length * (identifyTypes (S' l m) (S' l n)).card) m *
      coderRate data'.items (getCoders data') (fun l m => boundaryCount (S' l m))
        (fun l m n => (S' l m).length * (identifyTypes (S' l m) (S' l n)).card) n =
      ∑ m ∈ getCoders data', ∑ n ∈ (getCoders data').erase m,
        boundaryShare data.items S (who m) * boundaryShare data.items S (who n) :=
    Finset.sum_congr rfl fun m hm => Finset.sum_congr rfl fun n hn => by
      rw [rate_share H.dict' H.one' H.coded' hx' hm,
        rate_share H.dict' H.one' H.coded' hx' (Finset.mem_of_mem_erase hn), share_copies H, share_copies H]
  rw [meanProduct, r1] at e
  rw [meanProduct, r2, copies_pairs H.known H.times (fun c d =>
    boundaryShare data.items S c * boundaryShare data.items S d), copies_card H.known H.times] at e'
  exact ⟨e, e'⟩

/-- C130: kappa, too, rises unless it was 1, although the agreement it expects by chance may rise. -/
theorem C130_kappa (hc : CodersMatch data) (hc' : CodersMatch data') {v v' : PyNum}
    (h : fleissKappa o (compareB rt nT .default) kw false data = .ok (.value v))
    (h' : fleissKappa o' (compareB rt nT .default) kw' false data' = .ok (.value v')) :
    v.val ≤ v'.val ∧ (v'.val = v.val ↔ k = 1 ∨ v.val = 1) := by
  obtain ⟨w, x, ae, hw, hx, hp, a0, a1, hv, -⟩ := C48_kappa H.dict hc H.coded.valid h
  obtain ⟨w', x', ae', hw', hx', hp', a0', a1', hv', -⟩ := C48_kappa H.dict' hc' H.coded'.valid h'
  cases hw; cases hw'
  obtain ⟨e, e'⟩ := expected_copies H hx hx' hp hp'
  have e : ae = _ := e
  have e' : ae' = _ := e'
  obtain ⟨hC, -⟩ := some_pair hx
  have hx1 := actual_le_one hx
  obtain ⟨⟨D, hDe, hD, key⟩, -⟩ := C130_actual H hx hx'
  have sq := squares_le (C := getCoders data) (share_range data.items S)
  have hB : D ≤ 2 * ((getCoders data).card - 1) *
      ∑ c ∈ getCoders data, ∑ l ∈ (data.items.map Prod.fst).toFinset, (boundaryCount (S l c) : ℚ) := by
    have h1 : D ≤ ∑ m ∈ getCoders data, ∑ n ∈ (getCoders data).erase m,
        ((∑ l ∈ (data.items.map Prod.fst).toFinset, (boundaryCount (S l m) : ℚ)) +
          ∑ l ∈ (data.items.map Prod.fst).toFinset, (boundaryCount (S l n) : ℚ)) := by
      rw [hDe, overPairs]
      refine Finset.sum_le_sum fun m hm => Finset.sum_le_sum fun n hn => ?_
      rw [← Finset.sum_add_distrib]
      refine Finset.sum_le_sum fun l hl => ?_
      obtain ⟨g1, -, g3, g4⟩ := pair_strings H.dict H.coded hx hl hm (Finset.mem_of_mem_erase hn)
        (Finset.ne_of_mem_erase hn).symm H.one
      exact size_le g1 g3 g4
    simp only [Finset.sum_add_distrib] at h1
    rw [erase_const (getCoders data) (fun c => ∑ l ∈ (data.items.map Prod.fst).toFinset,
        (boundaryCount (S l c) : ℚ)), erase_const' (getCoders data) (fun c =>
        ∑ l ∈ (data.items.map Prod.fst).toFinset, (boundaryCount (S l c) : ℚ))] at h1
    linarith
  clear hDe
  generalize (∑ c ∈ getCoders data, ∑ l ∈ (data.items.map Prod.fst).toFinset,
      (boundaryCount (S l c) : ℚ)) = B at *
  generalize (∑ m ∈ getCoders data, ∑ n ∈ (getCoders data).erase m,
    boundaryShare data.items S m * boundaryShare data.items S n) = R at *
  generalize (∑ c ∈ getCoders data, boundaryShare data.items S c * boundaryShare data.items S c) = T at *
  have hn : (2 : ℚ) ≤ (getCoders data).card := by exact_mod_cast hC
  generalize ((getCoders data).card : ℚ) = n at *
  have hk : (1 : ℚ) ≤ k := by exact_mod_cast H.pos
  have hkk : (k : ℚ) = 1 ↔ k = 1 := by norm_cast
  generalize (k : ℚ) = κ at *
  have n0 : 0 < n := by linarith
  have n1 : 0 < n - 1 := by linarith
  have hkn : 0 < κ * n - 1 := by nlinarith
  rw [eq_div_iff (mul_pos n0 n1).ne'] at e
  rw [eq_div_iff (mul_pos (mul_pos (by linarith) n0) hkn).ne'] at e'
  have hQ : 1 - ae ≤ 2 * (1 - T / n) := by
    have : 2 * (T / n) ≤ 1 + ae := by
      rw [← mul_div_assoc, div_le_iff₀ n0]
      refine le_of_mul_le_mul_left ?_ n1
      linarith
    linarith
  have h2 : (1 - ae') * (κ * n - 1) = κ * (n - 1) * (1 - ae) + (κ - 1) * (1 - T / n) := by
    have hT : T / n * n = T := div_mul_cancel₀ _ n0.ne'
    refine mul_left_cancel₀ (mul_pos (lt_of_lt_of_le one_pos hk) n0).ne' ?_
    linear_combination κ ^ 2 * e - e' + κ * (κ - 1) * hT
  obtain ⟨m1, m2⟩ := missing_falls hk hn hD hB (by linarith) (by linarith) hQ (by linarith) key h2
  have q : ∀ a b : ℚ, b < 1 → (a - b) / (1 - b) = 1 - (1 - a) / (1 - b) := by
    intro a b hb
    have : (1 : ℚ) - b ≠ 0 := by linarith
    field_simp
    ring
  rw [hv, hv', q _ _ a1, q _ _ a1']
  refine ⟨by linarith, ?_⟩
  rw [sub_right_inj, m2, hkk, sub_eq_self, div_eq_zero_iff]
  have : (1 : ℚ) - ae ≠ 0 := by linarith
  tauto

/-- C130: the annotator bias falls, unless the coders place boundaries at one rate: exactly by the
differences of their rates. -/
theorem C130_bias {v v' : PyNum}
    (h : artsteinPoesioBias o (compareB rt nT .default) kw false data = .ok (.value v))
    (h' : artsteinPoesioBias o' (compareB rt nT .default) kw' false data' = .ok (.value v')) :
    (v.val - v'.val) * (2 * (getCoders data).card * ((getCoders data).card - 1) *
      (k * (getCoders data).card - 1)) =
      (k - 1) * ∑ c ∈ getCoders data, ∑ d ∈ getCoders data,
        (boundaryShare data.items S c - boundaryShare data.items S d) ^ 2 ∧
    v'.val ≤ v.val ∧
    (v'.val = v.val ↔ k = 1 ∨ ∀ c ∈ getCoders data, ∀ d ∈ getCoders data,
      boundaryShare data.items S c = boundaryShare data.items S d) := by
  obtain ⟨a1, q1, a2, k1, b, f1, f2, f3, f4⟩ := bias_ok.1 h
  obtain ⟨a1', q1', a2', k1', b', f1', f2', f3', f4'⟩ := bias_ok.1 h'
  simp only [Bool.false_eq_true, if_false, AgrOut.value.injEq] at f4 f4'
  subst f4 f4'
  obtain ⟨y, hy⟩ := actual_of_pi f1
  obtain ⟨y', hy'⟩ := actual_of_pi f1'
  have e1 := C63_pi H.dict H.coded.valid (counts_codedAs H.coded) f1
  have e1' := C63_pi H.dict' H.coded'.valid (counts_codedAs H.coded') f1'
  rw [meanRate_copies H hy hy', ← e1] at e1'
  obtain ⟨e, e'⟩ := expected_copies H hy hy' f2 f2'
  obtain ⟨hC, -⟩ := some_pair hy
  have b1 := sub_val f3
  have b2 := sub_val f3'
  have sq : ∑ c ∈ getCoders data, ∑ d ∈ getCoders data,
      (boundaryShare data.items S c - boundaryShare data.items S d) ^ 2 =
      2 * ((getCoders data).card - 1) *
        ∑ c ∈ getCoders data, boundaryShare data.items S c * boundaryShare data.items S c -
      2 * ∑ m ∈ getCoders data, ∑ n ∈ (getCoders data).erase m,
        boundaryShare data.items S m * boundaryShare data.items S n := by
    have t : ∑ c ∈ getCoders data, ∑ d ∈ (getCoders data).erase c,
        (boundaryShare data.items S c - boundaryShare data.items S d) ^ 2 =
        ∑ c ∈ getCoders data, ∑ d ∈ (getCoders data).erase c,
          ((boundaryShare data.items S c * boundaryShare data.items S c +
            boundaryShare data.items S d * boundaryShare data.items S d) -
            (boundaryShare data.items S c * boundaryShare data.items S d +
              boundaryShare data.items S c * boundaryShare data.items S d)) :=
      Finset.sum_congr rfl fun c _ => Finset.sum_congr rfl fun d _ => by ring
    have u := erase_sum (getCoders data) (fun c d =>
      (boundaryShare data.items S c - boundaryShare data.items S d) ^ 2)
    simp only [sub_self, ne_eq, OfNat.ofNat_ne_zero, not_false_eq_true, zero_pow,
      Finset.sum_const_zero, sub_zero] at u
    rw [← u, t]
    simp only [Finset.sum_sub_distrib, Finset.sum_add_distrib]
    rw [erase_const (getCoders data) (fun c => boundaryShare data.items S c * boundaryShare data.items S c),
      erase_const' (getCoders data) (fun c => boundaryShare data.items S c * boundaryShare data.items S c)]
    ring
  have zero : (∑ c ∈ getCoders data, ∑ d ∈ getCoders data,
      (boundaryShare data.items S c - boundaryShare data.items S d) ^ 2) = 0 ↔
      ∀ c ∈ getCoders data, ∀ d ∈ getCoders data,
        boundaryShare data.items S c = boundaryShare data.items S d := by
    rw [Finset.sum_eq_zero_iff_of_nonneg fun c _ => Finset.sum_nonneg fun d _ => sq_nonneg _]
    refine forall₂_congr fun c _ => ?_
    rw [Finset.sum_eq_zero_iff_of_nonneg fun d _ => sq_nonneg _]
    refine forall₂_congr fun d _ => ?_
    rw [sq_eq_zero_iff, sub_eq_zero]
  have nn : 0 ≤ ∑ c ∈ getCoders data, ∑ d ∈ getCoders data,
      (boundaryShare data.items S c - boundaryShare data.items S d) ^ 2 :=
    Finset.sum_nonneg fun c _ => Finset.sum_nonneg fun d _ => sq_nonneg _
  rw [← zero]
  clear zero
  generalize (∑ c ∈ getCoders data, ∑ d ∈ getCoders data,
      (boundaryShare data.items S c - boundaryShare data.items S d) ^ 2) = V at *
  generalize (∑ m ∈ getCoders data, ∑ n ∈ (getCoders data).erase m,
    boundaryShare data.items S m * boundaryShare data.items S n) = R at *
  generalize (∑ c ∈ getCoders data, boundaryShare data.items S c * boundaryShare data.items S c) = T at *
  have hn : (2 : ℚ) ≤ (getCoders data).card := by exact_mod_cast hC
  generalize ((getCoders data).card : ℚ) = n at *
  have hk : (1 : ℚ) ≤ k := by exact_mod_cast H.pos
  have hkk : (k : ℚ) = 1 ↔ k = 1 := by norm_cast
  rw [← hkk]
  generalize (k : ℚ) = κ at *
  have n0 : 0 < n := by linarith
  have n1 : 0 < n - 1 := by linarith
  have hkn : 0 < κ * n - 1 := by nlinarith
  rw [eq_div_iff (mul_pos n0 n1).ne'] at e
  rw [eq_div_iff (mul_pos (mul_pos (by linarith) n0) hkn).ne'] at e'
  have key : (v.val - v'.val) * (2 * n * (n - 1) * (κ * n - 1)) = (κ - 1) * V := by
    rw [b1, b2, e1', sq]
    refine mul_left_cancel₀ (lt_of_lt_of_le one_pos hk).ne' ?_
    linear_combination 2 * (n - 1) * e' - 2 * κ * (κ * n - 1) * e
  have hM : 0 < 2 * n * (n - 1) * (κ * n - 1) := mul_pos (mul_pos (by linarith) n1) hkn
  refine ⟨key, ?_, ?_⟩
  · have : 0 ≤ (v.val - v'.val) * (2 * n * (n - 1) * (κ * n - 1)) := by
      rw [key]; exact mul_nonneg (by linarith) nn
    linarith [nonneg_of_mul_nonneg_left this hM]
  · constructor
    · intro he
      rw [he, sub_self, zero_mul] at key
      rcases mul_eq_zero.1 key.symm with h3 | h3
      · exact .inl (by linarith)
      · exact .inr h3
    · intro he
      have : (κ - 1) * V = 0 := by
        rcases he with he | he
        · rw [he]; ring
        · rw [he, mul_zero]
      rw [this] at key
      have := (mul_eq_zero.1 key).resolve_right hM.ne'
      linarith

end

/-- The copies of `C130_refuted` meet the hypotheses: kappa rises from 45/94. -/
example : ∃ v v' : PyNum,
    fleissKappa ascN (compareB .ascending 2 .default) .mass false (exCopies ["a".toList] ["b".toList]) =
      .ok (.value v) ∧
    fleissKappa ascN (compareB .ascending 2 .default) .mass false
      (exCopies ["a".toList, "c".toList] ["b".toList, "d".toList]) = .ok (.value v') ∧ v.val < v'.val :=
  ⟨_, _, C130_refuted.2.2.2.2.1, C130_refuted.2.2.2.2.2, by norm_num [PyNum.val]⟩

/-- Two boundaries against one in seven places: the bias falls to a third. -/
example :
    artsteinPoesioBias ascN (compareB .ascending 2 .default) .mass false
      (exCopies ["a".toList] ["b".toList]) = .ok (.value (.dec (1 / 196))) ∧
    artsteinPoesioBias ascN (compareB .ascending 2 .default) .mass false
      (exCopies ["a".toList, "c".toList] ["b".toList, "d".toList]) = .ok (.value (.dec (1 / 588))) ∧
    (1 / 196 - 1 / 588 : ℚ) * (2 * 2 * (2 - 1) * (2 * 2 - 1)) = (2 - 1) * (2 * (2 / 7 - 1 / 7) ^ 2) := by
  refine ⟨by decide +kernel, by decide +kernel, by norm_num⟩

/-- C130 does not hold for one coder listed twice while the others are not: actual agreement may fall. -/
theorem C130_uneven :
    actualAgreement ascN (compareB .ascending 2 .default) .mass
      (exCopies ["a".toList, "b".toList, "c".toList] ["d".toList]) = .ok (.dec (3 / 4)) ∧
    actualAgreement ascN (compareB .ascending 2 .default) .mass
      (exCopies ["a".toList, "b".toList, "c".toList] ["d".toList, "e".toList]) = .ok (.dec (13 / 19)) ∧
    (13 / 19 : ℚ) < 3 / 4 := by
  refine ⟨by decide +kernel, by decide +kernel, by norm_num⟩

end SegEval.Props
