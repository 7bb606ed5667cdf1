import Verif.Lemmas.AgreementRepeat

/-! Sums over the jobs of joined data. -/

namespace SegEval

open Spec

theorem between_mediant {n d n' d' : ℚ} (h : 0 < d) (h' : 0 < d') :
    Between (n / d) (n' / d') ((n + n') / (d + d')) := by
  have hs : 0 < d + d' := add_pos h h'
  refine ⟨fun e => ?_, fun e => ?_, fun e => ?_⟩
  · rw [div_eq_div_iff h.ne' h'.ne'] at e
    rw [div_eq_div_iff hs.ne' h.ne']
    linarith
  · rw [div_lt_div_iff₀ h h'] at e
    rw [div_lt_div_iff₀ h hs, div_lt_div_iff₀ hs h']
    constructor <;> linarith
  · rw [div_lt_div_iff₀ h' h] at e
    rw [div_lt_div_iff₀ h' hs, div_lt_div_iff₀ hs h]
    constructor <;> linarith

theorem between_sq {x y z : ℚ} (hx : 0 ≤ x) (hy : 0 ≤ y) (h : Between x y z) :
    Between (x ^ 2) (y ^ 2) (z ^ 2) := by
  obtain ⟨h1, h2, h3⟩ := h
  refine ⟨fun e => ?_, fun e => ?_, fun e => ?_⟩
  · rw [h1 ((sq_eq_sq₀ hx hy).1 e)]
  · obtain ⟨g1, g2⟩ := h2 (lt_of_pow_lt_pow_left₀ 2 hy e)
    exact ⟨by nlinarith, by nlinarith⟩
  · obtain ⟨g1, g2⟩ := h3 (lt_of_pow_lt_pow_left₀ 2 hx e)
    exact ⟨by nlinarith, by nlinarith⟩

section
variable {a b c : Items}

theorem joined_mem (h : Joined a b c) (cs : Codings) :
    (∃ l, (l, cs) ∈ c) ↔ (∃ l, (l, cs) ∈ a) ∨ ∃ l, (l, cs) ∈ b := by
  have h1 : ∀ x : Items, (∃ l, (l, cs) ∈ x) ↔ cs ∈ x.map Prod.snd := by
    intro x
    rw [List.mem_map]
    constructor
    · rintro ⟨l, hl⟩; exact ⟨_, hl, rfl⟩
    · rintro ⟨⟨l, _⟩, hl, rfl⟩; exact ⟨l, hl⟩
  rw [h1, h1, h1, List.Perm.mem_iff h, List.map_append, List.mem_append]

theorem joined_jobs_sum {R : Type _} [AddCommMonoid R] (h : Joined a b c) (coders : List Name)
    (f : (Name × Name) → Codings → R) :
    ((jobs coders c).map (fun j => f j.1 j.2.2)).sum =
      ((jobs coders a).map (fun j => f j.1 j.2.2)).sum +
        ((jobs coders b).map (fun j => f j.1 j.2.2)).sum := by
  rw [jobs_sum, jobs_sum, jobs_sum]
  induction combinations2 coders with
  | nil => simp
  | cons p ps ih =>
    rw [List.map_cons, List.sum_cons, ih, List.map_cons, List.sum_cons, List.map_cons, List.sum_cons,
      add_add_add_comm]
    congr 1
    have e : ∀ x : Items, x.map (fun it => f p it.2) = (x.map Prod.snd).map (f p) := by
      intro x; rw [List.map_map]; rfl
    change (c.map (fun it => f p it.2)).sum = (a.map (fun it => f p it.2)).sum +
      (b.map (fun it => f p it.2)).sum
    rw [e, (List.Perm.map (f p) h).sum_eq, List.map_append, List.map_append, List.sum_append, e, e]

theorem joined_jobs_all (h : Joined a b c) (coders : List Name) (P : (Name × Name) → Codings → Prop) :
    (∀ j ∈ jobs coders c, P j.1 j.2.2) ↔
      (∀ j ∈ jobs coders a, P j.1 j.2.2) ∧ ∀ j ∈ jobs coders b, P j.1 j.2.2 := by
  constructor
  · intro h1
    refine ⟨?_, ?_⟩
    · rintro ⟨p, l, cs⟩ hj
      obtain ⟨h2, h3⟩ := mem_jobs.1 hj
      obtain ⟨l', h4⟩ := (joined_mem h cs).2 (Or.inl ⟨l, h3⟩)
      exact h1 (p, l', cs) (mem_jobs.2 ⟨h2, h4⟩)
    · rintro ⟨p, l, cs⟩ hj
      obtain ⟨h2, h3⟩ := mem_jobs.1 hj
      obtain ⟨l', h4⟩ := (joined_mem h cs).2 (Or.inr ⟨l, h3⟩)
      exact h1 (p, l', cs) (mem_jobs.2 ⟨h2, h4⟩)
  · rintro ⟨ha, hb⟩ ⟨p, l, cs⟩ hj
    obtain ⟨h2, h3⟩ := mem_jobs.1 hj
    rcases (joined_mem h cs).1 ⟨l, h3⟩ with ⟨l', h4⟩ | ⟨l', h4⟩
    · exact ha (p, l', cs) (mem_jobs.2 ⟨h2, h4⟩)
    · exact hb (p, l', cs) (mem_jobs.2 ⟨h2, h4⟩)

variable (cmp : Compare) (fmt : BoundaryFormat) (coders : List Name)

theorem joined_rowsOk (h : Joined a b c) :
    RowsOk cmp fmt (jobs coders c) ↔
      RowsOk cmp fmt (jobs coders a) ∧ RowsOk cmp fmt (jobs coders b) :=
  joined_jobs_all h coders (fun p c => jobRow cmp fmt (p, ([], c)) = .ok (rowD cmp fmt (p, ([], c))))

theorem joined_numSum (h : Joined a b c) :
    numSum cmp fmt (jobs coders c) = numSum cmp fmt (jobs coders a) + numSum cmp fmt (jobs coders b) :=
  joined_jobs_sum h coders (fun p c => (rowD cmp fmt (p, ([], c))).num.val)

theorem joined_denSum (h : Joined a b c) :
    denSum cmp fmt (jobs coders c) = denSum cmp fmt (jobs coders a) + denSum cmp fmt (jobs coders b) :=
  joined_jobs_sum h coders (fun p c => (rowD cmp fmt (p, ([], c))).den.val)

theorem joined_piAe (h : Joined a b c) (ha : RowsAre cmp fmt (jobs coders a))
    (hb : RowsAre cmp fmt (jobs coders b)) (na : jobs coders a ≠ []) (nb : jobs coders b ≠ []) :
    Between (piAe cmp fmt (jobs coders a)) (piAe cmp fmt (jobs coders b))
      (piAe cmp fmt (jobs coders c)) := by
  have h1 := joined_jobs_sum h coders (fun p c =>
    (((rowD cmp fmt (p, ([], c))).ba + (rowD cmp fmt (p, ([], c))).bb : ℤ) : ℚ) /
      ((rowD cmp fmt (p, ([], c))).pbs : ℚ))
  have h2 : (jobs coders c).length = (jobs coders a).length + (jobs coders b).length := by
    have := joined_jobs_sum h coders (fun _ _ => (1 : ℕ))
    simpa using this
  have h3 : ∀ x : List Job, (x.map (fun j => (((rowD cmp fmt j).ba + (rowD cmp fmt j).bb : ℤ) : ℚ) /
      ((rowD cmp fmt j).pbs : ℚ))) = x.map (fun j => (((rowD cmp fmt (j.1, ([], j.2.2))).ba +
        (rowD cmp fmt (j.1, ([], j.2.2))).bb : ℤ) : ℚ) / ((rowD cmp fmt (j.1, ([], j.2.2))).pbs : ℚ)) :=
    fun _ => rfl
  have hnn : ∀ js, RowsAre cmp fmt js → 0 ≤ (js.map (fun j =>
      (((rowD cmp fmt j).ba + (rowD cmp fmt j).bb : ℤ) : ℚ) / ((rowD cmp fmt j).pbs : ℚ))).sum := by
    intro js hr
    refine sum_nonneg' js _ (fun j hj => ?_)
    obtain ⟨x, y, hxy⟩ := hr j hj
    refine div_nonneg ?_ (by exact_mod_cast hxy.pbs_pos.le)
    exact_mod_cast add_nonneg hxy.ba_nonneg.1 hxy.ba_nonneg.2.1
  have hlen : ∀ js : List Job, js ≠ [] → (0 : ℚ) < ((2 * js.length : ℕ) : ℚ) := by
    intro js hne
    have := List.length_pos_of_ne_nil hne
    exact_mod_cast (by omega : 0 < 2 * js.length)
  rw [piAe_eq, piAe_eq, piAe_eq]
  refine between_sq (div_nonneg (hnn _ ha) (hlen _ na).le) (div_nonneg (hnn _ hb) (hlen _ nb).le) ?_
  have hm := between_mediant (n := ((jobs coders a).map (fun j =>
      (((rowD cmp fmt j).ba + (rowD cmp fmt j).bb : ℤ) : ℚ) / ((rowD cmp fmt j).pbs : ℚ))).sum)
    (n' := ((jobs coders b).map (fun j =>
      (((rowD cmp fmt j).ba + (rowD cmp fmt j).bb : ℤ) : ℚ) / ((rowD cmp fmt j).pbs : ℚ))).sum)
    (hlen _ na) (hlen _ nb)
  rw [h3, h3] at hm
  rw [h3, h3, h3, h1, h2]
  convert hm using 2
  push_cast
  ring

end

end SegEval
