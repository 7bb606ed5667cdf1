import Verif.Lemmas.AgreementForm

/-!
# Agreement of items that occur several times
-/

namespace SegEval

open Spec

theorem flatten_replicate_sum {α R : Type _} [AddCommMonoid R] (k : ℕ) (l : List α) (f : α → R) :
    ((List.replicate k l).flatten.map f).sum = k • (l.map f).sum := by
  induction k with
  | zero => simp
  | succ k ih =>
    rw [List.replicate_succ, List.flatten_cons, List.map_append, List.sum_append, ih, succ_nsmul,
      add_comm]

theorem mem_flatten_replicate {α : Type _} {k : ℕ} (hk : k ≠ 0) {l : List α} {x : α} :
    x ∈ (List.replicate k l).flatten ↔ x ∈ l := by
  simp only [List.mem_flatten, List.mem_replicate]
  constructor
  · rintro ⟨_, ⟨_, rfl⟩, h⟩; exact h
  · intro h; exact ⟨l, ⟨hk, rfl⟩, h⟩

section
variable {k : ℕ} {a b : Items}

theorem repeated_mem (hk : k ≠ 0) (h : Repeated k a b) (c : Codings) :
    (∃ l, (l, c) ∈ b) ↔ ∃ l, (l, c) ∈ a := by
  have h1 : ∀ x : Items, (∃ l, (l, c) ∈ x) ↔ c ∈ x.map Prod.snd := by
    intro x
    rw [List.mem_map]
    constructor
    · rintro ⟨l, hl⟩; exact ⟨_, hl, rfl⟩
    · rintro ⟨⟨l, _⟩, hl, rfl⟩; exact ⟨l, hl⟩
  rw [h1, h1, List.Perm.mem_iff h, mem_flatten_replicate hk]

theorem repeated_sum {R : Type _} [AddCommMonoid R] (h : Repeated k a b) (f : Codings → R) :
    (b.map (fun it => f it.2)).sum = k • (a.map (fun it => f it.2)).sum := by
  have e : ∀ x : Items, x.map (fun it => f it.2) = (x.map Prod.snd).map f := by
    intro x; rw [List.map_map]; rfl
  rw [e, e, (List.Perm.map f h).sum_eq, flatten_replicate_sum]

theorem repeated_jobs_sum {R : Type _} [AddCommMonoid R] (h : Repeated k a b) (coders : List Name)
    (f : (Name × Name) → Codings → R) :
    ((jobs coders b).map (fun j => f j.1 j.2.2)).sum =
      k • ((jobs coders a).map (fun j => f j.1 j.2.2)).sum := by
  rw [jobs_sum, jobs_sum]
  induction combinations2 coders with
  | nil => simp
  | cons p ps ih =>
    rw [List.map_cons, List.sum_cons, ih, List.map_cons, List.sum_cons, nsmul_add]
    congr 1
    exact repeated_sum h (f p)

theorem repeated_jobs_all (hk : k ≠ 0) (h : Repeated k a b) (coders : List Name)
    (P : (Name × Name) → Codings → Prop) :
    (∀ j ∈ jobs coders b, P j.1 j.2.2) ↔ ∀ j ∈ jobs coders a, P j.1 j.2.2 := by
  constructor
  · rintro h1 ⟨p, l, c⟩ hj
    obtain ⟨h2, h3⟩ := mem_jobs.1 hj
    obtain ⟨l', h4⟩ := (repeated_mem hk h c).2 ⟨l, h3⟩
    exact h1 (p, l', c) (mem_jobs.2 ⟨h2, h4⟩)
  · rintro h1 ⟨p, l, c⟩ hj
    obtain ⟨h2, h3⟩ := mem_jobs.1 hj
    obtain ⟨l', h4⟩ := (repeated_mem hk h c).1 ⟨l, h3⟩
    exact h1 (p, l', c) (mem_jobs.2 ⟨h2, h4⟩)

theorem repeated_equalCodings (hk : k ≠ 0) (h : Repeated k a b) : equalCodings b = equalCodings a := by
  have e : (b.map (fun it => it.2.length)).foldl (fun s x => insert x s) (∅ : Finset ℕ) =
      (a.map (fun it => it.2.length)).foldl (fun s x => insert x s) (∅ : Finset ℕ) := by
    ext n
    rw [mem_lengths, mem_lengths]
    constructor
    · rintro ⟨⟨l, c⟩, h1, h2⟩
      obtain ⟨l', h3⟩ := (repeated_mem hk h c).1 ⟨l, h1⟩
      exact ⟨_, h3, h2⟩
    · rintro ⟨⟨l, c⟩, h1, h2⟩
      obtain ⟨l', h3⟩ := (repeated_mem hk h c).2 ⟨l, h1⟩
      exact ⟨_, h3, h2⟩
  unfold equalCodings
  rw [e]

variable (cmp : Compare) (fmt : BoundaryFormat) (coders : List Name)

theorem rowD_label (p : Name × Name) (l : Name) (c : Codings) :
    rowD cmp fmt (p, (l, c)) = rowD cmp fmt (p, ([], c)) := rfl

theorem jobRow_label (p : Name × Name) (l : Name) (c : Codings) :
    jobRow cmp fmt (p, (l, c)) = jobRow cmp fmt (p, ([], c)) := rfl

theorem repeated_rowsOk (hk : k ≠ 0) (h : Repeated k a b) :
    RowsOk cmp fmt (jobs coders b) ↔ RowsOk cmp fmt (jobs coders a) :=
  repeated_jobs_all hk h coders (fun p c => jobRow cmp fmt (p, ([], c)) = .ok (rowD cmp fmt (p, ([], c))))

theorem repeated_numSum (h : Repeated k a b) :
    numSum cmp fmt (jobs coders b) = k * numSum cmp fmt (jobs coders a) := by
  rw [← nsmul_eq_mul]
  exact repeated_jobs_sum h coders (fun p c => (rowD cmp fmt (p, ([], c))).num.val)

theorem repeated_denSum (h : Repeated k a b) :
    denSum cmp fmt (jobs coders b) = k * denSum cmp fmt (jobs coders a) := by
  rw [← nsmul_eq_mul]
  exact repeated_jobs_sum h coders (fun p c => (rowD cmp fmt (p, ([], c))).den.val)

theorem repeated_pbs (hk : k ≠ 0) (h : Repeated k a b) :
    (∀ j ∈ jobs coders b, (rowD cmp fmt j).pbs ≠ 0) ↔ ∀ j ∈ jobs coders a, (rowD cmp fmt j).pbs ≠ 0 :=
  repeated_jobs_all hk h coders (fun p c => (rowD cmp fmt (p, ([], c))).pbs ≠ 0)

theorem repeated_piAe (hk : k ≠ 0) (h : Repeated k a b) :
    piAe cmp fmt (jobs coders b) = piAe cmp fmt (jobs coders a) := by
  rw [piAe_eq, piAe_eq]
  have h1 := repeated_jobs_sum h coders (fun p c =>
    (((rowD cmp fmt (p, ([], c))).ba + (rowD cmp fmt (p, ([], c))).bb : ℤ) : ℚ) /
      ((rowD cmp fmt (p, ([], c))).pbs : ℚ))
  have h2 : (jobs coders b).length = k * (jobs coders a).length := by
    have := repeated_jobs_sum h coders (fun _ _ => (1 : ℕ))
    simpa using this
  have h3 : ∀ x : List Job, (x.map (fun j => (((rowD cmp fmt j).ba + (rowD cmp fmt j).bb : ℤ) : ℚ) /
      ((rowD cmp fmt j).pbs : ℚ))) = x.map (fun j => (((rowD cmp fmt (j.1, ([], j.2.2))).ba +
        (rowD cmp fmt (j.1, ([], j.2.2))).bb : ℤ) : ℚ) / ((rowD cmp fmt (j.1, ([], j.2.2))).pbs : ℚ)) :=
    fun _ => rfl
  rw [h3, h3, h1, h2, nsmul_eq_mul]
  congr 1
  have hk' : (k : ℚ) ≠ 0 := by exact_mod_cast hk
  push_cast
  rw [mul_left_comm, mul_div_mul_left _ _ hk']

theorem tally_flatMap {α : Type _} (l : List α) (f : α → List (ℤ × ℤ)) :
    tally (l.flatMap f) = ((l.map (fun x => (tally (f x)).1)).sum, (l.map (fun x => (tally (f x)).2)).sum) := by
  induction l with
  | nil => rfl
  | cons x xs ih =>
    simp only [tally, Prod.mk.injEq] at ih ⊢
    simp [List.flatMap_cons, ih.1, ih.2]

theorem repeated_tally (h : Repeated k a b) (c : Name) :
    tallyOf cmp fmt (jobs coders b) c =
      (k * (tallyOf cmp fmt (jobs coders a) c).1, k * (tallyOf cmp fmt (jobs coders a) c).2) := by
  unfold tallyOf
  rw [tally_flatMap, tally_flatMap]
  have h1 := repeated_jobs_sum h coders (fun p cs => (tally (share cmp fmt c (p, ([], cs)))).1)
  have h2 := repeated_jobs_sum h coders (fun p cs => (tally (share cmp fmt c (p, ([], cs)))).2)
  rw [nsmul_eq_mul] at h1 h2
  exact Prod.ext h1 h2

theorem repeated_rate (hk : k ≠ 0) (h : Repeated k a b) (c : Name) :
    rateOf (tallyOf cmp fmt (jobs coders b) c) = rateOf (tallyOf cmp fmt (jobs coders a) c) := by
  rw [repeated_tally cmp fmt coders h]
  have hk' : (k : ℚ) ≠ 0 := by exact_mod_cast hk
  simp only [rateOf]
  push_cast
  rw [mul_div_mul_left _ _ hk']

theorem repeated_kappaAe (hk : k ≠ 0) (h : Repeated k a b) :
    kappaAe cmp fmt coders (jobs coders b) = kappaAe cmp fmt coders (jobs coders a) := by
  unfold kappaAe pairProducts
  rw [combinations2_map, combinations2_map, List.map_map, List.map_map]
  congr 1
  apply List.map_congr_left
  intro p _
  simp only [Function.comp]
  rw [repeated_rate cmp fmt coders hk h, repeated_rate cmp fmt coders hk h]

end

end SegEval
