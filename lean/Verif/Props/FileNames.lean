import Verif.Spec.Text
import Verif.Spec.Data

/-!
# C83: file names
-/

namespace SegEval.Props

open SegEval Spec

theorem lastDot_none {s : Name} : lastDot s = none ↔ '.' ∉ s := by
  induction s with
  | nil => simp [lastDot]
  | cons c cs ih =>
    rw [lastDot]
    cases h : lastDot cs with
    | none =>
      have := ih.1 h
      by_cases hc : c = '.'
      · simp [hc]
      · simp [hc, this, Ne.symm hc]
    | some k =>
      have : ¬ '.' ∉ cs := fun hn => by rw [ih.2 hn] at h; cases h
      simp only [reduceCtorEq, List.mem_cons, false_iff]
      tauto

theorem lastDot_some {s : Name} {k : ℕ} : lastDot s = some k ↔
    ∃ ext, s = s.take k ++ '.' :: ext ∧ '.' ∉ ext ∧ k < s.length := by
  induction s generalizing k with
  | nil => simp [lastDot]
  | cons c cs ih =>
    rw [lastDot]
    cases h : lastDot cs with
    | none =>
      have hn := lastDot_none.1 h
      by_cases hc : c = '.'
      · subst hc
        simp only [if_true, Option.some.injEq]
        constructor
        · rintro rfl; exact ⟨cs, by simp, hn, by simp⟩
        · rintro ⟨ext, he, _, hk⟩
          cases k with
          | zero => rfl
          | succ k =>
            simp only [List.take_succ_cons, List.cons_append, List.cons.injEq, true_and] at he
            exact absurd (by rw [he]; simp) hn
      · simp only [if_neg hc, reduceCtorEq, false_iff, not_exists]
        rintro ext ⟨he, _, _⟩
        cases k with
        | zero =>
          simp only [List.take_zero, List.nil_append, List.cons.injEq] at he
          exact hc he.1
        | succ k =>
          simp only [List.take_succ_cons, List.cons_append, List.cons.injEq, true_and] at he
          exact absurd (by rw [he]; simp) hn
    | some j =>
      obtain ⟨ext, he, hx, hj⟩ := ih.1 h
      simp only [Option.some.injEq]
      constructor
      · rintro rfl
        refine ⟨ext, ?_, hx, by simp; omega⟩
        rw [List.take_succ_cons, List.cons_append, ← he]
      · rintro ⟨ext', he', hx', hk⟩
        cases k with
        | zero =>
          exfalso
          simp only [List.take_zero, List.nil_append, List.cons.injEq] at he'
          apply hx'
          rw [← he'.2, he]
          simp
        | succ k =>
          simp only [List.take_succ_cons, List.cons_append, List.cons.injEq, true_and] at he'
          have := ih.2 ⟨ext', he', hx', by simpa using hk⟩
          rw [h] at this
          exact congrArg (· + 1) (Option.some.inj this)

theorem splitExt_some {name stem ext : Name} (h : HasExtension name stem ext) :
    splitExt name = (stem, '.' :: ext) := by
  obtain ⟨rfl, hx, c, hc, hne⟩ := h
  have hk : lastDot (stem ++ '.' :: ext) = some stem.length :=
    lastDot_some.2 ⟨ext, by simp, hx, by simp⟩
  unfold splitExt
  rw [hk]
  simp only [List.take_left', List.drop_left']
  rw [if_neg]
  intro hall
  rw [List.all_eq_true] at hall
  exact hne (by simpa using hall c hc)

theorem splitExt_none {name : Name} (h : ∀ stem ext, ¬ HasExtension name stem ext) :
    splitExt name = (name, []) := by
  unfold splitExt
  cases hk : lastDot name with
  | none => rfl
  | some k =>
    simp only
    rw [if_pos]
    by_contra hall
    obtain ⟨ext, he, hx, _⟩ := lastDot_some.1 hk
    apply h (name.take k) ext
    refine ⟨he, hx, ?_⟩
    rw [List.all_eq_true] at hall
    push Not at hall
    obtain ⟨c, hc, hne⟩ := hall
    exact ⟨c, hc, by simpa using hne⟩

/-- C83: a name has at most one extension. -/
theorem extension_unique {name stem ext stem' ext' : Name} (h : HasExtension name stem ext)
    (h' : HasExtension name stem' ext') : stem = stem' ∧ ext = ext' := by
  have := (splitExt_some h).symm.trans (splitExt_some h')
  simpa using this

theorem baseName_iff (path name : Name) : baseName path = name ↔ LastPart path name := by
  have hsplit : ∀ path : Name, ∃ x xs, splitOnChar '/' path = x :: xs ∧
      LastPart path ((x :: xs).getLast (by simp)) := by
    intro path
    induction path with
    | nil => exact ⟨[], [], rfl, by simp [LastPart]⟩
    | cons c cs ih =>
      obtain ⟨x, xs, he, hn, hp⟩ := ih
      rw [splitOnChar]
      by_cases hc : c = '/'
      · subst hc
        rw [if_pos rfl, he]
        refine ⟨[], x :: xs, rfl, ?_, ?_⟩
        · rw [List.getLast_cons (by simp)]; exact hn
        · right
          rw [List.getLast_cons (by simp)]
          rcases hp with hp | ⟨folder, hp⟩
          · exact ⟨[], by rw [← hp]; rfl⟩
          · exact ⟨'/' :: folder, by rw [hp]; simp⟩
      · rw [if_neg hc, he]
        refine ⟨c :: x, xs, rfl, ?_⟩
        cases xs with
        | nil =>
          simp only [List.getLast_singleton] at hn hp ⊢
          refine ⟨by simp [hn, Ne.symm hc], ?_⟩
          rcases hp with hp | ⟨folder, hp⟩
          · left; rw [hp]
          · exfalso
            have : splitOnChar '/' cs = [x] := he
            -- a slash would make two parts
            have two : ∀ (a b : Name), 2 ≤ (splitOnChar '/' (a ++ '/' :: b)).length := by
              intro a b
              have pos : ∀ s : Name, 1 ≤ (splitOnChar '/' s).length := by
                intro s
                cases s with
                | nil => simp [splitOnChar]
                | cons y ys =>
                  rw [splitOnChar]
                  split_ifs
                  · simp
                  · split <;> simp
              induction a with
              | nil => simp only [List.nil_append, splitOnChar, if_true, List.length_cons]; have := pos b; omega
              | cons y ys ih' =>
                rw [List.cons_append, splitOnChar]
                split_ifs
                · rw [List.length_cons]; omega
                · split
                  · rename_i heq; rw [heq] at ih'; simp at ih'
                  · rename_i heq; rw [heq] at ih'; simpa using ih'
            have := two folder x
            rw [← hp, he] at this
            simp at this
        | cons y ys =>
          rw [List.getLast_cons (by simp)] at hn hp ⊢
          refine ⟨hn, Or.inr ?_⟩
          rcases hp with hp | ⟨folder, hp⟩
          · exfalso
            -- no slash, so one part
            have one : ∀ s : Name, '/' ∉ s → (splitOnChar '/' s).length = 1 := by
              intro s hs
              induction s with
              | nil => rfl
              | cons z zs ih' =>
                have hz : z ≠ '/' := by rintro rfl; simp at hs
                have := ih' (fun h => hs (by simp [h]))
                rw [splitOnChar, if_neg hz]
                split
                · simp
                · rename_i heq; rw [heq] at this; simpa using this
            have := one cs (by rw [hp]; exact hn)
            rw [he] at this
            simp at this
          · exact ⟨c :: folder, by rw [hp]; rfl⟩
  have huniq : ∀ a b, LastPart path a → LastPart path b → a = b := by
    rintro a b ⟨ha, ha'⟩ ⟨hb, hb'⟩
    rcases ha' with rfl | ⟨f, rfl⟩
    · rcases hb' with rfl | ⟨g, rfl⟩
      · rfl
      · simp at ha
    · rcases hb' with rfl | ⟨g, hg⟩
      · simp at hb
      · clear hsplit
        induction f generalizing g with
        | nil =>
          cases g with
          | nil => simpa using hg
          | cons y ys =>
            simp only [List.nil_append, List.cons_append, List.cons.injEq] at hg
            exact absurd (by rw [hg.2]; simp) ha
        | cons z zs ih =>
          cases g with
          | nil =>
            simp only [List.nil_append, List.cons_append, List.cons.injEq] at hg
            exact absurd (by rw [← hg.2]; simp) hb
          | cons y ys =>
            simp only [List.cons_append, List.cons.injEq] at hg
            exact ih ys hg.2
  obtain ⟨x, xs, he, hl⟩ := hsplit path
  have hb : baseName path = (x :: xs).getLast (by simp) := by
    unfold baseName
    split
    · rename_i heq; rw [he] at heq; cases heq
    · rename_i a b heq
      rw [he] at heq
      cases heq
      rfl
  rw [hb]
  constructor
  · rintro rfl; exact hl
  · intro h; exact huniq _ _ hl h

/-- C83: the name made from a path is the last part of the path without its extension, and without
change when it has none (no dot, or only leading dots). -/
theorem C83_name (path item : Name) : nameFromFilepath path = item ↔
    ∃ name, LastPart path name ∧
      ((∃ ext, HasExtension name item ext) ∨ ((∀ stem ext, ¬ HasExtension name stem ext) ∧ item = name)) := by
  have hstem : ∀ {name stem ext : Name}, HasExtension name stem ext → 0 < stem.length := by
    rintro name stem ext ⟨_, _, c, hc, _⟩
    exact List.length_pos_of_mem hc
  have hval : ∀ name, LastPart path name → (∀ stem ext, HasExtension name stem ext →
      nameFromFilepath path = stem) ∧ ((∀ stem ext, ¬ HasExtension name stem ext) →
      nameFromFilepath path = name) := by
    intro name hl
    have hb := (baseName_iff path name).2 hl
    refine ⟨?_, ?_⟩
    · intro stem ext h
      unfold nameFromFilepath
      simp only [hb, splitExt_some h]
      rw [if_pos (hstem h)]
    · intro h
      unfold nameFromFilepath
      simp only [hb, splitExt_none h, ite_self]
  have hlast := (baseName_iff path (baseName path)).1 rfl
  constructor
  · rintro rfl
    refine ⟨_, hlast, ?_⟩
    by_cases h : ∃ stem ext, HasExtension (baseName path) stem ext
    · obtain ⟨stem, ext, h⟩ := h
      left
      rw [(hval _ hlast).1 stem ext h]
      exact ⟨ext, h⟩
    · right
      push Not at h
      exact ⟨h, (hval _ hlast).2 h⟩
  · rintro ⟨name, hl, ⟨ext, h⟩ | ⟨h, rfl⟩⟩
    · exact (hval name hl).1 item ext h
    · exact (hval item hl).2 h

/-- C83: the folder loader takes exactly the files with one of the extensions of the file type, in
upper or lower case. -/
theorem C83_loaded (t : FileType) (name : Name) : Matches t.accepts name ↔
    ∃ stem ext, HasExtension name stem ext ∧ ext.map Char.toLower ∈
      (match t with | .tsv => ["tsv".toList, "csv".toList] | .json => ["json".toList, "jsn".toList]) := by
  unfold Matches
  constructor
  · rintro ⟨h1, h2⟩
    by_cases h : ∃ stem ext, HasExtension name stem ext
    · obtain ⟨stem, ext, h⟩ := h
      refine ⟨stem, ext, h, ?_⟩
      rw [splitExt_some h] at h2
      simp only [FileType.accepts, decide_eq_true_eq, List.map_cons] at h2
      have hd : Char.toLower '.' = '.' := by decide
      rw [hd] at h2
      cases t
      · simpa [FileType.extensions] using h2
      · simpa [FileType.extensions] using h2
    · push Not at h
      rw [splitExt_none h] at h1
      simp at h1
  · rintro ⟨stem, ext, h, hm⟩
    rw [splitExt_some h]
    refine ⟨by simp, ?_⟩
    have hd : Char.toLower '.' = '.' := by decide
    simp only [FileType.accepts, decide_eq_true_eq, List.map_cons, hd]
    cases t
    · simpa [FileType.extensions] using hm
    · simpa [FileType.extensions] using hm

/-- Names with an extension, with several dots, with leading dots, and with a folder. -/
example : HasExtension "a.b.TSV".toList "a.b".toList "TSV".toList ∧
    Matches FileType.tsv.accepts "a.b.TSV".toList ∧ ¬ Matches FileType.tsv.accepts ".tsv".toList ∧
    nameFromFilepath "x.y/talk.tsv".toList = "talk".toList ∧
    nameFromFilepath "x.y/talk".toList = "talk".toList ∧ nameFromFilepath "..tsv".toList = "..tsv".toList := by
  refine ⟨⟨rfl, by decide, 'a', by decide, by decide⟩, by decide +kernel, by decide +kernel,
    by decide +kernel, by decide +kernel, by decide +kernel⟩

end SegEval.Props
