import Verif.Lemmas.FoldersExact
import Verif.Lemmas.DataHeap
import Verif.Model.JsonText
import Verif.Spec.SaveLoad

/-!
# The same content is a rearrangement
-/

namespace SegEval

open Spec

variable {V W : Type _}

theorem get_iff_mem {α : Type _} {l : List (Name × α)} (h : (l.map Prod.fst).Nodup) {k : Name} {v : α} :
    dictGet l k = some v ↔ (k, v) ∈ l := ⟨dictGet_mem, dictGet_of_mem h⟩

/-- Dicts of dicts with the same items and codings have the same entries in another order. -/
theorem same_rearranged {a b : List (Name × List (Name × V))} (ha : IsDict2 a) (hb : IsDict2 b)
    (hi : ∀ l, HasItem a l ↔ HasItem b l) (h : ∀ l m v, Has a l m v ↔ Has b l m v) :
    ∃ mid, a.Perm mid ∧ List.Forall₂ (fun e e' => e.1 = e'.1 ∧ e.2.Perm e'.2) mid b := by
  refine ⟨b.map (fun e => (e.1, (dictGet a e.1).getD [])), ?_, ?_⟩
  · have n1 : a.Nodup := List.Nodup.of_map Prod.fst ha.1
    have n2 : (b.map (fun e => (e.1, (dictGet a e.1).getD []))).Nodup := by
      apply List.Nodup.of_map Prod.fst
      rw [List.map_map]
      exact hb.1
    rw [List.perm_ext_iff_of_nodup n1 n2]
    rintro ⟨l, cs⟩
    rw [← get_iff_mem ha.1, List.mem_map]
    constructor
    · intro hg
      obtain ⟨cs', hg'⟩ := (hi l).1 ⟨cs, hg⟩
      exact ⟨(l, cs'), dictGet_mem hg', by simp [hg]⟩
    · rintro ⟨⟨l', cs'⟩, hm, he⟩
      simp only [Prod.mk.injEq] at he
      obtain ⟨rfl, rfl⟩ := he
      obtain ⟨cs, hg⟩ := (hi l').2 ⟨cs', dictGet_of_mem hb.1 hm⟩
      rw [hg]
      rfl
  · rw [List.forall₂_map_left_iff, List.forall₂_same]
    rintro ⟨l, cs'⟩ hm
    refine ⟨rfl, ?_⟩
    have hg' := dictGet_of_mem hb.1 hm
    obtain ⟨cs, hg⟩ := (hi l).2 ⟨cs', hg'⟩
    simp only [hg, Option.getD_some]
    have k1 := ha.2 _ (dictGet_mem hg)
    have k2 := hb.2 _ hm
    simp only at k1 k2
    rw [List.perm_ext_iff_of_nodup (List.Nodup.of_map Prod.fst k1) (List.Nodup.of_map Prod.fst k2)]
    rintro ⟨m, v⟩
    rw [← get_iff_mem k1, ← get_iff_mem k2]
    have := h l m v
    unfold Has at this
    simp only [hg, hg', Option.some.injEq, exists_eq_left'] at this
    exact this

theorem asDataset_rearranged {x y : DS (List ℤ)} (hx : IsDict2 x.items) (hy : IsDict2 y.items)
    (hi : ∀ l, HasItem x.items l ↔ HasItem y.items l) (h : ∀ l m v, Has x.items l m v ↔ Has y.items l m v) :
    Rearranged (asDataset x).items (asDataset y).items := by
  obtain ⟨mid, h1, h2⟩ := same_rearranged hx hy hi h
  refine ⟨_, h1.map _, ?_⟩
  simp only [asDataset]
  rw [List.forall₂_map_left_iff, List.forall₂_map_right_iff]
  exact h2.imp (fun e e' he => ⟨he.1, he.2.map _⟩)

theorem asDataset_dict {x : DS (List ℤ)} (hx : IsDict2 x.items) : IsDict (asDataset x).items := by
  constructor
  · simp only [asDataset, List.map_map]
    exact hx.1
  · intro e he
    simp only [asDataset] at he
    obtain ⟨it, hm, rfl⟩ := List.mem_map.1 he
    simp only [List.map_map]
    exact hx.2 _ hm

theorem has_map (f : V → W) (l : List (Name × List (Name × V))) (label m : Name) (w : W) :
    Has (l.map (fun it => (it.1, it.2.map (fun c => (c.1, f c.2))))) label m w ↔
      ∃ v, Has l label m v ∧ w = f v := by
  unfold Has
  simp only [dictGet_map (fun c : List (Name × V) => c.map (fun c => (c.1, f c.2))), Option.map_eq_some_iff]
  constructor
  · rintro ⟨cs, ⟨cs', h1, rfl⟩, h2⟩
    rw [dictGet_map, Option.map_eq_some_iff] at h2
    obtain ⟨v, h3, rfl⟩ := h2
    exact ⟨v, ⟨cs', h1, h3⟩, rfl⟩
  · rintro ⟨v, ⟨cs, h1, h2⟩, rfl⟩
    exact ⟨_, ⟨cs, h1, rfl⟩, by rw [dictGet_map, h2]; rfl⟩

theorem hasItem_map (f : V → W) (l : List (Name × List (Name × V))) (label : Name) :
    HasItem (l.map (fun it => (it.1, it.2.map (fun c => (c.1, f c.2))))) label ↔ HasItem l label := by
  unfold HasItem
  simp only [dictGet_map (fun c : List (Name × V) => c.map (fun c => (c.1, f c.2))), Option.map_eq_some_iff]
  constructor
  · rintro ⟨_, cs, h, _⟩; exact ⟨cs, h⟩
  · rintro ⟨cs, h⟩; exact ⟨_, cs, h, rfl⟩

theorem coded_asDataset (x : DS (List ℤ)) (label m : Name) (s : Seg) :
    Coded (asDataset x).items label m s ↔
      ∃ v, Has x.items label m v ∧ s = .ints true (v.map (fun m => ⟨m, 0⟩)) :=
  has_map (fun v : List ℤ => Seg.ints true (v.map (fun m => ⟨m, 0⟩))) x.items label m s

/-- A dataset whose codings are all integers. -/
theorem exists_asLoaded {r : DS (List JVal)} (hr : IsDict2 r.items)
    (h : ∀ l m t, Has r.items l m t → ∃ v : List ℤ, t = v.map .num) : ∃ y, r = asLoaded y := by
  classical
  have key : ∀ l : List (Name × List (Name × List JVal)),
      (∀ e ∈ l, ∀ c ∈ e.2, ∃ v : List ℤ, c.2 = v.map .num) →
      ∃ l' : List (Name × List (Name × List ℤ)),
        l = l'.map (fun it => (it.1, it.2.map (fun c => (c.1, c.2.map .num)))) := by
    have inner : ∀ cs : List (Name × List JVal), (∀ c ∈ cs, ∃ v : List ℤ, c.2 = v.map .num) →
        ∃ cs' : List (Name × List ℤ), cs = cs'.map (fun c => (c.1, c.2.map .num)) := by
      intro cs
      induction cs with
      | nil => intro _; exact ⟨[], rfl⟩
      | cons c cs ih =>
        intro h
        obtain ⟨v, hv⟩ := h c (List.mem_cons_self ..)
        obtain ⟨cs', hc⟩ := ih (fun c hc => h c (List.mem_cons_of_mem _ hc))
        exact ⟨(c.1, v) :: cs', by rw [List.map_cons, ← hc, ← hv]⟩
    intro l
    induction l with
    | nil => intro _; exact ⟨[], rfl⟩
    | cons e l ih =>
      intro h
      obtain ⟨cs, hcs⟩ := inner e.2 (h e (List.mem_cons_self ..))
      obtain ⟨l', hl⟩ := ih (fun e he => h e (List.mem_cons_of_mem _ he))
      exact ⟨(e.1, cs) :: l', by rw [List.map_cons, ← hl, ← hcs]⟩
  obtain ⟨l', hl⟩ := key r.items (fun e he c hc =>
    h e.1 c.1 c.2 ⟨e.2, dictGet_of_mem hr.1 he, dictGet_of_mem (hr.2 e he) hc⟩)
  refine ⟨⟨l', r.coders, r.properties, r.boundaryTypes, r.boundaryFormat⟩, ?_⟩
  cases r
  simp only [asLoaded] at hl ⊢
  rw [hl]

theorem nums_inj {v w : List ℤ} (h : v.map (JV.num (α := Char)) = w.map (JV.num (α := Char))) : v = w :=
  List.map_injective_iff.2 (fun a b h => by cases h; rfl) h

theorem asLoaded_dict {y : DS (List ℤ)} : IsDict2 (asLoaded y).items ↔ IsDict2 y.items := by
  unfold IsDict2 asLoaded
  simp only [List.map_map, List.forall_mem_map]
  rfl

theorem has_asLoaded (y : DS (List ℤ)) (l m : Name) (t : List JVal) :
    Has (asLoaded y).items l m t ↔ ∃ v, Has y.items l m v ∧ t = v.map .num :=
  has_map (List.map (JV.num (α := Char))) y.items l m t

theorem hasItem_asLoaded (y : DS (List ℤ)) (l : Name) : HasItem (asLoaded y).items l ↔ HasItem y.items l :=
  hasItem_map (List.map (JV.num (α := Char))) y.items l

/-! ## Listing orders -/

theorem relisted_tsv {l l' : List FsEntry} (h : Relisted l l') (u : Unicode) (path : Name) :
    Shuffle (readTsvAll u path l) (readTsvAll u path l') := by
  induction h generalizing path with
  | nil => simp only [readTsvAll]; exact .nil
  | file name text _ ih => simp only [readTsvAll, readTsv]; exact .file _ _ (ih path)
  | dir name _ _ ih1 ih2 => simp only [readTsvAll, readTsv]; exact .dir _ (ih1 _) (ih2 path)
  | swap a b l => simp only [readTsvAll]; exact .swap ..
  | trans _ _ ih1 ih2 => exact .trans (ih1 path) (ih2 path)

theorem relisted_json {l l' : List FsEntry} (h : Relisted l l') (F : Floats) :
    Shuffle (readJsonAll F l) (readJsonAll F l') := by
  induction h with
  | nil => simp only [readJsonAll]; exact .nil
  | file name text _ ih => simp only [readJsonAll, readJson]; exact .file _ _ ih
  | dir name _ _ ih1 ih2 => simp only [readJsonAll, readJson]; exact .dir _ ih1 ih2
  | swap a b l => simp only [readJsonAll]; exact .swap ..
  | trans _ _ ih1 ih2 => exact .trans ih1 ih2

end SegEval
