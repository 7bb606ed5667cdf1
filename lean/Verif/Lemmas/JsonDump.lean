import Verif.Lemmas.JsonParse
import Verif.Lemmas.DataHistory
import Verif.Lemmas.DataJson

/-!
# What is written is read, whatever the line ends
-/

namespace SegEval

open Spec

/-! ## Writing -/

theorem gap_newline (level : ℕ) : Gap (newline level) := by
  intro c hc
  unfold newline at hc
  rcases List.mem_cons.1 hc with rfl | hc
  · decide
  · rw [List.eq_of_mem_replicate hc]; decide

theorem gap_space : Gap [' '] := by
  intro c hc
  rw [List.mem_singleton.1 hc]; decide

theorem intLit_repr (n : ℤ) : IntLit (intRepr n) n := by
  unfold intRepr
  refine ⟨n.natAbs, ?_⟩
  split_ifs with h
  · exact Or.inr ⟨rfl, by omega⟩
  · exact Or.inl ⟨rfl, by omega⟩

mutual
theorem dump_text (F : Floats) (level : ℕ) : ∀ v : JVal, PyJson F v → JText F (dumpJson level v) v
  | .null, _ => .null
  | .bool true, _ => .true
  | .bool false, _ => .false
  | .num n, _ => .int (intLit_repr n)
  | .float r, h => by
    cases h with
    | float h =>
      rcases h with ⟨h1, h2⟩ | h
      · have := JTextOf.float (B := StringBody) (F := F) h1
        rw [h2] at this
        exact this
      · exact .word h
  | .str s, _ => .str (dumpString_body s)
  | .arr [], _ => .emptyArr gap_nil
  | .arr (v :: l), h => by
    cases h with
    | arr h =>
      cases h with
      | cons h1 h2 =>
        have := JTextOf.arr (dump_elems F (level + 1) l h2 (dump_text F (level + 1) v h1) (gap_newline level))
        unfold dumpJson
        simpa [List.append_assoc] using this
  | .obj [], _ => .emptyObj gap_nil
  | .obj ((k, v) :: l), h => by
    cases h with
    | obj hn h =>
      cases h with
      | cons h1 h2 =>
        have := JTextOf.obj (dump_members F (level + 1) l h2 k (dump_text F (level + 1) v h1) (gap_newline level))
        rw [dictUpdate_nil hn] at this
        unfold dumpJson
        simpa [dumpString, List.append_assoc] using this
theorem dump_elems (F : Floats) (level : ℕ) : ∀ l : List JVal, PyElems F l → ∀ {t g : Name} {v : JVal},
    JText F t v → Gap g → JElems F (newline level ++ t ++ dumpElems level l ++ g) (v :: l)
  | [], _, t, g, v, hv, hg => by
    have := JElemsOf.one (gap_newline level) hv hg
    unfold dumpElems
    simpa [List.append_assoc] using this
  | x :: l, h, t, g, v, hv, hg => by
    cases h with
    | cons h1 h2 =>
      have := JElemsOf.more (gap_newline level) hv gap_nil (dump_elems F level l h2 (dump_text F level x h1) hg)
      unfold dumpElems
      simpa [List.append_assoc] using this
theorem dump_members (F : Floats) (level : ℕ) : ∀ l : List (Name × JVal), PyEntries F l →
    ∀ (k : Name) {t g : Name} {v : JVal}, JText F t v → Gap g →
    JMembers F (newline level ++ dumpString k ++ ':' :: ' ' :: t ++ dumpMembers level l ++ g) ((k, v) :: l)
  | [], _, k, t, g, v, hv, hg => by
    have := JMembersOf.one (gap_newline level) (dumpString_body k) gap_nil gap_space hv hg
    unfold dumpMembers
    simpa [dumpString, List.append_assoc] using this
  | (k', x) :: l, h, k, t, g, v, hv, hg => by
    cases h with
    | cons h1 h2 =>
      have := JMembersOf.more (gap_newline level) (dumpString_body k) gap_nil gap_space hv
        gap_nil (dump_members F level l h2 k' (dump_text F level x h1) hg)
      unfold dumpMembers
      simpa [dumpString, List.append_assoc] using this
end

end SegEval
