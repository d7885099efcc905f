import Verif.Model.Debug
import Verif.Spec.Fmt
import Verif.Props.Debug
/-!
# C110: the formatting helpers of `utils::fmt`

`listFmt alt items` is what `list_fmt(items)` writes with `{:?}` (`alt = false`) and with `{:#?}`
(`alt = true`); likewise the others.
-/
set_option linter.unusedSectionVars false
namespace Bongo
open Fmt

/-! ## Lines -/

/-- `linesOf` splits a text into lines: it is put together again by joining them with line breaks, and
no line contains one. -/
theorem linesOf_spec (s : List Char) :
    List.intercalate ['\n'] (linesOf s) = s ∧ (∀ l ∈ linesOf s, '\n' ∉ l) ∧ linesOf s ≠ [] := by
  induction s with
  | nil => simp [linesOf, List.intercalate]
  | cons c s ih =>
    obtain ⟨h1, h2, h3⟩ := ih
    obtain ⟨l, ls, hl⟩ := List.exists_cons_of_ne_nil h3
    by_cases hc : c = '\n'
    · subst hc
      refine ⟨?_, ?_, by simp [linesOf]⟩
      · have h4 : List.intercalate ['\n'] ([] :: linesOf s) = '\n' :: List.intercalate ['\n'] (linesOf s) := by
          rw [hl]; simp [List.intercalate, List.intersperse]
        simp [linesOf, h4, h1]
      · intro x hx
        simp only [linesOf, if_true, List.mem_cons] at hx
        rcases hx with rfl | hx
        · simp
        · exact h2 x hx
    · have hlc : linesOf (c :: s) = (c :: l) :: ls := by simp [linesOf, hc, hl]
      rw [hlc]
      rw [hl] at h1 h2
      refine ⟨?_, ?_, by simp⟩
      · cases ls with
        | nil => simpa [List.intercalate] using h1
        | cons m ms => simpa [List.intercalate, List.intersperse] using h1
      · intro x hx
        rcases List.mem_cons.1 hx with rfl | hx
        · intro hm
          rcases List.mem_cons.1 hm with h | h
          · exact hc h.symm
          · exact h2 l (by simp) h
        · exact h2 x (by simp [hx])

theorem pad_lines (s : List Char) :
    pad true (s ++ ['\n']) = indented s ∧
    ∀ l ls, linesOf s = l :: ls → pad false (s ++ ['\n']) = l ++ ['\n'] ++
      ls.flatMap (fun l => [' ', ' ', ' ', ' '] ++ l ++ ['\n']) := by
  induction s with
  | nil =>
    refine ⟨rfl, ?_⟩
    intro l ls h
    simp only [linesOf, List.cons.injEq] at h
    obtain ⟨rfl, rfl⟩ := h
    rfl
  | cons c s ih =>
    obtain ⟨h1, h2⟩ := ih
    obtain ⟨l, ls, hl⟩ := List.exists_cons_of_ne_nil (linesOf_spec s).2.2
    by_cases hc : c = '\n'
    · subst hc
      refine ⟨?_, ?_⟩
      · simp [indented, linesOf, pad, h1]
      · intro l' ls' h
        simp only [linesOf, if_true, List.cons.injEq] at h
        obtain ⟨rfl, rfl⟩ := h
        simp [pad, h1, indented]
    · have hlc : linesOf (c :: s) = (c :: l) :: ls := by simp [linesOf, hc, hl]
      have hb : (c == '\n') = false := by simp [hc]
      refine ⟨?_, ?_⟩
      · simp [indented, hlc, pad, hb, h2 l ls hl]
      · intro l' ls' h
        rw [hlc] at h
        simp only [List.cons.injEq] at h
        obtain ⟨rfl, rfl⟩ := h
        simp [pad, hb, h2 l ls hl]

theorem pad_comma (s : List Char) : pad true (s ++ [',', '\n']) = indented (s ++ [',']) := by
  have := (pad_lines (s ++ [','])).1
  simpa using this

/-! ## The builders -/

theorem intercalate_cons_cons (sep a b : List Char) (l : List (List Char)) :
    List.intercalate sep (a :: b :: l) = a ++ sep ++ List.intercalate sep (b :: l) := by
  simp [List.intercalate, List.intersperse]

theorem entries_oneLine (vs : List (List Char)) :
    (∀ v, entries false true (v :: vs) = [',', ' '] ++ List.intercalate [',', ' '] (v :: vs)) ∧
    entries false false vs = List.intercalate [',', ' '] vs := by
  induction vs with
  | nil => simp [entries, entry, List.intercalate]
  | cons w vs ih =>
    have h2 : entries false false (w :: vs) = List.intercalate [',', ' '] (w :: vs) := by
      cases vs with
      | nil => simp [entries, entry, List.intercalate]
      | cons x vs =>
        rw [intercalate_cons_cons, entries]
        have := ih.1 x
        simp only [entries, entry] at this ⊢
        simpa using this
    refine ⟨fun v => ?_, h2⟩
    rw [intercalate_cons_cons, entries, ih.1 w]
    simp [entry]

theorem entries_manyLines (vs : List (List Char)) :
    entries true true vs = vs.flatMap (fun i => indented (i ++ [','])) := by
  induction vs with
  | nil => rfl
  | cons v vs ih =>
    rw [entries, ih]
    simp [entry, pad_comma]

theorem entries_manyLines_first (v : List Char) (vs : List (List Char)) :
    entries true false (v :: vs) = ['\n'] ++ (v :: vs).flatMap (fun i => indented (i ++ [','])) := by
  rw [entries, entries_manyLines]
  simp [entry, pad_comma]

theorem tupleFields_oneLine (vs : List (List Char)) :
    (∀ v, tupleFields false true (v :: vs) = [',', ' '] ++ List.intercalate [',', ' '] (v :: vs)) ∧
    ∀ v, tupleFields false false (v :: vs) = ['('] ++ List.intercalate [',', ' '] (v :: vs) := by
  induction vs with
  | nil => simp [tupleFields, tupleField, List.intercalate]
  | cons w vs ih =>
    refine ⟨fun v => ?_, fun v => ?_⟩
    · rw [intercalate_cons_cons, tupleFields, ih.1 w]; simp [tupleField]
    · rw [intercalate_cons_cons, tupleFields, ih.1 w]; simp [tupleField]

theorem tupleFields_manyLines (vs : List (List Char)) :
    tupleFields true true vs = vs.flatMap (fun i => indented (i ++ [','])) := by
  induction vs with
  | nil => rfl
  | cons v vs ih =>
    rw [tupleFields, ih]
    simp [tupleField, pad_comma]

/-- The text of a field of a struct. -/
theorem structFields_oneLine (vs : List (List Char × List Char)) :
    (∀ v, structFields false true (v :: vs) =
      [',', ' '] ++ List.intercalate [',', ' '] ((v :: vs).map fun kv => kv.1 ++ [':', ' '] ++ kv.2) ++ [' ', '}']) ∧
    ∀ v, structFields false false (v :: vs) =
      [' ', '{', ' '] ++ List.intercalate [',', ' '] ((v :: vs).map fun kv => kv.1 ++ [':', ' '] ++ kv.2) ++ [' ', '}'] := by
  induction vs with
  | nil => simp [structFields, structField, structFinish, List.intercalate]
  | cons w vs ih =>
    refine ⟨fun v => ?_, fun v => ?_⟩
    · rw [List.map_cons, List.map_cons, intercalate_cons_cons, structFields, ih.1 w]
      simp [structField]
    · rw [List.map_cons, List.map_cons, intercalate_cons_cons, structFields, ih.1 w]
      simp [structField]

theorem structFields_manyLines (vs : List (List Char × List Char)) :
    structFields true true vs =
      (vs.map fun kv => kv.1 ++ [':', ' '] ++ kv.2).flatMap (fun i => indented (i ++ [','])) ++ ['}'] := by
  induction vs with
  | nil => rfl
  | cons v vs ih =>
    rw [structFields, ih]
    have := pad_comma (v.1 ++ [':', ' '] ++ v.2)
    simp only [List.append_assoc, List.cons_append, List.nil_append] at this
    simp [structField, this]

/-! ## C110 -/
section
variable {α : Type} [Dbg α]

/-- C110: `list_fmt`, on one line with `{:?}`, one item after the other with `{:#?}`. -/
theorem list_fmt_text (items : List α) :
    listFmt false items = oneLine ['['] [']'] (items.map (Dbg.fmt false)) ∧
    listFmt true items = if items = [] then ['[', ']'] else manyLines ['['] [']'] (items.map (Dbg.fmt true)) := by
  refine ⟨by simp [listFmt, debugList, oneLine, (entries_oneLine _).2], ?_⟩
  cases items with
  | nil => rfl
  | cons a l =>
    rw [if_neg (by simp)]
    unfold listFmt debugList manyLines
    rw [List.map_cons, entries_manyLines_first, List.append_assoc, List.append_assoc, List.append_assoc,
      List.append_assoc]

/-- C110: `set_fmt`. -/
theorem set_fmt_text (items : List α) :
    setFmt false items = oneLine ['{'] ['}'] (items.map (Dbg.fmt false)) ∧
    setFmt true items = if items = [] then ['{', '}'] else manyLines ['{'] ['}'] (items.map (Dbg.fmt true)) := by
  refine ⟨by simp [setFmt, debugSet, oneLine, (entries_oneLine _).2], ?_⟩
  cases items with
  | nil => rfl
  | cons a l =>
    rw [if_neg (by simp)]
    unfold setFmt debugSet manyLines
    rw [List.map_cons, entries_manyLines_first, List.append_assoc, List.append_assoc, List.append_assoc,
      List.append_assoc]

/-- C110: `tuple_fmt`: only the name if there are no items; and a tuple without a name and with one item
is written like a Rust tuple, with a comma. -/
theorem tuple_fmt_text (name : Name) (items : List α) :
    tupleFmt false name items = (if items = [] then name.toList
      else if name = "" ∧ items.length = 1 then oneLine ['('] [',', ')'] (items.map (Dbg.fmt false))
      else oneLine (name.toList ++ ['(']) [')'] (items.map (Dbg.fmt false))) ∧
    tupleFmt true name items = if items = [] then name.toList
      else manyLines (name.toList ++ ['(']) [')'] (items.map (Dbg.fmt true)) := by
  have hname : name.toList.isEmpty = true ↔ name = "" := by
    rw [List.isEmpty_iff]
    exact ⟨fun h => String.ext (by simpa using h), fun h => by rw [h]; rfl⟩
  cases items with
  | nil => simp [tupleFmt, debugTuple, tupleFields, tupleFinish]
  | cons a l =>
    have hne : a :: l ≠ [] := by simp
    rw [if_neg hne, if_neg hne]
    refine ⟨?_, ?_⟩
    · unfold tupleFmt debugTuple
      rw [List.map_cons, (tupleFields_oneLine _).2]
      by_cases h : name = "" ∧ (a :: l).length = 1
      · rw [if_pos h]
        obtain ⟨h1, h2⟩ := h
        have h3 : l = [] := by simpa using h2
        subst h1 h3
        simp [tupleFinish, oneLine]
      · rw [if_neg h]
        have h4 : ¬ ((Dbg.fmt false a :: l.map (Dbg.fmt false)).length = 1 ∧
            name.toList.isEmpty = true ∧ (false : Bool) = false) := by
          rintro ⟨h5, h6, -⟩
          exact h ⟨hname.1 h6, by simpa using h5⟩
        unfold tupleFinish
        rw [if_neg (by simp), if_neg h4]
        simp [oneLine]
    · unfold tupleFmt debugTuple
      rw [List.map_cons, tupleFields, tupleFields_manyLines]
      simp [tupleField, tupleFinish, manyLines, pad_comma]

/-- C110: `struct_fmt`: only the name if there are no items. -/
theorem struct_fmt_text (name : Name) (items : List (Name × α)) :
    structFmt false name items = (if items = [] then name.toList
      else oneLine (name.toList ++ [' ', '{', ' ']) [' ', '}']
        (items.map fun kv => kv.1.toList ++ [':', ' '] ++ Dbg.fmt false kv.2)) ∧
    structFmt true name items = if items = [] then name.toList
      else manyLines (name.toList ++ [' ', '{']) ['}']
        (items.map fun kv => kv.1.toList ++ [':', ' '] ++ Dbg.fmt true kv.2) := by
  cases items with
  | nil => simp [structFmt, debugStruct, structFields, structFinish]
  | cons a l =>
    rw [if_neg (by simp), if_neg (by simp)]
    unfold structFmt debugStruct
    refine ⟨?_, ?_⟩
    · rw [List.map_cons, (structFields_oneLine _).2]
      simp [oneLine, List.map_map, Function.comp_def]
    · rw [List.map_cons, structFields, structFields_manyLines]
      have := pad_comma (a.1.toList ++ [':', ' '] ++ Dbg.fmt true a.2)
      simp only [List.append_assoc, List.cons_append, List.nil_append] at this
      simp [structField, manyLines, this, List.map_map, Function.comp_def]
end

/-- C110: the `Debug` text of a set of Earley states: its states, in the order in which it is iterated. -/
theorem earleySet_debug {T NT AK AV : Type} [Dbg T] [Dbg NT] (s : EarleyStateSet T NT AK AV) :
    earleySetFmt false s = oneLine ['{'] ['}'] (s.states.map (Dbg.fmt false)) ∧
    earleySetFmt true s = if s.states = [] then ['{', '}']
      else manyLines ['{'] ['}'] (s.states.map (Dbg.fmt true)) := set_fmt_text s.states

/-- Lists, tuples with and without a name, structs, and nesting with `{:#?}`. -/
example : listFmt false [1, 20] = "[1, 20]".toList ∧ setFmt true [1, 20] = "{\n    1,\n    20,\n}".toList ∧
    tupleFmt false "P" [1, 20] = "P(1, 20)".toList ∧ tupleFmt false "" [7] = "(7,)".toList ∧
    structFmt false "P" [("x", 1), ("y", 20)] = "P { x: 1, y: 20 }".toList ∧
    structFmt true "P" [("x", (⟨"a"⟩ : Terminal))] =
      "P {\n    x: Terminal(\n        a,\n    ),\n}".toList ∧
    indented "a\nb".toList = "    a\n    b\n".toList := by decide +kernel

end Bongo
