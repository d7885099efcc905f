import Verif.Model.Hash
import Verif.Props.Name
import Verif.Props.Strings
/-!
# C113: names as hash keys
-/
set_option linter.unusedSectionVars false
namespace Bongo
open Std

theorem utf8_no_ff (s : List Char) : ∀ b ∈ utf8 s, b ≠ 0xFF := by
  intro b hb
  simp only [utf8, List.mem_flatMap] at hb
  obtain ⟨c, -, hb⟩ := hb
  have hc : c.val.toNat < 1114112 := by
    have := c.valid; rw [UInt32.isValidChar, Nat.isValidChar] at this; omega
  have : b.toNat < 0xFF := by
    revert hb
    simp only [String.utf8EncodeChar]
    generalize c.val.toNat = m at *
    split_ifs <;>
      simp only [List.mem_cons, List.not_mem_nil, or_false] <;>
      intro hb <;> rcases hb with rfl | rfl | rfl | rfl <;>
      simp only [UInt8.toNat_ofNat', Nat.reducePow] <;> omega
  rintro rfl
  exact absurd this (by decide)

theorem utf8_inj {s t : List Char} (h : utf8 s = utf8 t) : s = t := by
  rw [← strCmp_lawful.2]
  unfold strCmp
  rw [h]
  exact ReflCmp.compare_self (cmp := List.compareLex (compare (α := UInt8)))

theorem split_ff : ∀ {s t r u : List UInt8}, (∀ b ∈ s, b ≠ 0xFF) → (∀ b ∈ t, b ≠ 0xFF) →
    s ++ 0xFF :: r = t ++ 0xFF :: u → s = t ∧ r = u
  | [], [], _, _, _, _, h => ⟨rfl, (List.cons.inj h).2⟩
  | [], b :: _, _, _, _, ht, h => absurd (List.cons.inj h).1.symm (ht b (List.mem_cons_self ..))
  | a :: _, [], _, _, hs, _, h => absurd (List.cons.inj h).1 (hs a (List.mem_cons_self ..))
  | a :: s, b :: t, _, _, hs, ht, h => by
    obtain ⟨rfl, h'⟩ := List.cons.inj h
    clear h
    obtain ⟨rfl, rfl⟩ := split_ff (fun x hx => hs x (List.mem_cons_of_mem _ hx))
      (fun x hx => ht x (List.mem_cons_of_mem _ hx)) h'
    exact ⟨rfl, rfl⟩

/-- C113: what a sequence of names feeds to a hasher, followed by anything, determines the names; so equal
names feed the same and different names, alone or in tuples, lists and structs, different bytes. -/
theorem name_hash (ns ms : List Name) (hl : ns.length = ms.length) (r u : List UInt8) :
    ns.flatMap Name.hashFeed ++ r = ms.flatMap Name.hashFeed ++ u ↔ ns = ms ∧ r = u := by
  constructor
  · induction ns generalizing ms with
    | nil => cases ms with
      | nil => simp
      | cons => simp at hl
    | cons n ns ih => cases ms with
      | nil => simp at hl
      | cons m ms =>
        intro h
        simp only [List.flatMap_cons, Name.hashFeed, hashStr, List.append_assoc, List.cons_append,
          List.nil_append] at h
        obtain ⟨h1, h2⟩ := split_ff (utf8_no_ff _) (utf8_no_ff _) h
        obtain ⟨rfl, rfl⟩ := ih ms (by simpa using hl) h2
        exact ⟨by rw [String.toList_inj.1 (utf8_inj h1)], rfl⟩
  · rintro ⟨rfl, rfl⟩; rfl

/-- C113: the same for lists of any lengths, with nothing after them. -/
theorem name_hash_lists (ns ms : List Name) :
    ns.flatMap Name.hashFeed = ms.flatMap Name.hashFeed ↔ ns = ms := by
  refine ⟨fun h => ?_, fun h => by rw [h]⟩
  have hc : ∀ l : List Name, (l.flatMap Name.hashFeed).count 0xFF = l.length := by
    intro l
    induction l with
    | nil => rfl
    | cons n l ih =>
      rw [List.flatMap_cons, List.count_append, ih, Name.hashFeed, hashStr, List.count_append,
        List.count_eq_zero.2 (fun hm => utf8_no_ff _ _ hm rfl)]
      simp [Nat.add_comm]
  have hl : ns.length = ms.length := by rw [← hc, ← hc, h]
  exact ((name_hash ns ms hl [] []).1 (by rw [h])).1

/-- C113: terminals and nonterminals hash as their names, and `WasChanged` by its two values. -/
theorem symbol_hash (a b : Terminal) (c d : NonTerminal) (x y : WasChanged) :
    (a.hashFeed = b.hashFeed ↔ a = b) ∧ (c.hashFeed = d.hashFeed ↔ c = d) ∧
    (a.hashFeed = c.hashFeed ↔ a.name = c.name) ∧ (x.hashFeed = y.hashFeed ↔ x = y) := by
  have h : ∀ n m : Name, Name.hashFeed n = Name.hashFeed m ↔ n = m := by
    intro n m
    have := name_hash_lists [n] [m]
    simpa using this
  refine ⟨?_, ?_, h _ _, ?_⟩
  · cases a; cases b; simpa [Terminal.hashFeed] using h _ _
  · cases c; cases d; simpa [NonTerminal.hashFeed] using h _ _
  · cases x <;> cases y <;> simp [WasChanged.hashFeed]

/-- C113: the hash of a name is that of its text, wherever it is allocated; making a name mutable and
changing it leaves the hash of every other name, clones included, as it was. -/
theorem name_hash_memory (ops : List NameCall) (st : NameState) (h : NameRun ops st) :
    (∀ i j s t, st.str i = some s → st.str j = some t → (st.hashFeed i = st.hashFeed j ↔ s = t)) ∧
    ∀ i b f, st.heap b = none →
      (∀ j, j ≠ i → (st.makeMut i b f).hashFeed j = st.hashFeed j) ∧
      (st.makeMut i b f).hashFeed i = (st.str i).map fun s => Name.hashFeed (f s) := by
  refine ⟨?_, ?_⟩
  · intro i j s t hi hj
    have := name_hash_lists [s] [t]
    simp only [NameState.hashFeed, hi, hj, Option.map_some, Option.some.injEq]
    simpa using this
  · intro i b f hb
    obtain ⟨h1, h2⟩ := name_make_mut ops st h i b hb f
    exact ⟨fun j hj => by rw [NameState.hashFeed, h1 j hj]; rfl,
      by rw [NameState.hashFeed, h2, Option.map_map]; rfl⟩

/-- `"a", "b"` and `"ab", ""` feed different bytes; `é` feeds two bytes and the end mark. -/
example : ["a", "b"].flatMap Name.hashFeed ≠ ["ab", ""].flatMap Name.hashFeed ∧
    Name.hashFeed "é" = [0xC3, 0xA9, 0xFF] := by decide

/-- A name and its clone, then the clone changed. -/
example : ∃ st, NameRun [.new 10 "x", .clone 0, .makeMut 1 11 (· ++ "y")] st ∧
    st.hashFeed 0 = some (Name.hashFeed "x") ∧ st.hashFeed 1 = some (Name.hashFeed "xy") :=
  ⟨_, (((NameRun.init.step (op := .new 10 "x") rfl).step (op := .clone 0) trivial).step
    (op := .makeMut 1 11 (· ++ "y")) rfl), rfl, rfl⟩


/-- C113: a `WasChanged` feeds the eight bytes of the number of its variant, low byte first; so what it
feeds, followed by anything, determines it. -/
theorem wasChanged_hash (a : WasChanged) :
    a.hashFeed.length = 8 ∧
    a.hashFeed.foldr (fun b n => b.toNat + 256 * n) 0 = (if a = .changed then 0 else 1) ∧
    ∀ b r u, a.hashFeed ++ r = WasChanged.hashFeed b ++ u ↔ a = b ∧ r = u := by
  refine ⟨by cases a <;> rfl, by cases a <;> rfl, fun b r u => ⟨fun h => ?_, ?_⟩⟩
  · obtain ⟨h1, h2⟩ := List.append_inj h (by cases a <;> cases b <;> rfl)
    refine ⟨?_, h2⟩
    revert h1
    cases a <;> cases b <;> decide
  · rintro ⟨rfl, rfl⟩
    rfl
end Bongo
