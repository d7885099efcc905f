import Verif.Spec.Forest
import Verif.Proof.BTree
import Verif.Proof.Utils
/-!
# Lemmas: the contents of one tree
-/
set_option linter.unusedSectionVars false
namespace Bongo
open Std
variable {T AK V : Type} [Ord T] [Ord AK] [Ord V]

/-- The lexicographic comparison of pairs. -/
def pairCmp {A B : Type} [Ord A] [Ord B] (x y : A × B) : Ordering :=
  (compare x.1 y.1).then (compare x.2 y.2)

instance pairCmp_trans {A B : Type} [Ord A] [Ord B] [TransOrd A] [TransOrd B] :
    TransCmp (pairCmp (A := A) (B := B)) :=
  inferInstanceAs (TransCmp (compareLex (compareOn (fun x : A × B => x.1)) (compareOn (fun x : A × B => x.2))))

instance pairCmp_lawful {A B : Type} [Ord A] [Ord B] [LawfulEqOrd A] [LawfulEqOrd B] :
    LawfulEqCmp (pairCmp (A := A) (B := B)) where
  compare_self := by
    intro a
    unfold pairCmp
    rw [ReflCmp.compare_self (cmp := compare), ReflCmp.compare_self (cmp := compare)]; rfl
  eq_of_compare := by
    intro a b h
    unfold pairCmp at h
    rw [Ordering.then_eq_eq] at h
    obtain ⟨a1, a2⟩ := a; obtain ⟨b1, b2⟩ := b
    have h1 : a1 = b1 := LawfulEqCmp.eq_of_compare h.1
    have h2 : a2 = b2 := LawfulEqCmp.eq_of_compare h.2
    rw [h1, h2]

theorem NodeContent.cmp_eq (a b : NodeContent T AK V) : NodeContent.cmp a b =
    match a, b with
    | .leaf k v, .leaf k' v' => pairCmp (k, v) (k', v')
    | .leaf _ _, .branch _ _ => .lt
    | .branch _ _, .leaf _ _ => .gt
    | .branch k v, .branch k' v' => pairCmp (k, v) (k', v') := by
  cases a <;> cases b <;> rfl

instance NodeContent.cmp_trans [TransOrd T] [TransOrd AK] [TransOrd V] :
    TransCmp (NodeContent.cmp (T := T) (AK := AK) (V := V)) where
  eq_swap := by
    intro a b
    simp only [NodeContent.cmp_eq]
    cases a <;> cases b <;> simp only [Ordering.swap] <;>
      exact OrientedCmp.eq_swap (cmp := pairCmp)
  isLE_trans := by
    intro a b c
    simp only [NodeContent.cmp_eq]
    cases a <;> cases b <;> cases c <;> simp only <;>
      first
        | exact TransCmp.isLE_trans (cmp := pairCmp)
        | (intros; simp_all)

instance NodeContent.cmp_lawful [LawfulEqOrd T] [LawfulEqOrd AK] [LawfulEqOrd V] :
    LawfulEqCmp (NodeContent.cmp (T := T) (AK := AK) (V := V)) where
  compare_self := by
    intro a; rw [NodeContent.cmp_eq]; cases a <;> exact ReflCmp.compare_self (cmp := pairCmp)
  eq_of_compare := by
    intro a b h
    rw [NodeContent.cmp_eq] at h
    cases a <;> cases b <;>
      first
        | (cases h; done)
        | (have := LawfulEqCmp.eq_of_compare (cmp := pairCmp) h; simp_all)

namespace Inner
/-- The invariant of a tree. -/
structure WF (i : Inner T AK V) : Prop where
  sorted : BMap.Sorted NodeContent.cmp i.alternatives.valueToId
  ids : ∀ c k, BMap.get? NodeContent.cmp i.alternatives.valueToId c = some k ↔
    i.alternatives.idToValue[k]? = some c
  nodeSorted : ∀ s ∈ i.nodes, BSet.Sorted compare s
  nodeAlts : ∀ s ∈ i.nodes, ∀ a ∈ s, a < i.alternatives.idToValue.length
  branchNodes : ∀ (k : Nat) (a : AK) (ns : List Nat), i.alternatives.idToValue[k]? = some (.branch a ns) →
    ∀ n ∈ ns, n < i.nodes.length

/-- The content of an alternative. -/
def altAt (i : Inner T AK V) (k : Nat) : Option (NodeContent T AK V) := i.alternatives.idToValue[k]?

/-- `a` is an alternative of node `n`. -/
def Has (i : Inner T AK V) (n a : Nat) : Prop := ∃ s, i.nodes[n]? = some s ∧ a ∈ s

/-- `j` is a later state of `i`: nothing is lost. -/
structure Le (i j : Inner T AK V) : Prop where
  alts : ∀ k c, i.altAt k = some c → j.altAt k = some c
  altsLen : i.alternatives.idToValue.length ≤ j.alternatives.idToValue.length
  nodesLen : i.nodes.length ≤ j.nodes.length
  has : ∀ n a, i.Has n a → j.Has n a

theorem Le.refl (i : Inner T AK V) : i.Le i := ⟨fun _ _ h => h, Nat.le_refl _, Nat.le_refl _, fun _ _ h => h⟩
theorem Le.trans {i j k : Inner T AK V} (h : i.Le j) (h' : j.Le k) : i.Le k :=
  ⟨fun a c hh => h'.alts a c (h.alts a c hh), Nat.le_trans h.altsLen h'.altsLen,
    Nat.le_trans h.nodesLen h'.nodesLen, fun n a hh => h'.has n a (h.has n a hh)⟩

theorem wf_new : (Inner.new : Inner T AK V).WF :=
  ⟨List.Pairwise.nil, by simp [new, AltSet.new], by simp [new], by simp [new], by simp [new, AltSet.new]⟩

theorem Has.lt {i : Inner T AK V} {n a : Nat} (h : i.Has n a) : n < i.nodes.length := by
  obtain ⟨s, hs, -⟩ := h
  exact (List.getElem?_eq_some_iff.1 hs).1

theorem Has.alt_lt {i : Inner T AK V} (hw : i.WF) {n a : Nat} (h : i.Has n a) :
    a < i.alternatives.idToValue.length := by
  obtain ⟨s, hs, ha⟩ := h
  exact hw.nodeAlts s (List.mem_of_getElem? hs) a ha

theorem altAt_lt {i : Inner T AK V} {k : Nat} {c} (h : i.altAt k = some c) :
    k < i.alternatives.idToValue.length := (List.getElem?_eq_some_iff.1 h).1

/-- Equal contents have equal ids. -/
theorem WF.altAt_inj {i : Inner T AK V} (hw : i.WF) {k k' : Nat} {c} (h : i.altAt k = some c)
    (h' : i.altAt k' = some c) : k = k' := by
  have h1 := (hw.ids c k).2 h
  have h2 := (hw.ids c k').2 h'
  rw [h1] at h2
  injection h2

/-! ### make_node -/
@[simp] theorem makeNode_snd (i : Inner T AK V) : i.makeNode.2 = i.nodes.length := rfl
@[simp] theorem makeNode_alternatives (i : Inner T AK V) :
    i.makeNode.1.alternatives = i.alternatives := rfl
@[simp] theorem makeNode_altAt (i : Inner T AK V) (k) : i.makeNode.1.altAt k = i.altAt k := rfl
@[simp] theorem makeNode_nodes (i : Inner T AK V) : i.makeNode.1.nodes = i.nodes ++ [[]] := rfl

theorem makeNode_has {i : Inner T AK V} {n a : Nat} : i.makeNode.1.Has n a ↔ i.Has n a := by
  unfold Has
  simp only [makeNode_nodes, List.getElem?_append]
  constructor
  · rintro ⟨s, hs, ha⟩
    split at hs
    · exact ⟨s, hs, ha⟩
    · have : s = [] := by
        rw [List.getElem?_singleton] at hs
        split at hs
        · simpa using hs.symm
        · cases hs
      subst this; cases ha
  · rintro ⟨s, hs, ha⟩
    have := (List.getElem?_eq_some_iff.1 hs).1
    exact ⟨s, by rw [if_pos this]; exact hs, ha⟩

theorem makeNode_le (i : Inner T AK V) : i.Le i.makeNode.1 :=
  ⟨fun _ _ h => h, Nat.le_refl _, by simp, fun n a h => makeNode_has.2 h⟩

theorem makeNode_wf {i : Inner T AK V} (hw : i.WF) : i.makeNode.1.WF where
  sorted := hw.sorted
  ids := hw.ids
  nodeSorted := by
    intro s hs
    simp only [makeNode_nodes, List.mem_append, List.mem_singleton] at hs
    rcases hs with h | rfl
    · exact hw.nodeSorted s h
    · exact List.Pairwise.nil
  nodeAlts := by
    intro s hs
    simp only [makeNode_nodes, List.mem_append, List.mem_singleton] at hs
    rcases hs with h | rfl
    · exact hw.nodeAlts s h
    · simp
  branchNodes := by
    intro k a ns h n hn
    have := hw.branchNodes k a ns h n hn
    simp; omega

/-! ### make_alt -/
section
variable [TransOrd T] [TransOrd AK] [TransOrd V] [LawfulEqOrd T] [LawfulEqOrd AK] [LawfulEqOrd V]

@[simp] theorem makeAlt_nodes (i : Inner T AK V) (c) : (i.makeAlt c).1.nodes = i.nodes := rfl

/-- Interning: either the content was there and nothing changes, or it is appended. -/
theorem makeAlt_cases {i : Inner T AK V} (hw : i.WF) (c : NodeContent T AK V) :
    (i.altAt (i.makeAlt c).2 = some c ∧ (i.makeAlt c).1 = i) ∨
    ((∀ k, i.altAt k ≠ some c) ∧ (i.makeAlt c).2 = i.alternatives.idToValue.length ∧
      (i.makeAlt c).1.alternatives.idToValue = i.alternatives.idToValue ++ [c] ∧
      (i.makeAlt c).1.alternatives.valueToId =
        BMap.insert NodeContent.cmp i.alternatives.valueToId c i.alternatives.idToValue.length) := by
  unfold makeAlt AltSet.add
  cases h : BMap.get? NodeContent.cmp i.alternatives.valueToId c with
  | some k => left; exact ⟨(hw.ids c k).1 h, rfl⟩
  | none =>
    right
    refine ⟨?_, rfl, rfl, rfl⟩
    intro k hk
    rw [(hw.ids c k).2 hk] at h
    cases h

theorem makeAlt_altAt {i : Inner T AK V} (hw : i.WF) (c : NodeContent T AK V) (k : Nat)
    (c' : NodeContent T AK V) :
    (i.makeAlt c).1.altAt k = some c' ↔ i.altAt k = some c' ∨ (k = (i.makeAlt c).2 ∧ c' = c) := by
  rcases makeAlt_cases hw c with ⟨h1, h2⟩ | ⟨h1, h2, h3, -⟩
  · rw [h2]
    constructor
    · exact Or.inl
    · rintro (h | ⟨rfl, rfl⟩)
      · exact h
      · exact h1
  · rw [h2]
    unfold altAt
    rw [h3, List.getElem?_append]
    split
    · next hlt =>
      constructor
      · exact Or.inl
      · rintro (h | ⟨rfl, -⟩)
        · exact h
        · omega
    · next hge =>
      rw [List.getElem?_singleton]
      constructor
      · intro h
        split at h
        · right; exact ⟨by omega, by simpa using h.symm⟩
        · cases h
      · rintro (h | ⟨rfl, rfl⟩)
        · have := (List.getElem?_eq_some_iff.1 h).1; omega
        · simp

theorem makeAlt_self {i : Inner T AK V} (hw : i.WF) (c : NodeContent T AK V) :
    (i.makeAlt c).1.altAt (i.makeAlt c).2 = some c := (makeAlt_altAt hw c _ _).2 (Or.inr ⟨rfl, rfl⟩)

theorem makeAlt_has {i : Inner T AK V} {c n a} : (i.makeAlt c).1.Has n a ↔ i.Has n a := Iff.rfl

theorem makeAlt_len {i : Inner T AK V} (hw : i.WF) (c : NodeContent T AK V) :
    i.alternatives.idToValue.length ≤ (i.makeAlt c).1.alternatives.idToValue.length := by
  rcases makeAlt_cases hw c with ⟨h1, h2⟩ | ⟨h1, h2, h3, -⟩
  · rw [h2]; exact Nat.le_refl _
  · rw [h3]; simp

theorem makeAlt_le {i : Inner T AK V} (hw : i.WF) (c : NodeContent T AK V) : i.Le (i.makeAlt c).1 :=
  ⟨fun k c' h => (makeAlt_altAt hw c k c').2 (Or.inl h), makeAlt_len hw c, Nat.le_refl _, fun _ _ h => h⟩

theorem makeAlt_wf {i : Inner T AK V} (hw : i.WF) (c : NodeContent T AK V)
    (hc : ∀ a ns, c = .branch a ns → ∀ n ∈ ns, n < i.nodes.length) : (i.makeAlt c).1.WF := by
  refine ⟨?_, ?_, hw.nodeSorted, ?_, ?_⟩
  · rcases makeAlt_cases hw c with ⟨h1, h2⟩ | ⟨h1, h2, h3, h4⟩
    · rw [h2]; exact hw.sorted
    · rw [h4]; exact BMap.sorted_insert hw.sorted _ _
  · intro c' k
    have := makeAlt_altAt hw c k c'
    unfold altAt at this
    rw [this]
    rcases makeAlt_cases hw c with ⟨h1, h2⟩ | ⟨h1, h2, h3, h4⟩
    · rw [h2, hw.ids]
      constructor
      · exact Or.inl
      · rintro (h | ⟨rfl, rfl⟩)
        · exact h
        · exact h1
    · rw [h4, BMap.get?_insert, h2]
      split
      · next heq =>
        have : c' = c := LawfulEqCmp.eq_of_compare heq
        subst this
        constructor
        · intro h; right; exact ⟨by simpa using h.symm, rfl⟩
        · rintro (h | ⟨rfl, -⟩)
          · exact absurd h (h1 k)
          · rfl
      · next hne =>
        rw [hw.ids]
        constructor
        · exact Or.inl
        · rintro (h | ⟨-, rfl⟩)
          · exact h
          · exact absurd (cmp_self c') hne
  · intro s hs a ha
    exact Nat.lt_of_lt_of_le (hw.nodeAlts s hs a ha) (makeAlt_len hw c)
  · intro k a ns h n hn
    rcases (makeAlt_altAt hw c k _).1 h with h | ⟨-, h⟩
    · exact hw.branchNodes k a ns h n hn
    · exact hc a ns h.symm n hn
end

/-! ### add_node_alt -/
theorem addNodeAlt_ok {i : Inner T AK V} {n : Nat} (hn : n < i.nodes.length) (a : Nat) :
    ∃ j c, i.addNodeAlt n a = .ok (j, c) ∧ j.alternatives = i.alternatives ∧
      j.nodes.length = i.nodes.length ∧
      (i.WF → ∀ m b, j.Has m b ↔ i.Has m b ∨ (m = n ∧ b = a)) ∧
      (i.WF → (c = .changed ↔ ¬ i.Has n a)) ∧
      (i.WF → a < i.alternatives.idToValue.length → j.WF) ∧
      (i.WF → c = .unchanged → j = i) := by
  have hget : i.nodes[n]? = some i.nodes[n] := List.getElem?_eq_getElem hn
  have hg : i.getNode n = .ok i.nodes[n] := by
    unfold getNode; rw [hget]; rfl
  unfold addNodeAlt
  rw [hg]
  refine ⟨_, _, rfl, rfl, by simp, ?_, ?_, ?_, ?_⟩
  · intro hw m b
    unfold Has
    simp only [List.getElem?_set]
    split
    · next heq =>
      subst heq
      rw [hget]
      simp [hn, BSet.mem_insert]
      exact or_comm
    · next hne =>
      constructor
      · exact Or.inl
      · rintro (h | ⟨rfl, -⟩)
        · exact h
        · exact absurd rfl hne
  · intro hw
    unfold Has
    rw [hget]
    simp only [WasChanged.fromChanged, Option.some.injEq, exists_eq_left']
    rw [← BSet.contains_iff_mem (cmp := compare)]
    cases BSet.contains compare i.nodes[n] a <;> simp
  · intro hw ha
    have hs := hw.nodeSorted _ (List.mem_of_getElem? hget)
    refine ⟨hw.sorted, hw.ids, ?_, ?_, ?_⟩
    · intro s h
      rcases List.mem_or_eq_of_mem_set h with h | rfl
      · exact hw.nodeSorted s h
      · exact BSet.sorted_insert hs a
    · intro s h b hb
      rcases List.mem_or_eq_of_mem_set h with h | rfl
      · exact hw.nodeAlts s h b hb
      · rcases BSet.mem_insert.1 hb with rfl | hb
        · exact ha
        · exact hw.nodeAlts _ (List.mem_of_getElem? hget) b hb
    · intro k c ns h m hm
      have := hw.branchNodes k c ns h m hm
      simpa using this
  · intro hw hc
    have hcon : BSet.contains compare i.nodes[n] a = true := by
      cases h : BSet.contains compare i.nodes[n] a with
      | true => rfl
      | false => rw [h] at hc; simp [WasChanged.fromChanged] at hc
    rw [BSet.insert_of_contains (hw.nodeSorted _ (List.mem_of_getElem? hget)) hcon]
    have : i.nodes.set n i.nodes[n] = i.nodes := List.set_getElem_self hn
    rw [this]

/-! ### add_all -/
theorem addNodeAlts_ok {i : Inner T AK V} {n : Nat} (hn : n < i.nodes.length) (hw : i.WF)
    (l : List Nat) (hl : ∀ a ∈ l, a < i.alternatives.idToValue.length) (acc : WasChanged) :
    ∃ j c, changeIterM l (fun (i : Inner T AK V) a => i.addNodeAlt n a) i acc = .ok (j, c) ∧
      j.alternatives = i.alternatives ∧ j.nodes.length = i.nodes.length ∧
      (∀ m b, j.Has m b ↔ i.Has m b ∨ (m = n ∧ b ∈ l)) ∧
      (c = .changed ↔ acc = .changed ∨ ∃ a ∈ l, ¬ i.Has n a) ∧ j.WF ∧
      (c = .unchanged → j = i) := by
  induction l generalizing i acc with
  | nil =>
    refine ⟨i, acc, rfl, rfl, rfl, by simp, by simp, hw, fun _ => rfl⟩
  | cons a l ih =>
    obtain ⟨j, c, h1, h2, h3, h4, h5, h6, h7⟩ := addNodeAlt_ok hn a
    have hjw := h6 hw (hl a (by simp))
    obtain ⟨k, c', g1, g2, g3, g4, g5, g6, g7⟩ := ih (i := j) (by omega) hjw
      (fun b hb => by rw [h2]; exact hl b (by simp [hb])) (acc.join c)
    refine ⟨k, c', ?_, g2.trans h2, g3.trans h3, ?_, ?_, g6, ?_⟩
    · rw [changeIterM, h1]; exact g1
    · intro m b
      rw [g4, h4 hw]
      simp only [List.mem_cons]
      constructor
      · rintro ((h | ⟨rfl, rfl⟩) | ⟨rfl, h⟩)
        · exact Or.inl h
        · exact Or.inr ⟨rfl, Or.inl rfl⟩
        · exact Or.inr ⟨rfl, Or.inr h⟩
      · rintro (h | ⟨rfl, rfl | h⟩)
        · exact Or.inl (Or.inl h)
        · exact Or.inl (Or.inr ⟨rfl, rfl⟩)
        · exact Or.inr ⟨rfl, h⟩
    · rw [g5, WasChanged.join_eq_changed, h5 hw]
      simp only [List.mem_cons, h4 hw, true_and, exists_eq_or_imp]
      by_cases hh : i.Has n a
      · simp only [hh, not_true_eq_false, or_false, false_or]
        refine or_congr_right (exists_congr fun b => and_congr_right fun _ => ?_)
        constructor
        · intro h h'; exact h (Or.inl h')
        · intro h h'
          rcases h' with h' | rfl
          · exact h h'
          · exact h hh
      · simp [hh]
    · intro hc
      have hk := g7 hc
      have hcc : c = .unchanged := by
        rw [← WasChanged.ne_changed]
        intro h
        have := g5.2 (Or.inl (WasChanged.join_eq_changed.2 (Or.inr h)))
        rw [hc] at this; cases this
      rw [hk, h7 hw hcc]

theorem getNode_ok {i : Inner T AK V} {n : Nat} (hn : n < i.nodes.length) :
    i.getNode n = .ok i.nodes[n] := by
  unfold getNode; rw [List.getElem?_eq_getElem hn]; rfl

theorem addAll_ok {i : Inner T AK V} (hw : i.WF) {n m : Nat} (hn : n < i.nodes.length)
    (hm : m < i.nodes.length) :
    ∃ j c, i.addAll n m = .ok (j, c) ∧ j.alternatives = i.alternatives ∧
      j.nodes.length = i.nodes.length ∧
      (∀ k b, j.Has k b ↔ i.Has k b ∨ (k = n ∧ i.Has m b)) ∧
      (c = .changed ↔ ∃ a, i.Has m a ∧ ¬ i.Has n a) ∧ j.WF ∧ (c = .unchanged → j = i) := by
  have hget : i.nodes[m]? = some i.nodes[m] := List.getElem?_eq_getElem hm
  have hhas : ∀ b, i.Has m b ↔ b ∈ i.nodes[m] := by
    intro b; unfold Has; rw [hget]; simp
  obtain ⟨j, c, h1, h2, h3, h4, h5, h6, h7⟩ := addNodeAlts_ok hn hw i.nodes[m]
    (hw.nodeAlts _ (List.mem_of_getElem? hget)) .unchanged
  refine ⟨j, c, ?_, h2, h3, ?_, ?_, h6, h7⟩
  · unfold addAll; rw [getNode_ok hm]; exact h1
  · simpa only [hhas] using h4
  · rw [h5]; simp [hhas]
end Inner
end Bongo
