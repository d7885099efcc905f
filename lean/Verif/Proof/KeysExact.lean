import Mathlib.Order.Extension.Linear
import Verif.Proof.RenameParse
import Verif.Proof.Preorder
import Verif.Proof.EarleyStep
import Verif.Proof.EarleyClose
import Verif.Proof.EarleyRun
/-!
# Lemmas: the parser never confuses the action keys of two productions

However the user's `Ord` compares action keys, a parse that returns does with them what it would do if
they were all told apart: the children of a branch it makes were made for one production.
-/
set_option linter.unusedSectionVars false
set_option linter.unusedSimpArgs false
namespace Bongo
open Std
variable {T NT AK AV V : Type}

/-! ## Keys that are all told apart -/

/-- Action keys, in some order that tells them apart. -/
structure ExactKey (AK : Type) where
  key : AK

namespace ExactKey
theorem exists_order (AK : Type) : ∃ s : AK → AK → Prop, IsLinearOrder AK s ∧ ∀ a b, a = b → s a b := by
  have : IsPartialOrder AK (Eq : AK → AK → Prop) :=
    { refl := fun _ => rfl, trans := fun _ _ _ h h' => h.trans h', antisymm := fun _ _ h _ => h }
  obtain ⟨s, h1, h2⟩ := extend_partialOrder (Eq : AK → AK → Prop)
  exact ⟨s, h1, fun a b h => h2 a b h⟩

def le (a b : ExactKey AK) : Prop := (exists_order AK).choose a.key b.key

theorem le_lin : IsLinearOrder AK (exists_order AK).choose := (exists_order AK).choose_spec.1

theorem le_refl (a : ExactKey AK) : le a a := (exists_order AK).choose_spec.2 _ _ rfl
theorem le_trans {a b c : ExactKey AK} (h : le a b) (h' : le b c) : le a c := le_lin.trans _ _ _ h h'
theorem le_antisymm {a b : ExactKey AK} (h : le a b) (h' : le b a) : a = b := by
  cases a; cases b
  exact congrArg ExactKey.mk (le_lin.antisymm _ _ h h')
theorem le_total (a b : ExactKey AK) : le a b ∨ le b a := le_lin.total _ _

open Classical in
noncomputable instance : Ord (ExactKey AK) where
  compare a b := if le a b then if le b a then .eq else .lt else .gt

theorem compare_def (a b : ExactKey AK) [d : Decidable (le a b)] [d' : Decidable (le b a)] :
    compare a b = if le a b then if le b a then .eq else .lt else .gt := by
  have e : d = Classical.propDecidable _ := Subsingleton.elim _ _
  have e' : d' = Classical.propDecidable _ := Subsingleton.elim _ _
  subst e e'
  rfl

theorem isLE_iff (a b : ExactKey AK) : (compare a b).isLE = true ↔ le a b := by
  classical
  rw [compare_def]
  split
  · rename_i h
    split <;> simp [h]
  · rename_i h
    simp [h]

instance : TransOrd (ExactKey AK) where
  eq_swap := by
    classical
    intro a b
    rw [compare_def, compare_def]
    by_cases h : le a b <;> by_cases h' : le b a <;> simp [h, h']
    rcases le_total a b with e | e
    · exact h e
    · exact h' e
  isLE_trans := by
    intro a b c h h'
    rw [isLE_iff] at h h' ⊢
    exact le_trans h h'

instance : LawfulEqOrd (ExactKey AK) where
  compare_self := by
    classical
    intro a
    rw [compare_def, if_pos (le_refl a), if_pos (le_refl a)]
  eq_of_compare := by
    classical
    intro a b h
    rw [compare_def] at h
    split at h
    · split at h
      · rename_i h1 h2; exact le_antisymm h1 h2
      · cases h
    · cases h
end ExactKey

/-! ## Sets of alternatives -/

/-- What is looked up is what compares equal. -/
def AltSet.Stored [Ord T] [Ord AK] [Ord V] (a : AltSet T AK V) : Prop :=
  ∀ c k, BMap.get? NodeContent.cmp a.valueToId c = some k ↔
    ∃ c', a.idToValue[k]? = some c' ∧ NodeContent.cmp c c' = .eq

theorem AltSet.Stored.add [Ord T] [Ord AK] [Ord V] [TransOrd T] [TransOrd AK] [TransOrd V] {a : AltSet T AK V}
    (h : a.Stored) (c : NodeContent T AK V) : (a.add c).1.Stored := by
  unfold AltSet.add
  cases hg : BMap.get? NodeContent.cmp a.valueToId c with
  | some k => exact h
  | none =>
    intro c₁ k
    simp only [BMap.get?_insert]
    constructor
    · intro he
      split at he
      · rename_i e
        cases he
        exact ⟨c, by simp, e⟩
      · obtain ⟨c', h1, h2⟩ := (h c₁ k).1 he
        exact ⟨c', by rw [List.getElem?_append_left (List.getElem?_eq_some_iff.1 h1).1]; exact h1, h2⟩
    · rintro ⟨c', h1, h2⟩
      rcases getElem?_concat h1 with ⟨_, h1⟩ | ⟨rfl, rfl⟩
      · have h3 := (h c₁ k).2 ⟨c', h1, h2⟩
        rw [if_neg]
        · exact h3
        · intro e
          rw [BMap.get?_congr _ e, hg] at h3
          cases h3
      · rw [if_pos h2]

section
variable [Ord T] [Ord AK] [Ord V] [TransOrd T] [TransOrd AK] [TransOrd V] [LawfulEqOrd T] [LawfulEqOrd V]

local notation "rn" => NodeContent.ren (id : T → T) (ExactKey.mk : AK → ExactKey AK) (id : V → V)

/-- The trees are the same but for the order of the keys.  `O m ak`: node `m` was made for an item of a
production with key `ak`. -/
structure XRel (O : Nat → AK → Prop) (i : Inner T AK V) (i' : Inner T (ExactKey AK) V) : Prop where
  nodes : i'.nodes = i.nodes
  vals : i'.alternatives.idToValue = i.alternatives.idToValue.map rn
  stored : i.alternatives.Stored
  stored' : i'.alternatives.Stored
  bound : ∀ (k : Nat) ak ns, i.alternatives.idToValue[k]? = some (.branch ak ns) → ∀ m ∈ ns, m < i.nodes.length
  own : ∀ (k : Nat) ak ns, i.alternatives.idToValue[k]? = some (.branch ak ns) →
    ∀ m ∈ ns, ∀ ak', O m ak' → ak' = ak
  obound : ∀ m ak, O m ak → m < i.nodes.length
  ofun : ∀ m ak ak', O m ak → O m ak' → ak = ak'

/-- The content can be added with all keys told apart. -/
def Fits (O : Nat → AK → Prop) : NodeContent T AK V → Prop
  | .leaf _ _ => True
  | .branch ak ns => ns ≠ [] ∧ ∀ m ∈ ns, O m ak

variable {O : Nat → AK → Prop} {i j : Inner T AK V} {i' : Inner T (ExactKey AK) V}

theorem cmp_branch_left {ak : AK} {ns : List Nat} {c : NodeContent T AK V}
    (h : NodeContent.cmp (.branch ak ns) c = .eq) : ∃ ak', c = .branch ak' ns ∧ compare ak ak' = .eq := by
  cases c with
  | leaf k v => simp [NodeContent.cmp_eq] at h
  | branch ak' ns' =>
    simp only [NodeContent.cmp_eq, pairCmp, Ordering.then_eq_eq] at h
    exact ⟨ak', by rw [LawfulEqCmp.eq_of_compare h.2], h.1⟩

theorem cmp_leaf_left {k : T} {v : V} {c : NodeContent T AK V}
    (h : NodeContent.cmp (.leaf k v) c = .eq) : c = .leaf k v := by
  cases c with
  | branch ak ns => simp [NodeContent.cmp_eq] at h
  | leaf k' v' =>
    simp only [NodeContent.cmp_eq, pairCmp, Ordering.then_eq_eq] at h
    rw [LawfulEqCmp.eq_of_compare h.1, LawfulEqCmp.eq_of_compare h.2]

theorem Fits.unique {c c' : NodeContent T AK V} (hc : Fits O c) (h : XRel O i i') {k : Nat}
    (hk : i.alternatives.idToValue[k]? = some c') (he : NodeContent.cmp c c' = .eq) : c' = c := by
  cases c with
  | leaf x v => exact cmp_leaf_left he
  | branch ak ns =>
    obtain ⟨ak', rfl, -⟩ := cmp_branch_left he
    obtain ⟨hne, hall⟩ := hc
    obtain ⟨m, hm⟩ := List.exists_mem_of_ne_nil _ hne
    rw [h.own _ _ _ hk m hm ak (hall m hm)]

theorem rn_inj {c c' : NodeContent T AK V} (h : rn c = rn c') : c = c' := by
  cases c <;> cases c' <;> simp only [NodeContent.ren, NodeContent.leaf.injEq, NodeContent.branch.injEq,
    ExactKey.mk.injEq, id, reduceCtorEq] at h ⊢ <;> exact h

theorem cmp_rn {c : NodeContent T AK V} {c' : NodeContent T (ExactKey AK) V}
    (h : NodeContent.cmp (rn c) c' = .eq) : c' = rn c := by
  cases c with
  | leaf k v => exact cmp_leaf_left h
  | branch ak ns =>
    obtain ⟨ak', rfl, h⟩ := cmp_branch_left h
    rw [← LawfulEqCmp.eq_of_compare h, NodeContent.ren]

theorem XRel.look (h : XRel O i i') {c : NodeContent T AK V} (hc : Fits O c) :
    BMap.get? NodeContent.cmp i'.alternatives.valueToId (rn c) =
      BMap.get? NodeContent.cmp i.alternatives.valueToId c := by
  refine Option.ext fun k => ?_
  rw [h.stored _ k, h.stored' _ k]
  constructor
  · rintro ⟨c', h1, h2⟩
    rw [cmp_rn h2, h.vals, List.getElem?_map, Option.map_eq_some_iff] at h1
    obtain ⟨c'', h3, h4⟩ := h1
    rw [rn_inj h4] at h3
    exact ⟨c, h3, ReflCmp.compare_self⟩
  · rintro ⟨c', h1, h2⟩
    rw [hc.unique h h1 h2] at h1
    exact ⟨rn c, by rw [h.vals, List.getElem?_map, h1]; rfl, ReflCmp.compare_self⟩

theorem XRel.makeAlt (h : XRel O i i') {c : NodeContent T AK V} (hc : Fits O c) :
    XRel O (i.makeAlt c).1 (i'.makeAlt (rn c)).1 ∧ (i'.makeAlt (rn c)).2 = (i.makeAlt c).2 := by
  have hs := h.stored.add c
  have hs' := h.stored'.add (rn c)
  have hl := h.look hc
  cases hg : BMap.get? NodeContent.cmp i.alternatives.valueToId c with
  | some k =>
    rw [hg] at hl
    simp only [Inner.makeAlt, AltSet.add, hl, hg]
    exact ⟨h, trivial⟩
  | none =>
    rw [hg] at hl
    have hv : ∀ (k : Nat) ak ns, (i.alternatives.idToValue ++ [c])[k]? = some (.branch ak ns) →
        i.alternatives.idToValue[k]? = some (.branch ak ns) ∨ c = .branch ak ns := by
      intro k ak ns hk
      rcases getElem?_concat hk with ⟨_, h1⟩ | ⟨_, h1⟩
      · exact .inl h1
      · exact .inr h1.symm
    simp only [AltSet.add, hl, hg] at hs hs'
    simp only [Inner.makeAlt, AltSet.add, hl, hg]
    refine ⟨⟨h.nodes, ?_, hs, hs', ?_, ?_, h.obound, h.ofun⟩, ?_⟩
    · simp only [h.vals, List.map_append, List.map_cons, List.map_nil]
    · intro k ak ns hk m hm
      rcases hv k ak ns hk with hk | rfl
      · exact h.bound k ak ns hk m hm
      · exact h.obound m _ (hc.2 m hm)
    · intro k ak ns hk m hm ak' ho
      rcases hv k ak ns hk with hk | rfl
      · exact h.own k ak ns hk m hm ak' ho
      · exact h.ofun m _ _ ho (hc.2 m hm)
    · simp only [h.vals, List.length_map]

/-- The node `n` is now one made for this key, if there is one. -/
def ownMore (O : Nat → AK → Prop) (n : Nat) (q : Option AK) (m : Nat) (ak : AK) : Prop :=
  O m ak ∨ (m = n ∧ q = some ak)

theorem XRel.makeNode (h : XRel O i i') (q : Option AK) :
    XRel (ownMore O i.nodes.length q) i.makeNode.1 i'.makeNode.1 ∧ i'.makeNode.2 = i.makeNode.2 := by
  have hlen : i.makeNode.1.nodes.length = i.nodes.length + 1 := by simp [Inner.makeNode]
  refine ⟨⟨?_, h.vals, h.stored, h.stored', ?_, ?_, ?_, ?_⟩, ?_⟩
  · simp only [Inner.makeNode, h.nodes]
  · intro k ak ns hk m hm
    have := h.bound k ak ns hk m hm
    omega
  · rintro k ak ns hk m hm ak' (ho | ⟨rfl, -⟩)
    · exact h.own k ak ns hk m hm ak' ho
    · have := h.bound k ak ns hk _ hm
      omega
  · rintro m ak (ho | ⟨rfl, -⟩)
    · have := h.obound m ak ho
      omega
    · omega
  · rintro m ak ak' (ho | ⟨rfl, e⟩) (ho' | ⟨h1, e'⟩)
    · exact h.ofun m _ _ ho ho'
    · have := h.obound m _ ho
      omega
    · have := h.obound _ _ ho'
      omega
    · rw [e] at e'
      exact Option.some.inj e'
  · simp only [Inner.makeNode, h.nodes]

theorem XRel.addNodeAlt (h : XRel O i i') {n a : Nat} {c : WasChanged} (he : i.addNodeAlt n a = .ok (j, c)) :
    ∃ j', i'.addNodeAlt n a = .ok (j', c) ∧ XRel O j j' := by
  simp only [Inner.addNodeAlt, Inner.getNode, h.nodes] at he ⊢
  cases hn : i.nodes[n]? with
  | none => rw [hn] at he; cases he
  | some s =>
    rw [hn] at he
    cases he
    refine ⟨_, rfl, ⟨rfl, h.vals, h.stored, h.stored', ?_, h.own, ?_, h.ofun⟩⟩
    · intro k ak ns hk m hm
      rw [List.length_set]
      exact h.bound k ak ns hk m hm
    · intro m ak ho
      rw [List.length_set]
      exact h.obound m ak ho

theorem XRel.adds (n : Nat) (l : List Nat) : ∀ {i j : Inner T AK V} {i' : Inner T (ExactKey AK) V}
    {acc c : WasChanged}, XRel O i i' → changeIterM l (fun i a => i.addNodeAlt n a) i acc = .ok (j, c) →
    ∃ j', changeIterM l (fun i a => i.addNodeAlt n a) i' acc = .ok (j', c) ∧ XRel O j j' := by
  induction l with
  | nil => intro i j i' acc c h he; cases he; exact ⟨i', rfl, h⟩
  | cons a l ih =>
    intro i j i' acc c h he
    rw [changeIterM] at he
    cases hr : i.addNodeAlt n a with
    | panic p => rw [hr] at he; cases he
    | oof => rw [hr] at he; cases he
    | ok r =>
      rw [hr] at he
      obtain ⟨j1, e1, h1⟩ := h.addNodeAlt hr
      obtain ⟨j', e2, h2⟩ := ih h1 he
      refine ⟨j', ?_, h2⟩
      rw [changeIterM]
      simp only [e1]
      exact e2

theorem XRel.addAll (h : XRel O i i') {n m : Nat} {c : WasChanged} (he : i.addAll n m = .ok (j, c)) :
    ∃ j', i'.addAll n m = .ok (j', c) ∧ XRel O j j' := by
  simp only [Inner.addAll, Inner.getNode, h.nodes] at he ⊢
  cases hn : i.nodes[m]? with
  | none => rw [hn] at he; cases he
  | some s =>
    rw [hn] at he
    exact h.adds n s he

theorem XRel.makeLeafNode (h : XRel O i i') (q : Option AK) {k : T} {v : V} {n : Nat}
    (he : i.makeLeafNode k v = .ok (j, n)) :
    ∃ j', i'.makeLeafNode k v = .ok (j', n) ∧ XRel (ownMore O n q) j j' := by
  have h1 := h.makeNode q
  have h2 := h1.1.makeAlt (c := .leaf k v) trivial
  simp only [Inner.makeLeafNode] at he ⊢
  cases hr : (i.makeNode.1.makeAlt (.leaf k v)).1.addNodeAlt i.makeNode.2 (i.makeNode.1.makeAlt (.leaf k v)).2 with
  | panic p => rw [hr] at he; cases he
  | oof => rw [hr] at he; cases he
  | ok r =>
    obtain ⟨j1, c⟩ := r
    rw [hr] at he
    cases he
    obtain ⟨j', e1, h3⟩ := h2.1.addNodeAlt hr
    have e2 := h2.2
    simp only [NodeContent.ren, id] at e1 e2
    refine ⟨j', ?_, h3⟩
    rw [h1.2, e2, e1]

theorem XRel.makeBranchNode (h : XRel O i i') (q : Option AK) {ak : AK} {ns : List Nat} {n : Nat}
    (hne : ns ≠ []) (ho : ∀ m ∈ ns, O m ak) (he : i.makeBranchNode ak ns = .ok (j, n)) :
    ∃ j', i'.makeBranchNode ⟨ak⟩ ns = .ok (j', n) ∧ XRel (ownMore O n q) j j' := by
  have h1 := h.makeNode q
  have h2 := h1.1.makeAlt (c := .branch ak ns) ⟨hne, fun m hm => .inl (ho m hm)⟩
  simp only [Inner.makeBranchNode] at he ⊢
  cases hr : (i.makeNode.1.makeAlt (.branch ak ns)).1.addNodeAlt i.makeNode.2
      (i.makeNode.1.makeAlt (.branch ak ns)).2 with
  | panic p => rw [hr] at he; cases he
  | oof => rw [hr] at he; cases he
  | ok r =>
    obtain ⟨j1, c⟩ := r
    rw [hr] at he
    cases he
    obtain ⟨j', e1, h3⟩ := h2.1.addNodeAlt hr
    have e2 := h2.2
    simp only [NodeContent.ren, id] at e1 e2
    refine ⟨j', ?_, h3⟩
    rw [h1.2, e2, e1]
end
end Bongo
