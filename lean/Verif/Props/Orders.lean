import Verif.Spec.Orders
import Verif.Props.NonNullTree
import Verif.Props.Strings
/-!
# C112: the orders of the crate's types

`LawfulOrder` and the order of trees (`TreeLt`) are in `Verif.Spec.Orders`.
-/
set_option linter.unusedSectionVars false
namespace Bongo
open Std
variable {T NT AK AV L V : Type}

theorem lawfulOrder_of {α : Type} (cmp : α → α → Ordering) [TransCmp cmp] [LawfulEqCmp cmp] :
    LawfulOrder cmp where
  eq_iff _ _ := LawfulEqCmp.compare_eq_iff_eq
  gt_iff _ _ := OrientedCmp.gt_iff_lt
  lt_trans _ _ _ := TransCmp.lt_trans

theorem LawfulOrder.lawfulEqCmp {α : Type} {cmp : α → α → Ordering} (h : LawfulOrder cmp) :
    LawfulEqCmp cmp where
  compare_self := (h.eq_iff _ _).2 rfl
  eq_of_compare := (h.eq_iff _ _).1

theorem LawfulOrder.transCmp {α : Type} {cmp : α → α → Ordering} (h : LawfulOrder cmp) :
    TransCmp cmp where
  eq_swap := by
    intro a b
    cases h1 : cmp b a with
    | lt => exact (h.gt_iff a b).2 h1
    | eq => rw [(h.eq_iff _ _).1 h1]; exact (h.eq_iff _ _).2 rfl
    | gt => exact (h.gt_iff b a).1 h1
  isLE_trans := by
    intro a b c
    cases h1 : cmp a b with
    | gt => simp
    | eq => obtain rfl := (h.eq_iff _ _).1 h1; simp
    | lt =>
      cases h2 : cmp b c with
      | gt => simp
      | eq => obtain rfl := (h.eq_iff _ _).1 h2; simp [h1]
      | lt => simp [h.lt_trans _ _ _ h1 h2]

/-- A pair of lawful comparisons, one after the other. -/
theorem lawfulOrder_then {α β γ : Type} {f : α → β} {g : α → γ} {c : β → β → Ordering}
    {d : γ → γ → Ordering} (hc : LawfulOrder c) (hd : LawfulOrder d)
    (hinj : ∀ a b, f a = f b → g a = g b → a = b) :
    LawfulOrder (fun a b => (c (f a) (f b)).then (d (g a) (g b))) where
  eq_iff a b := by
    rw [Ordering.then_eq_eq, hc.eq_iff, hd.eq_iff]
    exact ⟨fun h => hinj _ _ h.1 h.2, by rintro rfl; exact ⟨rfl, rfl⟩⟩
  gt_iff a b := by
    rw [Ordering.then_eq_gt, Ordering.then_eq_lt, hc.gt_iff, hd.gt_iff, hc.eq_iff, hc.eq_iff]
    exact or_congr Iff.rfl (and_congr eq_comm Iff.rfl)
  lt_trans x y z := by
    simp only [Ordering.then_eq_lt]
    rintro (h1 | ⟨h1, h2⟩) (h3 | ⟨h3, h4⟩)
    · exact .inl (hc.lt_trans _ _ _ h1 h3)
    · rw [hc.eq_iff] at h3; rw [← h3]; exact .inl h1
    · rw [hc.eq_iff] at h1; rw [h1]; exact .inl h3
    · refine .inr ⟨?_, hd.lt_trans _ _ _ h2 h4⟩
      rw [hc.eq_iff] at h1 h3 ⊢; rw [h1, h3]

/-- C112: production keys are ordered by head, then by action. -/
theorem prodKey_order [Ord NT] [Ord AK] [TransOrd NT] [LawfulEqOrd NT] [TransOrd AK]
    [LawfulEqOrd AK] : LawfulOrder (ProdKey.cmp (NT := NT) (AK := AK)) ∧
    ∀ a b : ProdKey NT AK, a.cmp b = .lt ↔
      compare a.head b.head = .lt ∨ a.head = b.head ∧ compare a.actionKey b.actionKey = .lt := by
  refine ⟨lawfulOrder_then (f := ProdKey.head) (g := ProdKey.actionKey) (lawfulOrder_of compare)
    (lawfulOrder_of compare) ?_, ?_⟩
  · rintro ⟨⟩ ⟨⟩ h1 h2; cases h1; cases h2; rfl
  · intro a b
    simp only [ProdKey.cmp, Ordering.then_eq_lt, LawfulEqCmp.compare_eq_iff_eq]

/-- C112: action keys of wrapped grammars: the one of the new start production first, then those of the
grammar, in its order. -/
theorem startActionKey_order [Ord AK] [TransOrd AK] [LawfulEqOrd AK] :
    LawfulOrder (StartActionKey.cmp (AK := AK)) ∧
    (∀ a : AK, StartActionKey.cmp .start (.actionKey a) = .lt) ∧
    ∀ a b : AK, StartActionKey.cmp (.actionKey a) (.actionKey b) = compare a b := by
  refine ⟨⟨?_, ?_, ?_⟩, fun _ => rfl, fun _ _ => rfl⟩
  · intro a b
    cases a <;> cases b <;> simp [StartActionKey.cmp]
  · intro a b
    cases a <;> cases b <;> simp [StartActionKey.cmp, OrientedCmp.gt_iff_lt]
  · intro a b c
    cases a <;> cases b <;> cases c <;> simp [StartActionKey.cmp]
    exact TransCmp.lt_trans

/-- C112: symbols of wrapped grammars: end of stream, resp. the new start symbol, against the symbols of
the grammar. -/
theorem startSymbols_order [Ord T] [TransOrd T] [LawfulEqOrd T] :
    LawfulOrder (compare : StreamTerminal T → StreamTerminal T → Ordering) ∧
    (∀ a : T, compare (StreamTerminal.endOfStream : StreamTerminal T) (.term a) = .lt) ∧
    (∀ a b : T, compare (StreamTerminal.term a) (.term b) = compare a b) ∧
    LawfulOrder (compare : StartNonTerminal T → StartNonTerminal T → Ordering) ∧
    (∀ a : T, compare (StartNonTerminal.start : StartNonTerminal T) (.nterm a) = .lt) ∧
    (∀ a b : T, compare (StartNonTerminal.nterm a) (.nterm b) = compare a b) :=
  ⟨lawfulOrder_of _, fun _ => rfl, fun _ _ => rfl, lawfulOrder_of _, fun _ => rfl, fun _ _ => rfl⟩

/-- C112: action keys of the non-null transform: by action, then by the list of choices. -/
theorem nnActionKey_order [Ord AK] [TransOrd AK] [LawfulEqOrd AK] :
    LawfulOrder (compare : NNActionKey AK → NNActionKey AK → Ordering) ∧
    ∀ a b : NNActionKey AK, compare a b = .lt ↔
      compare a.action b.action = .lt ∨
        a.action = b.action ∧ compare a.ntNullableStates b.ntNullableStates = .lt := by
  refine ⟨lawfulOrder_of _, fun a b => ?_⟩
  show (compare _ _).then (compare _ _) = _ ↔ _
  simp only [Ordering.then_eq_lt, LawfulEqCmp.compare_eq_iff_eq]

/-- C112: `Changed < Unchanged`, and `join` is the smaller of the two. -/
theorem wasChanged_order : LawfulOrder WasChanged.cmp ∧ WasChanged.cmp .changed .unchanged = .lt ∧
    ∀ a b : WasChanged, a.join b = if WasChanged.cmp a b = .gt then b else a := by
  refine ⟨⟨?_, ?_, ?_⟩, rfl, ?_⟩
  · intro a b; cases a <;> cases b <;> simp [WasChanged.cmp]
  · intro a b; cases a <;> cases b <;> simp [WasChanged.cmp]
  · intro a b c; cases a <;> cases b <;> cases c <;> simp [WasChanged.cmp]
  · intro a b; cases a <;> cases b <;> rfl

/-! ## Handles -/

/-- C112: handles are ordered by index and then by the address of the tree, and are equal exactly if they
denote the same node of the same tree. -/
theorem handles_order : LawfulOrder Node.cmp ∧ LawfulOrder Alternative.cmp ∧ LawfulOrder Leaf.cmp ∧
    LawfulOrder Branch.cmp ∧
    (∀ a b : Node, Node.cmp a b = .lt ↔ a.index < b.index ∨ a.index = b.index ∧ a.tree < b.tree) ∧
    (∀ a b : Alternative,
      Alternative.cmp a b = .lt ↔ a.index < b.index ∨ a.index = b.index ∧ a.tree < b.tree) ∧
    (∀ a b : Leaf, Leaf.cmp a b = .lt ↔ a.index < b.index ∨ a.index = b.index ∧ a.tree < b.tree) ∧
    (∀ a b : Branch,
      Branch.cmp a b = .lt ↔ a.index < b.index ∨ a.index = b.index ∧ a.tree < b.tree) := by
  have h := lawfulOrder_of (compare : Nat → Nat → Ordering)
  refine ⟨lawfulOrder_then (f := Node.index) (g := Node.tree) h h (by rintro ⟨⟩ ⟨⟩ h1 h2; cases h1; cases h2; rfl),
    lawfulOrder_then (f := Alternative.index) (g := Alternative.tree) h h (by rintro ⟨⟩ ⟨⟩ h1 h2; cases h1; cases h2; rfl),
    lawfulOrder_then (f := Leaf.index) (g := Leaf.tree) h h (by rintro ⟨⟩ ⟨⟩ h1 h2; cases h1; cases h2; rfl),
    lawfulOrder_then (f := Branch.index) (g := Branch.tree) h h (by rintro ⟨⟩ ⟨⟩ h1 h2; cases h1; cases h2; rfl), ?_, ?_, ?_, ?_⟩ <;>
    (intro a b
     simp only [Node.cmp, Alternative.cmp, Leaf.cmp, Branch.cmp, Ordering.then_eq_lt,
       LawfulEqCmp.compare_eq_iff_eq, Nat.compare_eq_lt])

/-- C112: contents of alternatives: leaves before branches, then as their handles. -/
theorem nodeView_order : LawfulOrder NodeView.cmp ∧
    (∀ l b, NodeView.cmp (.leaf l) (.branch b) = .lt) ∧
    (∀ a b, NodeView.cmp (.leaf a) (.leaf b) = Leaf.cmp a b) ∧
    (∀ a b, NodeView.cmp (.branch a) (.branch b) = Branch.cmp a b) := by
  obtain ⟨-, -, hl, hb, -⟩ := handles_order
  refine ⟨⟨?_, ?_, ?_⟩, fun _ _ => rfl, fun _ _ => rfl, fun _ _ => rfl⟩
  · intro a b
    cases a <;> cases b <;> simp [NodeView.cmp, hl.eq_iff, hb.eq_iff]
  · intro a b
    cases a <;> cases b <;> simp [NodeView.cmp, hl.gt_iff, hb.gt_iff]
  · intro a b c
    cases a <;> cases b <;> cases c <;> simp [NodeView.cmp]
    · exact hl.lt_trans _ _ _
    · exact hb.lt_trans _ _ _

/-! ## Trees -/

section trees
variable [Ord L] [Ord V]

section eq
variable [LawfulEqOrd L] [LawfulEqOrd V]
mutual
theorem TreeValue.cmp_eq : ∀ t u : TreeValue L V, TreeValue.cmp t u = .eq ↔ t = u
  | .node a ps, .node b qs => by
    rw [TreeValue.cmp, Ordering.then_eq_eq, TreeValue.cmpParams_eq ps qs, LawfulEqCmp.compare_eq_iff_eq]
    simp
  | .node _ _, .leaf _ => by simp [TreeValue.cmp]
  | .leaf _, .node _ _ => by simp [TreeValue.cmp]
  | .leaf v, .leaf w => by simp [TreeValue.cmp]
theorem TreeValue.cmpParams_eq : ∀ ps qs : List (Name × TreeValue L V),
    TreeValue.cmpParams ps qs = .eq ↔ ps = qs
  | [], [] => by simp [TreeValue.cmpParams]
  | [], _ :: _ => by simp [TreeValue.cmpParams]
  | _ :: _, [] => by simp [TreeValue.cmpParams]
  | e :: ps, f :: qs => by
    rw [TreeValue.cmpParams, Ordering.then_eq_eq, TreeValue.cmpEntry_eq e f, TreeValue.cmpParams_eq ps qs]
    simp
theorem TreeValue.cmpEntry_eq : ∀ e f : Name × TreeValue L V, TreeValue.cmpEntry e f = .eq ↔ e = f
  | (n, t), (m, u) => by
    rw [TreeValue.cmpEntry, Ordering.then_eq_eq, TreeValue.cmp_eq t u, LawfulEqCmp.compare_eq_iff_eq]
    simp
end
end eq

section swap
variable [LawfulEqOrd L] [LawfulEqOrd V] [TransOrd L] [TransOrd V]
mutual
theorem TreeValue.cmp_gt : ∀ t u : TreeValue L V, TreeValue.cmp t u = .gt ↔ TreeValue.cmp u t = .lt
  | .node a ps, .node b qs => by
    rw [TreeValue.cmp, TreeValue.cmp, Ordering.then_eq_gt, Ordering.then_eq_lt,
      TreeValue.cmpParams_gt ps qs, OrientedCmp.gt_iff_lt, OrientedCmp.eq_comm]
  | .node _ _, .leaf _ => by simp [TreeValue.cmp]
  | .leaf _, .node _ _ => by simp [TreeValue.cmp]
  | .leaf v, .leaf w => by simp [TreeValue.cmp, OrientedCmp.gt_iff_lt]
theorem TreeValue.cmpParams_gt : ∀ ps qs : List (Name × TreeValue L V),
    TreeValue.cmpParams ps qs = .gt ↔ TreeValue.cmpParams qs ps = .lt
  | [], [] => by simp [TreeValue.cmpParams]
  | [], _ :: _ => by simp [TreeValue.cmpParams]
  | _ :: _, [] => by simp [TreeValue.cmpParams]
  | e :: ps, f :: qs => by
    rw [TreeValue.cmpParams, TreeValue.cmpParams, Ordering.then_eq_gt, Ordering.then_eq_lt,
      TreeValue.cmpEntry_gt e f, TreeValue.cmpParams_gt ps qs, TreeValue.cmpEntry_eq,
      TreeValue.cmpEntry_eq, eq_comm (a := e)]
theorem TreeValue.cmpEntry_gt : ∀ e f : Name × TreeValue L V,
    TreeValue.cmpEntry e f = .gt ↔ TreeValue.cmpEntry f e = .lt
  | (n, t), (m, u) => by
    rw [TreeValue.cmpEntry, TreeValue.cmpEntry, Ordering.then_eq_gt, Ordering.then_eq_lt,
      TreeValue.cmp_gt t u, OrientedCmp.gt_iff_lt, OrientedCmp.eq_comm]
end
mutual
theorem TreeValue.cmp_trans : ∀ t u s : TreeValue L V, TreeValue.cmp t u = .lt →
    TreeValue.cmp u s = .lt → TreeValue.cmp t s = .lt
  | .node a ps, .node b qs, .node c rs => by
    simp only [TreeValue.cmp, Ordering.then_eq_lt]
    rintro (h1 | ⟨h1, h2⟩) (h3 | ⟨h3, h4⟩)
    · exact .inl (TransCmp.lt_trans h1 h3)
    · obtain rfl := LawfulEqCmp.eq_of_compare h3; exact .inl h1
    · obtain rfl := LawfulEqCmp.eq_of_compare h1; exact .inl h3
    · exact .inr ⟨TransCmp.eq_trans h1 h3, TreeValue.cmpParams_trans ps qs rs h2 h4⟩
  | .node _ _, .node _ _, .leaf _ => by simp [TreeValue.cmp]
  | .node _ _, .leaf _, .node _ _ => by simp [TreeValue.cmp]
  | .node _ _, .leaf _, .leaf _ => by simp [TreeValue.cmp]
  | .leaf _, .node _ _, .node _ _ => by simp [TreeValue.cmp]
  | .leaf _, .node _ _, .leaf _ => by simp [TreeValue.cmp]
  | .leaf _, .leaf _, .node _ _ => by simp [TreeValue.cmp]
  | .leaf _, .leaf _, .leaf _ => by
    simp only [TreeValue.cmp]; exact TransCmp.lt_trans
termination_by structural t => t
theorem TreeValue.cmpParams_trans : ∀ ps qs rs : List (Name × TreeValue L V),
    TreeValue.cmpParams ps qs = .lt → TreeValue.cmpParams qs rs = .lt →
    TreeValue.cmpParams ps rs = .lt
  | [], [], [] => by simp [TreeValue.cmpParams]
  | [], [], _ :: _ => by simp [TreeValue.cmpParams]
  | [], _ :: _, [] => by simp [TreeValue.cmpParams]
  | [], _ :: _, _ :: _ => by simp [TreeValue.cmpParams]
  | _ :: _, [], [] => by simp [TreeValue.cmpParams]
  | _ :: _, [], _ :: _ => by simp [TreeValue.cmpParams]
  | _ :: _, _ :: _, [] => by simp [TreeValue.cmpParams]
  | e :: ps, f :: qs, g :: rs => by
    simp only [TreeValue.cmpParams, Ordering.then_eq_lt]
    rintro (h1 | ⟨h1, h2⟩) (h3 | ⟨h3, h4⟩)
    · exact .inl (TreeValue.cmpEntry_trans e f g h1 h3)
    · obtain rfl := (TreeValue.cmpEntry_eq _ _).1 h3; exact .inl h1
    · obtain rfl := (TreeValue.cmpEntry_eq _ _).1 h1; exact .inl h3
    · refine .inr ⟨?_, TreeValue.cmpParams_trans ps qs rs h2 h4⟩
      rw [TreeValue.cmpEntry_eq] at h1 h3 ⊢; rw [h1, h3]
termination_by structural ps => ps
theorem TreeValue.cmpEntry_trans : ∀ e f g : Name × TreeValue L V,
    TreeValue.cmpEntry e f = .lt → TreeValue.cmpEntry f g = .lt → TreeValue.cmpEntry e g = .lt
  | (n, t), (m, u), (k, s) => by
    simp only [TreeValue.cmpEntry, Ordering.then_eq_lt]
    rintro (h1 | ⟨h1, h2⟩) (h3 | ⟨h3, h4⟩)
    · exact .inl (TransCmp.lt_trans h1 h3)
    · obtain rfl := LawfulEqCmp.eq_of_compare h3; exact .inl h1
    · obtain rfl := LawfulEqCmp.eq_of_compare h1; exact .inl h3
    · exact .inr ⟨TransCmp.eq_trans h1 h3, TreeValue.cmp_trans t u s h2 h4⟩
termination_by structural e => e
end

/-- Lists of parameters, the first less than the second. -/
def ParamsLt (ps qs : List (Name × TreeValue L V)) : Prop :=
  (∃ c n m t u r s, ps = c ++ (n, t) :: r ∧ qs = c ++ (m, u) :: s ∧
    (compare n m = .lt ∨ n = m ∧
      TreeLt (compare · · = .lt) (compare · · = .lt) (compare · · = .lt) t u)) ∨
  ∃ e r, qs = ps ++ e :: r

mutual
theorem TreeValue.cmp_lt : ∀ t u : TreeValue L V, TreeValue.cmp t u = .lt →
    TreeLt (compare · · = .lt) (compare · · = .lt) (compare · · = .lt) t u
  | .node a ps, .node b qs => by
    simp only [TreeValue.cmp, Ordering.then_eq_lt]
    rintro (h | ⟨h1, h2⟩)
    · exact .action _ _ _ _ h
    · obtain rfl := LawfulEqCmp.eq_of_compare h1
      rcases TreeValue.cmpParams_lt ps qs h2 with ⟨c, n, m, t, u, r, s, rfl, rfl, h | ⟨rfl, h⟩⟩ | ⟨e, r, rfl⟩
      · exact .name _ _ _ _ _ _ _ _ h
      · exact .value _ _ _ _ _ _ _ h
      · exact .more _ _ _ _
  | .node _ _, .leaf _ => fun _ => .node_leaf _ _ _
  | .leaf _, .node _ _ => by simp [TreeValue.cmp]
  | .leaf v, .leaf w => by simp only [TreeValue.cmp]; exact fun h => TreeLt.leaf _ _ h
theorem TreeValue.cmpParams_lt : ∀ ps qs : List (Name × TreeValue L V),
    TreeValue.cmpParams ps qs = .lt → ParamsLt ps qs
  | [], [] => by simp [TreeValue.cmpParams]
  | [], e :: r => fun _ => .inr ⟨e, r, rfl⟩
  | _ :: _, [] => by simp [TreeValue.cmpParams]
  | e :: ps, f :: qs => by
    simp only [TreeValue.cmpParams, Ordering.then_eq_lt]
    rintro (h | ⟨h1, h2⟩)
    · have := TreeValue.cmpEntry_lt e f h
      exact .inl ⟨[], e.1, f.1, e.2, f.2, ps, qs, rfl, rfl, this⟩
    · obtain rfl := (TreeValue.cmpEntry_eq _ _).1 h1
      rcases TreeValue.cmpParams_lt ps qs h2 with ⟨c, n, m, t, u, r, s, rfl, rfl, h⟩ | ⟨e', r, rfl⟩
      · exact .inl ⟨e :: c, n, m, t, u, r, s, rfl, rfl, h⟩
      · exact .inr ⟨e', r, rfl⟩
theorem TreeValue.cmpEntry_lt : ∀ e f : Name × TreeValue L V, TreeValue.cmpEntry e f = .lt →
    compare e.1 f.1 = .lt ∨ e.1 = f.1 ∧
      TreeLt (compare · · = .lt) (compare · · = .lt) (compare · · = .lt) e.2 f.2
  | (n, t), (m, u) => by
    simp only [TreeValue.cmpEntry, Ordering.then_eq_lt]
    rintro (h | ⟨h1, h2⟩)
    · exact .inl h
    · exact .inr ⟨LawfulEqCmp.eq_of_compare h1, TreeValue.cmp_lt t u h2⟩
end

theorem TreeValue.cmpParams_append (c ps qs : List (Name × TreeValue L V)) :
    TreeValue.cmpParams (c ++ ps) (c ++ qs) = TreeValue.cmpParams ps qs := by
  induction c with
  | nil => rfl
  | cons e c ih =>
    rw [List.cons_append, List.cons_append, TreeValue.cmpParams, (TreeValue.cmpEntry_eq e e).2 rfl, ih]
    rfl

theorem TreeLt.cmp {t u : TreeValue L V}
    (h : TreeLt (compare · · = .lt) (compare · · = .lt) (compare · · = .lt) t u) :
    TreeValue.cmp t u = .lt := by
  have hs : ∀ a : L, compare a a = .eq := fun _ => ReflCmp.compare_self (cmp := compare)
  induction h with
  | node_leaf => rfl
  | leaf v w h => exact h
  | action a b ps qs h => simp only [TreeValue.cmp, h, Ordering.then]
  | name a c n m t u ps qs h =>
    simp only [TreeValue.cmp, hs, TreeValue.cmpParams_append, TreeValue.cmpParams, TreeValue.cmpEntry, h]
    rfl
  | value a c n t u ps qs _ ih =>
    have : compare n n = .eq := ReflCmp.compare_self (cmp := compare)
    simp only [TreeValue.cmp, hs, TreeValue.cmpParams_append, TreeValue.cmpParams, TreeValue.cmpEntry, ih,
      this]
    rfl
  | more a c e ps =>
    have : TreeValue.cmpParams c (c ++ e :: ps) = .lt := by
      rw [show c = c ++ [] by simp, List.append_assoc, TreeValue.cmpParams_append]; rfl
    simp only [TreeValue.cmp, hs, this]
    rfl

/-- C112: trees of values, with any labels and leaves, of any depth, are ordered lawfully, and in the
order described by `TreeLt`. -/
theorem treeValue_order : LawfulOrder (TreeValue.cmp (L := L) (V := V)) ∧
    ∀ t u : TreeValue L V, TreeValue.cmp t u = .lt ↔
      TreeLt (compare · · = .lt) (compare · · = .lt) (compare · · = .lt) t u :=
  ⟨⟨TreeValue.cmp_eq, TreeValue.cmp_gt, TreeValue.cmp_trans⟩, fun t u => ⟨TreeValue.cmp_lt t u, TreeLt.cmp⟩⟩

/-- C112: nodes are ordered like the values they are. -/
theorem treeNode_order : LawfulOrder (TreeNodeG.cmp (L := L) (V := V)) ∧
    ∀ a b : TreeNodeG L V, a.cmp b = TreeValue.cmp a.toValue b.toValue := by
  have h : ∀ a b : TreeNodeG L V, a.cmp b = TreeValue.cmp a.toValue b.toValue := fun _ _ => by
    rw [TreeNodeG.toValue, TreeNodeG.toValue, TreeValue.cmp]; rfl
  have hi : ∀ a b : TreeNodeG L V, a.toValue = b.toValue ↔ a = b := by
    rintro ⟨⟩ ⟨⟩; simp [TreeNodeG.toValue]
  refine ⟨⟨?_, ?_, ?_⟩, h⟩
  · intro a b; rw [h, TreeValue.cmp_eq, hi]
  · intro a b; rw [h, h, TreeValue.cmp_gt]
  · intro a b c; rw [h, h, h]; exact TreeValue.cmp_trans _ _ _

/-- C112: `TreeNode::new` and `from_action` make the nodes these orders are about: with the given action and
exactly the given parameters, or none; so nodes made from different things differ. -/
theorem treeNode_new (a b : L) (ps qs : BMap Name (TreeValue L V)) :
    (TreeNodeG.new a ps).toValue = .node a ps ∧ (TreeNodeG.fromAction a : TreeNodeG L V).toValue = .node a [] ∧
    ((TreeNodeG.new a ps).cmp (.new b qs) = .eq ↔ a = b ∧ ps = qs) ∧
    ((TreeNodeG.fromAction a).cmp (.new b qs) = .eq ↔ a = b ∧ qs = []) := by
  refine ⟨rfl, rfl, ?_, ?_⟩
  · rw [treeNode_order.2, TreeValue.cmp_eq]; simp [TreeNodeG.toValue, TreeNodeG.new]
  · rw [treeNode_order.2, TreeValue.cmp_eq]
    simp [TreeNodeG.toValue, TreeNodeG.new, TreeNodeG.fromAction, eq_comm]
end swap
end trees

section beq
variable [DecidableEq L] [DecidableEq V]
mutual
theorem TreeValue.beq_iff : ∀ t u : TreeValue L V, TreeValue.beq t u = true ↔ t = u
  | .node a ps, .node b qs => by
    rw [TreeValue.beq, Bool.and_eq_true, TreeValue.beqParams_iff ps qs]; simp
  | .node _ _, .leaf _ => by simp [TreeValue.beq]
  | .leaf _, .node _ _ => by simp [TreeValue.beq]
  | .leaf v, .leaf w => by simp [TreeValue.beq]
theorem TreeValue.beqParams_iff : ∀ ps qs : List (Name × TreeValue L V),
    TreeValue.beqParams ps qs = true ↔ ps = qs
  | [], [] => by simp [TreeValue.beqParams]
  | [], _ :: _ => by simp [TreeValue.beqParams]
  | _ :: _, [] => by simp [TreeValue.beqParams]
  | e :: ps, f :: qs => by
    rw [TreeValue.beqParams, Bool.and_eq_true, TreeValue.beqEntry_iff e f, TreeValue.beqParams_iff ps qs]
    simp
theorem TreeValue.beqEntry_iff : ∀ e f : Name × TreeValue L V, TreeValue.beqEntry e f = true ↔ e = f
  | (n, t), (m, u) => by
    rw [TreeValue.beqEntry, Bool.and_eq_true, TreeValue.beq_iff t u]
    simp
end
end beq

/-- C112: `==` of trees is equality, and agrees with the order. -/
theorem treeValue_eq [Ord L] [Ord V] [DecidableEq L] [DecidableEq V] [LawfulEqOrd L] [LawfulEqOrd V]
    (t u : TreeValue L V) : (TreeValue.beq t u = true ↔ t = u) ∧
    (TreeValue.beq t u = true ↔ TreeValue.cmp t u = .eq) :=
  ⟨TreeValue.beq_iff t u, by rw [TreeValue.beq_iff, TreeValue.cmp_eq]⟩

/-! ## The model of `TreeNode<L, Void>` -/

mutual
theorem TreeNode.toValue_inj {L : Type} : ∀ a b : TreeNode L, a.toValue = b.toValue → a = b
  | .mk a ps, .mk b qs => by
    rw [TreeNode.toValue, TreeNode.toValue, TreeValue.node.injEq]
    rintro ⟨rfl, h⟩
    rw [TreeNode.toParams_inj ps qs h]
theorem TreeNode.toParams_inj {L : Type} : ∀ ps qs : List (Name × TreeNode L),
    TreeNode.toParams ps = TreeNode.toParams qs → ps = qs
  | [], [] => fun _ => rfl
  | [], _ :: _ => by rw [TreeNode.toParams, TreeNode.toParams]; exact fun h => (by cases h)
  | _ :: _, [] => by rw [TreeNode.toParams, TreeNode.toParams]; exact fun h => (by cases h)
  | e :: ps, f :: qs => by
    rw [TreeNode.toParams, TreeNode.toParams, List.cons.injEq]
    rintro ⟨h1, h2⟩
    rw [TreeNode.toEntry_inj e f h1, TreeNode.toParams_inj ps qs h2]
theorem TreeNode.toEntry_inj {L : Type} : ∀ e f : Name × TreeNode L,
    TreeNode.toEntry e = TreeNode.toEntry f → e = f
  | (n, t), (m, u) => by
    rw [TreeNode.toEntry, TreeNode.toEntry, _root_.Prod.mk.injEq]
    rintro ⟨rfl, h⟩
    rw [TreeNode.toValue_inj t u h]
end

mutual
theorem TreeNode.toValue_surj {L : Type} : ∀ t : TreeValue L Empty, ∃ a : TreeNode L, a.toValue = t
  | .node a ps => by
    obtain ⟨qs, h⟩ := TreeNode.toParams_surj ps
    exact ⟨.mk a qs, by rw [TreeNode.toValue, h]⟩
  | .leaf v => v.elim
theorem TreeNode.toParams_surj {L : Type} : ∀ ps : List (Name × TreeValue L Empty),
    ∃ qs : List (Name × TreeNode L), TreeNode.toParams qs = ps
  | [] => ⟨[], by rw [TreeNode.toParams]⟩
  | e :: ps => by
    obtain ⟨f, hf⟩ := TreeNode.toEntry_surj e
    obtain ⟨qs, h⟩ := TreeNode.toParams_surj ps
    exact ⟨f :: qs, by rw [TreeNode.toParams, hf, h]⟩
theorem TreeNode.toEntry_surj {L : Type} : ∀ e : Name × TreeValue L Empty,
    ∃ f : Name × TreeNode L, TreeNode.toEntry f = e
  | (n, t) => by
    obtain ⟨a, h⟩ := TreeNode.toValue_surj t
    exact ⟨(n, a), by rw [TreeNode.toEntry, h]⟩
end

/-- C112: the trees of null actions (with `Void` for leaves, src/utils.rs:148-149) are exactly the trees
without leaves. -/
theorem voidTree_iso (L : Type) : Function.Bijective (TreeNode.toValue (L := L)) :=
  ⟨fun a b h => TreeNode.toValue_inj a b h, fun t => TreeNode.toValue_surj t⟩

/-! ## Wrapping and transforming again

The keys of wrapped and transformed grammars can be keys of grammars: their orders are lawful, as the
theorems about grammars assume of the orders of keys. -/

instance [Ord AK] : Ord (StartActionKey AK) := ⟨StartActionKey.cmp⟩
instance [Ord NT] [Ord AK] : Ord (ProdKey NT AK) := ⟨ProdKey.cmp⟩
instance [Ord AK] [TransOrd AK] [LawfulEqOrd AK] : TransOrd (StartActionKey AK) :=
  startActionKey_order.1.transCmp
instance [Ord AK] [TransOrd AK] [LawfulEqOrd AK] : LawfulEqOrd (StartActionKey AK) :=
  startActionKey_order.1.lawfulEqCmp
instance [Ord NT] [Ord AK] [TransOrd NT] [LawfulEqOrd NT] [TransOrd AK] [LawfulEqOrd AK] :
    TransOrd (ProdKey NT AK) := prodKey_order.1.transCmp
instance [Ord NT] [Ord AK] [TransOrd NT] [LawfulEqOrd NT] [TransOrd AK] [LawfulEqOrd AK] :
    LawfulEqOrd (ProdKey NT AK) := prodKey_order.1.lawfulEqCmp

/-- Keys and symbols of a wrapped, transformed and again wrapped grammar. -/
example : LawfulOrder (compare : StartActionKey (NNActionKey (StartActionKey Nat)) →
      StartActionKey (NNActionKey (StartActionKey Nat)) → Ordering) ∧
    LawfulOrder (compare : Elem (StreamTerminal (StreamTerminal Nat)) (StartNonTerminal (StartNonTerminal Nat)) →
      Elem (StreamTerminal (StreamTerminal Nat)) (StartNonTerminal (StartNonTerminal Nat)) → Ordering) ∧
    compare (StartActionKey.actionKey ⟨StartActionKey.actionKey 3, [false, true]⟩)
      (StartActionKey.actionKey ⟨StartActionKey.actionKey 3, [true]⟩ :
        StartActionKey (NNActionKey (StartActionKey Nat))) = .lt ∧
    compare (⟨1, 5⟩ : ProdKey Nat Nat) ⟨2, 3⟩ = .lt :=
  ⟨lawfulOrder_of _, lawfulOrder_of _, rfl, rfl⟩

/-- Trees: `f(a: 1, b: 2)` comes before `f(a: 1, b: 3)` and after `f(a: 1)`; leaves come last. -/
example :
    let t (ps : List (Name × TreeValue Nat Nat)) : TreeValue Nat Nat := .node 0 ps
    TreeValue.cmp (t [("a", .leaf 1), ("b", .leaf 2)]) (t [("a", .leaf 1), ("b", .leaf 3)]) = .lt ∧
    TreeValue.cmp (t [("a", .leaf 1), ("b", .leaf 2)]) (t [("a", .leaf 1)]) = .gt ∧
    TreeValue.cmp (t [("a", t [])]) (t [("a", .leaf 1)]) = .lt ∧
    TreeValue.beq (t [("a", t [])]) (t [("a", t [])]) = true ∧
    TreeNodeG.cmp (.fromAction 1) (.new 0 [("a", (.leaf 3 : TreeValue Nat Nat))]) = .gt := by
  decide

/-- Handles of the same node of two trees differ. -/
example : Node.cmp ⟨3, 100⟩ ⟨3, 200⟩ = .lt ∧ NodeView.cmp (.leaf ⟨7, 100⟩) (.branch ⟨3, 100⟩) = .lt :=
  ⟨rfl, rfl⟩

end Bongo
