import Verif.Spec.Rename
import Verif.Proof.Forest
import Verif.Proof.History
import Verif.Proof.Start
/-!
# Lemmas: the parser and the forests do not look at names
-/
set_option linter.unusedSectionVars false
set_option linter.unusedSimpArgs false
namespace Bongo
open Std
variable {T NT AK AV V T' NT' AK' AV' V' : Type}

/-- The two results correspond: the same panic, or values in the relation. -/
def Res.Both {α β : Type} (R : α → β → Prop) : Res α → Res β → Prop
  | .ok a, .ok b => R a b
  | .panic p, .panic q => p = q
  | .oof, .oof => True
  | _, _ => False

theorem Res.Both.out {α β : Type} {R : α → β → Prop} {r : Res α} {r' : Res β} (h : Res.Both R r r') :
    (∃ a b, r = .ok a ∧ r' = .ok b ∧ R a b) ∨ (∃ p, r = .panic p ∧ r' = .panic p) ∨
      (r = .oof ∧ r' = .oof) := by
  cases r <;> cases r' <;> simp only [Res.Both] at h
  · exact .inl ⟨_, _, rfl, rfl, h⟩
  · subst h; exact .inr (.inl ⟨_, rfl, rfl⟩)
  · exact .inr (.inr ⟨rfl, rfl⟩)

theorem changeIterM_both {S S' ι ι' : Type} {R : S → S' → Prop} {m : ι → ι'}
    {f : S → ι → Res (S × WasChanged)} {f' : S' → ι' → Res (S' × WasChanged)}
    (hf : ∀ s s' x, R s s' → Res.Both (fun a b => R a.1 b.1 ∧ a.2 = b.2) (f s x) (f' s' (m x)))
    (l : List ι) : ∀ s s' acc, R s s' →
      Res.Both (fun a b => R a.1 b.1 ∧ a.2 = b.2) (changeIterM l f s acc)
        (changeIterM (l.map m) f' s' acc) := by
  induction l with
  | nil => intro s s' acc h; exact ⟨h, rfl⟩
  | cons x l ih =>
    intro s s' acc h
    simp only [List.map_cons, changeIterM]
    rcases (hf s s' x h).out with ⟨a, b, e1, e2, r1, r2⟩ | ⟨p, e1, e2⟩ | ⟨e1, e2⟩ <;> simp only [e1, e2]
    · rw [r2]; exact ih _ _ _ r1
    · rfl
    · trivial

theorem changeLoop_both {S S' : Type} {R : S → S' → Prop}
    {f : S → Res (S × WasChanged)} {f' : S' → Res (S' × WasChanged)}
    (hf : ∀ s s', R s s' → Res.Both (fun a b => R a.1 b.1 ∧ a.2 = b.2) (f s) (f' s')) :
    ∀ fuel s s', R s s' → Res.Both R (changeLoop fuel f s) (changeLoop fuel f' s') := by
  intro fuel
  induction fuel with
  | zero => intro s s' _; trivial
  | succ fuel ih =>
    intro s s' h
    unfold changeLoop
    rcases (hf s s' h).out with ⟨⟨a, c⟩, ⟨b, d⟩, e1, e2, r1, r2⟩ | ⟨p, e1, e2⟩ | ⟨e1, e2⟩ <;>
      simp only [e1, e2]
    · simp only at r2
      subst r2
      cases c with
      | changed => exact ih _ _ r1
      | unchanged => exact r1
    · rfl
    · trivial

namespace BMap
variable {K K' W : Type} {cmp : K → K → Ordering} {cmp' : K' → K' → Ordering} {f : K → K'}

theorem get?_mapKeys (h : ∀ a b, cmp' (f a) (f b) = cmp a b) (m : BMap K W) (k : K) :
    get? cmp' (m.map fun kv => (f kv.1, kv.2)) (f k) = get? cmp m k := by
  induction m with
  | nil => rfl
  | cons x m ih =>
    obtain ⟨k', v⟩ := x
    simp only [get?, List.map_cons, entry?, h] at ih ⊢
    cases cmp k k' <;> simp [ih]

theorem insert_mapKeys (h : ∀ a b, cmp' (f a) (f b) = cmp a b) (m : BMap K W) (k : K) (v : W) :
    insert cmp' (m.map fun kv => (f kv.1, kv.2)) (f k) v =
      (insert cmp m k v).map fun kv => (f kv.1, kv.2) := by
  induction m with
  | nil => rfl
  | cons x m ih =>
    obtain ⟨k', v'⟩ := x
    simp only [List.map_cons, insert, h]
    cases cmp k k' <;> simp [ih]
end BMap

/-! ## Forests -/

/-- The content with the other names. -/
def NodeContent.ren (fT : T → T') (fA : AK → AK') (fV : V → V') :
    NodeContent T AK V → NodeContent T' AK' V'
  | .leaf k v => .leaf (fT k) (fV v)
  | .branch a ns => .branch (fA a) ns

section forest
variable [Ord T] [Ord AK] [Ord V] [Ord T'] [Ord AK'] [Ord V'] [TransOrd T] [TransOrd AK] [TransOrd V]
  [TransOrd T'] [TransOrd AK'] [TransOrd V']
variable {fT : T → T'} {fA : AK → AK'} {fV : V → V'}

/-- What compares as different stays different, and what compares as equal stays so. -/
structure RenInj (fT : T → T') (fA : AK → AK') (fV : V → V') : Prop where
  term : ∀ a b, compare (fT a) (fT b) = .eq ↔ compare a b = .eq
  key : ∀ a b, compare (fA a) (fA b) = .eq ↔ compare a b = .eq
  val : ∀ a b, compare (fV a) (fV b) = .eq ↔ compare a b = .eq

theorem compareEq_iff_of_inj {A B : Type} [Ord A] [Ord B] [LawfulEqOrd A] [LawfulEqOrd B] {f : A → B}
    (h : ∀ a b, f a = f b → a = b) (a b : A) : compare (f a) (f b) = .eq ↔ compare a b = .eq := by
  rw [LawfulEqCmp.compare_eq_iff_eq, LawfulEqCmp.compare_eq_iff_eq]
  exact ⟨h a b, fun e => by rw [e]⟩

theorem RenInj.of_inj [LawfulEqOrd T] [LawfulEqOrd AK] [LawfulEqOrd V] [LawfulEqOrd T'] [LawfulEqOrd AK']
    [LawfulEqOrd V'] (hT : ∀ a b, fT a = fT b → a = b) (hA : ∀ a b, fA a = fA b → a = b)
    (hV : ∀ a b, fV a = fV b → a = b) : RenInj fT fA fV :=
  ⟨compareEq_iff_of_inj hT, compareEq_iff_of_inj hA, compareEq_iff_of_inj hV⟩

theorem RenInj.content (h : RenInj fT fA fV) (a b : NodeContent T AK V) :
    NodeContent.cmp (a.ren fT fA fV) (b.ren fT fA fV) = .eq ↔ NodeContent.cmp a b = .eq := by
  cases a <;> cases b <;>
    simp only [NodeContent.ren, NodeContent.cmp_eq, pairCmp, Ordering.then_eq_eq, h.term, h.key, h.val,
      reduceCtorEq]

/-- The one tree is the other with the other names. -/
structure InnerRen (fT : T → T') (fA : AK → AK') (fV : V → V') (i : Inner T AK V)
    (i' : Inner T' AK' V') : Prop where
  nodes : i'.nodes = i.nodes
  vals : i'.alternatives.idToValue = i.alternatives.idToValue.map (NodeContent.ren fT fA fV)
  look : ∀ c, BMap.get? NodeContent.cmp i'.alternatives.valueToId (c.ren fT fA fV) =
    BMap.get? NodeContent.cmp i.alternatives.valueToId c

variable {i : Inner T AK V} {i' : Inner T' AK' V'}

theorem innerRen_new : InnerRen fT fA fV (Inner.new : Inner T AK V) Inner.new := ⟨rfl, rfl, fun _ => rfl⟩

theorem InnerRen.makeNode (h : InnerRen fT fA fV i i') :
    InnerRen fT fA fV i.makeNode.1 i'.makeNode.1 ∧ i'.makeNode.2 = i.makeNode.2 := by
  refine ⟨⟨?_, h.vals, h.look⟩, ?_⟩
  · simp only [Inner.makeNode, h.nodes]
  · simp only [Inner.makeNode, h.nodes]

theorem InnerRen.makeAlt (hi : RenInj fT fA fV) (h : InnerRen fT fA fV i i') (c : NodeContent T AK V) :
    InnerRen fT fA fV (i.makeAlt c).1 (i'.makeAlt (c.ren fT fA fV)).1 ∧
      (i'.makeAlt (c.ren fT fA fV)).2 = (i.makeAlt c).2 := by
  simp only [Inner.makeAlt, AltSet.add, h.look c]
  cases hg : BMap.get? NodeContent.cmp i.alternatives.valueToId c with
  | some k => exact ⟨h, rfl⟩
  | none =>
    refine ⟨⟨h.nodes, ?_, ?_⟩, ?_⟩
    · simp only [h.vals, List.map_append, List.map_cons, List.map_nil]
    · intro c'
      simp only [h.vals, List.length_map]
      rw [BMap.get?_insert, BMap.get?_insert, h.look c']
      simp only [hi.content c' c]
    · simp only [h.vals, List.length_map]

theorem InnerRen.addNodeAlt (h : InnerRen fT fA fV i i') (n a : Nat) :
    Res.Both (fun x y => InnerRen fT fA fV x.1 y.1 ∧ x.2 = y.2) (i.addNodeAlt n a) (i'.addNodeAlt n a) := by
  simp only [Inner.addNodeAlt, Inner.getNode, h.nodes]
  cases i.nodes[n]? with
  | none => rfl
  | some s => exact ⟨⟨rfl, h.vals, h.look⟩, rfl⟩

theorem InnerRen.addAll (h : InnerRen fT fA fV i i') (n m : Nat) :
    Res.Both (fun x y => InnerRen fT fA fV x.1 y.1 ∧ x.2 = y.2) (i.addAll n m) (i'.addAll n m) := by
  simp only [Inner.addAll, Inner.getNode, h.nodes]
  cases i.nodes[m]? with
  | none => rfl
  | some s =>
    have := changeIterM_both (R := InnerRen fT fA fV) (m := id)
      (f := fun (i : Inner T AK V) a => i.addNodeAlt n a)
      (f' := fun (i : Inner T' AK' V') a => i.addNodeAlt n a)
      (fun s s' x hr => hr.addNodeAlt n x) s i i' .unchanged h
    rwa [List.map_id] at this

theorem InnerRen.makeLeafNode (hi : RenInj fT fA fV) (h : InnerRen fT fA fV i i') (k : T) (v : V) :
    Res.Both (fun x y => InnerRen fT fA fV x.1 y.1 ∧ x.2 = y.2) (i.makeLeafNode k v)
      (i'.makeLeafNode (fT k) (fV v)) := by
  have h1 := h.makeNode
  have h2 := h1.1.makeAlt hi (.leaf k v)
  have h3 := h2.1.addNodeAlt i.makeNode.2 (i.makeNode.1.makeAlt (.leaf k v)).2
  simp only [Inner.makeLeafNode]
  rw [h1.2, show NodeContent.leaf (fT k) (fV v) = (NodeContent.leaf k v : NodeContent T AK V).ren fT fA fV
    from rfl, h2.2]
  rcases h3.out with ⟨a, b, e1, e2, r1, r2⟩ | ⟨p, e1, e2⟩ | ⟨e1, e2⟩ <;> simp only [e1, e2]
  · exact ⟨r1, rfl⟩
  · rfl
  · trivial

theorem InnerRen.makeBranchNode (hi : RenInj fT fA fV) (h : InnerRen fT fA fV i i') (ak : AK)
    (ns : List Nat) :
    Res.Both (fun x y => InnerRen fT fA fV x.1 y.1 ∧ x.2 = y.2) (i.makeBranchNode ak ns)
      (i'.makeBranchNode (fA ak) ns) := by
  have h1 := h.makeNode
  have h2 := h1.1.makeAlt hi (.branch ak ns)
  have h3 := h2.1.addNodeAlt i.makeNode.2 (i.makeNode.1.makeAlt (.branch ak ns)).2
  simp only [Inner.makeBranchNode]
  rw [h1.2, show NodeContent.branch (fA ak) ns = (NodeContent.branch ak ns : NodeContent T AK V).ren fT fA fV
    from rfl, h2.2]
  rcases h3.out with ⟨a, b, e1, e2, r1, r2⟩ | ⟨p, e1, e2⟩ | ⟨e1, e2⟩ <;> simp only [e1, e2]
  · exact ⟨r1, rfl⟩
  · rfl
  · trivial

theorem InnerRen.getAlt (h : InnerRen fT fA fV i i') (k : Nat) :
    i'.getAlt k = (i.getAlt k).mapOut (NodeContent.ren fT fA fV) := by
  simp only [Inner.getAlt, AltSet.get, h.vals, List.getElem?_map]
  cases i.alternatives.idToValue[k]? <;> rfl

/-- All the trees are. -/
def WorldRen (fT : T → T') (fA : AK → AK') (fV : V → V') (w : World T AK V) (w' : World T' AK' V') :
    Prop := ∀ t, InnerRen fT fA fV (w t) (w' t)

variable {w : World T AK V} {w' : World T' AK' V'}

theorem WorldRen.set (h : WorldRen fT fA fV w w') (t : Nat) (hi : InnerRen fT fA fV i i') :
    WorldRen fT fA fV (w.set t i) (w'.set t i') := by
  intro t'
  unfold World.set
  by_cases e : t' = t
  · simp only [e, if_true]; exact hi
  · simp only [if_neg e]; exact h t'

theorem WorldRen.update {α : Type} (h : WorldRen fT fA fV w w') (t : Nat) {r : Res (Inner T AK V × α)}
    {r' : Res (Inner T' AK' V' × α)}
    (hr : Res.Both (fun x y => InnerRen fT fA fV x.1 y.1 ∧ x.2 = y.2) r r') :
    WorldRen fT fA fV (w.update t r).1 (w'.update t r').1 ∧ (w'.update t r').2 = (w.update t r).2 := by
  cases r <;> cases r' <;> simp only [Res.Both] at hr
  · exact ⟨h.set t hr.1, by simp [World.update, hr.2]⟩
  · subst hr; exact ⟨h, rfl⟩
  · exact ⟨h, rfl⟩

/-- Every call keeps the trees renamed, and its outcome is the renamed one. -/
theorem WorldRen.exec (hi : RenInj fT fA fV) (h : WorldRen fT fA fV w w') (op : TreeOp T AK V) :
    WorldRen fT fA fV (op.exec w).1 ((op.renamed fT fA fV).exec w').1 ∧
      ((op.renamed fT fA fV).exec w').2 = (op.exec w).2.mapOut (TreeOut.renamed fT fA fV) := by
  cases op with
  | makeNode t =>
    have := (h t).makeNode
    exact ⟨h.set t this.1, by simp only [TreeOp.renamed, TreeOp.exec, World.makeNode, this.2, Res.mapOut,
      TreeOut.renamed]⟩
  | makeLeafAlt t k v =>
    have := (h t).makeAlt hi (.leaf k v)
    refine ⟨h.set t this.1, ?_⟩
    have e := this.2
    simp only [NodeContent.ren] at e
    simp only [TreeOp.renamed, TreeOp.exec, World.makeLeafAlt, World.makeAlt, Res.mapOut, TreeOut.renamed, e]
  | makeBranchAlt t a ns =>
    simp only [TreeOp.renamed, TreeOp.exec, World.makeBranchAlt]
    split
    · have := (h t).makeAlt hi (.branch a (ns.map (·.index)))
      refine ⟨h.set t this.1, ?_⟩
      have e := this.2
      simp only [NodeContent.ren] at e
      simp only [World.makeAlt, Res.mapOut, TreeOut.renamed, e]
    · exact ⟨h, rfl⟩
  | addAlt n a =>
    simp only [TreeOp.renamed, TreeOp.exec, World.addAlt]
    split
    · have := h.update n.tree ((h n.tree).addNodeAlt n.index a.index)
      refine ⟨this.1, ?_⟩
      rw [this.2]
      cases (w.update n.tree ((w n.tree).addNodeAlt n.index a.index)).2 <;> rfl
    · exact ⟨h, rfl⟩
  | addAll n m =>
    simp only [TreeOp.renamed, TreeOp.exec, World.addAll]
    split
    · have := h.update n.tree ((h n.tree).addAll n.index m.index)
      refine ⟨this.1, ?_⟩
      rw [this.2]
      cases (w.update n.tree ((w n.tree).addAll n.index m.index)).2 <;> rfl
    · exact ⟨h, rfl⟩
  | alts n =>
    refine ⟨h, ?_⟩
    simp only [TreeOp.renamed, TreeOp.exec, World.alts, Inner.getNode, (h n.tree).nodes]
    cases (w n.tree).nodes[n.index]? <;> rfl
  | content a =>
    refine ⟨h, ?_⟩
    simp only [TreeOp.renamed, TreeOp.exec, World.content, (h a.tree).getAlt]
    rcases (w a.tree).getAlt a.index with (c | p | _)
    · cases c <;> rfl
    · rfl
    · rfl
  | kind l =>
    refine ⟨h, ?_⟩
    simp only [TreeOp.renamed, TreeOp.exec, World.kind, World.withLeaf, (h l.tree).getAlt]
    rcases (w l.tree).getAlt l.index with (c | p | _)
    · cases c <;> rfl
    · rfl
    · rfl
  | value l =>
    refine ⟨h, ?_⟩
    simp only [TreeOp.renamed, TreeOp.exec, World.value, World.withLeaf, (h l.tree).getAlt]
    rcases (w l.tree).getAlt l.index with (c | p | _)
    · cases c <;> rfl
    · rfl
    · rfl
  | action b =>
    refine ⟨h, ?_⟩
    simp only [TreeOp.renamed, TreeOp.exec, World.action, World.withBranch, (h b.tree).getAlt]
    rcases (w b.tree).getAlt b.index with (c | p | _)
    · cases c <;> rfl
    · rfl
    · rfl
  | nodes b =>
    refine ⟨h, ?_⟩
    simp only [TreeOp.renamed, TreeOp.exec, World.branchNodes, World.withBranch, (h b.tree).getAlt]
    rcases (w b.tree).getAlt b.index with (c | p | _)
    · cases c <;> rfl
    · rfl
    · rfl

theorem TreeOp.renamed_allowed (op : TreeOp T AK V) (held : List Handle) :
    (op.renamed fT fA fV).Allowed held ↔ op.Allowed held := by cases op <;> rfl

theorem TreeOut.renamed_gives (r : Res (TreeOut T AK V)) :
    TreeOut.gives (r.mapOut (TreeOut.renamed fT fA fV)) = TreeOut.gives r := by
  rcases r with (o | p | _)
  · rcases o with _ | _ | _ | _ | (_ | _) | _ | _ | _ | _ <;> rfl
  · rfl
  · rfl

theorem history_worldRen (hi : RenInj fT fA fV) {log : TreeLog T AK V} {held : List Handle}
    (h : History log w held) :
    ∃ w' : World T' AK' V', History (log.renamed fT fA fV) w' held ∧ WorldRen fT fA fV w w' := by
  induction h with
  | start => exact ⟨World.new, .start, fun _ => innerRen_new⟩
  | newOwner t _ hf ih =>
    obtain ⟨w', h1, h2⟩ := ih
    exact ⟨w', .newOwner t h1 hf, h2⟩
  | call op _ ha ih =>
    obtain ⟨w', h1, h2⟩ := ih
    have h3 := h2.exec hi op
    refine ⟨_, ?_, h3.1⟩
    have := History.call (op.renamed fT fA fV) h1 ((TreeOp.renamed_allowed op _).2 ha)
    rw [h3.2, TreeOut.renamed_gives] at this
    exact this

/-- The memory after the calls of a log. -/
def logWorld : TreeLog T AK V → World T AK V
  | [] => World.new
  | c :: log => (c.1.exec (logWorld log)).1

theorem history_logWorld {log : TreeLog T AK V} {held : List Handle} (h : History log w held) :
    w = logWorld log := by
  induction h with
  | start => rfl
  | newOwner t _ hf ih => exact ih
  | call op _ ha ih => rw [logWorld, ← ih]

theorem logWorld_ren (hi : RenInj fT fA fV) (log : TreeLog T AK V) :
    WorldRen fT fA fV (logWorld log) (logWorld (log.renamed fT fA fV) : World T' AK' V') := by
  induction log with
  | nil => exact fun _ => innerRen_new
  | cons c log ih => exact (ih.exec hi c.1).1

/-- The memory after a history is determined by the log. -/
theorem worldRen_of_histories (hi : RenInj fT fA fV) {log : TreeLog T AK V} {held held' : List Handle}
    (h : History log w held) (h' : History (log.renamed fT fA fV) w' held') : WorldRen fT fA fV w w' := by
  rw [history_logWorld h, history_logWorld h']
  exact logWorld_ren hi log
end forest
end Bongo
