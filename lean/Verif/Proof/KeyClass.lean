import Verif.Spec.Keys
import Verif.Proof.Preorder
import Verif.Proof.CmpClass
import Verif.Props.RenamePasses
/-!
# Lemmas: kinds, keys and values that compare equal
-/
set_option linter.unusedSectionVars false
namespace Bongo
open Std
variable {T NT AK AV V : Type}

/-! ## The alternatives of a tree are the first ones given -/
section
variable [Ord T] [Ord AK] [Ord V] [TransOrd T] [TransOrd AK] [TransOrd V]

/-- Every alternative is the first content given of those that compare equal to it. -/
structure KeepsC (L : List (NodeContent T AK V)) (a : AltSet T AK V) : Prop where
  here : ∀ (k : Nat) c, a.idToValue[k]? = some c → BMap.get? NodeContent.cmp a.valueToId c = some k
  first : ∀ (k : Nat) c, a.idToValue[k]? = some c →
    L.find? (fun x => decide (NodeContent.cmp x c = .eq)) = some c
  all : ∀ x ∈ L, ∃ k, BMap.get? NodeContent.cmp a.valueToId x = some k

theorem keepsC_new : KeepsC [] (AltSet.new : AltSet T AK V) where
  here := by intro k c h; simp [AltSet.new] at h
  first := by intro k c h; simp [AltSet.new] at h
  all := by intro x hx; cases hx

theorem KeepsC.add {L : List (NodeContent T AK V)} {a : AltSet T AK V} (h : KeepsC L a)
    (c : NodeContent T AK V) : KeepsC (L ++ [c]) (a.add c).1 := by
  cases hn : BMap.get? NodeContent.cmp a.valueToId c with
  | some k =>
    simp only [AltSet.add, hn]
    refine ⟨h.here, ?_, ?_⟩
    · intro k c' hk
      rw [List.find?_append, h.first _ _ hk]; rfl
    · intro x hx
      rcases List.mem_append.1 hx with hx | hx
      · exact h.all x hx
      · rw [List.mem_singleton.1 hx]; exact ⟨k, hn⟩
  | none =>
    have hne : ∀ c₁ k, BMap.get? NodeContent.cmp a.valueToId c₁ = some k → NodeContent.cmp c₁ c ≠ .eq := by
      intro c₁ k h1 he
      rw [BMap.get?_congr _ he, hn] at h1
      cases h1
    have hval : ∀ (k : Nat) c₁, (a.idToValue ++ [c])[k]? = some c₁ →
        a.idToValue[k]? = some c₁ ∨ (k = a.idToValue.length ∧ c₁ = c) := by
      intro k c₁ hk
      rcases getElem?_concat hk with ⟨_, hk⟩ | ⟨hk, e⟩
      · exact .inl hk
      · exact .inr ⟨hk, e⟩
    simp only [AltSet.add, hn]
    refine ⟨?_, ?_, ?_⟩
    · intro k c₁ hk
      rw [BMap.get?_insert]
      rcases hval k c₁ hk with hk | ⟨rfl, rfl⟩
      · have := h.here _ _ hk
        rw [if_neg (hne _ _ this)]; exact this
      · rw [if_pos ReflCmp.compare_self]
    · intro k c₁ hk
      rcases hval k c₁ hk with hk | ⟨rfl, rfl⟩
      · rw [List.find?_append, h.first _ _ hk]; rfl
      · have : L.find? (fun x => decide (NodeContent.cmp x c₁ = .eq)) = none := by
          rw [List.find?_eq_none]
          intro x hx hl
          obtain ⟨k, hk⟩ := h.all x hx
          exact hne _ _ hk (of_decide_eq_true hl)
        have hr : NodeContent.cmp c₁ c₁ = .eq := ReflCmp.compare_self
        simp [List.find?_append, this, hr]
    · intro x hx
      rcases List.mem_append.1 hx with hx | hx
      · obtain ⟨k, hk⟩ := h.all x hx
        exact ⟨k, by rw [BMap.get?_insert, if_neg (hne _ _ hk)]; exact hk⟩
      · rw [List.mem_singleton.1 hx]
        exact ⟨_, by rw [BMap.get?_insert, if_pos ReflCmp.compare_self]⟩

/-- The content as it is stored. -/
def toContent : (T × V) ⊕ (AK × List Node) → NodeContent T AK V
  | .inl (k, v) => .leaf k v
  | .inr (ak, ns) => .branch ak (ns.map (·.index))

theorem history_keepsC {log : TreeLog T AK V} {w : World T AK V} {held : List Handle}
    (h : History log w held) : ∀ t, KeepsC ((log.madeOn t).map toContent) (w t).alternatives := by
  induction h with
  | start => intro t; exact keepsC_new
  | newOwner t _ hf ih => exact ih
  | @call log w held op _ ha ih =>
    intro t
    cases op with
    | makeNode t' =>
      simp only [TreeOp.exec, World.makeNode, World.set, TreeLog.madeOn, TreeOp.made]
      split
      · rename_i e; subst e; exact ih t
      · exact ih t
    | makeLeafAlt t' k v =>
      simp only [TreeOp.exec, World.makeLeafAlt, World.makeAlt, World.set, TreeLog.madeOn, TreeOp.made]
      by_cases e : t = t'
      · subst e
        rw [if_pos rfl, if_pos rfl, List.map_append]
        exact (ih t).add (.leaf k v)
      · rw [if_neg e, if_neg (Ne.symm e)]; exact ih t
    | makeBranchAlt t' a ns =>
      simp only [TreeOp.exec, World.makeBranchAlt, World.makeAlt]
      by_cases hs : (ns.all fun n => World.isSame t' n.tree) = true
      · rw [if_pos hs]
        simp only [Res.mapOut, TreeLog.madeOn, TreeOp.made, World.set]
        by_cases e : t = t'
        · subst e
          rw [if_pos rfl, if_pos rfl, List.map_append]
          exact (ih t).add (.branch a (ns.map (·.index)))
        · rw [if_neg e, if_neg (Ne.symm e)]; exact ih t
      · rw [if_neg hs]
        exact ih t
    | addAlt n a =>
      have e : TreeLog.madeOn t ((.addAlt n a, ((TreeOp.addAlt n a).exec w).2) :: log) = log.madeOn t := by
        cases ((TreeOp.addAlt n a).exec w).2 <;> rfl
      rw [e]
      simp only [TreeOp.exec, World.addAlt]
      split
      · cases hr : (w n.tree).addNodeAlt n.index a.index with
        | ok r =>
          obtain ⟨i', c⟩ := r
          simp only [World.update, World.set]
          split
          · rename_i e; subst e; rw [addNodeAlt_alts hr]; exact ih _
          · exact ih t
        | panic p => exact ih t
        | oof => exact ih t
      · exact ih t
    | addAll n m =>
      have e : TreeLog.madeOn t ((.addAll n m, ((TreeOp.addAll n m).exec w).2) :: log) = log.madeOn t := by
        cases ((TreeOp.addAll n m).exec w).2 <;> rfl
      rw [e]
      simp only [TreeOp.exec, World.addAll]
      split
      · cases hr : (w n.tree).addAll n.index m.index with
        | ok r =>
          obtain ⟨i', c⟩ := r
          simp only [World.update, World.set]
          split
          · rename_i e; subst e; rw [addAll_alts hr]; exact ih _
          · exact ih t
        | panic p => exact ih t
        | oof => exact ih t
      · exact ih t
    | alts n =>
      have e : TreeLog.madeOn t ((.alts n, ((TreeOp.alts n).exec w).2) :: log) = log.madeOn t := by
        cases ((TreeOp.alts n).exec w).2 <;> rfl
      rw [e]; exact ih t
    | content a =>
      have e : TreeLog.madeOn t ((.content a, ((TreeOp.content a).exec w).2) :: log) = log.madeOn t := by
        cases ((TreeOp.content a).exec w).2 <;> rfl
      rw [e]; exact ih t
    | kind l =>
      have e : TreeLog.madeOn t ((.kind l, ((TreeOp.kind l).exec w).2) :: log) = log.madeOn t := by
        cases ((TreeOp.kind l).exec w).2 <;> rfl
      rw [e]; exact ih t
    | value l =>
      have e : TreeLog.madeOn t ((.value l, ((TreeOp.value l).exec w).2) :: log) = log.madeOn t := by
        cases ((TreeOp.value l).exec w).2 <;> rfl
      rw [e]; exact ih t
    | action b =>
      have e : TreeLog.madeOn t ((.action b, ((TreeOp.action b).exec w).2) :: log) = log.madeOn t := by
        cases ((TreeOp.action b).exec w).2 <;> rfl
      rw [e]; exact ih t
    | nodes b =>
      have e : TreeLog.madeOn t ((.nodes b, ((TreeOp.nodes b).exec w).2) :: log) = log.madeOn t := by
        cases ((TreeOp.nodes b).exec w).2 <;> rfl
      rw [e]; exact ih t

theorem madeOn_skip {t : Nat} {log : TreeLog T AK V} {op : TreeOp T AK V} (r : Res (TreeOut T AK V))
    (h : op.made = none) : TreeLog.madeOn t ((op, r) :: log) = log.madeOn t := by
  cases r <;> simp [TreeLog.madeOn, h]

/-- The nodes of a branch are of the tree it is made in. -/
theorem history_madeNodes {log : TreeLog T AK V} {w : World T AK V} {held : List Handle}
    (h : History log w held) : ∀ t ak ns, .inr (ak, ns) ∈ log.madeOn t → ∀ n ∈ ns, n.tree = t := by
  induction h with
  | start => intro t ak ns h; cases h
  | newOwner t _ hf ih => exact ih
  | @call log w held op _ ha ih =>
    intro t ak ns
    cases hm : op.made with
    | none => rw [madeOn_skip _ hm]; exact ih t ak ns
    | some m =>
      cases op with
      | makeLeafAlt t' k v =>
        simp only [TreeOp.exec, World.makeLeafAlt, TreeLog.madeOn, TreeOp.made]
        split
        · intro h
          rcases List.mem_append.1 h with h | h
          · exact ih t ak ns h
          · simp at h
        · exact ih t ak ns
      | makeBranchAlt t' a ns' =>
        simp only [TreeOp.exec, World.makeBranchAlt]
        by_cases hs : (ns'.all fun n => World.isSame t' n.tree) = true
        · rw [if_pos hs]
          simp only [Res.mapOut, TreeLog.madeOn, TreeOp.made]
          split
          · rename_i e
            intro h
            rcases List.mem_append.1 h with h | h
            · exact ih t ak ns h
            · simp only [List.mem_singleton, Sum.inr.injEq, _root_.Prod.mk.injEq] at h
              obtain ⟨-, rfl⟩ := h
              intro n hn
              have := List.all_eq_true.1 hs n hn
              simp only [World.isSame, beq_iff_eq, decide_eq_true_eq] at this
              rw [← this, e]
          · exact ih t ak ns
        · rw [if_neg hs]
          exact ih t ak ns
      | _ => cases hm

theorem nodes_eq {t : Nat} : ∀ {ns ns' : List Node}, (∀ n ∈ ns, n.tree = t) → (∀ n ∈ ns', n.tree = t) →
    (ns.map (·.index) = ns'.map (·.index) ↔ ns = ns')
  | [], [], _, _ => by simp
  | [], _ :: _, _, _ => by simp
  | _ :: _, [], _, _ => by simp
  | ⟨i, s⟩ :: ns, ⟨j, s'⟩ :: ns', h, h' => by
    have e1 := h ⟨i, s⟩ (by simp)
    have e2 := h' ⟨j, s'⟩ (by simp)
    simp only at e1 e2
    subst e1
    subst e2
    simp only [List.map_cons, List.cons.injEq, Node.mk.injEq, and_true]
    rw [nodes_eq (fun n hn => h n (by simp [hn])) (fun n hn => h' n (by simp [hn]))]

/-- All nodes of the content are of the tree. -/
def NodesIn (t : Nat) : (T × V) ⊕ (AK × List Node) → Prop
  | .inl _ => True
  | .inr (_, ns) => ∀ n ∈ ns, n.tree = t

theorem cmp_toContent {t : Nat} {x y : (T × V) ⊕ (AK × List Node)} (hx : NodesIn t x) (hy : NodesIn t y) :
    NodeContent.cmp (toContent x) (toContent y) = .eq ↔ alike x y = true := by
  match x, y, hx, hy with
  | .inl (k, v), .inl (k', v'), _, _ =>
    simp only [toContent, NodeContent.cmp_eq, pairCmp, alike, Ordering.then_eq_eq, Bool.and_eq_true, beq_iff_eq]
  | .inr (a, ns), .inr (a', ns'), hx, hy =>
    simp only [toContent, NodeContent.cmp_eq, pairCmp, alike, Ordering.then_eq_eq, Bool.and_eq_true, beq_iff_eq,
      decide_eq_true_eq, LawfulEqCmp.compare_eq_iff_eq, nodes_eq hx hy]
  | .inl _, .inr _, _, _ => simp [toContent, NodeContent.cmp, alike]
  | .inr _, .inl _, _, _ => simp [toContent, NodeContent.cmp, alike]

/-- The stored content, found from the class of what was given. -/
theorem history_made_class {log : TreeLog T AK V} {w : World T AK V} {held : List Handle}
    (h : History log w held) {op : TreeOp T AK V} {a : Alternative} {t : Nat}
    {x : (T × V) ⊕ (AK × List Node)} (hm : (op, .ok (.alt a)) ∈ log) (hx : op.made = some (t, x)) :
    a.tree = t ∧ NodesIn t x ∧ ∃ c, (w t).altAt a.index = some c ∧ NodeContent.cmp c (toContent x) = .eq := by
  have hi : RenInj (CmpClass.mk : T → _) (CmpClass.mk : AK → _) (CmpClass.mk : V → _) :=
    ⟨fun _ _ => by rw [CmpClass.compare_mk], fun _ _ => by rw [CmpClass.compare_mk],
      fun _ _ => by rw [CmpClass.compare_mk]⟩
  obtain ⟨w', h1, h2⟩ := history_worldRen hi h
  have hm' := List.mem_map_of_mem
    (f := fun c => (c.1.renamed CmpClass.mk CmpClass.mk CmpClass.mk,
      c.2.mapOut (TreeOut.renamed CmpClass.mk CmpClass.mk CmpClass.mk))) hm
  have hfind : ∀ c', (w' t).altAt a.index = some c' → ∃ c, (w t).altAt a.index = some c ∧
      c.ren CmpClass.mk CmpClass.mk CmpClass.mk = c' := by
    intro c' hc
    simp only [Inner.altAt, (h2 t).vals, List.getElem?_map, Option.map_eq_some_iff] at hc
    exact hc
  have hk : ∀ c, c.ren CmpClass.mk CmpClass.mk CmpClass.mk =
      (toContent x).ren CmpClass.mk CmpClass.mk CmpClass.mk → NodeContent.cmp c (toContent x) = .eq := by
    intro c he
    rw [← hi.content, he]
    exact ReflCmp.compare_self
  cases op with
  | makeLeafAlt t' k v =>
    cases hx
    obtain ⟨e1, e2⟩ := h1.inv.made _ a (t, .inl (CmpClass.mk k, CmpClass.mk v)) hm' rfl
    obtain ⟨c, hc, he⟩ := hfind _ e2
    exact ⟨e1, trivial, c, hc, hk _ he⟩
  | makeBranchAlt t' ak ns =>
    cases hx
    obtain ⟨e1, e2, e3⟩ := h1.inv.made _ a (t, .inr (CmpClass.mk ak, ns)) hm' rfl
    obtain ⟨c, hc, he⟩ := hfind _ e3
    exact ⟨e1, e2, c, hc, hk _ he⟩
  | _ => cases hx

theorem shows_of_altAt {w : World T AK V} {a : Alternative} {y : (T × V) ⊕ (AK × List Node)}
    (hy : NodesIn a.tree y) (h : (w a.tree).altAt a.index = some (toContent y)) : w.Shows a y := by
  have hg := getAlt_of_altAt (i := w a.tree) h
  match y, hy with
  | .inl (k, v), _ =>
    refine ⟨⟨a.index, a.tree⟩, ?_, ?_, ?_⟩
    · simp only [World.content, hg, toContent]
    · simp only [World.kind, World.withLeaf, hg, toContent, NodeContent.asLeaf, Res.expect_some]
    · simp only [World.value, World.withLeaf, hg, toContent, NodeContent.asLeaf, Res.expect_some]
  | .inr (ak, ns), hy =>
    refine ⟨⟨a.index, a.tree⟩, ?_, ?_, ?_⟩
    · simp only [World.content, hg, toContent]
    · simp only [World.action, World.withBranch, hg, toContent, NodeContent.asBranch, Res.expect_some]
    · simp only [World.branchNodes, World.withBranch, hg, toContent, NodeContent.asBranch, Res.expect_some,
        List.map_map]
      congr 1
      have : ∀ n ∈ ns, (⟨n.index, a.tree⟩ : Node) = n := by
        intro n hn
        rw [← hy n hn]
      calc _ = ns.map id := List.map_congr_left (fun n hn => this n hn)
        _ = ns := List.map_id _

theorem find?_congr_mem {α : Type} {p q : α → Bool} : ∀ {l : List α}, (∀ x ∈ l, p x = q x) → l.find? p = l.find? q
  | [], _ => rfl
  | x :: l, h => by
    rw [List.find?_cons, List.find?_cons, h x (by simp), find?_congr_mem fun y hy => h y (by simp [hy])]

theorem history_shows {log : TreeLog T AK V} {w : World T AK V} {held : List Handle}
    (h : History log w held) {op : TreeOp T AK V} {a : Alternative} {t : Nat}
    {x : (T × V) ⊕ (AK × List Node)} (hm : (op, .ok (.alt a)) ∈ log) (hx : op.made = some (t, x)) :
    ∃ y, (log.madeOn t).find? (alike · x) = some y ∧ w.Shows a y := by
  obtain ⟨ht, hn, c, hc, he⟩ := history_made_class h hm hx
  have hf := (history_keepsC h t).first _ _ hc
  rw [List.find?_map, Option.map_eq_some_iff] at hf
  obtain ⟨y, hy, rfl⟩ := hf
  have hin : ∀ z ∈ log.madeOn t, NodesIn t z := by
    intro z hz
    match z, hz with
    | .inl _, _ => trivial
    | .inr (ak, ns), hz => exact history_madeNodes h t ak ns hz
  refine ⟨y, ?_, ?_⟩
  · rw [← hy]
    refine find?_congr_mem fun z hz => ?_
    rw [Bool.eq_iff_iff, ← cmp_toContent (hin z hz) hn]
    simp only [Function.comp, decide_eq_true_eq]
    exact (congrArg (· = Ordering.eq) (TransCmp.congr_right he)).to_iff.symm
  · subst ht
    exact shows_of_altAt (hin y (List.mem_of_find?_eq_some hy)) hc
end
end Bongo
