import Verif.Proof.EarleyParse
import Verif.Proof.History
/-! The Earley parser's tree operations are the public ones, and what can be read off its nodes. -/
set_option linter.unusedSectionVars false
namespace Bongo
open Std
variable {T NT AK AV V Λ : Type}

/-! ### The operations of `Model/Earley.lean` and of `Model/Tree.lean` -/
section ops
variable [Ord T] [Ord AK] [Ord V] [TransOrd T] [TransOrd AK] [TransOrd V]
variable [LawfulEqOrd T] [LawfulEqOrd AK] [LawfulEqOrd V]

theorem World.set_set (w : World T AK V) (t : Nat) (i j : Inner T AK V) :
    (w.set t i).set t j = w.set t j := by
  funext t'
  simp only [World.set]
  split <;> rfl

theorem Inner.addNodeAlt_new (i : Inner T AK V) (c : NodeContent T AK V) :
    ∃ r, (i.makeNode.1.makeAlt c).1.addNodeAlt i.nodes.length (i.makeNode.1.makeAlt c).2 = .ok r := by
  unfold Inner.addNodeAlt Inner.getNode
  have h : (i.makeNode.1.makeAlt c).1.nodes[i.nodes.length]? = some [] := by simp
  rw [h]
  exact ⟨_, rfl⟩

/-- Making a leaf through the handle of tree `t`. -/
theorem World.makeLeafNode_eq (w : World T AK V) (t : Nat) (k : T) (v : V) :
    ∃ i n, (w t).makeLeafNode k v = .ok (i, n) ∧ w.makeLeafNode t k v = (w.set t i, .ok ⟨n, t⟩) := by
  obtain ⟨⟨i, c⟩, h⟩ := Inner.addNodeAlt_new (w t) (.leaf k v)
  refine ⟨i, (w t).nodes.length, ?_, ?_⟩
  · unfold Inner.makeLeafNode
    simp only [Inner.makeNode_snd, h]
  · simp only [World.makeLeafNode, World.makeNode, World.makeLeafAlt, World.makeAlt, World.addAlt,
      World.isSame, beq_self_eq_true, if_true, World.set_self, Inner.makeNode_snd, World.set_set, h,
      World.update]

/-- Making a branch through the handle of tree `t` with nodes of that tree: the assertion that they
belong to it holds. -/
theorem World.makeBranchNode_eq (w : World T AK V) (t : Nat) (a : AK) (ns : List Nat) :
    ∃ i n, (w t).makeBranchNode a ns = .ok (i, n) ∧
      w.makeBranchNode t a (ns.map (⟨·, t⟩)) = (w.set t i, .ok ⟨n, t⟩) := by
  obtain ⟨⟨i, c⟩, h⟩ := Inner.addNodeAlt_new (w t) (.branch a ns)
  refine ⟨i, (w t).nodes.length, ?_, ?_⟩
  · unfold Inner.makeBranchNode
    simp only [Inner.makeNode_snd, h]
  · have hall : ((ns.map (⟨·, t⟩ : Nat → Node)).all fun n => t == n.tree) = true := by
      simp
    have hmap : (ns.map (⟨·, t⟩ : Nat → Node)).map (·.index) = ns := by
      rw [List.map_map]; exact List.map_id _
    simp only [World.makeBranchNode, World.makeNode, World.makeBranchAlt, World.isSame, hall,
      if_true, hmap, World.makeAlt, World.addAlt, beq_self_eq_true, World.set_self, Inner.makeNode_snd, World.set_set, h,
      World.update]

/-- Adding all alternatives of a node of tree `t` to another. -/
theorem World.addAll_eq (w : World T AK V) (t n m : Nat) :
    w.addAll ⟨n, t⟩ ⟨m, t⟩ = w.update t ((w t).addAll n m) := by
  simp [World.addAll, World.isSame]
end ops

/-! ### Reading trees -/
section reads
variable [Ord T] [Ord AK] [Ord V]

theorem mem_alts {w : World T AK V} {n : Node} {a : Alternative} :
    (∃ alts, w.alts n = .ok alts ∧ a ∈ alts) ↔ a.tree = n.tree ∧ (w n.tree).Has n.index a.index := by
  unfold World.alts Inner.getNode Inner.Has
  cases h : (w n.tree).nodes[n.index]? with
  | none => simp [Res.expect]
  | some s =>
    simp only [Res.expect_some, Res.ok.injEq, exists_eq_left', Option.some.injEq, List.mem_map]
    constructor
    · rintro ⟨x, hx, rfl⟩; exact ⟨rfl, hx⟩
    · rintro ⟨h1, h2⟩
      obtain ⟨ai, at'⟩ := a
      simp only at h1 h2
      subst h1
      exact ⟨ai, h2, rfl⟩

theorem getAlt_iff {i : Inner T AK V} {k : Nat} {c} : i.getAlt k = .ok c ↔ i.altAt k = some c := by
  constructor
  · intro h
    unfold Inner.getAlt AltSet.get at h
    unfold Inner.altAt
    cases h' : i.alternatives.idToValue[k]? with
    | none => rw [h'] at h; simp [Res.expect] at h
    | some c' => rw [h'] at h; simp at h; rw [h]
  · exact getAlt_of_altAt

theorem reads_leaf {w : World T AK V} {tok : Token T V} {n : Node} :
    Reads w (.leaf tok) n ↔
      ∃ a, (w n.tree).Has n.index a ∧ (w n.tree).altAt a = some (.leaf tok.kind tok.value) := by
  rw [Reads]
  constructor
  · rintro ⟨alts, a, l, h1, h2, h3, h4, h5⟩
    obtain ⟨e1, e2⟩ := mem_alts.1 ⟨alts, h1, h2⟩
    refine ⟨a.index, e2, ?_⟩
    unfold World.content at h3
    cases hc : (w a.tree).getAlt a.index with
    | panic p => rw [hc] at h3; cases h3
    | oof => rw [hc] at h3; cases h3
    | ok c =>
      rw [hc] at h3
      cases c with
      | branch _ _ => simp at h3
      | leaf k v =>
        simp only [Res.ok.injEq, NodeView.leaf.injEq] at h3
        subst h3
        simp only [World.kind, World.value, World.withLeaf, hc, NodeContent.asLeaf, Res.expect_some,
          Res.ok.injEq] at h4 h5
        rw [← e1, getAlt_iff.1 hc, h4, h5]
  · rintro ⟨a, h1, h2⟩
    obtain ⟨alts, k1, k2⟩ := (mem_alts (w := w) (n := n) (a := ⟨a, n.tree⟩)).2 ⟨rfl, h1⟩
    have hg := getAlt_of_altAt h2
    refine ⟨alts, ⟨a, n.tree⟩, ⟨a, n.tree⟩, k1, k2, ?_, ?_, ?_⟩
    · simp only [World.content, hg]
    · simp only [World.kind, World.withLeaf, hg, NodeContent.asLeaf, Res.expect_some]
    · simp only [World.value, World.withLeaf, hg, NodeContent.asLeaf, Res.expect_some]

theorem reads_node {w : World T AK V} {ak : AK} {cs : List (DTree (Token T V) AK)} {n : Node} :
    Reads w (.node ak cs) n ↔
      ∃ a ns, (w n.tree).Has n.index a ∧ (w n.tree).altAt a = some (.branch ak ns) ∧
        ReadsAll w cs (ns.map (⟨·, n.tree⟩)) := by
  rw [Reads]
  constructor
  · rintro ⟨alts, a, b, ns, h1, h2, h3, h4, h5, h6⟩
    obtain ⟨e1, e2⟩ := mem_alts.1 ⟨alts, h1, h2⟩
    unfold World.content at h3
    cases hc : (w a.tree).getAlt a.index with
    | panic p => rw [hc] at h3; cases h3
    | oof => rw [hc] at h3; cases h3
    | ok c =>
      rw [hc] at h3
      cases c with
      | leaf _ _ => simp at h3
      | branch k v =>
        simp only [Res.ok.injEq, NodeView.branch.injEq] at h3
        subst h3
        simp only [World.action, World.branchNodes, World.withBranch, hc, NodeContent.asBranch,
          Res.expect_some, Res.ok.injEq] at h4 h5
        subst h4 h5
        rw [e1] at h6
        refine ⟨a.index, v, e2, ?_, h6⟩
        rw [← e1, getAlt_iff.1 hc]
  · rintro ⟨a, ns, h1, h2, h3⟩
    obtain ⟨alts, k1, k2⟩ := (mem_alts (w := w) (n := n) (a := ⟨a, n.tree⟩)).2 ⟨rfl, h1⟩
    have hg := getAlt_of_altAt h2
    refine ⟨alts, ⟨a, n.tree⟩, ⟨a, n.tree⟩, _, k1, k2, ?_, ?_, ?_, h3⟩
    · simp only [World.content, hg]
    · simp only [World.action, World.withBranch, hg, NodeContent.asBranch, Res.expect_some]
    · simp only [World.branchNodes, World.withBranch, hg, NodeContent.asBranch, Res.expect_some]

theorem readsAll_iff {w : World T AK V} {cs : List (DTree (Token T V) AK)} {ns : List Node} :
    ReadsAll w cs ns ↔ cs.length = ns.length ∧
      ∀ (x : Nat) (c : DTree (Token T V) AK) (n : Node), cs[x]? = some c → ns[x]? = some n →
        Reads w c n := by
  induction cs generalizing ns with
  | nil =>
    cases ns with
    | nil => simp [ReadsAll]
    | cons n ns => simp [ReadsAll]
  | cons c cs ih =>
    cases ns with
    | nil => simp [ReadsAll]
    | cons n ns =>
      rw [ReadsAll, ih]
      simp only [List.length_cons, Nat.add_right_cancel_iff]
      constructor
      · rintro ⟨h1, h2, h3⟩
        refine ⟨h2, ?_⟩
        intro x t' n' hx hy
        cases x with
        | zero => simp at hx hy; subst hx hy; exact h1
        | succ x => simp at hx hy; exact h3 x t' n' hx hy
      · rintro ⟨h1, h2⟩
        exact ⟨h2 0 c n rfl rfl, h1, fun x t' n' hx hy => h2 (x + 1) t' n' hx hy⟩

mutual
/-- A represented derivation tree can be read off. -/
theorem Rep.reads {w : World T AK V} {t : Nat} :
    (d : DTree (Token T V) (Prod T NT AK AV)) → (n : Nat) →
    Rep (w t) (d.mapNodes liftProd) n → Reads w (d.mapNodes (·.actionKey)) ⟨n, t⟩
  | .leaf tok, n => by
    rw [DTree.mapNodes, DTree.mapNodes, Rep, reads_leaf]
    exact id
  | .node q cs, n => by
    rw [DTree.mapNodes, DTree.mapNodes, Rep, reads_node]
    rintro ⟨a, ak, ns, h1, h2, h3, h4⟩
    have : ak = q.actionKey := by
      rw [liftProd_actionKey] at h3
      simpa [StartActionKey.asBase] using h3.symm
    subst this
    exact ⟨a, ns, h1, h2, RepAll.reads cs ns h4⟩
theorem RepAll.reads {w : World T AK V} {t : Nat} :
    (ds : List (DTree (Token T V) (Prod T NT AK AV))) → (ns : List Nat) →
    RepAll (w t) (DTree.mapNodesAll liftProd ds) ns →
    ReadsAll w (DTree.mapNodesAll (·.actionKey) ds) (ns.map (⟨·, t⟩))
  | [], [] => fun _ => by rw [DTree.mapNodesAll]; simp [ReadsAll]
  | [], _ :: _ => fun h => by rw [DTree.mapNodesAll] at h; simp [RepAll] at h
  | _ :: _, [] => fun h => by rw [DTree.mapNodesAll] at h; simp [RepAll] at h
  | d :: ds, n :: ns => by
    rw [DTree.mapNodesAll, DTree.mapNodesAll, RepAll, List.map_cons, ReadsAll]
    rintro ⟨h1, h2⟩
    exact ⟨Rep.reads d n h1, RepAll.reads ds ns h2⟩
end
end reads

/-! ### Labels: the element a node stands for -/
/-- No labels. -/
def unitLabel (sg : StartGrammar T NT AK AV) (toks : List (Token T V)) : Labelling sg toks Unit where
  lab _ _ _ _ _ := ()
  leafOk _ _ := True
  nodeOk _ _ _ _ := True
  scanOld _ _ _ _ := rfl
  scanNew _ _ _ := trivial
  compOld _ _ _ _ := rfl
  compNew _ _ _ := trivial

/-- A node is labelled with the element it stands for. -/
def elemLabel (sg : StartGrammar T NT AK AV) (toks : List (Token T V)) :
    Labelling sg toks (Option (Elem (StreamTerminal T) (StartNonTerminal NT))) where
  lab _ p _ _ x := p.elements[x]?
  leafOk ℓ k := ℓ = (toks[k]?).map fun t => .term (.term t.kind)
  nodeOk ℓ _ q _ := ℓ = some (.nonterm q.head)
  scanOld _ _ _ _ := rfl
  scanNew _ h1 h2 := by rw [h1, h2]; rfl
  compOld _ _ _ _ := rfl
  compNew _ h _ := h

section elem
variable [Ord T] [Ord NT] [Ord AK] [Ord V] [TransOrd T] [TransOrd AK] [TransOrd V]
variable [LawfulEqOrd T] [LawfulEqOrd AK] [LawfulEqOrd V]
variable [TransOrd NT] [LawfulEqOrd NT] {g : Grammar T NT AK AV} {toks : List (Token T V)}
variable {N : Nat} {L : Nat → Option (Elem (StreamTerminal T) (StartNonTerminal NT)) → Prop}

mutual
/-- What is read off a node that stands for an element is a derivation tree of it. -/
theorem Reads.grammatical (hw : g.WF) {w : World T AK V} {t : Nat}
    (ht : Typed (elemLabel g.wrapped toks) N (w t) L) :
    (s : DTree (Token T V) AK) → (n : Nat) → (e : Elem T NT) → L n (some (baseElemToStartElem e)) →
    Reads w s ⟨n, t⟩ →
    ∃ d : DTree (Token T V) (Prod T NT AK AV), IsTree g (·.kind) e d ∧ d.mapNodes (·.actionKey) = s ∧
      ∀ tok ∈ s.yield, tok ∈ toks
  | .leaf tok, n, e => by
    intro hL hr
    obtain ⟨a, h1, h2⟩ := reads_leaf.1 hr
    obtain ⟨c, h3, h4⟩ := ht.ok n _ hL a h1
    simp only at h2
    rw [h2] at h3
    cases h3
    obtain ⟨k, tok', e1, e2, e3, e4⟩ := h4
    have htok : tok' = tok := by cases tok; cases tok'; simp_all
    subst htok
    simp only [elemLabel, e1, Option.map_some, Option.some.injEq] at e4
    cases e with
    | nonterm A => simp [baseElemToStartElem] at e4
    | term k' =>
      simp [baseElemToStartElem] at e4
      subst e4
      refine ⟨.leaf tok', .leaf tok', by rw [DTree.mapNodes], ?_⟩
      rw [DTree.yield]
      intro x hx
      simp only [List.mem_singleton] at hx
      subst hx
      exact List.mem_iff_getElem?.2 ⟨k, e1⟩
  | .node ak cs, n, e => by
    intro hL hr
    obtain ⟨a, ns, h1, h2, h5⟩ := reads_node.1 hr
    obtain ⟨c, h3, h4⟩ := ht.ok n _ hL a h1
    simp only at h2 h5
    rw [h2] at h3
    cases h3
    obtain ⟨j, q, k, e1, e2, e3, e4, e5⟩ := h4
    simp only [elemLabel, Option.some.injEq] at e4 e5
    rcases (mem_wrapped_prods hw).1 e1.mem with rfl | ⟨q', hq', rfl⟩
    · cases e <;> simp [baseElemToStartElem] at e4
    · cases e with
      | term k' => simp [baseElemToStartElem] at e4
      | nonterm A =>
        simp [baseElemToStartElem] at e4
        subst e4
        rw [liftProd_actionKey] at e2
        have hak : q'.actionKey = ak := by simpa [StartActionKey.asBase] using e2
        subst hak
        obtain ⟨ds, d1, d2, d3⟩ := ReadsAll.grammatical hw ht cs ns q'.elements (by
          rw [e3, liftProd_numElements, Prod.elements_length]) (by
          intro x m e' hx hm
          have := e5 x m hm
          rw [liftProd_elements, List.getElem?_map, hx] at this
          exact this) h5
        refine ⟨.node q' ds, .node q' ds hq' d1, by rw [DTree.mapNodes, d2], ?_⟩
        rw [DTree.yield]; exact d3
theorem ReadsAll.grammatical (hw : g.WF) {w : World T AK V} {t : Nat}
    (ht : Typed (elemLabel g.wrapped toks) N (w t) L) :
    (ss : List (DTree (Token T V) AK)) → (ns : List Nat) → (es : List (Elem T NT)) →
    ns.length = es.length →
    (∀ (x : Nat) (m : Nat) (e : Elem T NT), es[x]? = some e → ns[x]? = some m →
      L m (some (baseElemToStartElem e))) →
    ReadsAll w ss (ns.map (⟨·, t⟩)) →
    ∃ ds : List (DTree (Token T V) (Prod T NT AK AV)), IsForest g (·.kind) es ds ∧
      DTree.mapNodesAll (·.actionKey) ds = ss ∧ ∀ tok ∈ DTree.yields ss, tok ∈ toks
  | [], [], es => by
    intro h1 _ _
    cases es with
    | nil => exact ⟨[], .nil, by rw [DTree.mapNodesAll], by rw [DTree.yields]; simp⟩
    | cons _ _ => simp at h1
  | [], _ :: _, _ => fun _ _ h => by simp [ReadsAll] at h
  | _ :: _, [], _ => fun _ _ h => by simp [ReadsAll] at h
  | s :: ss, n :: ns, es => by
    intro h1 h2 h3
    cases es with
    | nil => simp at h1
    | cons e es =>
      rw [List.map_cons, ReadsAll] at h3
      obtain ⟨d, a1, a2, a3⟩ := Reads.grammatical hw ht s n e (h2 0 n e rfl rfl) h3.1
      obtain ⟨ds, b1, b2, b3⟩ := ReadsAll.grammatical hw ht ss ns es (by simpa using h1)
        (fun x m e' hx hm => h2 (x + 1) m e' hx hm) h3.2
      refine ⟨d :: ds, .cons a1 b1, by rw [DTree.mapNodesAll, a2, b2], ?_⟩
      rw [DTree.yields]
      intro tok htok
      rcases List.mem_append.1 htok with h | h
      · exact a3 tok h
      · exact b3 tok h
end
end elem
end Bongo
