import Verif.Proof.History
import Mathlib.Data.List.Nodup
/-!
# Lemmas: the graph given to the dot crate
-/
set_option linter.unusedSectionVars false
namespace Bongo
open Std
variable {T AK V : Type} [Ord T] [Ord AK] [Ord V]

theorem DotNode.cmp_eq (a b : DotNode) : DotNode.cmp a b =
    match a, b with
    | .node i, .node j => compare i j
    | .node _, .alt _ => .lt
    | .alt _, .node _ => .gt
    | .alt i, .alt j => compare i j := by
  cases a <;> cases b <;> rfl

instance DotNode.cmp_trans : TransCmp DotNode.cmp where
  eq_swap := by
    intro a b
    simp only [DotNode.cmp_eq]
    cases a <;> cases b <;> simp only [Ordering.swap] <;>
      exact OrientedCmp.eq_swap (cmp := compare)
  isLE_trans := by
    intro a b c
    simp only [DotNode.cmp_eq]
    cases a <;> cases b <;> cases c <;> simp only <;>
      first
        | exact TransCmp.isLE_trans (cmp := compare)
        | (intros; simp_all)

instance DotNode.cmp_lawful : LawfulEqCmp DotNode.cmp where
  compare_self := by
    intro a; rw [DotNode.cmp_eq]; cases a <;> exact ReflCmp.compare_self (cmp := compare)
  eq_of_compare := by
    intro a b h
    rw [DotNode.cmp_eq] at h
    cases a <;> cases b <;>
      first
        | (cases h; done)
        | (have := LawfulEqCmp.eq_of_compare (cmp := compare) h; simp_all)

theorem Inner.getNode_some {i : Inner T AK V} {n : Nat} {s} :
    i.getNode n = .ok s ↔ i.nodes[n]? = some s := by
  unfold Inner.getNode; rw [Res.expect_eq_ok]

theorem Inner.getAlt_some {i : Inner T AK V} {n : Nat} {c} :
    i.getAlt n = .ok c ↔ i.altAt n = some c := by
  unfold Inner.getAlt AltSet.get Inner.altAt; rw [Res.expect_eq_ok]

theorem forestArrow_node {w : World T AK V} {t n : Nat} {y : DotNode} :
    ForestArrow w t (.node n) y ↔ ∃ a, y = .alt a ∧ (w t).Has n a := by
  constructor
  · rintro (⟨h, ha⟩ | _)
    unfold World.alts at h
    cases hg : (w t).getNode n with
    | ok s =>
      simp only [hg, Res.ok.injEq] at h
      subst h
      refine ⟨_, rfl, s, Inner.getNode_some.1 hg, ?_⟩
      simpa using ha
    | panic p => simp [hg] at h
    | oof => simp [hg] at h
  · rintro ⟨a, rfl, s, hs, ha⟩
    refine .alt (l := s.map (⟨·, t⟩)) ?_ (by simpa using ha)
    unfold World.alts
    simp only [Inner.getNode_some.2 hs]

theorem forestArrow_alt {w : World T AK V} {t a : Nat} {y : DotNode} :
    ForestArrow w t (.alt a) y ↔
      ∃ act ns n, (w t).altAt a = some (.branch act ns) ∧ n ∈ ns ∧ y = .node n := by
  constructor
  · rintro (_ | ⟨h1, h2, hn⟩)
    rename_i n b l
    unfold World.content at h1
    cases hg : (w t).getAlt a with
    | ok c =>
      simp only [hg] at h1
      cases c with
      | leaf k v => simp at h1
      | branch act ns =>
        simp only [Res.ok.injEq, NodeView.branch.injEq] at h1
        subst h1
        unfold World.branchNodes World.withBranch at h2
        simp only [hg, NodeContent.asBranch, Res.expect_some, Res.ok.injEq] at h2
        subst h2
        exact ⟨act, ns, n, Inner.getAlt_some.1 hg, by simpa using hn, rfl⟩
    | panic p => simp [hg] at h1
    | oof => simp [hg] at h1
  · rintro ⟨act, ns, n, hc, hn, rfl⟩
    have hg := Inner.getAlt_some.2 hc
    refine .child (b := ⟨a, t⟩) (l := ns.map (⟨·, t⟩)) ?_ ?_ (by simpa using hn)
    · unfold World.content; simp only [hg]
    · unfold World.branchNodes World.withBranch; simp only [hg, NodeContent.asBranch, Res.expect_some]

theorem dotStep_stepTo {w : World T AK V} {t : Nat} {x y : DotNode} :
    StepTo (dotStep (w t)) x y ↔ ForestArrow w t x y := by
  unfold StepTo
  cases x with
  | node n =>
    rw [forestArrow_node]
    simp only [dotStep]
    cases hg : (w t).getNode n with
    | ok s =>
      simp only [Res.ok.injEq, exists_eq_left', List.mem_map]
      unfold Inner.Has
      simp only [Inner.getNode_some.1 hg, Option.some.injEq, exists_eq_left']
      constructor
      · rintro ⟨a, ha, rfl⟩; exact ⟨a, rfl, ha⟩
      · rintro ⟨a, rfl, ha⟩; exact ⟨a, ha, rfl⟩
    | panic p =>
      simp only [reduceCtorEq, false_and, exists_false, false_iff]
      rintro ⟨a, rfl, s, hs, -⟩
      rw [Inner.getNode_some.2 hs] at hg; cases hg
    | oof =>
      simp only [reduceCtorEq, false_and, exists_false, false_iff]
      rintro ⟨a, rfl, s, hs, -⟩
      rw [Inner.getNode_some.2 hs] at hg; cases hg
  | alt a =>
    rw [forestArrow_alt]
    simp only [dotStep]
    cases hg : (w t).getAlt a with
    | ok c =>
      cases c with
      | leaf k v =>
        simp only [Res.ok.injEq, exists_eq_left', List.not_mem_nil, false_iff]
        rintro ⟨act, ns, n, hc, -, -⟩
        rw [Inner.getAlt_some.1 hg] at hc; cases hc
      | branch act ns =>
        simp only [Res.ok.injEq, exists_eq_left', List.mem_map]
        constructor
        · rintro ⟨n, hn, rfl⟩; exact ⟨act, ns, n, Inner.getAlt_some.1 hg, hn, rfl⟩
        · rintro ⟨act', ns', n, hc, hn, rfl⟩
          rw [Inner.getAlt_some.1 hg] at hc; cases hc
          exact ⟨n, hn, rfl⟩
    | panic p =>
      simp only [reduceCtorEq, false_and, exists_false, false_iff]
      rintro ⟨act, ns, n, hc, -, -⟩
      rw [Inner.getAlt_some.2 hc] at hg; cases hg
    | oof =>
      simp only [reduceCtorEq, false_and, exists_false, false_iff]
      rintro ⟨act, ns, n, hc, -, -⟩
      rw [Inner.getAlt_some.2 hc] at hg; cases hg

theorem dotStep_ne_oof (i : Inner T AK V) (x : DotNode) : dotStep i x ≠ .oof := by
  cases x with
  | node n =>
    simp only [dotStep, Inner.getNode]
    cases i.nodes[n]? <;> simp
  | alt a =>
    simp only [dotStep, Inner.getAlt, AltSet.get]
    cases i.alternatives.idToValue[a]? with
    | none => simp
    | some c => cases c <;> simp

/-- The things that exist in a tree. -/
def DotNode.Exists (i : Inner T AK V) : DotNode → Prop
  | .node n => n < i.nodes.length
  | .alt a => a < i.alternatives.idToValue.length

theorem DotNode.Exists.step_ok {i : Inner T AK V} {x : DotNode} (h : x.Exists i) :
    ∃ l, dotStep i x = .ok l := by
  cases x with
  | node n => simp only [dotStep, Inner.getNode_ok h]; exact ⟨_, rfl⟩
  | alt a =>
    have : i.altAt a = some i.alternatives.idToValue[a] := List.getElem?_eq_getElem h
    simp only [dotStep, Inner.getAlt_some.2 this]
    cases i.alternatives.idToValue[a] <;> exact ⟨_, rfl⟩

theorem ForestArrow.exists {w : World T AK V} {t : Nat} (hw : (w t).WF) {x y : DotNode}
    (h : ForestArrow w t x y) : y.Exists (w t) := by
  cases x with
  | node n => obtain ⟨a, rfl, ha⟩ := forestArrow_node.1 h; exact ha.alt_lt hw
  | alt a =>
    obtain ⟨act, ns, n, hc, hn, rfl⟩ := forestArrow_alt.1 h
    exact hw.branchNodes _ _ _ hc n hn

theorem ForestArrow.exists' {w : World T AK V} {t : Nat} (hw : (w t).WF) {x y : DotNode}
    (h : Relation.TransGen (ForestArrow w t) x y) : y.Exists (w t) := by
  cases h with
  | single h => exact h.exists hw
  | tail _ h => exact h.exists hw

theorem dotNodeEdges_ok {i : Inner T AK V} {l : List Nat} (h : ∀ n ∈ l, n < i.nodes.length) :
    ∃ es, dotNodeEdges i l = .ok es ∧
      ∀ x y, (x, y) ∈ es ↔ ∃ n ∈ l, ∃ a, x = .node n ∧ y = .alt a ∧ i.Has n a := by
  induction l with
  | nil => exact ⟨[], rfl, by simp⟩
  | cons n l ih =>
    obtain ⟨es, h1, h2⟩ := ih (fun m hm => h m (by simp [hm]))
    have hn := h n (by simp)
    refine ⟨i.nodes[n].map (fun a => (.node n, .alt a)) ++ es,
      by simp only [dotNodeEdges, Inner.getNode_ok hn, h1], ?_⟩
    intro x y
    rw [List.mem_append, h2]
    simp only [List.mem_map, List.mem_cons, exists_eq_or_imp, Inner.Has,
      List.getElem?_eq_getElem hn, Option.some.injEq, exists_eq_left']
    refine or_congr_left ?_
    constructor
    · rintro ⟨a, ha, he⟩; cases he; exact ⟨a, rfl, rfl, ha⟩
    · rintro ⟨a, rfl, rfl, ha⟩; exact ⟨a, ha, rfl⟩

theorem dotAltEdges_ok {i : Inner T AK V} {l : List Nat}
    (h : ∀ n ∈ l, n < i.alternatives.idToValue.length) :
    ∃ es, dotAltEdges i l = .ok es ∧
      ∀ x y, (x, y) ∈ es ↔ ∃ a ∈ l, ∃ act ns n, x = .alt a ∧ i.altAt a = some (.branch act ns) ∧
        n ∈ ns ∧ y = .node n := by
  induction l with
  | nil => exact ⟨[], rfl, by simp⟩
  | cons a l ih =>
    obtain ⟨es, h1, h2⟩ := ih (fun m hm => h m (by simp [hm]))
    have ha := h a (by simp)
    have hg : i.altAt a = some i.alternatives.idToValue[a] := List.getElem?_eq_getElem ha
    cases hc : i.alternatives.idToValue[a] with
    | leaf k v =>
      rw [hc] at hg
      refine ⟨es, by simp only [dotAltEdges, Inner.getAlt_some.2 hg, h1], ?_⟩
      intro x y
      rw [h2]
      simp only [List.mem_cons, exists_eq_or_imp, hg]
      simp
    | branch act ns =>
      rw [hc] at hg
      refine ⟨ns.map (fun n => (.alt a, .node n)) ++ es,
        by simp only [dotAltEdges, Inner.getAlt_some.2 hg, h1], ?_⟩
      intro x y
      rw [List.mem_append, h2]
      simp only [List.mem_map, List.mem_cons, exists_eq_or_imp, hg]
      refine or_congr_left ?_
      constructor
      · rintro ⟨n, hn, he⟩; cases he; exact ⟨act, ns, n, rfl, rfl, hn, rfl⟩
      · rintro ⟨act', ns', n, rfl, he, hn, rfl⟩; cases he; exact ⟨n, hn, rfl⟩

/-- The result of the export, for a node that exists. -/
theorem dotGraph_ok {w : World T AK V} {n : Node} (hw : (w n.tree).WF)
    (hn : n.index < (w n.tree).nodes.length) :
    ∃ N ns es, (∀ fuel ≥ N, dotGraph fuel w n = .ok (ns, es)) ∧ ns.Nodup ∧
      (∀ x, x ∈ ns ↔ Relation.TransGen (ForestArrow w n.tree) (.node n.index) x) ∧
      (∀ x y, (x, y) ∈ es ↔ x ∈ ns ∧ ForestArrow w n.tree x y) := by
  have hrel : Relation.TransGen (StepTo (dotStep (w n.tree))) =
      Relation.TransGen (ForestArrow w n.tree) := by
    congr 1; funext x y; exact propext dotStep_stepTo
  have hinit : BSet.ofList DotNode.cmp [DotNode.node n.index] = [.node n.index] := rfl
  let U : List DotNode := (List.range (w n.tree).nodes.length).map .node ++
    (List.range (w n.tree).alternatives.idToValue.length).map .alt
  have hU : ∀ x : DotNode, x.Exists (w n.tree) → x ∈ U := by
    intro x hx
    cases x <;> simpa [U, DotNode.Exists] using hx
  let N := U.length + 2
  have hterm : breadthFirstSearch DotNode.cmp N [DotNode.node n.index] (dotStep (w n.tree)) ≠ .oof := by
    refine bfs_terminates (U := U) ?_ (dotStep_ne_oof _) (by simp [N])
    intro i hi x hx
    rw [hrel] at hx
    exact hU x (ForestArrow.exists' hw hx)
  cases hb : breadthFirstSearch DotNode.cmp N [DotNode.node n.index] (dotStep (w n.tree)) with
  | oof => exact absurd hb hterm
  | panic p =>
    exfalso
    obtain ⟨x, hx, hp⟩ := bfs_panic hb
    have hex : x.Exists (w n.tree) := by
      rcases hx with hx | ⟨i, hi, hx⟩
      · simp only [List.mem_singleton] at hx; subst hx; exact hn
      · rw [hrel] at hx; exact ForestArrow.exists' hw hx
    obtain ⟨l, hl⟩ := hex.step_ok
    rw [hl] at hp; cases hp
  | ok seen =>
    have hmem : ∀ x, x ∈ seen ↔ Relation.TransGen (ForestArrow w n.tree) (.node n.index) x := by
      intro x; rw [bfs_mem hb, hrel]; simp
    have hnd := BSet.sorted_nodup (bfs_sorted hb)
    have hnodes : ∀ m, m ∈ seen.filterMap DotNode.nodeId ↔
        DotNode.node m ∈ seen := by
      intro m
      rw [List.mem_filterMap]
      constructor
      · rintro ⟨x, hx, he⟩
        cases x <;> simp [DotNode.nodeId, DotNode.altId] at he
        subst he; exact hx
      · intro h; exact ⟨_, h, rfl⟩
    have halts : ∀ m, m ∈ seen.filterMap DotNode.altId ↔
        DotNode.alt m ∈ seen := by
      intro m
      rw [List.mem_filterMap]
      constructor
      · rintro ⟨x, hx, he⟩
        cases x <;> simp [DotNode.nodeId, DotNode.altId] at he
        subst he; exact hx
      · intro h; exact ⟨_, h, rfl⟩
    obtain ⟨e1, h1, h1'⟩ := dotNodeEdges_ok (i := w n.tree)
      (l := seen.filterMap DotNode.nodeId)
      (fun m hm => ForestArrow.exists' hw ((hmem _).1 ((hnodes m).1 hm)))
    obtain ⟨e2, h2, h2'⟩ := dotAltEdges_ok (i := w n.tree)
      (l := seen.filterMap DotNode.altId)
      (fun m hm => ForestArrow.exists' hw ((hmem _).1 ((halts m).1 hm)))
    have hdn : ∀ x, x ∈ dotNodes (seen.filterMap DotNode.nodeId)
        (seen.filterMap DotNode.altId) ↔ x ∈ seen := by
      intro x
      unfold dotNodes
      rw [List.mem_append, List.mem_map, List.mem_map]
      simp only [hnodes, halts]
      constructor
      · rintro (⟨m, hm, rfl⟩ | ⟨m, hm, rfl⟩) <;> exact hm
      · intro hx
        cases x with
        | node m => exact Or.inl ⟨m, hx, rfl⟩
        | alt m => exact Or.inr ⟨m, hx, rfl⟩
    refine ⟨N, dotNodes (seen.filterMap DotNode.nodeId)
        (seen.filterMap DotNode.altId), e1 ++ e2, ?_, ?_, ?_, ?_⟩
    · intro fuel hf
      unfold dotGraph collectNodesAndAlts
      have := bfsLoop_mono hf hterm
      rw [hinit] at this
      rw [this]
      unfold breadthFirstSearch at hb
      rw [hinit] at hb
      rw [hb]
      simp only [h1, h2]
    · unfold dotNodes
      rw [List.nodup_append]
      refine ⟨?_, ?_, ?_⟩
      · refine List.Nodup.map (fun a b h => by cases h; rfl) ?_
        refine List.Nodup.filterMap ?_ hnd
        intro a b c hc hc'
        cases a <;> cases b <;> simp_all [DotNode.nodeId, DotNode.altId]
      · refine List.Nodup.map (fun a b h => by cases h; rfl) ?_
        refine List.Nodup.filterMap ?_ hnd
        intro a b c hc hc'
        cases a <;> cases b <;> simp_all [DotNode.nodeId, DotNode.altId]
      · intro a ha b hb' hab
        rw [List.mem_map] at ha hb'
        obtain ⟨_, -, rfl⟩ := ha
        obtain ⟨_, -, rfl⟩ := hb'
        cases hab
    · intro x; rw [hdn, hmem]
    · intro x y
      rw [hdn, List.mem_append, h1', h2']
      simp only [hnodes, halts]
      cases x with
      | node m =>
        rw [forestArrow_node]
        constructor
        · rintro (⟨k, hk, a, he, rfl, hh⟩ | ⟨k, hk, _, _, _, he, -⟩)
          · cases he; exact ⟨hk, a, rfl, hh⟩
          · cases he
        · rintro ⟨hk, a, rfl, hh⟩; exact Or.inl ⟨m, hk, a, rfl, rfl, hh⟩
      | alt m =>
        rw [forestArrow_alt]
        constructor
        · rintro (⟨k, hk, a, he, -⟩ | ⟨k, hk, act, ns, c, he, hh⟩)
          · cases he
          · cases he; exact ⟨hk, act, ns, c, hh⟩
        · rintro ⟨hk, act, ns, c, hh⟩; exact Or.inr ⟨m, hk, act, ns, c, rfl, hh⟩
end Bongo
