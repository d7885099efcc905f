import Verif.Proof.DotText
import Verif.Props.Forest
/-!
# C98: the drawing made by `to_dot`
-/
namespace Bongo
open Std
set_option linter.unusedSectionVars false

/-- Different vertices have different names, and `dot` allows the names. -/
theorem dot_names (x y : DotNode) : (x.name = y.name ↔ x = y) ∧ DotName x.name := by
  refine ⟨⟨DotNode.name_inj, fun h => h ▸ rfl⟩, ?_⟩
  cases x with
  | node i =>
    exact ⟨'n', _, rfl, Or.inl (by decide), fun d hd =>
      Or.inr (Or.inl (Nat.isDigit_of_mem_toDigits (by omega) (by omega) hd))⟩
  | alt i =>
    exact ⟨'a', _, rfl, Or.inl (by decide), fun d hd =>
      Or.inr (Or.inl (Nat.isDigit_of_mem_toDigits (by omega) (by omega) hd))⟩

/-- `dot` accepts exactly the allowed names. -/
theorem dotIdNew_iff (s : List Char) : dotIdNew s = some s ↔ DotName s := by
  unfold dotIdNew DotName
  cases s with
  | nil => simp
  | cons c cs =>
    by_cases h1 : (c.isAlpha || c == '_') = true
    · by_cases h2 : cs.all (fun d => d.isAlpha || d.isDigit || d == '_') = true
      · simp only [h1, h2, if_true, true_iff]
        refine ⟨c, cs, rfl, by simpa using h1, ?_⟩
        intro d hd
        have := List.all_eq_true.1 h2 d hd
        simpa [or_assoc] using this
      · simp only [h1, h2, if_true]
        simp only [Bool.false_eq_true, if_false, reduceCtorEq, false_iff]
        rintro ⟨c', cs', h, -, hd⟩
        cases h
        apply h2
        rw [List.all_eq_true]
        intro d hd'
        simpa [or_assoc] using hd d hd'
    · simp only [h1, Bool.false_eq_true, if_false, reduceCtorEq, false_iff]
      rintro ⟨c', cs', h, hc, -⟩
      cases h
      exact h1 (by simpa using hc)

section
variable {T AK V : Type}
variable [Ord T] [Ord AK] [Ord V] [TransOrd T] [TransOrd AK] [TransOrd V]
variable [LawfulEqOrd T] [LawfulEqOrd AK] [LawfulEqOrd V]
variable (dbgT : T → String) (dbgAK : AK → String) (dbgV : V → String)

theorem drawnAs_iff {w : World T AK V} {t : Nat} {x : DotNode} {v : DotVertex} :
    DrawnAs dbgT dbgAK dbgV w t x v ↔
      ∃ s, dotNodeLabel dbgT dbgAK dbgV (w t) x = .ok s ∧ v = ⟨x.name, s, dotNodeShape x⟩ := by
  constructor
  · rintro (_ | ⟨h1, h2⟩ | ⟨h1, h2, h3⟩)
    · exact ⟨"", rfl, rfl⟩
    · rename_i a b k
      unfold World.content at h1
      cases hg : (w t).getAlt a with
      | panic p => simp [hg] at h1
      | oof => simp [hg] at h1
      | ok c =>
        cases c with
        | leaf k v => simp [hg] at h1
        | branch act ns =>
          simp only [hg, Res.ok.injEq, NodeView.branch.injEq] at h1
          subst h1
          simp [World.action, World.withBranch, hg, NodeContent.asBranch, Res.expect] at h2
          subst h2
          exact ⟨dbgAK act, by simp [dotNodeLabel, hg], rfl⟩
    · rename_i a b k u
      unfold World.content at h1
      cases hg : (w t).getAlt a with
      | panic p => simp [hg] at h1
      | oof => simp [hg] at h1
      | ok c =>
        cases c with
        | branch act ns => simp [hg] at h1
        | leaf k v =>
          simp only [hg, Res.ok.injEq, NodeView.leaf.injEq] at h1
          subst h1
          simp [World.kind, World.value, World.withLeaf, hg, NodeContent.asLeaf, Res.expect] at h2 h3
          subst h2 h3
          exact ⟨_, by simp [dotNodeLabel, hg], rfl⟩
  · rintro ⟨s, hs, rfl⟩
    cases x with
    | node n => simp only [dotNodeLabel, Res.ok.injEq] at hs; subst hs; exact .node
    | alt a =>
      simp only [dotNodeLabel] at hs
      cases hg : (w t).getAlt a with
      | panic p => simp [hg] at hs
      | oof => simp [hg] at hs
      | ok c =>
        cases c with
        | leaf k v =>
          simp only [hg, Res.ok.injEq] at hs
          subst hs
          refine .leaf (l := ⟨a, t⟩) ?_ ?_ ?_ <;>
            simp [World.content, World.kind, World.value, World.withLeaf, hg, NodeContent.asLeaf, Res.expect]
        | branch act ns =>
          simp only [hg, Res.ok.injEq] at hs
          subst hs
          refine .branch (b := ⟨a, t⟩) ?_ ?_ <;>
            simp [World.content, World.action, World.withBranch, hg, NodeContent.asBranch, Res.expect]

/-- C98: `to_dot` never panics, and this is what it draws: once each thing that can be reached from the
node in one or more steps, named differently from all the others and labelled with what the public
operations report about it; and, for each thing drawn, an edge to each of the things it leads to. -/
theorem to_dot_exact {log : TreeLog T AK V} {w : World T AK V} {held : List Handle}
    (h : History log w held) {n : Node} (hn : .node n ∈ held) :
    ∃ N out, (∀ fuel ≥ N, toDot dbgT dbgAK dbgV fuel w n = .ok out) ∧ out.name = "G".toList ∧
      (out.vertices.map (·.id)).Nodup ∧
      (∀ v, v ∈ out.vertices ↔ ∃ x, Relation.TransGen (ForestArrow w n.tree) (.node n.index) x ∧
        DrawnAs dbgT dbgAK dbgV w n.tree x v) ∧
      (∀ x, Relation.TransGen (ForestArrow w n.tree) (.node n.index) x →
        ∃ v, DrawnAs dbgT dbgAK dbgV w n.tree x v) ∧
      (∀ s t, (s, t) ∈ out.edges ↔ ∃ x y, s = x.name ∧ t = y.name ∧
        Relation.TransGen (ForestArrow w n.tree) (.node n.index) x ∧ ForestArrow w n.tree x y) := by
  obtain ⟨N, ns, es, h1, h2, h3, h4⟩ := dotGraph_ok (h.inv.wf n.tree) (h.inv.handles _ hn)
  have hl : ∀ x ∈ ns, ∃ s, dotNodeLabel dbgT dbgAK dbgV (w n.tree) x = .ok s := by
    intro x hx
    have hex := ForestArrow.exists' (h.inv.wf n.tree) ((h3 x).1 hx)
    cases x with
    | node m => exact ⟨"", rfl⟩
    | alt a =>
      have : (w n.tree).altAt a = some (w n.tree).alternatives.idToValue[a] :=
        List.getElem?_eq_getElem hex
      simp only [dotNodeLabel, Inner.getAlt_some.2 this]
      cases (w n.tree).alternatives.idToValue[a] <;> exact ⟨_, rfl⟩
  obtain ⟨vs, v1, v2, v3⟩ := dotVertices_ok dbgT dbgAK dbgV hl
  refine ⟨N, ⟨['G'], vs, es.map (fun e => (e.1.name, e.2.name))⟩, ?_, rfl, ?_, ?_, ?_, ?_⟩
  · intro fuel hf
    have hG : dotGraphId = .ok ['G'] := by decide
    simp only [toDot, h1 fuel hf, hG, v1, dotEdgeIds_eq]
  · rw [v2]
    exact h2.map (fun _ _ => DotNode.name_inj)
  · intro v
    rw [v3]
    simp only [drawnAs_iff, ← h3]
  · intro x hx
    obtain ⟨s, hs⟩ := hl x ((h3 x).2 hx)
    exact ⟨_, (drawnAs_iff dbgT dbgAK dbgV).2 ⟨s, hs, rfl⟩⟩
  · intro s t
    simp only [List.mem_map]
    constructor
    · rintro ⟨⟨x, y⟩, he, hxy⟩
      cases hxy
      exact ⟨x, y, rfl, rfl, (h3 x).1 ((h4 x y).1 he).1, ((h4 x y).1 he).2⟩
    · rintro ⟨x, y, rfl, rfl, hx, hxy⟩
      exact ⟨(x, y), (h4 x y).2 ⟨(h3 x).2 hx, hxy⟩, rfl⟩

/-- C98: the edges that leave a thing drawn are its alternatives or its children in order, a child that
occurs twice having two edges. -/
theorem to_dot_edges {log : TreeLog T AK V} {w : World T AK V} {held : List Handle}
    (h : History log w held) {n : Node} (hn : .node n ∈ held) :
    ∃ N out, (∀ fuel ≥ N, toDot dbgT dbgAK dbgV fuel w n = .ok out) ∧
      (∀ m l, Relation.TransGen (ForestArrow w n.tree) (.node n.index) (.node m) →
        w.alts ⟨m, n.tree⟩ = .ok l →
        out.edges.filter (fun e => e.1 = (DotNode.node m).name) =
          l.map (fun a => ((DotNode.node m).name, (DotNode.alt a.index).name))) ∧
      (∀ a b l, Relation.TransGen (ForestArrow w n.tree) (.node n.index) (.alt a) →
        w.content ⟨a, n.tree⟩ = .ok (.branch b) → w.branchNodes b = .ok l →
        out.edges.filter (fun e => e.1 = (DotNode.alt a).name) =
          l.map (fun m => ((DotNode.alt a).name, (DotNode.node m.index).name))) := by
  obtain ⟨N, ns, es, h1, h2, h3, h4⟩ := dotGraph_ok (h.inv.wf n.tree) (h.inv.handles _ hn)
  obtain ⟨N', out, o1, -⟩ := to_dot_exact dbgT dbgAK dbgV h hn
  have hout : out.edges = es.map (fun e => (e.1.name, e.2.name)) := by
    have := o1 (N + N') (by omega)
    have hG : dotGraphId = .ok ['G'] := by decide
    simp only [toDot, h1 (N + N') (by omega), hG, dotEdgeIds_eq] at this
    cases hv : dotVertices dbgT dbgAK dbgV (w n.tree) ns with
    | panic p => simp [hv] at this
    | oof => simp [hv] at this
    | ok vs => simp only [hv, Res.ok.injEq] at this; rw [← this]
  have hf : ∀ x : DotNode, out.edges.filter (fun e => e.1 = x.name) =
      (es.filter (fun e => e.1 = x)).map (fun e => (e.1.name, e.2.name)) := by
    intro x
    rw [hout, List.filter_map]
    congr 1
    apply List.filter_congr
    intro e _
    simp only [Function.comp_apply, decide_eq_decide]
    exact ⟨DotNode.name_inj, fun h => h ▸ rfl⟩
  obtain ⟨f1, f2⟩ := dotGraph_filter (h1 N (Nat.le_refl _)) h2
  refine ⟨N', out, o1, ?_, ?_⟩
  · intro m l hm hl
    unfold World.alts at hl
    cases hg : (w n.tree).getNode m with
    | panic p => simp [hg] at hl
    | oof => simp [hg] at hl
    | ok s =>
      simp only [hg, Res.ok.injEq] at hl
      subst hl
      rw [hf, f1 m s ((h3 _).2 hm) hg]
      simp
  · intro a b l ha hc hl
    unfold World.content at hc
    cases hg : (w n.tree).getAlt a with
    | panic p => simp [hg] at hc
    | oof => simp [hg] at hc
    | ok c =>
      cases c with
      | leaf k v => simp [hg] at hc
      | branch act ms =>
        simp only [hg, Res.ok.injEq, NodeView.branch.injEq] at hc
        subst hc
        simp [World.branchNodes, World.withBranch, hg, NodeContent.asBranch, Res.expect] at hl
        subst hl
        rw [hf, f2 a act ms ((h3 _).2 ha) hg]
        simp
end

-- The hypotheses are met by the forests of C37, also by the cyclic one, which is drawn like this.
example : History forestExample.1 forestExample.2.1 forestExample.2.2 ∧
    .node ⟨0, 7⟩ ∈ forestExample.2.2 ∧
    toDot (fun _ => "T") (fun _ => "K") (fun _ => "V") 10 forestExample.2.1 ⟨0, 7⟩ = .ok {
      name := ['G']
      vertices := [⟨['n', '0'], "", "point"⟩, ⟨['n', '1'], "", "point"⟩,
        ⟨['a', '0'], "T(V)", "box"⟩, ⟨['a', '1'], "K", "box"⟩]
      edges := [(['n', '0'], ['a', '0']), (['n', '0'], ['a', '1']), (['n', '1'], ['a', '1']),
        (['a', '1'], ['n', '0']), (['a', '1'], ['n', '1'])] } :=
  ⟨forestExample_history, by decide, by decide⟩
end Bongo
