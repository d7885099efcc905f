import Verif.Proof.DotShared
import Verif.Props.Dot
/-!
# C131: drawing a forest while other threads use the tree
-/
namespace Bongo
open Std
set_option linter.unusedSectionVars false

theorem mem_nodeIds {seen : List DotNode} {m : Nat} :
    m ∈ seen.filterMap DotNode.nodeId ↔ DotNode.node m ∈ seen := by
  rw [List.mem_filterMap]
  constructor
  · rintro ⟨x, hx, he⟩
    cases x <;> simp [DotNode.nodeId] at he
    subst he; exact hx
  · intro h; exact ⟨_, h, rfl⟩

theorem mem_altIds {seen : List DotNode} {m : Nat} :
    m ∈ seen.filterMap DotNode.altId ↔ DotNode.alt m ∈ seen := by
  rw [List.mem_filterMap]
  constructor
  · rintro ⟨x, hx, he⟩
    cases x <;> simp [DotNode.altId] at he
    subst he; exact hx
  · intro h; exact ⟨_, h, rfl⟩

theorem mem_dotNodes_ids {seen : List DotNode} {x : DotNode} :
    x ∈ dotNodes (seen.filterMap DotNode.nodeId) (seen.filterMap DotNode.altId) ↔ x ∈ seen := by
  unfold dotNodes
  rw [List.mem_append, List.mem_map, List.mem_map]
  simp only [mem_nodeIds, mem_altIds]
  constructor
  · rintro (⟨m, hm, rfl⟩ | ⟨m, hm, rfl⟩) <;> exact hm
  · intro hx
    cases x with
    | node m => exact Or.inl ⟨m, hx, rfl⟩
    | alt m => exact Or.inr ⟨m, hx, rfl⟩

theorem nodeIds_nodup {seen : List DotNode} (h : seen.Nodup) : (seen.filterMap DotNode.nodeId).Nodup := by
  refine List.Nodup.filterMap ?_ h
  intro a b c hc hc'
  cases a <;> cases b <;> simp_all [DotNode.nodeId]

theorem altIds_nodup {seen : List DotNode} (h : seen.Nodup) : (seen.filterMap DotNode.altId).Nodup := by
  refine List.Nodup.filterMap ?_ h
  intro a b c hc hc'
  cases a <;> cases b <;> simp_all [DotNode.altId]

theorem dotNodes_nodup {ns as : List Nat} (h : ns.Nodup) (h' : as.Nodup) : (dotNodes ns as).Nodup := by
  unfold dotNodes
  rw [List.nodup_append]
  refine ⟨h.map (fun a b h => by cases h; rfl), h'.map (fun a b h => by cases h; rfl), ?_⟩
  intro a ha b hb hab
  rw [List.mem_map] at ha hb
  obtain ⟨_, -, rfl⟩ := ha
  obtain ⟨_, -, rfl⟩ := hb
  cases hab

theorem dotNodes_length (seen : List DotNode) :
    (seen.filterMap DotNode.nodeId).length + (seen.filterMap DotNode.altId).length = seen.length := by
  induction seen with
  | nil => rfl
  | cons x l ih =>
    cases x <;> simp only [List.filterMap_cons, DotNode.nodeId, DotNode.altId, List.length_cons] <;> omega

theorem dotNodes_alts (ns as : List Nat) : altsAmong (dotNodes ns as) = as.length := by
  unfold dotNodes
  induction ns with
  | cons n ns ih => simpa [altsAmong] using ih
  | nil =>
    induction as with
    | nil => rfl
    | cons a as ih => simpa [altsAmong] using ih

theorem altsAmong_reads (l : List DotNode) : (l.map dotLabelReads).sum = altsAmong l := by
  induction l with
  | nil => rfl
  | cons x l ih => cases x <;> simp [altsAmong, dotLabelReads, ih]; omega

section
variable {T AK V : Type}
variable [Ord T] [Ord AK] [Ord V] [TransOrd T] [TransOrd AK] [TransOrd V]
variable [LawfulEqOrd T] [LawfulEqOrd AK] [LawfulEqOrd V]
variable (dbgT : T → String) (dbgAK : AK → String) (dbgV : V → String)

theorem dotLoopInv_init (ws : Nat → World T AK V) (t : Nat) (r : DotNode) : DotLoopInv ws t r 0 [r] [] :=
  ⟨List.Pairwise.nil, by simp, fun x hx => Or.inl (by simpa using hx), fun x hx => Or.inl (by simpa using hx)⟩

/-- C131: whatever other threads do in the meantime, `to_dot` does not panic, and if it returns, this
is what it has drawn. -/
theorem to_dot_among_others {log : TreeLog T AK V} {ws : Nat → World T AK V} {held : Nat → List Handle}
    (h : History log (ws 0) (held 0)) (hm : Moments ws held) {n : Node} (hn : .node n ∈ held 0)
    (fuel : Nat) :
    toDotAmong dbgT dbgAK dbgV fuel ws n = .oof ∨
      ∃ out k m drawn, toDotAmong dbgT dbgAK dbgV fuel ws n = .ok (out, k) ∧
        DrawnBetween dbgT dbgAK dbgV ws n m k drawn out := by
  have hg := hm.grows h n.tree
  have hr : (DotNode.node n.index).Exists (ws 0 n.tree) := h.inv.handles _ hn
  rcases dotLoopAmong_ok hg hr (fuel := fuel) (dotLoopInv_init ws n.tree (.node n.index)) with
    hl | ⟨seen, m, hl, -, hinv⟩
  · exact Or.inl (by simp only [toDotAmong, collectAmong, hl])
  right
  have hex : ∀ x ∈ seen, x.Exists (ws m n.tree) := fun x hx => hinv.exists hg hr x (Or.inr hx)
  have hnd := BSet.sorted_nodup hinv.sorted
  have hG : dotGraphId = .ok ['G'] := by decide
  obtain ⟨vs, v1, v3⟩ := dotVerticesAmong_eq hg dbgT dbgAK dbgV (Nat.le_refl m)
    (l := dotNodes (seen.filterMap DotNode.nodeId) (seen.filterMap DotNode.altId))
    (fun x hx => hex x (mem_dotNodes_ids.1 hx))
  obtain ⟨vs', u1, u2, u3⟩ := dotVertices_ok dbgT dbgAK dbgV (i := ws m n.tree)
    (l := dotNodes (seen.filterMap DotNode.nodeId) (seen.filterMap DotNode.altId))
    (fun x hx => (hex x (mem_dotNodes_ids.1 hx)).label dbgT dbgAK dbgV)
  rw [v1] at u1; cases u1
  obtain ⟨e1, n1, n2, n3⟩ := dotNodeEdgesAmong_ok hg (nodeIds_nodup hnd) (k := m +
       ((dotNodes (seen.filterMap DotNode.nodeId) (seen.filterMap DotNode.altId)).map dotLabelReads).sum)
    (fun i hi => (hex _ (mem_nodeIds.1 hi)).mono (hg.le (by omega)))
  obtain ⟨e2, a1, a3⟩ := dotAltEdgesAmong_eq hg
    (k₀ := m) (k := m + ((dotNodes (seen.filterMap DotNode.nodeId)
      (seen.filterMap DotNode.altId)).map dotLabelReads).sum + (seen.filterMap DotNode.nodeId).length) (by omega)
    (fun i hi => hex _ (mem_altIds.1 hi))
  have hdn := dotNodes_nodup (nodeIds_nodup hnd) (altIds_nodup hnd)
  have hf : ∀ x : DotNode, ((e1 ++ e2).map (fun e => (e.1.name, e.2.name))).filter (fun e => e.1 = x.name) =
      ((e1 ++ e2).filter (fun e => e.1 = x)).map (fun e => (e.1.name, e.2.name)) := by
    intro x
    rw [List.filter_map]
    congr 1
    apply List.filter_congr
    intro e _
    simp only [Function.comp_apply, decide_eq_decide]
    exact ⟨DotNode.name_inj, fun h => h ▸ rfl⟩
  have ha2 := dotAltEdges_source a1
  refine ⟨⟨['G'], vs, (e1 ++ e2).map (fun e => (e.1.name, e.2.name))⟩,
    m + ((dotNodes (seen.filterMap DotNode.nodeId) (seen.filterMap DotNode.altId)).map dotLabelReads).sum +
      (seen.filterMap DotNode.nodeId).length + (seen.filterMap DotNode.altId).length, m,
    dotNodes (seen.filterMap DotNode.nodeId) (seen.filterMap DotNode.altId),
    by simp only [toDotAmong, collectAmong, hl, hG, v3, n1, a3, dotEdgeIds_eq],
    ⟨by omega, ?_, ?_, rfl, u2, hdn, ?_, ?_, ?_, ?_, ?_, ?_⟩⟩
  · have := dotLoopAmong_reads List.Pairwise.nil hl
    have := dotNodes_length seen
    simp only [dotNodes, List.length_append, List.length_map, List.length_cons, List.length_nil] at *
    omega
  · have := dotNodes_length seen
    rw [altsAmong_reads]
    simp only [dotNodes, List.length_append, List.length_map] at *
    omega
  · intro v
    rw [u3]
    simp only [drawnAs_iff]
  · intro x hx
    rw [mem_dotNodes_ids]
    induction hx with
    | single hb =>
      rcases hinv.done _ (Or.inl rfl) with hc | hd
      · simp at hc
      · exact hd _ hb
    | tail _ hb ih =>
      rcases hinv.done _ (Or.inr ih) with hc | hd
      · simp at hc
      · exact hd _ hb
  · intro x hx
    simp only [mem_dotNodes_ids] at hx ⊢
    exact hinv.sound x hx
  · intro i hi
    rw [mem_dotNodes_ids] at hi
    obtain ⟨j, s, j1, j2, j3, j4⟩ := n3 i (mem_nodeIds.2 hi)
    refine ⟨j, s.map (⟨·, n.tree⟩), by omega, by omega, by simp only [World.alts, j3], ?_⟩
    rw [hf, List.filter_append, j4, filter_source_none (es := e2), List.append_nil]
    · simp
    · intro e he hei
      obtain ⟨a, -, ha⟩ := ha2 e he
      rw [ha] at hei; cases hei
  · intro i hi
    rw [mem_dotNodes_ids] at hi
    have hlt : i < (ws m n.tree).alternatives.idToValue.length := hex _ hi
    have hnone : e1.filter (fun e => e.1 = DotNode.alt i) = [] := filter_source_none (by
      intro e he hei
      obtain ⟨a, -, ha⟩ := n2 e he
      rw [ha] at hei; cases hei)
    constructor
    · intro b l hc hl'
      unfold World.content at hc
      cases hgt : (ws m n.tree).getAlt i with
      | panic p => simp [hgt] at hc
      | oof => simp [hgt] at hc
      | ok c =>
        cases c with
        | leaf kd v => simp [hgt] at hc
        | branch act ms =>
          simp only [hgt, Res.ok.injEq, NodeView.branch.injEq] at hc
          subst hc
          simp [World.branchNodes, World.withBranch, hgt, NodeContent.asBranch, Res.expect] at hl'
          subst hl'
          rw [hf, List.filter_append, hnone, List.nil_append,
            dotAltEdges_filter (altIds_nodup hnd) a1 (mem_altIds.2 hi) hgt]
          simp
    · intro l hc
      unfold World.content at hc
      cases hgt : (ws m n.tree).getAlt i with
      | panic p => simp [hgt] at hc
      | oof => simp [hgt] at hc
      | ok c =>
        cases c with
        | branch kd v => simp [hgt] at hc
        | leaf kd v =>
          rw [hf, List.filter_append, hnone, List.nil_append, filter_source_none, List.map_nil]
          rintro ⟨x, y⟩ he hei
          cases hei
          obtain ⟨es', q1, q2⟩ := dotAltEdges_ok (i := ws m n.tree) (l := seen.filterMap DotNode.altId)
            (fun a ha => hex _ (mem_altIds.1 ha))
          rw [a1] at q1; cases q1
          obtain ⟨a, -, act, ns, c, hx, hb, -⟩ := (q2 _ _).1 he
          cases hx
          rw [Inner.getAlt_some.1 hgt] at hb; cases hb
  · intro e he
    obtain ⟨⟨x, y⟩, hxy, rfl⟩ := List.mem_map.1 he
    rcases List.mem_append.1 hxy with hx | hx
    · obtain ⟨i, hi, hxi⟩ := n2 _ hx
      simp only at hxi
      subst hxi
      exact ⟨_, mem_dotNodes_ids.2 (mem_nodeIds.1 hi), rfl⟩
    · obtain ⟨i, hi, hxi⟩ := ha2 _ hx
      simp only at hxi
      subst hxi
      exact ⟨_, mem_dotNodes_ids.2 (mem_altIds.1 hi), rfl⟩

/-- C131: if the tree does not grow beyond some size while it is drawn, `to_dot` returns. -/
theorem to_dot_among_others_returns {log : TreeLog T AK V} {ws : Nat → World T AK V}
    {held : Nat → List Handle} (h : History log (ws 0) (held 0)) (hm : Moments ws held) {n : Node}
    (hn : .node n ∈ held 0) {B : Nat} (hB : ∀ k, (ws k).size n.tree ≤ B) :
    ∀ fuel ≥ B + 1, ∃ out k, toDotAmong dbgT dbgAK dbgV fuel ws n = .ok (out, k) := by
  intro fuel hf
  rcases to_dot_among_others dbgT dbgAK dbgV h hm hn fuel with ho | ⟨out, k, m, drawn, ho, -⟩
  · exfalso
    have hg := hm.grows h n.tree
    have hr : (DotNode.node n.index).Exists (ws 0 n.tree) := h.inv.handles _ hn
    have hne := dotLoopAmong_ends hg hr hB (fuel := fuel) (dotLoopInv_init ws n.tree (.node n.index))
      (by simpa using hf)
    rcases dotLoopAmong_ok hg hr (fuel := fuel) (dotLoopInv_init ws n.tree (.node n.index)) with
      hl | ⟨seen, m, hl, -, hinv⟩
    · exact hne hl
    · have hex : ∀ x ∈ seen, x.Exists (ws m n.tree) := fun x hx => hinv.exists hg hr x (Or.inr hx)
      have hnd := BSet.sorted_nodup hinv.sorted
      have hG : dotGraphId = .ok ['G'] := by decide
      obtain ⟨vs, v1, v3⟩ := dotVerticesAmong_eq hg dbgT dbgAK dbgV (Nat.le_refl m)
        (l := dotNodes (seen.filterMap DotNode.nodeId) (seen.filterMap DotNode.altId))
        (fun x hx => hex x (mem_dotNodes_ids.1 hx))
      obtain ⟨e1, n1, -⟩ := dotNodeEdgesAmong_ok hg (nodeIds_nodup hnd) (k := m +
       ((dotNodes (seen.filterMap DotNode.nodeId) (seen.filterMap DotNode.altId)).map dotLabelReads).sum)
        (fun i hi => (hex _ (mem_nodeIds.1 hi)).mono (hg.le (by omega)))
      obtain ⟨e2, a1, a3⟩ := dotAltEdgesAmong_eq hg
        (k₀ := m) (k := m + ((dotNodes (seen.filterMap DotNode.nodeId)
      (seen.filterMap DotNode.altId)).map dotLabelReads).sum + (seen.filterMap DotNode.nodeId).length) (by omega)
        (fun i hi => hex _ (mem_altIds.1 hi))
      simp only [toDotAmong, collectAmong, hl, hG, v3, n1, a3, dotEdgeIds_eq, reduceCtorEq] at ho
  · exact ⟨out, k, ho⟩

/-- C131: the edges are between the arrows there were when the last thing was found and those there are
when the drawing is ready. -/
theorem to_dot_among_others_edges {log : TreeLog T AK V} {ws : Nat → World T AK V}
    {held : Nat → List Handle} (h : History log (ws 0) (held 0)) (hm : Moments ws held) {n : Node}
    {m k : Nat} {drawn : List DotNode} {out : DotOutput}
    (hd : DrawnBetween dbgT dbgAK dbgV ws n m k drawn out) :
    (∀ x ∈ drawn, ∀ y, ForestArrow (ws m) n.tree x y → (x.name, y.name) ∈ out.edges) ∧
    (∀ e ∈ out.edges, ∃ x ∈ drawn, ∃ y, e = (x.name, y.name) ∧ ForestArrow (ws k) n.tree x y) := by
  have hg := hm.grows h n.tree
  constructor
  · intro x hx y hxy
    have key : (x.name, y.name) ∈ out.edges.filter (fun e => e.1 = x.name) := by
      cases x with
      | node i =>
        obtain ⟨j, l, j1, j2, j3, j4⟩ := hd.alts i hx
        rw [j4]
        have hxy' := hxy.mono (hg.le j1)
        cases hxy' with
        | alt h1 h2 =>
          rw [j3] at h1; cases h1
          exact List.mem_map.2 ⟨_, h2, rfl⟩
      | alt i =>
        cases hxy with
        | child h1 h2 h3 =>
          rw [(hd.children i hx).1 _ _ h1 h2]
          exact List.mem_map.2 ⟨_, h3, rfl⟩
    exact (List.mem_filter.1 key).1
  · intro e he
    obtain ⟨x, hx, hex⟩ := hd.sources e he
    have key : e ∈ out.edges.filter (fun e => e.1 = x.name) := List.mem_filter.2 ⟨he, by simpa using hex⟩
    refine ⟨x, hx, ?_⟩
    cases x with
    | node i =>
      obtain ⟨j, l, j1, j2, j3, j4⟩ := hd.alts i hx
      rw [j4] at key
      obtain ⟨a, ha, rfl⟩ := List.mem_map.1 key
      refine ⟨.alt a.index, rfl, ForestArrow.mono (hg.le (Nat.le_of_lt j2)) (.alt j3 ?_)⟩
      unfold World.alts at j3
      cases hgt : (ws j n.tree).getNode i with
      | panic p => simp [hgt] at j3
      | oof => simp [hgt] at j3
      | ok s =>
        simp only [hgt, Res.ok.injEq] at j3
        subst j3
        obtain ⟨b, hb, rfl⟩ := List.mem_map.1 ha
        exact List.mem_map.2 ⟨b, hb, rfl⟩
    | alt i =>
      have hex' : (DotNode.alt i).Exists (ws m n.tree) :=
        ForestArrow.exists' (hg.wf m) ((hd.sound _ hx).lift id (fun _ _ hab => hab.1))
      have hat : (ws m n.tree).altAt i = some (ws m n.tree).alternatives.idToValue[i] :=
        List.getElem?_eq_getElem hex'
      obtain ⟨c1, c2⟩ := hd.children i hx
      cases hc : (ws m n.tree).alternatives.idToValue[i] with
      | leaf kd v =>
        rw [hc] at hat
        rw [c2 ⟨i, n.tree⟩ (by simp only [World.content, Inner.getAlt_some.2 hat])] at key
        cases key
      | branch act ms =>
        rw [hc] at hat
        have hb : (ws m).content ⟨i, n.tree⟩ = .ok (.branch ⟨i, n.tree⟩) := by
          simp only [World.content, Inner.getAlt_some.2 hat]
        have hl : (ws m).branchNodes ⟨i, n.tree⟩ = .ok (ms.map (⟨·, n.tree⟩)) := by
          simp only [World.branchNodes, World.withBranch, Inner.getAlt_some.2 hat, NodeContent.asBranch,
            Res.expect_some]
        rw [c1 _ _ hb hl] at key
        obtain ⟨c, hcm, rfl⟩ := List.mem_map.1 key
        refine ⟨.node c.index, rfl, ForestArrow.mono (hg.le hd.order) (.child hb hl ?_)⟩
        obtain ⟨d, hd', rfl⟩ := List.mem_map.1 hcm
        exact List.mem_map.2 ⟨d, hd', rfl⟩

theorem dotLevelAmong_alone {ws : Nat → World T AK V} {i : Inner T AK V} {t : Nat} (hw : ∀ k, ws k t = i)
    (curr : List DotNode) (st : BSet DotNode × BSet DotNode) (k : Nat) :
    dotLevelAmong ws t curr st k = (bfsLevel DotNode.cmp (dotStep i) curr st).mapOut (·, k + curr.length) := by
  induction curr generalizing st k with
  | nil => rfl
  | cons c curr ih =>
    have hlen : k + (c :: curr).length = k + 1 + curr.length := by simp; omega
    simp only [dotLevelAmong, bfsLevel, hw]
    cases dotStep i c with
    | ok l => simp only [ih, hlen]
    | panic p => rfl
    | oof => rfl

theorem dotLoopAmong_alone {ws : Nat → World T AK V} {i : Inner T AK V} {t : Nat} (hw : ∀ k, ws k t = i)
    (fuel : Nat) (curr seen : BSet DotNode) (k : Nat) :
    (dotLoopAmong fuel ws t curr seen k).mapOut (·.1) = bfsLoop DotNode.cmp fuel (dotStep i) curr seen := by
  induction fuel generalizing curr seen k with
  | zero => cases curr <;> rfl
  | succ fuel ih =>
    cases curr with
    | nil => rfl
    | cons c cs =>
      simp only [dotLoopAmong, bfsLoop, dotLevelAmong_alone hw]
      cases bfsLevel DotNode.cmp (dotStep i) (c :: cs) ([], seen) with
      | ok st => exact ih _ _ _
      | panic p => rfl
      | oof => rfl

theorem dotVerticesAmong_alone {ws : Nat → World T AK V} {i : Inner T AK V} {t : Nat}
    (hw : ∀ k, ws k t = i) (l : List DotNode) (k : Nat) :
    (dotVerticesAmong dbgT dbgAK dbgV ws t l k).mapOut (·.1) = dotVertices dbgT dbgAK dbgV i l := by
  induction l generalizing k with
  | nil => rfl
  | cons x l ih =>
    have := ih (k + dotLabelReads x)
    simp only [dotVerticesAmong, dotVertices, dotNodeId_eq, hw]
    cases dotNodeLabel dbgT dbgAK dbgV i x with
    | ok s =>
      simp only [← this]
      cases dotVerticesAmong dbgT dbgAK dbgV ws t l (k + dotLabelReads x) <;> rfl
    | panic p => rfl
    | oof => rfl

theorem dotNodeEdgesAmong_alone {ws : Nat → World T AK V} {i : Inner T AK V} {t : Nat}
    (hw : ∀ k, ws k t = i) (l : List Nat) (k : Nat) :
    (dotNodeEdgesAmong ws t l k).mapOut (·.1) = dotNodeEdges i l := by
  induction l generalizing k with
  | nil => rfl
  | cons x l ih =>
    have := ih (k + 1)
    simp only [dotNodeEdgesAmong, dotNodeEdges, hw]
    cases i.getNode x with
    | ok s =>
      simp only [← this]
      cases dotNodeEdgesAmong ws t l (k + 1) <;> rfl
    | panic p => rfl
    | oof => rfl

theorem dotAltEdgesAmong_alone {ws : Nat → World T AK V} {i : Inner T AK V} {t : Nat}
    (hw : ∀ k, ws k t = i) (l : List Nat) (k : Nat) :
    (dotAltEdgesAmong ws t l k).mapOut (·.1) = dotAltEdges i l := by
  induction l generalizing k with
  | nil => rfl
  | cons x l ih =>
    have := ih (k + 1)
    simp only [dotAltEdgesAmong, dotAltEdges, hw]
    cases i.getAlt x with
    | ok c =>
      simp only [← this]
      cases dotAltEdgesAmong ws t l (k + 1) <;> cases c <;> rfl
    | panic p => rfl
    | oof => rfl

/-- C131: if nobody changes the tree in the meantime, the drawing is the one made by nobody else being
there. -/
theorem to_dot_undisturbed {ws : Nat → World T AK V} {w : World T AK V} {n : Node}
    (hw : ∀ k, ws k n.tree = w n.tree) (fuel : Nat) (out : DotOutput) :
    (∃ k, toDotAmong dbgT dbgAK dbgV fuel ws n = .ok (out, k)) ↔
      toDot dbgT dbgAK dbgV fuel w n = .ok out := by
  have h1 := dotLoopAmong_alone hw fuel [.node n.index] [] 0
  have hG : dotGraphId = .ok ['G'] := by decide
  unfold toDotAmong collectAmong toDot dotGraph collectNodesAndAlts
  rw [← h1]
  cases dotLoopAmong fuel ws n.tree [.node n.index] [] 0 with
  | panic p => simp [Res.mapOut]
  | oof => simp [Res.mapOut]
  | ok sk =>
    obtain ⟨seen, k⟩ := sk
    simp only [Res.mapOut, hG]
    have h2 := dotVerticesAmong_alone dbgT dbgAK dbgV hw
      (dotNodes (seen.filterMap DotNode.nodeId) (seen.filterMap DotNode.altId)) k
    cases hv : dotVerticesAmong dbgT dbgAK dbgV ws n.tree
      (dotNodes (seen.filterMap DotNode.nodeId) (seen.filterMap DotNode.altId)) k with
    | panic p =>
      rw [hv] at h2
      simp only [Res.mapOut] at h2
      cases dotNodeEdges (w n.tree) (seen.filterMap DotNode.nodeId) <;>
        cases dotAltEdges (w n.tree) (seen.filterMap DotNode.altId) <;> simp [← h2]
    | oof =>
      rw [hv] at h2
      simp only [Res.mapOut] at h2
      cases dotNodeEdges (w n.tree) (seen.filterMap DotNode.nodeId) <;>
        cases dotAltEdges (w n.tree) (seen.filterMap DotNode.altId) <;> simp [← h2]
    | ok vk =>
      obtain ⟨vs, k1⟩ := vk
      rw [hv] at h2
      simp only [Res.mapOut] at h2
      have h3 := dotNodeEdgesAmong_alone hw (seen.filterMap DotNode.nodeId) k1
      cases he : dotNodeEdgesAmong ws n.tree (seen.filterMap DotNode.nodeId) k1 with
      | panic p =>
        rw [he] at h3; simp only [Res.mapOut] at h3
        simp [he, ← h3]
      | oof =>
        rw [he] at h3; simp only [Res.mapOut] at h3
        simp [he, ← h3]
      | ok ek =>
        obtain ⟨es, k2⟩ := ek
        rw [he] at h3; simp only [Res.mapOut] at h3
        have h4 := dotAltEdgesAmong_alone hw (seen.filterMap DotNode.altId) k2
        cases ha : dotAltEdgesAmong ws n.tree (seen.filterMap DotNode.altId) k2 with
        | panic p =>
          rw [ha] at h4; simp only [Res.mapOut] at h4
          simp [he, ha, ← h3, ← h4]
        | oof =>
          rw [ha] at h4; simp only [Res.mapOut] at h4
          simp [he, ha, ← h3, ← h4]
        | ok ak =>
          obtain ⟨as, k3⟩ := ak
          rw [ha] at h4; simp only [Res.mapOut] at h4
          simp only [he, ha, ← h3, ← h4, ← h2, dotEdgeIds_eq, Res.ok.injEq, _root_.Prod.mk.injEq, exists_and_left,
            exists_eq', and_true]

/-- In the drawing of a tree that nobody changes, every edge leads from a vertex to a vertex. -/
theorem to_dot_no_dangling {log : TreeLog T AK V} {w : World T AK V} {held : List Handle}
    (h : History log w held) {n : Node} (hn : .node n ∈ held) {fuel : Nat} {out : DotOutput}
    (ho : toDot dbgT dbgAK dbgV fuel w n = .ok out) :
    ∀ e ∈ out.edges, e.1 ∈ out.vertices.map (·.id) ∧ e.2 ∈ out.vertices.map (·.id) := by
  have hd : ∃ ws : Nat → World T AK V, ws = fun _ => w := ⟨_, rfl⟩
  obtain ⟨ws, hws⟩ := hd
  obtain ⟨k, hk⟩ := (to_dot_undisturbed dbgT dbgAK dbgV (ws := ws) (w := w) (n := n)
    (fun k => by rw [hws]) fuel out).2 ho
  have hm : Moments ws (fun _ => held) := fun k => by rw [hws]; exact .now
  have h0 : History log (ws 0) held := by rw [hws]; exact h
  rcases to_dot_among_others dbgT dbgAK dbgV (held := fun _ => held) h0 hm hn fuel with
    hoof | ⟨out', k', m, drawn, ho', hdr⟩
  · rw [hoof] at hk; cases hk
  · rw [hk] at ho'
    cases ho'
    intro e he
    obtain ⟨x, hx, y, rfl, hxy⟩ := (to_dot_among_others_edges dbgT dbgAK dbgV (held := fun _ => held)
      h0 hm hdr).2 e he
    rw [hdr.ids]
    refine ⟨List.mem_map.2 ⟨x, hx, rfl⟩, List.mem_map.2 ⟨y, hdr.complete y ?_, rfl⟩⟩
    have h1 := (hdr.sound x hx).lift (p := ForestArrow (ws 0) n.tree) id
      (fun a b hab => by have := hab.1; rw [hws] at this ⊢; exact this)
    refine h1.tail ?_
    rw [hws] at hxy ⊢
    exact hxy
end

/-! ## What can go wrong -/

theorem runOps_later (ops : List (TreeOp Nat Nat Nat)) {w : World Nat Nat Nat} {held : List Handle}
    (st : TreeLog Nat Nat Nat × World Nat Nat Nat × List Handle) (h : Later w held st.2.1 st.2.2)
    (hok : opsAllowed ops st = true) : Later w held (runOps ops st).2.1 (runOps ops st).2.2 := by
  induction ops generalizing st with
  | nil => exact h
  | cons op ops ih =>
    rw [opsAllowed, Bool.and_eq_true, decide_eq_true_eq] at hok
    exact ih (runOps [op] st) (.call op h hok.1) hok.2

/-- A node whose only alternative is a branch over a node whose only alternative is a leaf. -/
def towerBefore : TreeLog Nat Nat Nat × World Nat Nat Nat × List Handle :=
  runOps [.makeNode 7, .makeNode 7, .makeLeafAlt 7 1 10, .makeBranchAlt 7 5 [⟨0, 7⟩],
    .addAlt ⟨0, 7⟩ ⟨0, 7⟩, .addAlt ⟨1, 7⟩ ⟨1, 7⟩] ([], World.new, [.tree 7])

/-- Another thread has added another leaf to the lower node. -/
def towerAfter : TreeLog Nat Nat Nat × World Nat Nat Nat × List Handle :=
  runOps [.makeLeafAlt 7 2 20, .addAlt ⟨0, 7⟩ ⟨2, 7⟩] towerBefore

/-- It does so before read number `i`. -/
def towerAt (i k : Nat) : World Nat Nat Nat × List Handle :=
  if k < i then towerBefore.2 else towerAfter.2

theorem towerBefore_history : History towerBefore.1 towerBefore.2.1 towerBefore.2.2 :=
  runOps_history _ _ (.newOwner 7 .start (by simp)) (by decide)

theorem tower_moments (i : Nat) : Moments (fun k => (towerAt i k).1) (fun k => (towerAt i k).2) := by
  intro k
  simp only [towerAt]
  rcases Nat.lt_trichotomy (k + 1) i with h | h | h
  · rw [if_pos h, if_pos (by omega)]
    exact .now
  · rw [if_pos (by omega), if_neg (by omega)]
    exact runOps_later _ towerBefore .now (by decide)
  · rw [if_neg (by omega), if_neg (by omega)]
    exact .now

/-- What is drawn if the other thread is early (before the search comes to the lower node), if it comes
between search and edges, and if it is late. -/
theorem tower_drawings :
    toDotAmong (fun _ => "T") (fun _ => "K") (fun _ => "V") 9 (fun k => (towerAt 2 k).1) ⟨1, 7⟩ = .ok ({
      name := ['G']
      vertices := [⟨['n', '0'], "", "point"⟩, ⟨['a', '0'], "T(V)", "box"⟩, ⟨['a', '1'], "K", "box"⟩,
        ⟨['a', '2'], "T(V)", "box"⟩]
      edges := [(['n', '0'], ['a', '0']), (['n', '0'], ['a', '2']), (['a', '1'], ['n', '0'])] }, 12) ∧
    toDotAmong (fun _ => "T") (fun _ => "K") (fun _ => "V") 9 (fun k => (towerAt 6 k).1) ⟨1, 7⟩ = .ok ({
      name := ['G']
      vertices := [⟨['n', '0'], "", "point"⟩, ⟨['a', '0'], "T(V)", "box"⟩, ⟨['a', '1'], "K", "box"⟩]
      edges := [(['n', '0'], ['a', '0']), (['n', '0'], ['a', '2']), (['a', '1'], ['n', '0'])] }, 9) ∧
    toDotAmong (fun _ => "T") (fun _ => "K") (fun _ => "V") 9 (fun k => (towerAt 7 k).1) ⟨1, 7⟩ = .ok ({
      name := ['G']
      vertices := [⟨['n', '0'], "", "point"⟩, ⟨['a', '0'], "T(V)", "box"⟩, ⟨['a', '1'], "K", "box"⟩]
      edges := [(['n', '0'], ['a', '0']), (['a', '1'], ['n', '0'])] }, 9) := by
  refine ⟨by decide +kernel, by decide +kernel, by decide +kernel⟩

/-- C131: it is not always true that the drawing is that of some moment, nor that its edges lead to
vertices of the drawing. -/
theorem to_dot_may_dangle : ∃ (log : TreeLog Nat Nat Nat) (ws : Nat → World Nat Nat Nat)
    (held : Nat → List Handle) (n : Node) (fuel k : Nat) (out : DotOutput),
    History log (ws 0) (held 0) ∧ Moments ws held ∧ .node n ∈ held 0 ∧
      toDotAmong (fun _ => "T") (fun _ => "K") (fun _ => "V") fuel ws n = .ok (out, k) ∧
      (∃ e ∈ out.edges, e.2 ∉ out.vertices.map (·.id)) ∧
      ∀ fuel' i, toDot (fun _ => "T") (fun _ => "K") (fun _ => "V") fuel' (ws i) n ≠ .ok out := by
  have h0 : History towerBefore.1 (towerAt 6 0).1 (towerAt 6 0).2 := towerBefore_history
  have hn : .node ⟨1, 7⟩ ∈ (towerAt 6 0).2 := by decide
  refine ⟨towerBefore.1, fun k => (towerAt 6 k).1, fun k => (towerAt 6 k).2, ⟨1, 7⟩, 9, 9, _, h0,
    tower_moments 6, hn, tower_drawings.2.1, ⟨(['n', '0'], ['a', '2']), by decide, by decide⟩, ?_⟩
  intro fuel' i hi
  obtain ⟨log', h'⟩ := (tower_moments 6).histories h0 i
  have hni : .node ⟨1, 7⟩ ∈ (towerAt 6 i).2 := by
    unfold towerAt
    split <;> decide
  have := (to_dot_no_dangling _ _ _ h' hni hi (['n', '0'], ['a', '2']) (by decide)).2
  revert this
  decide

/-- What another thread does over and over: a new node below the one it made last. -/
def chainOps (j : Nat) : List (TreeOp Nat Nat Nat) :=
  [.makeNode 7, .makeBranchAlt 7 0 [⟨j + 1, 7⟩], .addAlt ⟨j, 7⟩ ⟨j, 7⟩]

/-- The state after it has done so a number of times. -/
def chainState : Nat → TreeLog Nat Nat Nat × World Nat Nat Nat × List Handle
  | 0 => runOps [.makeNode 7] ([], World.new, [.tree 7])
  | j + 1 => runOps (chainOps j) (chainState j)

structure ChainInv (j : Nat) (st : TreeLog Nat Nat Nat × World Nat Nat Nat × List Handle) : Prop where
  hist : History st.1 st.2.1 st.2.2
  tree : .tree 7 ∈ st.2.2
  last : .node ⟨j, 7⟩ ∈ st.2.2
  len : (st.2.1 7).nodes.length = j + 1
  alts : (st.2.1 7).alternatives.idToValue.length = j
  altAt : ∀ k c, (st.2.1 7).altAt k = some c ↔ k < j ∧ c = .branch 0 [k + 1]
  has : ∀ n a, (st.2.1 7).Has n a ↔ n = a ∧ a < j

theorem chainInv_zero : ChainInv 0 (chainState 0) := by
  refine ⟨runOps_history _ _ (.newOwner 7 .start (by simp)) (by decide), by decide, by decide, by decide,
    by decide, ?_, ?_⟩
  · intro k c
    have : (chainState 0).2.1 7 = ⟨[[]], .new⟩ := rfl
    rw [this]
    simp [Inner.altAt, AltSet.new]
  · intro n a
    have : (chainState 0).2.1 7 = ⟨[[]], .new⟩ := rfl
    rw [this]
    simp only [Inner.Has, List.getElem?_singleton]
    constructor
    · rintro ⟨s, hs, ha⟩
      split at hs
      · cases hs; simp at ha
      · cases hs
    · rintro ⟨-, h⟩; omega

theorem chainInv_succ {j : Nat} {st : TreeLog Nat Nat Nat × World Nat Nat Nat × List Handle}
    (h : ChainInv j st) : ChainInv (j + 1) (runOps (chainOps j) st) ∧ opsAllowed (chainOps j) st = true := by
  obtain ⟨log, w, held⟩ := st
  have hwf := h.hist.inv.wf 7
  have hlen : (w 7).nodes.length = j + 1 := h.len
  have halts : (w 7).alternatives.idToValue.length = j := h.alts
  have hat : ∀ k c, (w 7).altAt k = some c ↔ k < j ∧ c = .branch 0 [k + 1] := h.altAt
  have hhas : ∀ n a, (w 7).Has n a ↔ n = a ∧ a < j := h.has
  have hlast : Handle.node ⟨j, 7⟩ ∈ held := h.last
  have htree : Handle.tree 7 ∈ held := h.tree
  -- the new node
  let i1 := (w 7).makeNode.1
  have e1 : (TreeOp.makeNode 7 : TreeOp Nat Nat Nat).exec w = (w.set 7 i1, .ok (.node ⟨j + 1, 7⟩)) := by
    simp only [TreeOp.exec, World.makeNode, Inner.makeNode_snd, hlen, i1]
  have hwf1 : i1.WF := Inner.makeNode_wf hwf
  have l1 : i1.nodes.length = j + 2 := by simp [i1, hlen]
  -- the new branch
  let r2 := i1.makeAlt (.branch 0 [j + 1])
  have hnew : ∀ k, i1.altAt k ≠ some (.branch 0 [j + 1]) := by
    intro k hk
    simp only [i1, Inner.makeNode_altAt] at hk
    have := (hat _ _).1 hk
    simp at this
    omega
  obtain ⟨c2, hid, hval⟩ : r2.2 = j ∧ r2.1.alternatives.idToValue = i1.alternatives.idToValue ++ [.branch 0 [j + 1]] ∧ True := by
    rcases Inner.makeAlt_cases hwf1 (.branch 0 [j + 1]) with ⟨h1, h2⟩ | ⟨h1, h2, h3, h4⟩
    · exact absurd h1 (hnew _)
    · refine ⟨?_, h3, trivial⟩
      rw [h2]
      exact halts
  have e2 : (TreeOp.makeBranchAlt 7 0 [⟨j + 1, 7⟩] : TreeOp Nat Nat Nat).exec (w.set 7 i1) =
      ((w.set 7 i1).set 7 r2.1, .ok (.alt ⟨j, 7⟩)) := by
    have : (i1.makeAlt (.branch 0 [j + 1])).2 = j := c2
    simp [TreeOp.exec, World.makeBranchAlt, World.makeAlt, World.isSame, Res.mapOut, this, r2]
  have hwf2 : r2.1.WF := Inner.makeAlt_wf hwf1 _ (by
    intro a ns hns n hn
    cases hns
    simp only [List.mem_singleton] at hn
    subst hn
    omega)
  have l2 : r2.1.nodes.length = j + 2 := l1
  have a2 : r2.1.alternatives.idToValue.length = j + 1 := by
    rw [hid]
    simp [i1, halts]
  -- the addition
  obtain ⟨i3, ch, e3', al3, l3, has3, -, wf3, -⟩ := Inner.addNodeAlt_ok (i := r2.1) (n := j) (by omega) j
  have e3 : (TreeOp.addAlt ⟨j, 7⟩ ⟨j, 7⟩ : TreeOp Nat Nat Nat).exec ((w.set 7 i1).set 7 r2.1) =
      (((w.set 7 i1).set 7 r2.1).set 7 i3, .ok (.changed ch)) := by
    simp [TreeOp.exec, World.addAlt, World.isSame, World.update, Res.mapOut, e3']
  have hrun : runOps (chainOps j) (log, w, held) =
      ((.addAlt ⟨j, 7⟩ ⟨j, 7⟩, .ok (.changed ch)) ::
        (.makeBranchAlt 7 0 [⟨j + 1, 7⟩], .ok (.alt ⟨j, 7⟩)) ::
        (.makeNode 7, .ok (.node ⟨j + 1, 7⟩)) :: log,
        ((w.set 7 i1).set 7 r2.1).set 7 i3,
        .alt ⟨j, 7⟩ :: .node ⟨j + 1, 7⟩ :: held) := by
    simp only [runOps, chainOps, List.foldl_cons, List.foldl_nil, e1, e2, e3, TreeOut.gives,
      List.nil_append, List.cons_append]
  have hok : opsAllowed (chainOps j) (log, w, held) = true := by
    simp only [opsAllowed, chainOps, Bool.and_eq_true, decide_eq_true_eq, runOps, List.foldl_cons,
      List.foldl_nil, e1, e2, TreeOut.gives, List.nil_append, List.cons_append]
    refine ⟨⟨_, htree, rfl⟩, ⟨⟨_, List.mem_cons_of_mem _ htree, rfl⟩, by simp⟩, ⟨?_, ?_⟩, trivial⟩
    · simp [hlast]
    · simp
  refine ⟨⟨runOps_history _ _ h.hist hok, ?_, ?_, ?_, ?_, ?_, ?_⟩, hok⟩
  · rw [hrun]; simp [htree]
  · rw [hrun]; simp
  · rw [hrun]; simp [l3, l2]
  · rw [hrun]; simp [al3, a2]
  · intro k c
    rw [hrun]
    simp only [World.set_self]
    have : i3.altAt k = r2.1.altAt k := by unfold Inner.altAt; rw [al3]
    rw [this, Inner.makeAlt_altAt hwf1]
    simp only [i1, Inner.makeNode_altAt, hat]
    have hc2 : ((w 7).makeNode.1.makeAlt (.branch 0 [j + 1])).2 = j := c2
    rw [hc2]
    constructor
    · rintro (⟨h1, h2⟩ | ⟨rfl, rfl⟩)
      · exact ⟨by omega, h2⟩
      · exact ⟨by omega, rfl⟩
    · rintro ⟨h1, rfl⟩
      by_cases hk : k = j
      · subst hk; exact Or.inr ⟨rfl, rfl⟩
      · exact Or.inl ⟨by omega, rfl⟩
  · intro n a
    rw [hrun]
    simp only [World.set_self]
    rw [has3 hwf2, Inner.makeAlt_has]
    simp only [i1, Inner.makeNode_has, hhas]
    omega

theorem chainInv (j : Nat) : ChainInv j (chainState j) := by
  induction j with
  | zero => exact chainInv_zero
  | succ j ih => exact (chainInv_succ ih).1

/-- The things of the chain, from the top. -/
def chainThing (p : Nat) : DotNode := if p % 2 = 0 then .node (p / 2) else .alt (p / 2)

theorem chainThing_inj {p q : Nat} (h : chainThing p = chainThing q) : p = q := by
  unfold chainThing at h
  split at h <;> split at h <;> simp at h <;> omega

theorem chain_arrow {j p : Nat} {x : DotNode} (h : ForestArrow (chainState j).2.1 7 (chainThing p) x) :
    x = chainThing (p + 1) := by
  unfold chainThing at h ⊢
  split at h
  · obtain ⟨a, rfl, hh⟩ := forestArrow_node.1 h
    have := ((chainInv j).has _ _).1 hh
    rw [if_neg (by omega)]
    congr 1
    omega
  · obtain ⟨act, ns, n, hc, hn, rfl⟩ := forestArrow_alt.1 h
    obtain ⟨h1, h2⟩ := ((chainInv j).altAt _ _).1 hc
    cases h2
    simp only [List.mem_singleton] at hn
    rw [if_pos (by omega)]
    congr 1
    omega

theorem chain_arrow' {j p : Nat} (h : p / 2 < j) :
    ForestArrow (chainState j).2.1 7 (chainThing p) (chainThing (p + 1)) := by
  unfold chainThing
  by_cases hp : p % 2 = 0
  · rw [if_pos hp, if_neg (by omega), forestArrow_node]
    exact ⟨_, rfl, ((chainInv j).has _ _).2 ⟨by omega, by omega⟩⟩
  · rw [if_neg hp, if_pos (by omega), forestArrow_alt]
    exact ⟨0, [p / 2 + 1], _, ((chainInv j).altAt _ _).2 ⟨h, rfl⟩, by simp; omega, rfl⟩

theorem chain_moments : Moments (fun k => (chainState (k + 1)).2.1) (fun k => (chainState (k + 1)).2.2) := by
  intro k
  exact runOps_later (chainOps (k + 1)) (chainState (k + 1)) .now (chainInv_succ (chainInv (k + 1))).2

theorem chain_loop (fuel k p : Nat) {curr seen : BSet DotNode} (hc : curr ≠ [])
    (hp : ∀ c ∈ curr, c = chainThing p) (hk : p ≤ k) (hs : BSet.Sorted DotNode.cmp seen)
    (hseen : ∀ x ∈ seen, ∃ q ≤ p, x = chainThing q) :
    dotLoopAmong fuel (fun k => (chainState (k + 1)).2.1) 7 curr seen k = .oof := by
  have hg := chain_moments.grows (chainInv 1).hist 7
  induction fuel generalizing k p curr seen with
  | zero =>
    cases curr with
    | nil => exact absurd rfl hc
    | cons c cs => rfl
  | succ fuel ih =>
    cases curr with
    | nil => exact absurd rfl hc
    | cons c cs =>
      have hex : ∀ d ∈ c :: cs, d.Exists ((chainState (k + 1)).2.1 7) := by
        intro d hd
        rw [hp d hd]
        unfold chainThing
        split
        · simp only [DotNode.Exists, (chainInv (k + 1)).len]; omega
        · simp only [DotNode.Exists, (chainInv (k + 1)).alts]; omega
      obtain ⟨⟨next, seen'⟩, h1, h2, h3, h4, h5⟩ := dotLevelAmong_ok hg (curr := c :: cs) (k := k)
        (bfsInv_start hs) hex
      have hin : chainThing (p + 1) ∈ seen' := by
        refine h5 c (by simp) _ ?_
        rw [hp c (by simp)]
        exact chain_arrow' (by omega)
      have hout : ∀ x ∈ seen', x ∈ seen ∨ x = chainThing (p + 1) := by
        intro x hx
        rcases h4 x hx with hx | ⟨d, hd, ha⟩
        · exact Or.inl hx
        · rw [hp d hd] at ha
          exact Or.inr (chain_arrow ha)
      have hnew : chainThing (p + 1) ∉ seen := by
        intro hx
        obtain ⟨q, hq, he⟩ := hseen _ hx
        have := chainThing_inj he
        omega
      have hne : chainThing (p + 1) ∈ next := (h2.newNext _ hin).resolve_left hnew
      simp only [dotLoopAmong, h1]
      refine ih (k + (c :: cs).length) (p + 1) (List.ne_nil_of_mem hne) ?_ (by simp; omega) h2.sorted ?_
      · intro x hx
        exact (hout x (h2.next x hx)).resolve_left (h2.fresh x hx)
      · intro x hx
        rcases hout x hx with hx | rfl
        · obtain ⟨q, hq, he⟩ := hseen x hx
          exact ⟨q, by omega, he⟩
        · exact ⟨p + 1, Nat.le_refl _, rfl⟩

/-- C131: while another thread goes on adding to the tree, `to_dot` may never return. -/
theorem to_dot_may_never_return : ∃ (log : TreeLog Nat Nat Nat) (ws : Nat → World Nat Nat Nat)
    (held : Nat → List Handle) (n : Node), History log (ws 0) (held 0) ∧ Moments ws held ∧
      .node n ∈ held 0 ∧
      ∀ fuel, toDotAmong (fun _ => "T") (fun _ => "K") (fun _ => "V") fuel ws n = .oof := by
  refine ⟨_, _, _, ⟨0, 7⟩, (chainInv 1).hist, chain_moments, by decide, fun fuel => ?_⟩
  have := chain_loop fuel 0 0 (curr := [.node 0]) (seen := []) (by simp) (by simp [chainThing])
    (Nat.le_refl _) List.Pairwise.nil (by simp)
  simp only [toDotAmong, collectAmong, this]

-- The hypotheses of the theorems are met by the histories above; the tree of `towerAt` stays small.
example (i : Nat) : History towerBefore.1 (towerAt (i + 1) 0).1 (towerAt (i + 1) 0).2 ∧
    Moments (fun k => (towerAt (i + 1) k).1) (fun k => (towerAt (i + 1) k).2) ∧
    .node ⟨1, 7⟩ ∈ (towerAt (i + 1) 0).2 ∧ ∀ k, ((towerAt (i + 1) k).1).size 7 ≤ 5 := by
  refine ⟨towerBefore_history, tower_moments _, ?_, ?_⟩
  · show _ ∈ towerBefore.2.2
    decide
  · intro k
    unfold towerAt
    split <;> decide
end Bongo
