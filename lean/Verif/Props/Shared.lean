import Verif.Proof.SharedRun
import Verif.Props.EarleyExamples
import Verif.Props.EarleyHistory
/-!
# C88–C90: parsing in a tree that other threads use

The parser is the sequence of calls it makes (`Verif.Model.EarleyProg`); between two of them the
other threads make any calls they like with the handles they have.  A point where the parser has
panicked, or where its thread is never scheduled again, is a point of a schedule like any other.
-/
set_option linter.unusedSectionVars false
namespace Bongo
open Std
variable {T NT AK AV V : Type}
variable [Ord T] [Ord NT] [Ord AK] [Ord V] [DecidableEq T] [DecidableEq NT]
variable [TransOrd T] [TransOrd AK] [TransOrd V] [LawfulEqOrd T] [LawfulEqOrd AK] [LawfulEqOrd V]
variable {addr : StartNonTerminal NT → Nat → Nat} {g : StartGrammar T NT AK AV}

/-- The calls of the parser, made with nobody else around, are `parse`. -/
theorem parseProg_run (fuel : Nat) (w : World T AK V) (t : Nat) (toks : List (Token T V)) :
    match parse addr g fuel w t toks with
    | .ok (w', r) => (parseProg addr g t fuel toks).run w = (w', .ok r)
    | .panic p => ((parseProg addr g t fuel toks).run w).2 = .panic p
    | .oof => ((parseProg addr g t fuel toks).run w).2 = .oof := by
  have h := agree_parse (w := w) (t := t) (addr := addr) (g := g) fuel toks (w t)
  have hw : w.set t (w t) = w := by
    funext t'
    simp only [World.set]
    split
    · next e => rw [e]
    · rfl
  unfold parse
  unfold Agree at h
  rw [hw] at h
  cases hp : parseInner addr g fuel (w t) toks with
  | ok x => rw [hp] at h; exact h
  | panic p => rw [hp] at h; exact h
  | oof => rw [hp] at h; exact h

/-! ## C88 -/

/-- C88: at any point of any schedule, the call has returned, panicked (or the model ran out of fuel)
only as it does alone.  What it returned shows the same trees then as what it returns alone, and as
long as it has not ended, the next of its calls succeeds. -/
theorem parse_among_others {log : TreeLog T AK V} {w : World T AK V} {held : List Handle}
    (hist : History log w held) {t fuel : Nat} (ht : ∃ h ∈ held, h.owner = t) {toks : List (Token T V)}
    {n : Nat} {c : Running T AK V (Option Node)}
    (hr : SharedRuns ⟨parseProg addr g t fuel toks, w, held⟩ n c) :
    (∀ r, c.prog = .ret r → ∃ w₁ r₁, parse addr g fuel w t toks = .ok (w₁, r₁) ∧
      ((r = none ∧ r₁ = none) ∨ ∃ m m₁, r = some m ∧ r₁ = some m₁ ∧ m.tree = t ∧
        ∀ s, Reads c.world s m ↔ Reads w₁ s m₁)) ∧
    (∀ p, c.prog = .panic p → parse addr g fuel w t toks = .panic p) ∧
    (c.prog = .oof → parse addr g fuel w t toks = .oof) ∧
    (∀ op k, c.prog = .call op k → ∃ w' o, op.exec c.world = (w', .ok o)) := by
  obtain ⟨o, ps, ws, full, log', h1, h2, h3, h4⟩ :=
    runs_mate hist ht (rel_parse (addr := addr) (g := g) fuel toks _) hr
  have hrun := parseProg_run (addr := addr) (g := g) fuel w t toks
  rw [← h2] at hrun
  refine ⟨?_, ?_, ?_, ?_⟩
  · intro r hc
    rw [hc] at h1
    cases h1 with
    | @ret _ r₁ _ hrel =>
      simp only [TreeProg.run] at hrun
      cases hp : parse addr g fuel w t toks with
      | panic p => rw [hp] at hrun; cases hrun
      | oof => rw [hp] at hrun; cases hrun
      | ok x =>
        obtain ⟨w₁, r₂⟩ := x
        rw [hp] at hrun
        simp only [_root_.Prod.mk.injEq, Res.ok.injEq] at hrun
        obtain ⟨rfl, rfl⟩ := hrun
        refine ⟨ws, r₁, rfl, ?_⟩
        cases r₁ <;> cases r
        · exact Or.inl ⟨rfl, rfl⟩
        · exact hrel.elim
        · exact hrel.elim
        · next n m =>
          obtain ⟨e1, e2, e3⟩ := hrel
          refine Or.inr ⟨m, n, rfl, rfl, e2, fun s => ?_⟩
          obtain ⟨ni, nt⟩ := n
          obtain ⟨mi, mt⟩ := m
          simp only at e1 e2 e3
          subst e1
          subst e2
          exact (h4.sim.reads s ni mi e3).symm
  · intro p hc
    rw [hc] at h1
    cases h1 with
    | panic =>
      simp only [TreeProg.run] at hrun
      cases hp : parse addr g fuel w t toks with
      | panic p => rw [hp] at hrun; cases hrun; rfl
      | oof => rw [hp] at hrun; cases hrun
      | ok x => rw [hp] at hrun; cases hrun
  · intro hc
    rw [hc] at h1
    cases h1 with
    | oof =>
      simp only [TreeProg.run] at hrun
      cases hp : parse addr g fuel w t toks with
      | panic p => rw [hp] at hrun; cases hrun
      | oof => rfl
      | ok x => rw [hp] at hrun; cases hrun
  · intro op k hc
    rw [hc] at h1
    obtain ⟨o', ps', ws', w', out, g1, -⟩ := h4.own h1
    exact ⟨w', out, g1⟩

/-- C88: with the grammar accepted by the builder, what a parse among other threads returns is a node
exactly for the inputs of the language. -/
theorem parse_among_others_language [TransOrd NT] [LawfulEqOrd NT] {g : Grammar T NT AK AV} (hg : g.Accepted)
    (ha : AddrInj g.wrapped addr) {log : TreeLog T AK V} {w : World T AK V} {held : List Handle}
    (hist : History log w held) {t fuel : Nat} (ht : ∃ h ∈ held, h.owner = t) {toks : List (Token T V)}
    {n : Nat} {c : Running T AK V (Option Node)}
    (hr : SharedRuns ⟨parseProg addr g.wrapped t fuel toks, w, held⟩ n c) {r : Option Node} (hc : c.prog = .ret r) :
    r.isSome ↔ g.cfg.InLanguage (kinds toks) := by
  obtain ⟨w₁, r₁, h1, ⟨rfl, rfl⟩ | ⟨m, m₁, rfl, rfl, -⟩⟩ := (parse_among_others hist ht hr).1 r hc
  · simp [parse_none_not_in_language hg ha hist h1]
  · simp [parse_some_in_language hg ha hist h1]

/-! ## C89 -/

/-- The call makes a new object. -/
def TreeOp.Makes : TreeOp T AK V → Prop
  | .makeNode _ => True
  | .makeLeafAlt _ _ _ => True
  | .makeBranchAlt _ _ _ => True
  | _ => False

/-- C89: what a step of the parser leaves is the memory of a history of tree operations in which the
handles of the other threads were obtained: everything proved of such memories holds of it, at every
point of every schedule, also after the parser has panicked or stopped. -/
theorem parse_leaves_history {log : TreeLog T AK V} {w : World T AK V} {held : List Handle}
    (hist : History log w held) {t fuel : Nat} (ht : ∃ h ∈ held, h.owner = t) {toks : List (Token T V)}
    {n : Nat} {c : Running T AK V (Option Node)}
    (hr : SharedRuns ⟨parseProg addr g t fuel toks, w, held⟩ n c) :
    ∃ log' full, History log' c.world full ∧ ∀ x ∈ c.others, x ∈ full := by
  obtain ⟨o, ps, ws, full, log', h1, h2, h3, h4⟩ :=
    runs_mate hist ht (rel_parse (addr := addr) (g := g) fuel toks _) hr
  exact ⟨log', full, h4.hist, h4.sub⟩

theorem nodes_eq_of_has {i j : Inner T AK V} (hi : i.WF) (hj : j.WF) {m : Nat} (h1 : m < i.nodes.length)
    (h2 : m < j.nodes.length) (h : ∀ b, i.Has m b ↔ j.Has m b) : j.nodes[m]? = i.nodes[m]? := by
  have e1 : i.nodes[m]? = some i.nodes[m] := List.getElem?_eq_getElem h1
  have e2 : j.nodes[m]? = some j.nodes[m] := List.getElem?_eq_getElem h2
  rw [e1, e2]
  congr 1
  refine BSet.ext (hj.nodeSorted _ (List.getElem_mem h2)) (hi.nodeSorted _ (List.getElem_mem h1)) fun b => ?_
  have := h b
  unfold Inner.Has at this
  rw [e1, e2] at this
  simp only [Option.some.injEq, exists_eq_left'] at this
  exact this.symm

/-- Calls on handles whose objects are the same give the same result. -/
theorem exec_same {w w' : World T AK V} {held : List Handle} (hwf : ∀ t, (w t).WF) (hwf' : ∀ t, (w' t).WF)
    (ok : ∀ x ∈ held, HandleOk w x) (hle : w.Le w')
    (hn : ∀ n : Node, .node n ∈ held → (w' n.tree).nodes[n.index]? = (w n.tree).nodes[n.index]?)
    {op : TreeOp T AK V} (hop : op.Allowed held) (hm : ¬ op.Makes) : (op.exec w').2 = (op.exec w).2 := by
  have ha : ∀ {t b : Nat} {c : NodeContent T AK V}, (w t).altAt b = some c →
      (w' t).getAlt b = .ok c ∧ (w t).getAlt b = .ok c :=
    fun {t b c} h => ⟨getAlt_of_altAt ((hle t).alts _ _ h), getAlt_of_altAt h⟩
  have hlt : ∀ {t b : Nat}, b < (w t).alternatives.idToValue.length →
      (w' t).getAlt b = (w t).getAlt b := by
    intro t b h
    obtain ⟨h1, h2⟩ := ha (List.getElem?_eq_getElem h : (w t).altAt b = _)
    rw [h1, h2]
  have hhas : ∀ n : Node, .node n ∈ held → ∀ b, (w' n.tree).Has n.index b ↔ (w n.tree).Has n.index b := by
    intro n hn' b
    unfold Inner.Has
    rw [hn n hn']
  cases op with
  | makeNode t => exact absurd trivial hm
  | makeLeafAlt t k v => exact absurd trivial hm
  | makeBranchAlt t a ns => exact absurd trivial hm
  | addAlt n a =>
    simp only [TreeOp.exec, World.addAlt]
    by_cases hs : World.isSame n.tree a.tree = true
    · rw [if_pos hs, if_pos hs]
      unfold Inner.addNodeAlt Inner.getNode
      rw [hn n hop.1]
      cases (w n.tree).nodes[n.index]? with
      | none => rfl
      | some s => rfl
    · rw [if_neg hs, if_neg hs]
  | addAll n m =>
    obtain ⟨h1, h2⟩ := hop
    simp only [TreeOp.exec, World.addAll]
    by_cases hs : World.isSame n.tree m.tree = true
    · rw [if_pos hs, if_pos hs]
      have ht : n.tree = m.tree := by simpa [World.isSame] using hs
      have b1 : n.index < (w n.tree).nodes.length := ok _ h1
      have b2 : m.index < (w n.tree).nodes.length := by rw [ht]; exact ok _ h2
      obtain ⟨j, c, q1, -, -, -, q5, -⟩ := Inner.addAll_ok (hwf n.tree) b1 b2
      obtain ⟨j', c', r1, -, -, -, r5, -⟩ := Inner.addAll_ok (hwf' n.tree)
        (Nat.lt_of_lt_of_le b1 (hle n.tree).nodesLen) (Nat.lt_of_lt_of_le b2 (hle n.tree).nodesLen)
      rw [q1, r1]
      simp only [World.update, Res.mapOut]
      have h2' : ∀ b, (w' n.tree).Has m.index b ↔ (w n.tree).Has m.index b := by
        rw [ht]; exact hhas m h2
      have : c' = .changed ↔ c = .changed := by
        rw [q5, r5]
        refine exists_congr fun a => ?_
        rw [h2' a, hhas n h1 a]
      cases c <;> cases c' <;> simp_all
    · rw [if_neg hs, if_neg hs]
  | alts n =>
    simp only [TreeOp.exec, World.alts, Inner.getNode]
    rw [hn n hop]
  | content a =>
    simp only [TreeOp.exec, World.content]
    rw [hlt (ok _ hop)]
  | kind l =>
    obtain ⟨k, v, h⟩ := ok _ hop
    simp only [TreeOp.exec, World.kind, World.withLeaf]
    rw [(ha h).1, (ha h).2]
  | value l =>
    obtain ⟨k, v, h⟩ := ok _ hop
    simp only [TreeOp.exec, World.value, World.withLeaf]
    rw [(ha h).1, (ha h).2]
  | action l =>
    obtain ⟨k, v, h⟩ := ok _ hop
    simp only [TreeOp.exec, World.action, World.withBranch]
    rw [(ha h).1, (ha h).2]
  | nodes l =>
    obtain ⟨k, v, h⟩ := ok _ hop
    simp only [TreeOp.exec, World.branchNodes, World.withBranch]
    rw [(ha h).1, (ha h).2]

/-- C89: no call the other threads can make on what they have returns anything else after a step of
the parser than before it. -/
theorem parse_unobservable {log : TreeLog T AK V} {w : World T AK V} {held : List Handle}
    (hist : History log w held) {t fuel : Nat} (ht : ∃ h ∈ held, h.owner = t) {toks : List (Token T V)}
    {n : Nat} {c d : Running T AK V (Option Node)}
    (hr : SharedRuns ⟨parseProg addr g t fuel toks, w, held⟩ n c) (hs : OwnStep c d) {op : TreeOp T AK V}
    (hop : op.Allowed c.others) (hm : ¬ op.Makes) : (op.exec d.world).2 = (op.exec c.world).2 := by
  obtain ⟨o, ps, ws, full, log', h1, h2, h3, h4⟩ :=
    runs_mate hist ht (rel_parse (addr := addr) (g := g) fuel toks _) hr
  have inv := h4.hist.inv
  cases hs with
  | panic hx =>
    obtain ⟨o', ps', ws', w', out, g1, -⟩ := h4.own h1
    rw [hx] at g1
    cases g1
  | call hx =>
    obtain ⟨o', ps', ws', w', out, g1, -, -, -, g5, g6, g7, g8, -⟩ := h4.own h1
    rw [hx] at g1
    cases g1
    have inv' := g5.hist.inv
    simp only at *
    refine exec_same inv.wf inv'.wf (fun x hx => inv.handles x (h4.sub x hx)) ?_ ?_ hop hm
    · intro t'
      by_cases e : t' = t
      · subst e; exact g7
      · rw [g6 t' e]; exact Inner.Le.refl _
    · intro m hmem
      obtain ⟨mi, mt⟩ := m
      by_cases e : mt = t
      · subst e
        have hb : mi < _ := inv.handles _ (h4.sub _ hmem)
        refine nodes_eq_of_has (inv.wf mt) (inv'.wf mt) hb (Nat.lt_of_lt_of_le hb g7.nodesLen) fun b => ?_
        exact ⟨g7.has _ _, g8 mi b (h4.env.node mi hmem)⟩
      · rw [g6 mt e]

/-! ## C90 -/

/-- C90: whatever the other threads do, the call makes no more tree operations than it makes alone, and
exactly as many by the time it ends. -/
theorem parse_work_among_others {log : TreeLog T AK V} {w : World T AK V} {held : List Handle}
    (hist : History log w held) {t fuel : Nat} (ht : ∃ h ∈ held, h.owner = t) {toks : List (Token T V)}
    {n : Nat} {c : Running T AK V (Option Node)}
    (hr : SharedRuns ⟨parseProg addr g t fuel toks, w, held⟩ n c) :
    n ≤ (parseProg addr g t fuel toks).calls w ∧
      ((∃ op k, c.prog = .call op k) ∨ n = (parseProg addr g t fuel toks).calls w) := by
  obtain ⟨o, ps, ws, full, log', h1, h2, h3, h4⟩ :=
    runs_mate hist ht (rel_parse (addr := addr) (g := g) fuel toks _) hr
  refine ⟨by omega, ?_⟩
  cases hp : c.prog with
  | call op k => exact Or.inl ⟨op, k, rfl⟩
  | ret r =>
    rw [hp] at h1
    cases h1
    exact Or.inr (by simpa [TreeProg.calls] using h3)
  | panic r =>
    rw [hp] at h1
    cases h1
    exact Or.inr (by simpa [TreeProg.calls] using h3)
  | oof =>
    rw [hp] at h1
    cases h1
    exact Or.inr (by simpa [TreeProg.calls] using h3)

/-! ## An example: a schedule -/

/-- Follow a schedule: `none` is a step of the parser, `some op` a call of another thread. -/
def play (l : List (Option (TreeOp Nat Nat Nat))) (n : Nat) (c : Running Nat Nat Nat (Option Node)) :
    Option (Nat × Running Nat Nat Nat (Option Node)) :=
  match l with
  | [] => some (n, c)
  | none :: l =>
    match c.prog with
    | .call op k =>
      match op.exec c.world with
      | (w', .ok o) => play l (n + 1) ⟨k o, w', c.others⟩
      | _ => none
    | _ => none
  | some op :: l =>
    if op.Allowed c.others then play l n ⟨c.prog, (op.exec c.world).1, TreeOut.gives (op.exec c.world).2 ++ c.others⟩
    else none

theorem play_runs {c₀ : Running Nat Nat Nat (Option Node)} :
    ∀ (l : List (Option (TreeOp Nat Nat Nat))) (n m : Nat) (c d : Running Nat Nat Nat (Option Node)),
    SharedRuns c₀ n c → play l n c = some (m, d) → SharedRuns c₀ m d := by
  intro l
  induction l with
  | nil => intro n m c d h hp; cases hp; exact h
  | cons x l ih =>
    intro n m c d h hp
    cases x with
    | none =>
      obtain ⟨prog, w, others⟩ := c
      cases prog with
      | call op k =>
        simp only [play] at hp
        cases hx : op.exec w with
        | mk w' r =>
          rw [hx] at hp
          cases r with
          | ok o => exact ih _ _ _ _ (.own h (.call hx)) hp
          | panic p => cases hp
          | oof => cases hp
      | ret r => cases hp
      | panic p => cases hp
      | oof => cases hp
    | some op =>
      simp only [play] at hp
      by_cases ha : op.Allowed c.others
      · rw [if_pos ha] at hp
        exact ih _ _ _ _ (.other h (.call op ha)) hp
      · rw [if_neg ha] at hp
        cases hp

/-- The parser is interrupted: another thread makes a node and an alternative in the same tree, adds
one to the other and later looks at it. -/
def exampleSchedule : List (Option (TreeOp Nat Nat Nat)) :=
  [none, some (.makeNode 7), none, some (.makeLeafAlt 7 9 9), some (.addAlt ⟨1, 7⟩ ⟨1, 7⟩)] ++
    List.replicate 28 none ++ [some (.alts ⟨1, 7⟩)] ++ List.replicate 17 none

/-- The call is about to start; the other thread has the handle of the tree, too. -/
def exampleStart : Running Nat Nat Nat (Option Node) :=
  ⟨parseProg exampleSAddr rightExample.wrapped 7 9 (exampleToks [1, 1, 2]), World.new, [.tree 7]⟩

-- The schedule can be followed to the end, where the parser returns a node that is not the one it
-- returns alone (its number differs), in the number of steps it needs alone.
example : ∃ c m, SharedRuns exampleStart 47 c ∧ c.prog = .ret (some m) ∧ m.index = 7 ∧
    (parseProg exampleSAddr rightExample.wrapped 7 9 (exampleToks [1, 1, 2])).calls
      (World.new : World Nat Nat Nat) = 47 ∧
    (∃ w₁, parse exampleSAddr rightExample.wrapped 9 (World.new : World Nat Nat Nat) 7
      (exampleToks [1, 1, 2]) = .ok (w₁, some ⟨6, 7⟩)) ∧
    History [] (World.new : World Nat Nat Nat) [.tree 7] := by
  obtain ⟨n, c, hp, hn, hc⟩ : ∃ n c, play exampleSchedule 0 exampleStart = some (n, c) ∧ n = 47 ∧
      c.prog = .ret (some ⟨7, 7⟩) := ⟨_, _, rfl, rfl, rfl⟩
  subst hn
  exact ⟨c, ⟨7, 7⟩, play_runs _ _ _ _ _ .start hp, hc, rfl, by decide, ⟨_, rfl⟩,
    .newOwner 7 .start (by simp)⟩

-- A point in the middle, where the parser is about to make a call and the other thread has handles.
example : ∃ c d op k, SharedRuns exampleStart 2 c ∧ OwnStep c d ∧ c.prog = .call op k ∧
    (TreeOp.alts ⟨1, 7⟩ : TreeOp Nat Nat Nat).Allowed c.others ∧
    ¬ (TreeOp.alts ⟨1, 7⟩ : TreeOp Nat Nat Nat).Makes := by
  obtain ⟨n, c, op, k, hp, hn, hc, hd, ho⟩ : ∃ n c op k,
      play (exampleSchedule.take 5) 0 exampleStart = some (n, c) ∧ n = 2 ∧ c.prog = .call op k ∧
      (∃ w' o, op.exec c.world = (w', .ok o)) ∧ .node ⟨1, 7⟩ ∈ c.others :=
    ⟨_, _, _, _, rfl, rfl, rfl, ⟨_, _, rfl⟩, by decide⟩
  subst hn
  obtain ⟨w', o, h1⟩ := hd
  obtain ⟨prog, w, others⟩ := c
  simp only at hc
  subst hc
  exact ⟨_, ⟨k o, w', others⟩, op, k, play_runs _ _ _ _ _ .start hp, .call h1, rfl, ho, fun h => h⟩
end Bongo
