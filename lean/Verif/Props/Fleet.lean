import Verif.Proof.Fleet
import Verif.Props.EarleyExamples
/-!
# C99: any number of parses share trees with each other and with users
-/
set_option linter.unusedSectionVars false
namespace Bongo
open Std
variable {T NT AK AV V : Type}
variable [Ord T] [Ord NT] [Ord AK] [Ord V] [DecidableEq T] [DecidableEq NT]
variable [TransOrd T] [TransOrd AK] [TransOrd V] [LawfulEqOrd T] [LawfulEqOrd AK] [LawfulEqOrd V]

/-- C99: at any point of any schedule, each parse has returned, panicked (or, in the model, run out of
fuel) only as it does alone in the memory it began with; what it returned shows the same trees as what
it returns alone; as long as it has not ended its next call succeeds; and it has made no more calls
than it makes alone, exactly as many when it ends. -/
theorem fleet_parse {c : Fleet T NT AK AV V} (hc : FleetReach c) {i : Nat}
    {x : ParseThread T NT AK AV V} (hi : c.parses i = some x) :
    (∀ r, x.prog = .ret r → ∃ w₁ r₁, x.job.alone x.began = .ok (w₁, r₁) ∧
      ((r = none ∧ r₁ = none) ∨ ∃ m m₁, r = some m ∧ r₁ = some m₁ ∧ m.tree = x.job.tree ∧
        ∀ s, Reads c.world s m ↔ Reads w₁ s m₁)) ∧
    (∀ p, x.prog = .panic p → x.job.alone x.began = .panic p) ∧
    (x.prog = .oof → x.job.alone x.began = .oof) ∧
    (∀ op k, x.prog = .call op k → ∃ w' o, op.exec c.world = (w', .ok o)) ∧
    x.steps ≤ x.job.prog.calls x.began ∧
    ((∃ op k, x.prog = .call op k) ∨ x.steps = x.job.prog.calls x.began) := by
  obtain ⟨full, log, own, inv⟩ := hc.inv
  obtain ⟨ps, ws, others, hp⟩ := inv.parses i x hi
  obtain ⟨job, began, steps, prog⟩ := x
  obtain ⟨addr, g, t, fuel, toks⟩ := job
  have h1 := hp.rel
  have h2 := hp.run
  have h3 := hp.calls
  have h4 := hp.mate
  have hrun := parseProg_run (addr := addr) (g := g) fuel began t toks
  simp only [ParseJob.prog] at h1 h2 h3 h4
  simp only [ParseJob.alone, ParseJob.prog]
  rw [← h2] at hrun
  refine ⟨?_, ?_, ?_, ?_, by omega, ?_⟩
  · intro r hc
    rw [hc] at h1
    cases h1 with
    | @ret _ r₁ _ hrel =>
      simp only [TreeProg.run] at hrun
      cases hpp : parse addr g fuel began t toks with
      | panic p => rw [hpp] at hrun; cases hrun
      | oof => rw [hpp] at hrun; cases hrun
      | ok x =>
        obtain ⟨w₁, r₂⟩ := x
        rw [hpp] at hrun
        simp only [_root_.Prod.mk.injEq, Res.ok.injEq] at hrun
        obtain ⟨rfl, rfl⟩ := hrun
        refine ⟨ws, r₁, rfl, ?_⟩
        cases r₁ <;> cases r
        · exact Or.inl ⟨rfl, rfl⟩
        · exact hrel.elim
        · exact hrel.elim
        · next n m =>
          obtain ⟨e1, e2, e3⟩ := hrel
          refine Or.inr ⟨m, n, rfl, rfl, e2, fun s => ?_⟩
          obtain ⟨ni, nt⟩ := n
          obtain ⟨mi, mt⟩ := m
          simp only at e1 e2 e3
          subst e1
          subst e2
          exact (h4.sim.reads s ni mi e3).symm
  · intro p hc
    rw [hc] at h1
    cases h1 with
    | panic =>
      simp only [TreeProg.run] at hrun
      cases hpp : parse addr g fuel began t toks with
      | panic p => rw [hpp] at hrun; cases hrun; rfl
      | oof => rw [hpp] at hrun; cases hrun
      | ok x => rw [hpp] at hrun; cases hrun
  · intro hc
    rw [hc] at h1
    cases h1 with
    | oof =>
      simp only [TreeProg.run] at hrun
      cases hpp : parse addr g fuel began t toks with
      | panic p => rw [hpp] at hrun; cases hrun
      | oof => rfl
      | ok x => rw [hpp] at hrun; cases hrun
  · intro op k hc
    rw [hc] at h1
    obtain ⟨o', ps', ws', w', out, g1, -⟩ := h4.own h1
    exact ⟨w', out, g1⟩
  · cases hpr : prog with
    | call op k => exact Or.inl ⟨op, k, rfl⟩
    | ret r => rw [hpr] at h1; cases h1; exact Or.inr (by simpa [TreeProg.calls] using h3)
    | panic r => rw [hpr] at h1; cases h1; exact Or.inr (by simpa [TreeProg.calls] using h3)
    | oof => rw [hpr] at h1; cases h1; exact Or.inr (by simpa [TreeProg.calls] using h3)

/-- C99: so each parse answers with a node exactly for the inputs of the language of its grammar. -/
theorem fleet_language [TransOrd NT] [LawfulEqOrd NT] {c : Fleet T NT AK AV V} (hc : FleetReach c) {i : Nat}
    {x : ParseThread T NT AK AV V} (hi : c.parses i = some x) {g : Grammar T NT AK AV} (hg : g.Accepted)
    (hx : x.job.grammar = g.wrapped) (ha : AddrInj g.wrapped x.job.addr) {r : Option Node}
    (hr : x.prog = .ret r) : r.isSome ↔ g.cfg.InLanguage (kinds x.job.toks) := by
  obtain ⟨full, log, own, inv⟩ := hc.inv
  obtain ⟨ps, ws, others, hp⟩ := inv.parses i x hi
  obtain ⟨log₀, held₀, hist, -⟩ := hp.began
  obtain ⟨w₁, r₁, h1, h2⟩ := (fleet_parse hc hi).1 r hr
  unfold ParseJob.alone at h1
  rw [hx] at h1
  obtain ⟨rfl, rfl⟩ | ⟨m, m₁, rfl, rfl, -⟩ := h2
  · simp [parse_none_not_in_language hg ha hist h1]
  · simp [parse_some_in_language hg ha hist h1]

/-- C99: the memory is always that of a history of calls in which the users' handles were obtained:
everything proved of histories holds for them (no call of theirs on handles of one tree panics, nodes
have exactly the alternatives added, and so on). -/
theorem fleet_history {c : Fleet T NT AK AV V} (hc : FleetReach c) :
    ∃ log full, History log c.world full ∧ ∀ h ∈ c.users, h ∈ full := by
  obtain ⟨full, log, own, inv⟩ := hc.inv
  exact ⟨log, full, inv.hist, inv.users⟩

/-- C99: no call the users can make on what they have returns anything else after a step of a parse than
before it. -/
theorem fleet_unobservable {c : Fleet T NT AK AV V} (hc : FleetReach c) {i : Nat}
    {x : ParseThread T NT AK AV V} (hi : c.parses i = some x) {op : TreeOp T AK V}
    {k : TreeOut T AK V → TreeProg T AK V (Option Node)} (hx : x.prog = .call op k) {w' : World T AK V}
    {o : TreeOut T AK V} (he : op.exec c.world = (w', .ok o)) {call : TreeOp T AK V}
    (hop : call.Allowed c.users) (hm : ¬ call.Makes) : (call.exec w').2 = (call.exec c.world).2 := by
  obtain ⟨full, log, own, fi⟩ := hc.inv
  obtain ⟨ps, ws, others, hp⟩ := fi.parses i x hi
  have h1 := hp.rel
  rw [hx] at h1
  obtain ⟨o', ps', ws', w'', out, g1, -, -, -, g5, g6, g7, g8, -⟩ := hp.mate.own h1
  rw [he] at g1
  cases g1
  have inv := fi.hist.inv
  have inv' := g5.hist.inv
  refine exec_same inv.wf inv'.wf (fun x hx => inv.handles x (fi.users x hx)) ?_ ?_ hop hm
  · intro t'
    by_cases e : t' = x.job.tree
    · subst e; exact g7
    · rw [g6 t' e]; exact Inner.Le.refl _
  · intro m hmem
    obtain ⟨mi, mt⟩ := m
    by_cases e : mt = x.job.tree
    · subst e
      have hb : mi < _ := inv.handles _ (fi.users _ hmem)
      refine nodes_eq_of_has (inv.wf _) (inv'.wf _) hb (Nat.lt_of_lt_of_le hb g7.nodesLen) fun b => ?_
      exact ⟨g7.has _ _, g8 mi b (hp.mate.env.node mi (hp.users _ hmem))⟩
    · rw [g6 mt e]

/-! ## An example: a schedule of two parses and a user -/

/-- A move of the scheduler. -/
inductive FleetMove where
  | start (i : Nat) (toks : List Nat)
  | parse (i : Nat)
  | finish (i : Nat)
  | user (op : TreeOp Nat Nat Nat)

/-- Make the moves, with the example grammar in tree 7. -/
def fleetPlay : List FleetMove → Fleet Nat Nat Nat Unit Nat → Option (Fleet Nat Nat Nat Unit Nat)
  | [], c => some c
  | .start i toks :: l, c =>
    match c.parses i with
    | some _ => none
    | none => if .tree 7 ∈ c.users then
        let job := ⟨exampleSAddr, rightExample.wrapped, 7, 9, exampleToks toks⟩
        fleetPlay l ⟨c.world, c.users, c.put i (some ⟨job, c.world, 0, job.prog⟩)⟩
      else none
  | .parse i :: l, c =>
    match c.parses i with
    | some x => match x.prog with
      | .call op k => match op.exec c.world with
        | (w', .ok o) => fleetPlay l ⟨w', c.users, c.put i (some ⟨x.job, x.began, x.steps + 1, k o⟩)⟩
        | _ => none
      | _ => none
    | none => none
  | .finish i :: l, c =>
    match c.parses i with
    | some x => match x.prog with
      | .ret r => fleetPlay l ⟨c.world, (r.map Handle.node).toList ++ c.users, c.put i none⟩
      | _ => none
    | none => none
  | .user op :: l, c =>
    if op.Allowed c.users then
      fleetPlay l ⟨(op.exec c.world).1, TreeOut.gives (op.exec c.world).2 ++ c.users, c.parses⟩
    else none

theorem fleetPlay_reach : ∀ (l : List FleetMove) (c d : Fleet Nat Nat Nat Unit Nat),
    FleetReach c → fleetPlay l c = some d → FleetReach d := by
  intro l
  induction l with
  | nil => intro c d h hp; cases hp; exact h
  | cons m l ih =>
    intro c d h hp
    cases m with
    | start i toks =>
      simp only [fleetPlay] at hp
      cases hi : c.parses i with
      | some x => rw [hi] at hp; cases hp
      | none =>
        rw [hi] at hp
        simp only at hp
        split at hp
        · next ht => exact ih _ _ (.step h (.start i _ hi ⟨_, ht, rfl⟩)) hp
        · cases hp
    | parse i =>
      simp only [fleetPlay] at hp
      cases hi : c.parses i with
      | none => rw [hi] at hp; cases hp
      | some x =>
        rw [hi] at hp
        simp only at hp
        cases hx : x.prog with
        | call op k =>
          rw [hx] at hp
          simp only at hp
          cases he : op.exec c.world with
          | mk w' r =>
            rw [he] at hp
            cases r with
            | ok o => exact ih _ _ (.step h (.call hi hx he)) hp
            | panic p => cases hp
            | oof => cases hp
        | ret r => rw [hx] at hp; cases hp
        | panic r => rw [hx] at hp; cases hp
        | oof => rw [hx] at hp; cases hp
    | finish i =>
      simp only [fleetPlay] at hp
      cases hi : c.parses i with
      | none => rw [hi] at hp; cases hp
      | some x =>
        rw [hi] at hp
        simp only at hp
        cases hx : x.prog with
        | ret r => rw [hx] at hp; exact ih _ _ (.step h (.finish hi hx)) hp
        | call op k => rw [hx] at hp; cases hp
        | panic r => rw [hx] at hp; cases hp
        | oof => rw [hx] at hp; cases hp
    | user op =>
      simp only [fleetPlay] at hp
      split at hp
      · next ha => exact ih _ _ (.step h (.user op ha)) hp
      · cases hp

/-- Two parses of different inputs take turns in tree 7; a user makes a node meanwhile. -/
def fleetSchedule : List FleetMove :=
  [.start 0 [1, 1, 2], .parse 0, .start 1 [2], .parse 1, .user (.makeNode 7)] ++
    (List.replicate 9 [.parse 0, .parse 1]).flatten

/-- The second parse ends, its node is given to the user, who looks at it and adds to it what the first
parse is going to make, too; then the first goes on to its end. -/
def fleetSchedule' : List FleetMove :=
  [.finish 1, .user (.alts ⟨4, 7⟩), .user (.makeLeafAlt 7 2 102), .user (.addAlt ⟨4, 7⟩ ⟨4, 7⟩)] ++
    List.replicate 37 (.parse 0)

/-- A tree, and no parse yet. -/
def fleetEmpty : Fleet Nat Nat Nat Unit Nat := ⟨World.new, [.tree 7], fun _ => none⟩

theorem fleetEmpty_reach : FleetReach fleetEmpty := .step .start (.newOwner 7 (by simp))

-- A reachable state in which one parse has returned and another is about to make a call, while a user
-- has handles.
example : ∃ (c : Fleet Nat Nat Nat Unit Nat) (x y : _) (op : _) (k : _), FleetReach c ∧ c.parses 0 = some x ∧ c.parses 1 = some y ∧
    x.prog = .call op k ∧ y.prog = .ret (some ⟨4, 7⟩) ∧ y.steps = 10 ∧
    (TreeOp.alts ⟨2, 7⟩ : TreeOp Nat Nat Nat).Allowed c.users ∧
    ¬ (TreeOp.alts ⟨2, 7⟩ : TreeOp Nat Nat Nat).Makes := by
  obtain ⟨c, x, y, op, k, hp, h0, h1, h2, h3, h4, h5⟩ : ∃ c x y op k,
      fleetPlay fleetSchedule fleetEmpty = some c ∧ c.parses 0 = some x ∧ c.parses 1 = some y ∧
      x.prog = .call op k ∧ y.prog = .ret (some ⟨4, 7⟩) ∧ y.steps = 10 ∧ .node ⟨2, 7⟩ ∈ c.users :=
    ⟨_, _, _, _, _, rfl, rfl, rfl, rfl, rfl, rfl, by decide⟩
  exact ⟨c, x, y, op, k, fleetPlay_reach _ _ _ fleetEmpty_reach hp, h0, h1, h2, h3, h4, h5, fun h => h⟩

-- The end of the whole schedule, where the first parse has returned, too; its grammar is one that the
-- builder accepts.
example : ∃ (c : Fleet Nat Nat Nat Unit Nat) (x : _), FleetReach c ∧ c.parses 0 = some x ∧ x.prog = .ret (some ⟨10, 7⟩) ∧ x.steps = 47 ∧
    x.job.grammar = rightExample.wrapped ∧ rightExample.Accepted ∧
    AddrInj rightExample.wrapped x.job.addr := by
  obtain ⟨c, x, hp, h0, h1, h2, h3, h4⟩ : ∃ c x,
      fleetPlay (fleetSchedule ++ fleetSchedule') fleetEmpty = some c ∧ c.parses 0 = some x ∧
      x.prog = .ret (some ⟨10, 7⟩) ∧ x.steps = 47 ∧ x.job.grammar = rightExample.wrapped ∧
      x.job.addr = exampleSAddr :=
    ⟨_, _, rfl, rfl, rfl, rfl, rfl, rfl⟩
  refine ⟨c, x, fleetPlay_reach _ _ _ fleetEmpty_reach hp, h0, h1, h2, h3, rightExample_accepted, ?_⟩
  rw [h4]
  exact exampleSAddr_addrInj _
end Bongo
