import Verif.Props.Earley
/-!
# C39–C47: the Earley parser on concrete grammars

Witnesses for the hypotheses of `Props/Earley.lean`, and the counterexamples that show that C42 and
C46 cannot be proved as they are stated.
-/
set_option linter.unusedSectionVars false
namespace Bongo
open Std

/-- The place of the array of a rule of a wrapped grammar over numbers. -/
def exampleRank : StartNonTerminal Nat → Nat
  | .start => 0
  | .nterm A => A + 1

/-- A layout for wrapped grammars over numbers. -/
def exampleSAddr (A : StartNonTerminal Nat) (i : Nat) : Nat := exampleAddr (exampleRank A) i

theorem exampleRank_inj (A B : StartNonTerminal Nat) (h : exampleRank A = exampleRank B) : A = B := by
  cases A <;> cases B <;> simp only [exampleRank] at h <;> first | rfl | omega | (congr 1; omega)

theorem exampleSAddr_addrInj {T AK AV : Type} (g : StartGrammar T Nat AK AV) :
    AddrInj g exampleSAddr := by
  intro p _ q _ h
  obtain ⟨h1, h2⟩ := exampleAddr_inj h
  exact ⟨exampleRank_inj _ _ h1, h2⟩

theorem exampleSAddr_placed {T AK AV : Type} (g : StartGrammar T Nat AK AV)
    (h : ∀ r ∈ g.rules, r.prods.length ≤ 1000) : AddrPlaced g exampleSAddr :=
  placed_exampleAddr _ exampleRank_inj g h

/-- The places in reverse order. -/
def exampleRank' : StartNonTerminal Nat → Nat
  | .start => 1000
  | .nterm A => if A < 1000 then 999 - A else A + 1

/-- Another layout, in which the rules are in the reverse order. -/
def exampleSAddr' (A : StartNonTerminal Nat) (i : Nat) : Nat := exampleAddr (exampleRank' A) i

theorem exampleRank'_inj (A B : StartNonTerminal Nat) (h : exampleRank' A = exampleRank' B) : A = B := by
  cases A with
  | start =>
    cases B with
    | start => rfl
    | nterm B => simp only [exampleRank'] at h; split at h <;> omega
  | nterm A =>
    cases B with
    | start => simp only [exampleRank'] at h; split at h <;> omega
    | nterm B =>
      have : A = B := by
        simp only [exampleRank'] at h; split at h <;> split at h <;> omega
      rw [this]

theorem exampleSAddr'_addrInj {T AK AV : Type} (g : StartGrammar T Nat AK AV) :
    AddrInj g exampleSAddr' := by
  intro p _ q _ h
  obtain ⟨h1, h2⟩ := exampleAddr_inj h
  exact ⟨exampleRank'_inj _ _ h1, h2⟩

theorem exampleSAddr'_placed {T AK AV : Type} (g : StartGrammar T Nat AK AV)
    (h : ∀ r ∈ g.rules, r.prods.length ≤ 1000) : AddrPlaced g exampleSAddr' :=
  placed_exampleAddr _ exampleRank'_inj g h

/-- Tokens of the given kinds; the value is the position. -/
def exampleToks (l : List Nat) : List (Token Nat Nat) := l.zipIdx.map fun ki => ⟨ki.1, 100 + ki.2⟩

/-! ### A grammar where a production divides a prefix of the input in two ways

`S → X Y Z`, `X → a | a b`, `Y → b c | c | b c d`, `Z → e`, with `a`..`e` numbered 1..5. -/
def exRule (h : Nat) (ps : List (Nat × List (Elem Nat Nat))) :
    Nat × RuleInner Nat Nat Nat Unit := (h, ⟨h, ps.map fun p => ⟨p.1, (), p.2.map (⟨none, ·⟩)⟩⟩)

def splitExample : Grammar Nat Nat Nat Unit :=
  ⟨0, [exRule 0 [(10, [.nonterm 1, .nonterm 2, .nonterm 3])],
    exRule 1 [(11, [.term 1]), (12, [.term 1, .term 2])],
    exRule 2 [(21, [.term 2, .term 3]), (22, [.term 3]), (23, [.term 2, .term 3, .term 4])],
    exRule 3 [(31, [.term 5])]]⟩

theorem splitExample_accepted : splitExample.Accepted :=
  ⟨20, 0, [⟨0, [.addProd 10 () [.addNonterm 1, .addNonterm 2, .addNonterm 3]]⟩,
    ⟨1, [.addProd 11 () [.addTerm 1], .addProd 12 () [.addTerm 1, .addTerm 2]]⟩,
    ⟨2, [.addProd 21 () [.addTerm 2, .addTerm 3], .addProd 22 () [.addTerm 3],
        .addProd 23 () [.addTerm 2, .addTerm 3, .addTerm 4]]⟩,
    ⟨3, [.addProd 31 () [.addTerm 5]]⟩], by decide⟩

/-- The tree after parsing `a b c d e`. -/
def splitInner : Inner Nat Nat Nat :=
  ⟨[[0], [0], [1, 3], [1], [1], [2], [2], [2], [3], [3], [3], [4], [4], [4], [5, 6], [6], [5], [6], [5], [6], [7], [8], [8], [8], [9], [10], [11], [10], [11], [10]],
  ⟨[(.leaf 1 100, 0), (.leaf 2 101, 2), (.leaf 3 102, 4), (.leaf 4 103, 7), (.leaf 5 104, 9),
     (.branch 10 [2, 21, 25], 11), (.branch 11 [0], 1), (.branch 12 [1, 5], 3), (.branch 21 [6, 11], 5),
     (.branch 22 [12], 6), (.branch 23 [7, 13, 20], 8), (.branch 31 [24], 10)],
   [.leaf 1 100, .branch 11 [0], .leaf 2 101, .branch 12 [1, 5], .leaf 3 102, .branch 21 [6, 11],
     .branch 22 [12], .leaf 4 103, .branch 23 [7, 13, 20], .leaf 5 104, .branch 31 [24],
     .branch 10 [2, 21, 25]]⟩⟩

theorem splitExample_parse : parseInner exampleSAddr splitExample.wrapped 9 Inner.new
    (exampleToks [1, 2, 3, 4, 5]) = .ok (splitInner, some 26) := by
  rfl

theorem splitExample_parse_world {fuel : Nat} (h : 9 ≤ fuel) :
    parse exampleSAddr splitExample.wrapped fuel World.new 7 (exampleToks [1, 2, 3, 4, 5]) =
      .ok (World.new.set 7 splitInner, some ⟨26, 7⟩) := by
  have h9 : parse exampleSAddr splitExample.wrapped 9 World.new 7 (exampleToks [1, 2, 3, 4, 5]) =
      .ok (World.new.set 7 splitInner, some ⟨26, 7⟩) := by
    unfold parse
    have : parseInner exampleSAddr splitExample.wrapped 9 ((World.new : World Nat Nat Nat) 7)
      (exampleToks [1, 2, 3, 4, 5]) = .ok (splitInner, some 26) := splitExample_parse
    rw [this]; rfl
  rw [parse_mono h (by rw [h9]; simp), h9]

/-- A tree with the leaves `a b b c d e`. -/
def splitTree : DTree (Token Nat Nat) Nat :=
  .node 10 [.node 12 [.leaf ⟨1, 100⟩, .leaf ⟨2, 101⟩],
    .node 23 [.leaf ⟨2, 101⟩, .leaf ⟨3, 102⟩, .leaf ⟨4, 103⟩], .node 31 [.leaf ⟨5, 104⟩]]

theorem splitTree_reads : Reads (World.new.set 7 splitInner) splitTree ⟨26, 7⟩ := by
  have leaf : ∀ (tok : Token Nat Nat) (n a : Nat) (s : List Nat), splitInner.nodes[n]? = some s → a ∈ s →
      splitInner.alternatives.idToValue[a]? = some (.leaf tok.kind tok.value) →
      Reads (World.new.set 7 splitInner) (.leaf tok) ⟨n, 7⟩ := by
    intro tok n a s h1 h2 h3
    exact reads_leaf.2 ⟨a, ⟨s, h1, h2⟩, h3⟩
  have node : ∀ (ak n a : Nat) (ns s : List Nat) (cs : List (DTree (Token Nat Nat) Nat)),
      splitInner.nodes[n]? = some s → a ∈ s →
      splitInner.alternatives.idToValue[a]? = some (.branch ak ns) →
      ReadsAll (World.new.set 7 splitInner) cs (ns.map (⟨·, 7⟩)) →
      Reads (World.new.set 7 splitInner) (.node ak cs) ⟨n, 7⟩ := by
    intro ak n a ns s cs h1 h2 h3 h4
    exact reads_node.2 ⟨a, ns, ⟨s, h1, h2⟩, h3, h4⟩
  refine node 10 26 11 [2, 21, 25] [11] _ rfl (by simp) rfl ?_
  simp only [List.map_cons, List.map_nil, ReadsAll, and_true]
  refine ⟨node 12 2 3 [1, 5] [1, 3] _ rfl (by simp) rfl ?_,
    node 23 21 8 [7, 13, 20] [8] _ rfl (by simp) rfl ?_,
    node 31 25 10 [24] [10] _ rfl (by simp) rfl ?_⟩
  · simp only [List.map_cons, List.map_nil, ReadsAll, and_true]
    exact ⟨leaf _ 1 0 [0] rfl (by simp) rfl, leaf _ 5 2 [2] rfl (by simp) rfl⟩
  · simp only [List.map_cons, List.map_nil, ReadsAll, and_true]
    exact ⟨leaf _ 7 2 [2] rfl (by simp) rfl, leaf _ 13 4 [4] rfl (by simp) rfl,
      leaf _ 20 7 [7] rfl (by simp) rfl⟩
  · simp only [List.map_cons, List.map_nil, ReadsAll, and_true]
    exact leaf _ 24 9 [9] rfl (by simp) rfl

/-- C46 is false as stated: `parse` can return a forest with trees that do not spell the input. -/
theorem parse_tree_not_spelling :
    ∃ (g : Grammar Nat Nat Nat Unit) (addr : StartNonTerminal Nat → Nat → Nat)
      (toks : List (Token Nat Nat)) (w' : World Nat Nat Nat) (n : Node) (s : DTree (Token Nat Nat) Nat),
      g.Accepted ∧ AddrPlaced g.wrapped addr ∧
      (∀ fuel, 9 ≤ fuel → parse addr g.wrapped fuel World.new 7 toks = .ok (w', some n)) ∧
      Reads w' s n ∧ kinds toks = [1, 2, 3, 4, 5] ∧ kinds s.yield = [1, 2, 2, 3, 4, 5] := by
  refine ⟨splitExample, exampleSAddr, exampleToks [1, 2, 3, 4, 5], _, _, splitTree,
    splitExample_accepted, exampleSAddr_placed _ (by decide), fun fuel h => splitExample_parse_world h,
    splitTree_reads, rfl, ?_⟩
  simp [splitTree, DTree.yield, DTree.yields, kinds]

/-- Hypotheses of C39, C44 and C45 are met. -/
example : ∃ fuel w' n, parse exampleSAddr splitExample.wrapped fuel World.new 7
    (exampleToks [1, 2, 3, 4, 5]) = .ok (w', some n) := ⟨9, _, _, splitExample_parse_world (by omega)⟩

/-- Hypotheses of C40 are met: `a b c d` is viable, but not in the language. -/
example : ∃ fuel I, parseInner exampleSAddr splitExample.wrapped fuel (Inner.new : Inner Nat Nat Nat)
    (exampleToks [1, 2, 3, 4]) = .ok (I, none) := ⟨9, _, rfl⟩

/-- Hypotheses of C47 are met: the parser is given a tree that already holds a forest, of which the
program holds nodes and alternatives. -/
example : ∃ w' n, parse exampleSAddr splitExample.wrapped 9 forestExample.2.1 7
      (exampleToks [1, 2, 3, 4, 5]) = .ok (w', some n) ∧
    History forestExample.1 forestExample.2.1 forestExample.2.2 ∧
    (TreeOp.alts ⟨0, 7⟩ : TreeOp Nat Nat Nat).Allowed forestExample.2.2 :=
  ⟨_, _, rfl, forestExample_history, by decide⟩

/-! ### The ways to panic -/

/-- Hypotheses of `parse_no_panic_partial` are met. -/
theorem splitExample_good (j : Nat) (hj : j ≤ 5) :
    splitExample.Viable (kinds ((exampleToks [1, 2, 3, 4, 5]).take j)) ∧
      ¬ splitExample.Clash (kinds ((exampleToks [1, 2, 3, 4, 5]).take j)) := by
  apply Classical.byContradiction
  intro h
  have h' : ¬ splitExample.Viable (kinds ((exampleToks [1, 2, 3, 4, 5]).take j)) ∨
      splitExample.Clash (kinds ((exampleToks [1, 2, 3, 4, 5]).take j)) := by
    rcases Classical.em (splitExample.Viable (kinds ((exampleToks [1, 2, 3, 4, 5]).take j))) with hv | hv
    · exact Or.inr (Classical.byContradiction fun hc => h ⟨hv, hc⟩)
    · exact Or.inl hv
  obtain ⟨N, p, hp⟩ := parse_panics splitExample_accepted (exampleSAddr_addrInj _)
    (History.start : History _ (World.new : World Nat Nat Nat) _) 7 (exampleToks [1, 2, 3, 4, 5]) hj h'
  have h1 := hp (max N 9) (by omega)
  rw [splitExample_parse_world (by omega)] at h1
  cases h1

/-- C42 is false as stated: a token that cannot come next. -/
theorem parse_panics_not_viable : ∀ fuel, 9 ≤ fuel →
    parse exampleSAddr splitExample.wrapped fuel (World.new : World Nat Nat Nat) 7 (exampleToks [1, 5]) =
      .panic .emptyState := by
  intro fuel h
  have h9 : parse exampleSAddr splitExample.wrapped 9 (World.new : World Nat Nat Nat) 7
    (exampleToks [1, 5]) = .panic .emptyState := rfl
  rw [parse_mono h (by rw [h9]; simp), h9]

/-- `S → S 1 T | T`, `T → 2`. -/
def leftExample : Grammar Nat Nat Nat Unit :=
  ⟨0, [exRule 0 [(10, [.nonterm 0, .term 1, .nonterm 1]), (11, [.nonterm 1])], exRule 1 [(12, [.term 2])]]⟩

theorem leftExample_accepted : leftExample.Accepted :=
  ⟨20, 0, [⟨0, [.addProd 10 () [.addNonterm 0, .addTerm 1, .addNonterm 1], .addProd 11 () [.addNonterm 1]]⟩,
    ⟨1, [.addProd 12 () [.addTerm 2]]⟩], by decide⟩

/-- C42 is false as stated: left recursion.  The input `2 1 2` is in the language. -/
theorem parse_panics_left_recursion : leftExample.cfg.InLanguage [2, 1, 2] ∧
    ∀ fuel, 9 ≤ fuel → parse exampleSAddr leftExample.wrapped fuel (World.new : World Nat Nat Nat) 7
      (exampleToks [2, 1, 2]) = .panic .lenMismatch := by
  have hp : ∀ {A β}, leftExample.cfg.prod A β ↔ (A = 0 ∧ β = [.nonterm 0, .term 1, .nonterm 1]) ∨
      (A = 0 ∧ β = [.nonterm 1]) ∨ (A = 1 ∧ β = [.term 2]) := by
    intro A β
    simp [leftExample, Grammar.cfg, exRule, or_assoc, or_and_right, exists_or, and_assoc]
    grind
  have p1 : leftExample.cfg.prod 0 [.nonterm 0, .term 1, .nonterm 1] := hp.2 (Or.inl ⟨rfl, rfl⟩)
  have p2 : leftExample.cfg.prod 0 [.nonterm 1] := hp.2 (Or.inr (Or.inl ⟨rfl, rfl⟩))
  have p3 : leftExample.cfg.prod 1 [.term 2] := hp.2 (Or.inr (Or.inr ⟨rfl, rfl⟩))
  have d3 := Cfg.derives_prod p3
  have d2 := (Cfg.derives_prod p2).trans d3
  constructor
  · exact (Cfg.derives_prod p1).trans (Cfg.Derives.append d2
      (Cfg.Derives.append (Cfg.Derives.refl [.term 1]) d3))
  · intro fuel h
    have h9 : parse exampleSAddr leftExample.wrapped 9 (World.new : World Nat Nat Nat) 7
      (exampleToks [2, 1, 2]) = .panic .lenMismatch := rfl
    rw [parse_mono h (by rw [h9]; simp), h9]

/-- `S → 1 S | ε`. -/
def nullStartExample : Grammar Nat Nat Nat Unit := ⟨0, [exRule 0 [(10, [.term 1, .nonterm 0]), (11, [])]]⟩

theorem nullStartExample_accepted : nullStartExample.Accepted :=
  ⟨20, 0, [⟨0, [.addProd 10 () [.addTerm 1, .addNonterm 0], .addProd 11 () []]⟩], by decide⟩

/-- C42 is false as stated: a nullable start symbol; hypotheses of `parse_nullable_start_panics`. -/
example : nullStartExample.Accepted ∧ nullStartExample.cfg.Generates nullStartExample.startSymbol [] ∧
    parse exampleSAddr nullStartExample.wrapped 9 (World.new : World Nat Nat Nat) 7
      (exampleToks [1]) = .panic .lenMismatch := by
  refine ⟨nullStartExample_accepted, ?_, rfl⟩
  exact Cfg.derives_prod (A := 0) (β := []) ⟨_, ⟨11, (), []⟩, List.mem_cons_self .., by simp [exRule], rfl⟩

/-- C43 on two layouts that order the productions differently. -/
example : exampleSAddr (.nterm 0) 2 < exampleSAddr (.nterm 1) 1 ∧
    exampleSAddr' (.nterm 1) 1 < exampleSAddr' (.nterm 0) 2 := by decide

/-! ### An unambiguous grammar without dead ends: `S → 1 S | 2` -/
def rightExample : Grammar Nat Nat Nat Unit :=
  ⟨0, [exRule 0 [(10, [.term 1, .nonterm 0]), (11, [.term 2])]]⟩

theorem rightExample_accepted : rightExample.Accepted :=
  ⟨20, 0, [⟨0, [.addProd 10 () [.addTerm 1, .addNonterm 0], .addProd 11 () [.addTerm 2]]⟩], by decide⟩

def rightP1 : Prod Nat Nat Nat Unit := ⟨0, 0, ⟨10, (), [⟨none, .term 1⟩, ⟨none, .nonterm 0⟩]⟩⟩
def rightP2 : Prod Nat Nat Nat Unit := ⟨0, 1, ⟨11, (), [⟨none, .term 2⟩]⟩⟩

theorem rightExample_prods : rightExample.prods = [rightP1, rightP2] := rfl

theorem rightExample_tree {e : Elem Nat Nat} {t : DTree Nat (Prod Nat Nat Nat Unit)}
    (h : IsTree rightExample id e t) : (∃ a, e = .term a ∧ t = .leaf a) ∨
      (e = .nonterm 0 ∧ t = .node rightP2 [.leaf 2]) ∨
      (e = .nonterm 0 ∧ ∃ t', t = .node rightP1 [.leaf 1, t'] ∧ IsTree rightExample id (.nonterm 0) t') := by
  cases h with
  | leaf l => exact Or.inl ⟨l, rfl, rfl⟩
  | node p cs hp hf =>
    right
    rw [rightExample_prods] at hp
    simp only [List.mem_cons, List.not_mem_nil, or_false] at hp
    rcases hp with rfl | rfl
    · right
      refine ⟨rfl, ?_⟩
      cases hf with
      | cons h1 h2 =>
        cases h2 with
        | cons h2 h3 =>
          cases h3
          cases h1 with
          | leaf l => exact ⟨_, rfl, h2⟩
    · left
      refine ⟨rfl, ?_⟩
      cases hf with
      | cons h1 h2 =>
        cases h2
        cases h1 with
        | leaf l => rfl

theorem rightExample_unambiguous : rightExample.Unambiguous := by
  have key : ∀ (k : Nat) (t t' : DTree Nat (Prod Nat Nat Nat Unit)), t.yield.length ≤ k →
      IsTree rightExample id (.nonterm 0) t → IsTree rightExample id (.nonterm 0) t' →
      t.yield = t'.yield → t = t' := by
    intro k
    induction k with
    | zero =>
      intro t t' hk h _ _
      rcases rightExample_tree h with ⟨a, h, -⟩ | ⟨-, rfl⟩ | ⟨-, t1, rfl, -⟩
      · cases h
      · simp [DTree.yield, DTree.yields] at hk
      · simp [DTree.yield, DTree.yields] at hk
    | succ k ih =>
      intro t t' hk h h' hy
      rcases rightExample_tree h with ⟨a, h, -⟩ | ⟨-, rfl⟩ | ⟨-, t1, rfl, h1⟩ <;>
        rcases rightExample_tree h' with ⟨a', h', -⟩ | ⟨-, rfl⟩ | ⟨-, t2, rfl, h2⟩
      · cases h
      · cases h
      · cases h
      · cases h'
      · rfl
      · simp [DTree.yield, DTree.yields] at hy
      · cases h'
      · simp [DTree.yield, DTree.yields] at hy
      · simp only [DTree.yield, DTree.yields, List.append_nil, List.singleton_append,
          List.cons.injEq, true_and, List.length_cons] at hy hk
        rw [ih t1 t2 (by omega) h1 h2 hy]
  intro t t' h h' hy
  exact key _ t t' (Nat.le_refl _) h h' hy

theorem rightExample_noDeadEnds : rightExample.NoDeadEnds := by
  have hA : rightExample.cfg.Derives [.nonterm 0] [.term 2] :=
    Cfg.derives_prod (A := 0) ⟨_, ⟨11, (), [⟨none, .term 2⟩]⟩, List.mem_cons_self .., by simp [exRule], rfl⟩
  have hsym : ∀ γ : List (Elem Nat Nat), (∀ e ∈ γ, ∀ A, e = .nonterm A → A = 0) →
      ∃ w : List Nat, rightExample.cfg.Derives γ (w.map .term) := by
    intro γ
    induction γ with
    | nil => intro _; exact ⟨[], .refl _⟩
    | cons e γ ih =>
      intro h
      obtain ⟨w, hw⟩ := ih (fun e he => h e (by simp [he]))
      cases e with
      | term a => exact ⟨a :: w, Cfg.Derives.append (Cfg.Derives.refl [.term a]) hw⟩
      | nonterm A =>
        have := h _ (by simp) A rfl
        subst this
        exact ⟨2 :: w, Cfg.Derives.append hA hw⟩
  intro γ h
  apply hsym
  unfold Cfg.Derives at h
  induction h with
  | refl => intro e he A h; simp at he; subst he; cases h; rfl
  | tail _ hs ih =>
    cases hs with
    | mk u v A β hp =>
      obtain ⟨q, hq, rfl, rfl⟩ := (Grammar.cfg_prod_iff rightExample_accepted.valid.toWF).1 hp
      rw [rightExample_prods] at hq
      simp only [List.mem_cons, List.not_mem_nil, or_false] at hq
      intro e he B hB
      simp only [List.mem_append] at he
      rcases he with (he | he) | he
      · exact ih e (by simp [he]) B hB
      · subst hB
        rcases hq with rfl | rfl
        · simp [rightP1, Prod.elements, ProdInner.elems] at he; exact he
        · simp [rightP2, Prod.elements, ProdInner.elems] at he
      · exact ih e (by simp [he]) B hB

/-- Hypotheses of C46 are met. -/
example : ∃ I n, parseInner exampleSAddr rightExample.wrapped 9 (Inner.new : Inner Nat Nat Nat)
    (exampleToks [1, 1, 2]) = .ok (I, some n) ∧ rightExample.Unambiguous ∧ rightExample.NoDeadEnds ∧
    rightExample.SplitsOnce [1, 1, 2] :=
  ⟨_, _, rfl, rightExample_unambiguous, rightExample_noDeadEnds,
    splits_of_unambiguous rightExample_accepted.valid.toWF rightExample_unambiguous
      rightExample_noDeadEnds _⟩
end Bongo
