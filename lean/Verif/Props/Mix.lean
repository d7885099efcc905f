import Verif.Proof.Mix
import Verif.Proof.CanonReads
import Verif.Proof.Layout
import Verif.Proof.Reordered
import Verif.Props.Earley
import Verif.Props.EarleyExamples
/-!
# C85–C87: what is in the forest that `parse` returns

`Mix` and `Loose` (`Spec/Mix.lean`) bound the trees that can be read off the returned node from below
and above, for every layout of the productions.
-/
set_option linter.unusedSectionVars false
namespace Bongo
open Std
variable {T NT AK AV V : Type}
variable [Ord T] [Ord NT] [Ord AK] [Ord V] [DecidableEq T] [DecidableEq NT]
variable [TransOrd T] [TransOrd NT] [TransOrd AK] [TransOrd V]
variable [LawfulEqOrd T] [LawfulEqOrd NT] [LawfulEqOrd AK] [LawfulEqOrd V]
variable {addr : StartNonTerminal NT → Nat → Nat} {g : Grammar T NT AK AV}

/-- C85: every tree over the input whose children are chosen independently of each other can be read
off the returned node. -/
theorem parse_mixed_trees (hg : g.Accepted) (ha : AddrInj g.wrapped addr) {log : TreeLog T AK V}
    {w w' : World T AK V} {held : List Handle} (hist : History log w held) {t fuel : Nat}
    {toks : List (Token T V)} {n : Node}
    (h : parse addr g.wrapped fuel w t toks = .ok (w', some n))
    {d : DTree (Token T V) (Prod T NT AK AV)} (hd : Mix g toks (.nonterm g.startSymbol) d) :
    Reads w' (d.mapNodes (·.actionKey)) n := by
  have hw := hg.valid.toWF
  obtain ⟨I, m, h1, rfl, h2⟩ := parse_ok_iff h
  cases m with
  | none => cases h2
  | some m =>
    cases h2
    obtain ⟨sets, last, L, r1, r2, r3, ⟨h, -⟩ | ⟨_, hk, r4⟩⟩ :=
      parseInner_ok hw ha (unitLabel g.wrapped toks) (hist.inv.wf t) h1
    · cases h
    · cases hk
      have hget : (sets ++ [last])[toks.length]? = some last := by rw [← r2]; simp
      have hlast := r1.sets _ _ hget
      have h0 : EItem g.wrapped toks 0 (startRef g) 0 0 := ⟨[], .start (startRef_mem hw) rfl⟩
      have hL := hd.litem hw h0 (j := toks.length) (by rw [startRef_elements]; rfl) (Nat.zero_le _)
        (Nat.le_refl _) (by simp)
      obtain ⟨v, v1, v2⟩ := r1.full _ _ hget _ _ _ (hlast.entry _ r4).1
      have := hlast.unique (Grammar.wrapped_wf hw) ha v1 r4 rfl rfl
      simp only [_root_.Prod.mk.injEq, true_and] at this
      subst this
      obtain ⟨k, k1, k2⟩ := v2 _ _ hL
      simp only [List.getElem?_cons_zero, Option.some.injEq] at k1
      subst k1
      refine Rep.reads d m ?_
      rw [World.set_self]
      exact k2

/-- A derivation tree of the input is one of them (C44 is a special case of C85). -/
theorem mix_of_tree (hg : g.Accepted) {toks : List (Token T V)}
    {d : DTree (Token T V) (Prod T NT AK AV)} (hd : IsTree g (·.kind) (.nonterm g.startSymbol) d)
    (hy : d.yield = toks) : Mix g toks (.nonterm g.startSymbol) d := by
  have := hd.mix hg.valid.toWF
  rwa [hy] at this

/-- C86: every tree that can be read off the returned node is put together over the input like a
derivation tree, but for children that begin where their element can, with only the last child of a
node having to end where the node ends. -/
theorem parse_trees_loose (hg : g.Accepted) (ha : AddrInj g.wrapped addr)
    {log : TreeLog T AK V} {w w' : World T AK V} {held : List Handle} (hist : History log w held)
    {t fuel : Nat} {toks : List (Token T V)} {n : Node}
    (h : parse addr g.wrapped fuel w t toks = .ok (w', some n))
    {s : DTree (Token T V) AK} (hs : Reads w' s n) :
    ∃ d : DTree (Token T V) (Prod T NT AK AV), Loose g toks [] toks (.nonterm g.startSymbol) d ∧
      d.mapNodes (·.actionKey) = s := by
  have hw := hg.valid.toWF
  obtain ⟨I, m, h1, rfl, h2⟩ := parse_ok_iff h
  cases m with
  | none => cases h2
  | some m =>
    cases h2
    obtain ⟨sets, last, L, r1, r2, r3, ⟨h, -⟩ | ⟨_, hk, r4⟩⟩ :=
      parseInner_ok hw ha (looseLabel g.wrapped toks) (hist.inv.wf t) h1
    · cases h
    · cases hk
      have hlast := r1.sets toks.length last (by rw [← r2]; simp)
      have hL := (hlast.entry _ r4).2.2 0 m rfl
      obtain ⟨d, a, b, k1, k2, k3, k4, k5, k6, k7⟩ := Reads.loose hw (t := t)
        (by rw [World.set_self]; exact r1.typed) s m _ _ _ _ (.nonterm g.startSymbol) hL
        (by rw [startRef_elements]; rfl) hs
      have ha0 := k1.zero
      subst ha0
      have hb : b = toks.length := by
        refine k4 _ ?_
        unfold openAfter
        rw [startRef_elements]; rfl
      subst hb
      refine ⟨d, ?_, k7⟩
      simpa using k6

/-- A mixed tree is a loose one. -/
theorem Mix.loose {v : List (Token T V)} {e : Elem T NT} {d : DTree (Token T V) (Prod T NT AK AV)}
    (h : Mix g v e d) : ∀ (toks u : List (Token T V)), u ++ v <+: toks → Loose g toks u v e d := by
  induction h with
  | leaf tok => intro toks u hu; exact .leaf u tok hu
  | node v p cs before over after hp hd hlen hdiv hcs ih =>
    intro toks u hu
    refine .node u v p cs before over hp hu hd hlen ?_ ?_
    · intro x e he
      obtain ⟨h1, h2, h3, h4⟩ := hdiv x e he
      refine ⟨h2, h3, ?_⟩
      intro hx
      rw [List.drop_eq_nil_of_le (by omega)] at h4
      have := Cfg.derives_nil h4
      simp [kinds] at this
      rw [h1, this, List.append_nil]
    · intro x e c he hc
      obtain ⟨h1, -⟩ := hdiv x e he
      refine ih x e c he hc toks _ ?_
      rw [h1] at hu
      exact (List.prefix_append _ (after x)).trans (by simpa using hu)

/-- C46: the condition of `parse_trees_spell_partial` is nearly needed.  If a production can divide its
part of the input in two ways, the forest has a tree that does not spell the input. -/
theorem parse_trees_not_spell (hg : g.Accepted) (ha : AddrInj g.wrapped addr)
    {log : TreeLog T AK V} {w w' : World T AK V} {held : List Handle} (hist : History log w held)
    {t fuel : Nat} {toks : List (Token T V)} {n : Node}
    (h : parse addr g.wrapped fuel w t toks = .ok (w', some n))
    {u x y x' y' z : List T} {A : NT} {α β : List (Elem T NT)} (hk : kinds toks = u ++ (x ++ y) ++ z)
    (hxy : x ++ y = x' ++ y') (hne : x ≠ x')
    (hu : g.cfg.Derives [.nonterm g.startSymbol] (u.map .term ++ .nonterm A :: z.map .term))
    (hp : g.cfg.prod A (α ++ β))
    (h1 : g.cfg.Derives α (x.map .term)) (h2 : g.cfg.Derives β (y.map .term))
    (h1' : g.cfg.Derives α (x'.map .term)) (h2' : g.cfg.Derives β (y'.map .term)) :
    ∃ s : DTree (Token T V) AK, Reads w' s n ∧ s.yield ≠ toks := by
  have hw := hg.valid.toWF
  obtain ⟨q, hq, rfl, hqe⟩ := (Grammar.cfg_prod_iff hw).1 hp
  -- the tokens
  unfold kinds at hk
  obtain ⟨uv, Z, rfl, e1, rfl⟩ := List.map_eq_append_iff.1 hk
  obtain ⟨U, XY, rfl, rfl, e2⟩ := List.map_eq_append_iff.1 e1
  obtain ⟨X', Y', e3, rfl, rfl⟩ := List.map_eq_append_iff.1 (e2.trans hxy)
  obtain ⟨X, Y, rfl, rfl, rfl⟩ := List.map_eq_append_iff.1 e2
  have hlen : X.length ≠ X'.length := by
    intro hl
    exact hne (congrArg _ (List.append_inj e3 hl).1)
  have htake : q.elements.take α.length = α := by rw [hqe]; simp
  have hdrop : q.elements.drop α.length = β := by rw [hqe]; simp
  obtain ⟨cs, c1, c2⟩ := mixAll_of_tokens (v := X) hw h1
  obtain ⟨ds, d1, d2⟩ := mixAll_of_tokens (v := Y') hw h2'
  have hm := Mix.of_two (k := α.length) hq e3 (by rw [htake]; exact c1) (by rw [hdrop]; exact h2)
    (by rw [htake]; exact h1') (by rw [hdrop]; exact d1)
  have hder : g.cfg.Derives [.nonterm q.head] ((kinds (X ++ Y)).map .term) := by
    refine (Cfg.derives_prod hp).trans ?_
    rw [kinds_append, List.map_append]
    exact h1.append h2
  obtain ⟨ts, t1, t2⟩ := mix_context hw (Cfg.syields_iff.2 hu) hm hder U Z _ rfl (.refl _)
  obtain ⟨d, rfl, m1⟩ := t1.single rfl
  refine ⟨d.mapNodes (·.actionKey), parse_mixed_trees hg ha hist h m1, ?_⟩
  rw [DTree.yields, DTree.yields, List.append_nil] at t2
  rw [DTree.yield_mapNodes, t2, DTree.yield, DTree.yields_append, c2, d2]
  intro hh
  have h3 := congrArg List.length hh
  have h4 := congrArg List.length e3
  simp at h3 h4
  omega

/-! ### The layout of the productions -/

/-- C87: the trees that can be read off the returned node are the same wherever the arrays of the rules
lie in memory, and whatever trees and calls there were before. -/
theorem parse_forest_layout_independent (hg : g.Accepted)
    {addr' : StartNonTerminal NT → Nat → Nat} (ha : AddrPlaced g.wrapped addr)
    (ha' : AddrPlaced g.wrapped addr') {log₁ log₂ : TreeLog T AK V} {w₁ w₂ w₁' w₂' : World T AK V}
    {held₁ held₂ : List Handle} (hist₁ : History log₁ w₁ held₁) (hist₂ : History log₂ w₂ held₂)
    {t₁ t₂ fuel₁ fuel₂ : Nat} {toks : List (Token T V)} {n₁ n₂ : Node}
    (h₁ : parse addr g.wrapped fuel₁ w₁ t₁ toks = .ok (w₁', some n₁))
    (h₂ : parse addr' g.wrapped fuel₂ w₂ t₂ toks = .ok (w₂', some n₂)) (s : DTree (Token T V) AK) :
    Reads w₁' s n₁ ↔ Reads w₂' s n₂ := by
  have hw := hg.valid.toWF
  obtain ⟨I₁, m₁, p₁, rfl, e₁⟩ := parse_ok_iff h₁
  obtain ⟨I₂, m₂, p₂, rfl, e₂⟩ := parse_ok_iff h₂
  cases m₁ with
  | none => cases e₁
  | some m₁ =>
    cases m₂ with
    | none => cases e₂
    | some m₂ =>
      cases e₁
      cases e₂
      rw [parseInner_reads hw ha.addrInj ha.ordered (hist₁.inv.wf t₁) (by rw [World.set_self]; exact p₁) s,
        parseInner_reads hw ha'.addrInj ha'.ordered (hist₂.inv.wf t₂) (by rw [World.set_self]; exact p₂) s]

/-- Every grammar can be placed in memory so. -/
theorem layouts_exist (g : Grammar T NT AK AV) : ∃ addr, AddrPlaced g.wrapped addr := exists_placed _

/-- The layouts of the productions in memory are among those for which the other theorems are stated. -/
theorem layouts_injective {g : Grammar T NT AK AV} {addr : NT → Nat → Nat} (h : AddrPlaced g addr) :
    AddrInj g addr := h.addrInj

/-- The hypotheses of C87 are met, by layouts with the rules in opposite orders, for a grammar and an
input that productions divide in two ways. -/
example : splitExample.Accepted ∧ AddrPlaced splitExample.wrapped exampleSAddr ∧
    AddrPlaced splitExample.wrapped exampleSAddr' ∧ ∃ w₁ n₁ w₂ n₂,
    parse exampleSAddr splitExample.wrapped 9 (World.new : World Nat Nat Nat) 7
      (exampleToks [1, 2, 3, 4, 5]) = .ok (w₁, some n₁) ∧
    parse exampleSAddr' splitExample.wrapped 9 (World.new : World Nat Nat Nat) 3
      (exampleToks [1, 2, 3, 4, 5]) = .ok (w₂, some n₂) :=
  ⟨splitExample_accepted, exampleSAddr_placed _ (by decide), exampleSAddr'_placed _ (by decide),
    _, _, _, _, rfl, rfl⟩

/-! ### The order of the productions of a rule -/

/-- C118: if productions divide the parts of the input in one way only, the order in which the
productions of the rules were added has no effect on the trees that can be read off the returned
node. -/
theorem parse_forest_order_free {g g' : Grammar T NT AK AV} (hg : g.Accepted) (hg' : g'.Accepted)
    (hre : g.Reordered g')
    {addr' : StartNonTerminal NT → Nat → Nat} (ha : AddrInj g.wrapped addr)
    (ha' : AddrInj g'.wrapped addr') {log₁ log₂ : TreeLog T AK V} {w₁ w₂ w₁' w₂' : World T AK V}
    {held₁ held₂ : List Handle} (hist₁ : History log₁ w₁ held₁) (hist₂ : History log₂ w₂ held₂)
    {t₁ t₂ fuel₁ fuel₂ : Nat} {toks : List (Token T V)} {n₁ n₂ : Node}
    (hsplit : g.SplitsOnce (kinds toks))
    (h₁ : parse addr g.wrapped fuel₁ w₁ t₁ toks = .ok (w₁', some n₁))
    (h₂ : parse addr' g'.wrapped fuel₂ w₂ t₂ toks = .ok (w₂', some n₂)) (s : DTree (Token T V) AK) :
    Reads w₁' s n₁ ↔ Reads w₂' s n₂ := by
  have hw := hg.valid.toWF
  have hw' := hg'.valid.toWF
  have hcfg : g.cfg = g'.cfg := hre.cfg hw hw'
  have hsplit' : g'.SplitsOnce (kinds toks) := by
    unfold Grammar.SplitsOnce at *
    rw [← hcfg, ← hre.1]; exact hsplit
  constructor
  · intro hs
    obtain ⟨d, hd, rfl, -⟩ := parse_trees_grammatical hg ha hist₁ h₁ hs
    have hy := parse_trees_spell_partial hg ha hist₁ hsplit h₁ hs
    rw [DTree.yield_mapNodes] at hy
    obtain ⟨d', hd', e1, e2⟩ := hd.reorder hre.carries
    rw [← e1]
    rw [hre.1] at hd'
    exact parse_all_trees hg' ha' hist₂ h₂ hd' (e2.trans hy)
  · intro hs
    obtain ⟨d, hd, rfl, -⟩ := parse_trees_grammatical hg' ha' hist₂ h₂ hs
    have hy := parse_trees_spell_partial hg' ha' hist₂ hsplit' h₂ hs
    rw [DTree.yield_mapNodes] at hy
    obtain ⟨d', hd', e1, e2⟩ := hd.reorder hre.symm.carries
    rw [← e1]
    rw [← hre.1] at hd'
    exact parse_all_trees hg ha hist₁ h₁ hd' (e2.trans hy)

/-- `splitExample` with the first two productions of `Y` exchanged. -/
def swapExample : Grammar Nat Nat Nat Unit :=
  ⟨0, [exRule 0 [(10, [.nonterm 1, .nonterm 2, .nonterm 3])],
    exRule 1 [(11, [.term 1]), (12, [.term 1, .term 2])],
    exRule 2 [(22, [.term 3]), (21, [.term 2, .term 3]), (23, [.term 2, .term 3, .term 4])],
    exRule 3 [(31, [.term 5])]]⟩

theorem swapExample_accepted : swapExample.Accepted :=
  ⟨20, 0, [⟨0, [.addProd 10 () [.addNonterm 1, .addNonterm 2, .addNonterm 3]]⟩,
    ⟨1, [.addProd 11 () [.addTerm 1], .addProd 12 () [.addTerm 1, .addTerm 2]]⟩,
    ⟨2, [.addProd 22 () [.addTerm 3], .addProd 21 () [.addTerm 2, .addTerm 3],
        .addProd 23 () [.addTerm 2, .addTerm 3, .addTerm 4]]⟩,
    ⟨3, [.addProd 31 () [.addTerm 5]]⟩], by decide⟩

theorem swapExample_reordered : splitExample.Reordered swapExample := by
  refine ⟨rfl, ?_⟩
  show List.Forall₂ _ [_, _, _, _] [_, _, _, _]
  refine .cons ⟨rfl, .refl _⟩ (.cons ⟨rfl, .refl _⟩ (.cons ⟨rfl, .swap _ _ _⟩ (.cons ⟨rfl, .refl _⟩ .nil)))

/-- The tree after parsing `a b c d e` with that grammar. -/
def swapInner : Inner Nat Nat Nat :=
  ⟨[[0], [0], [1], [1], [1], [2], [2], [2], [1, 3], [3], [3], [4], [4], [4], [5, 6], [6], [5], [6], [5],
    [6], [7], [8], [8], [8], [9], [10], [11], [10], [11], [10]],
  ⟨[(.leaf 1 100, 0), (.leaf 2 101, 2), (.leaf 3 102, 4), (.leaf 4 103, 7), (.leaf 5 104, 9),
     (.branch 10 [2, 21, 25], 11), (.branch 11 [0], 1), (.branch 12 [1, 5], 3), (.branch 21 [6, 12], 6),
     (.branch 22 [11], 5), (.branch 23 [7, 13, 20], 8), (.branch 31 [24], 10)],
   [.leaf 1 100, .branch 11 [0], .leaf 2 101, .branch 12 [1, 5], .leaf 3 102, .branch 22 [11],
     .branch 21 [6, 12], .leaf 4 103, .branch 23 [7, 13, 20], .leaf 5 104, .branch 31 [24],
     .branch 10 [2, 21, 25]]⟩⟩

theorem swapExample_parse_world {fuel : Nat} (h : 9 ≤ fuel) :
    parse exampleSAddr swapExample.wrapped fuel World.new 7 (exampleToks [1, 2, 3, 4, 5]) =
      .ok (World.new.set 7 swapInner, some ⟨26, 7⟩) := by
  have h9 : parse exampleSAddr swapExample.wrapped 9 World.new 7 (exampleToks [1, 2, 3, 4, 5]) =
      .ok (World.new.set 7 swapInner, some ⟨26, 7⟩) := by
    unfold parse
    have : parseInner exampleSAddr swapExample.wrapped 9 ((World.new : World Nat Nat Nat) 7)
      (exampleToks [1, 2, 3, 4, 5]) = .ok (swapInner, some 26) := by rfl
    rw [this]; rfl
  rw [parse_mono h (by rw [h9]; simp), h9]

theorem splitTree_not_reads : ¬ Reads (World.new.set 7 swapInner) splitTree ⟨26, 7⟩ := by
  unfold splitTree
  intro h
  obtain ⟨a, ns, ⟨s, h1, h2⟩, h3, h4⟩ := reads_node.1 h
  simp only [World.set_self] at h1 h3
  have hs : s = [11] := by
    have : swapInner.nodes[26]? = some [11] := rfl
    rw [this] at h1; cases h1; rfl
  subst hs
  simp only [List.mem_singleton] at h2
  subst h2
  have hns : ns = [2, 21, 25] := by
    have : swapInner.altAt 11 = some (.branch 10 [2, 21, 25]) := rfl
    rw [this] at h3; cases h3; rfl
  subst hns
  simp only [List.map_cons, List.map_nil, ReadsAll] at h4
  obtain ⟨a, ns, ⟨s, h1, h2⟩, h3, -⟩ := reads_node.1 h4.1
  simp only [World.set_self] at h1 h3
  have hs : s = [1] := by
    have : swapInner.nodes[2]? = some [1] := rfl
    rw [this] at h1; cases h1; rfl
  subst hs
  simp only [List.mem_singleton] at h2
  subst h2
  have : swapInner.altAt 1 = some (.branch 11 [0]) := rfl
  rw [this] at h3
  cases h3

/-- C118: in general the order has an effect: which trees are in the forest depends on the order in
which the productions of a rule were added. -/
theorem parse_forest_order_dependent :
    ∃ (g g' : Grammar Nat Nat Nat Unit) (addr : StartNonTerminal Nat → Nat → Nat)
      (toks : List (Token Nat Nat)) (w₁ w₂ : World Nat Nat Nat) (n₁ n₂ : Node)
      (s : DTree (Token Nat Nat) Nat),
      g.Accepted ∧ g'.Accepted ∧ g.Reordered g' ∧ AddrPlaced g.wrapped addr ∧
      AddrPlaced g'.wrapped addr ∧
      (∀ fuel, 9 ≤ fuel → parse addr g.wrapped fuel World.new 7 toks = .ok (w₁, some n₁) ∧
        parse addr g'.wrapped fuel World.new 7 toks = .ok (w₂, some n₂)) ∧
      Reads w₁ s n₁ ∧ ¬ Reads w₂ s n₂ :=
  ⟨splitExample, swapExample, exampleSAddr, exampleToks [1, 2, 3, 4, 5], _, _, _, _, splitTree,
    splitExample_accepted, swapExample_accepted, swapExample_reordered,
    exampleSAddr_placed _ (by decide), exampleSAddr_placed _ (by decide),
    fun _ h => ⟨splitExample_parse_world h, swapExample_parse_world h⟩, splitTree_reads,
    splitTree_not_reads⟩

/-- `rightExample` with the productions in the opposite order. -/
def rightExample' : Grammar Nat Nat Nat Unit :=
  ⟨0, [exRule 0 [(11, [.term 2]), (10, [.term 1, .nonterm 0])]]⟩

theorem rightExample'_accepted : rightExample'.Accepted :=
  ⟨20, 0, [⟨0, [.addProd 11 () [.addTerm 2], .addProd 10 () [.addTerm 1, .addNonterm 0]]⟩], by decide⟩

theorem rightExample_reordered : rightExample.Reordered rightExample' := by
  refine ⟨rfl, ?_⟩
  show List.Forall₂ _ [_] [_]
  exact .cons ⟨rfl, .swap _ _ _⟩ .nil

/-- The hypotheses of `parse_forest_order_free` are met. -/
example : rightExample.Accepted ∧ rightExample'.Accepted ∧ rightExample.Reordered rightExample' ∧
    AddrInj rightExample.wrapped exampleSAddr ∧ AddrInj rightExample'.wrapped exampleSAddr ∧
    rightExample.SplitsOnce (kinds (exampleToks [1, 1, 2])) ∧ ∃ w₁ n₁ w₂ n₂,
    parse exampleSAddr rightExample.wrapped 9 (World.new : World Nat Nat Nat) 7
      (exampleToks [1, 1, 2]) = .ok (w₁, some n₁) ∧
    parse exampleSAddr rightExample'.wrapped 9 (World.new : World Nat Nat Nat) 3
      (exampleToks [1, 1, 2]) = .ok (w₂, some n₂) :=
  ⟨rightExample_accepted, rightExample'_accepted, rightExample_reordered, exampleSAddr_addrInj _,
    exampleSAddr_addrInj _,
    splits_of_unambiguous rightExample_accepted.valid.toWF rightExample_unambiguous
      rightExample_noDeadEnds _, _, _, _, _, rfl, rfl⟩

/-! ### A production that divides the whole input in two ways

`S → X Y`, `X → a | a b`, `Y → b c | c`. -/
def divExample : Grammar Nat Nat Nat Unit :=
  ⟨0, [exRule 0 [(10, [.nonterm 1, .nonterm 2])],
    exRule 1 [(11, [.term 1]), (12, [.term 1, .term 2])],
    exRule 2 [(21, [.term 2, .term 3]), (22, [.term 3])]]⟩

theorem divExample_accepted : divExample.Accepted :=
  ⟨20, 0, [⟨0, [.addProd 10 () [.addNonterm 1, .addNonterm 2]]⟩,
    ⟨1, [.addProd 11 () [.addTerm 1], .addProd 12 () [.addTerm 1, .addTerm 2]]⟩,
    ⟨2, [.addProd 21 () [.addTerm 2, .addTerm 3], .addProd 22 () [.addTerm 3]]⟩], by decide⟩

/-- A parse of `a b c` to which C85 and C86 apply. -/
theorem divExample_parse : ∃ w' n, parse exampleSAddr divExample.wrapped 9
    (World.new : World Nat Nat Nat) 7 (exampleToks [1, 2, 3]) = .ok (w', some n) := ⟨_, _, rfl⟩

/-- The hypotheses of `parse_trees_not_spell` are met, with the divisions `a|bc` and `ab|c`. -/
theorem divExample_divides :
    kinds (exampleToks [1, 2, 3]) = [] ++ ([1] ++ [2, 3]) ++ [] ∧ [1] ++ [2, 3] = [1, 2] ++ [3] ∧
    divExample.cfg.Derives [.nonterm divExample.startSymbol] ([].map .term ++ .nonterm 0 :: [].map .term) ∧
    divExample.cfg.prod 0 ([.nonterm 1] ++ [.nonterm 2]) ∧
    divExample.cfg.Derives [.nonterm 1] ([1].map .term) ∧
    divExample.cfg.Derives [.nonterm 2] ([2, 3].map .term) ∧
    divExample.cfg.Derives [.nonterm 1] ([1, 2].map .term) ∧
    divExample.cfg.Derives [.nonterm 2] ([3].map .term) := by
  have hp : ∀ {A β}, divExample.cfg.prod A β ↔ (A = 0 ∧ β = [.nonterm 1, .nonterm 2]) ∨
      (A = 1 ∧ β = [.term 1]) ∨ (A = 1 ∧ β = [.term 1, .term 2]) ∨
      (A = 2 ∧ β = [.term 2, .term 3]) ∨ (A = 2 ∧ β = [.term 3]) := by
    intro A β
    simp [divExample, Grammar.cfg, exRule, or_assoc, or_and_right, exists_or, and_assoc]
    grind
  refine ⟨rfl, rfl, .refl _, hp.2 (by simp), Cfg.derives_prod (hp.2 (by simp)),
    Cfg.derives_prod (hp.2 (by simp)), Cfg.derives_prod (hp.2 (by simp)),
    Cfg.derives_prod (hp.2 (by simp))⟩

/-- A mixed tree of `a b c` that is not a derivation tree of it: `ab` and `bc`. -/
example : ∃ d, Mix divExample (exampleToks [1, 2, 3]) (.nonterm divExample.startSymbol) d ∧
    kinds d.yield = [1, 2, 2, 3] := by
  obtain ⟨-, -, -, h1, h2, h3, h4, h5⟩ := divExample_divides
  have hw := divExample_accepted.valid.toWF
  obtain ⟨q, hq, hh, hqe⟩ := (Grammar.cfg_prod_iff hw).1 h1
  obtain ⟨cs, c1, c2⟩ := mixAll_of_tokens (v := [(⟨1, 100⟩ : Token Nat Nat), ⟨2, 101⟩]) hw h4
  obtain ⟨ds, d1, d2⟩ := mixAll_of_tokens (v := [(⟨2, 101⟩ : Token Nat Nat), ⟨3, 102⟩]) hw h3
  have hm := Mix.of_two (k := 1) (x := [(⟨1, 100⟩ : Token Nat Nat), ⟨2, 101⟩]) (y := [⟨3, 102⟩])
    (x' := [⟨1, 100⟩]) (y' := [⟨2, 101⟩, ⟨3, 102⟩]) hq rfl (by rw [hqe]; exact c1)
    (by rw [hqe]; exact h5) (by rw [hqe]; exact h2) (by rw [hqe]; exact d1)
  rw [hh] at hm
  refine ⟨_, hm, ?_⟩
  rw [DTree.yield, DTree.yields_append, c2, d2]; rfl
end Bongo
