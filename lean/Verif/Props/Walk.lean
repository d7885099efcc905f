import Verif.Proof.Walk
import Verif.Props.Mix
import Verif.Props.LL1
/-!
# C108: walking down the forest that `parse` returns

A program that looks at a forest goes from a node to its alternatives and from a branch to its nodes.
The nodes are shared and may be part of a cycle, so the program may never come to an end.
-/
set_option linter.unusedSectionVars false
namespace Bongo
open Std
variable {T NT AK AV V : Type}
variable [Ord T] [Ord NT] [Ord AK] [Ord V] [DecidableEq T] [DecidableEq NT]
variable [TransOrd T] [TransOrd NT] [TransOrd AK] [TransOrd V]
variable [LawfulEqOrd T] [LawfulEqOrd NT] [LawfulEqOrd AK] [LawfulEqOrd V]
variable {addr : StartNonTerminal NT → Nat → Nat} {g : Grammar T NT AK AV}

/-- C108: every walk down from the returned node ends exactly if finitely many trees can be read off
it. -/
theorem parse_walk_ends_iff (hg : g.Accepted) (ha : AddrInj g.wrapped addr) {log : TreeLog T AK V}
    {w w' : World T AK V} {held : List Handle} (hist : History log w held) {t fuel : Nat}
    {toks : List (Token T V)} {n : Node} (h : parse addr g.wrapped fuel w t toks = .ok (w', some n)) :
    w'.WalkEnds n ↔ {s : DTree (Token T V) AK | Reads w' s n}.Finite := by
  rw [walkEnds_iff_acc]
  refine ⟨reads_finite_of_acc, ?_⟩
  have hw := hg.valid.toWF
  obtain ⟨I, m, h1, rfl, h2⟩ := parse_ok_iff h
  cases m with
  | none => cases h2
  | some m =>
    cases h2
    obtain ⟨sets, last, L, r1, r2, r3, ⟨h, -⟩ | ⟨_, hk, r4⟩⟩ :=
      parseInner_ok hw ha (unitLabel g.wrapped toks) (hist.inv.wf t) h1
    · cases h
    · cases hk
      have hlast := r1.sets toks.length last (by rw [← r2]; simp)
      have hL := (hlast.entry _ r4).2.2 0 m rfl
      have ht : Typed (unitLabel g.wrapped toks) (w t).nodes.length ((w.set t I) t) L := by
        rw [World.set_self]; exact r1.typed
      exact acc_of_reads_finite (R := fun n => n.tree = t ∧ ∃ ℓ, L n.index ℓ)
        (fun n m hn hm => ht.child hn hm)
        (by rintro ⟨x, t'⟩ ⟨rfl, hx⟩; exact ht.has_tree x hx) ⟨rfl, _, hL⟩

/-- C108: if every walk down from the returned node ends, the input has finitely many derivation
trees. -/
theorem parse_walk_ends_trees (hg : g.Accepted) (ha : AddrInj g.wrapped addr) {log : TreeLog T AK V}
    {w w' : World T AK V} {held : List Handle} (hist : History log w held) {t fuel : Nat}
    {toks : List (Token T V)} {n : Node} (h : parse addr g.wrapped fuel w t toks = .ok (w', some n))
    (he : w'.WalkEnds n) : (g.treesOf toks).Finite := by
  have hf := (parse_walk_ends_iff hg ha hist h).1 he
  obtain ⟨B, hB⟩ := (hf.image DTree.size).bddAbove
  refine treesOf_finite_iff.2 ⟨B, ?_⟩
  rintro d ⟨h1, h2⟩
  have := hB ⟨_, parse_all_trees hg ha hist h h1 h2, rfl⟩
  rwa [DTree.size_mapNodes] at this

/-- C108, as far as it is true: if productions divide the parts of the input in one way only, and the
input has finitely many derivation trees, every walk down from the returned node ends.  (The full
statement, without the first condition, is false: see `parse_walk_endless`.) -/
theorem parse_walk_ends_partial (hg : g.Accepted) (ha : AddrInj g.wrapped addr)
    {log : TreeLog T AK V} {w w' : World T AK V} {held : List Handle} (hist : History log w held)
    {t fuel : Nat} {toks : List (Token T V)} {n : Node}
    (h : parse addr g.wrapped fuel w t toks = .ok (w', some n)) (hsplit : g.SplitsOnce (kinds toks))
    (hfin : (g.treesOf toks).Finite) : w'.WalkEnds n := by
  rw [parse_walk_ends_iff hg ha hist h]
  refine (hfin.image (DTree.mapNodes (·.actionKey))).subset ?_
  intro s hs
  obtain ⟨d, hd, rfl, -⟩ := parse_trees_grammatical hg ha hist h hs
  have hy := parse_trees_spell_partial hg ha hist hsplit h hs
  rw [DTree.yield_mapNodes] at hy
  exact ⟨d, ⟨hd, hy⟩, rfl⟩

/-! ### Which inputs have finitely many derivation trees -/

/-- If no nonterminal derives itself, every input has finitely many derivation trees. -/
theorem acyclic_trees_finite (hg : g.Accepted) (hac : g.Acyclic) (toks : List (Token T V)) :
    (g.treesOf toks).Finite := trees_finite_of_acyclic hg.valid.toWF hac _ _

/-- Otherwise, and if the grammar has no useless nonterminals, some input has infinitely many. -/
theorem cyclic_trees_infinite [Nonempty V] (hg : g.Accepted) (hr : g.AllReached) (hd : g.NoDeadEnds)
    (hac : ¬ g.Acyclic) : ∃ toks : List (Token T V), ¬ (g.treesOf toks).Finite := by
  have hw := hg.valid.toWF
  unfold Grammar.Acyclic at hac
  simp only [Classical.not_forall, Classical.not_not] at hac
  obtain ⟨A, β, hp, hcyc⟩ := hac
  obtain ⟨γ, δ, hctx⟩ := hr A β hp
  obtain ⟨v, hv⟩ := hd _ hctx
  obtain ⟨v0⟩ := ‹Nonempty V›
  let toks : List (Token T V) := v.map fun a => ⟨a, v0⟩
  have hk : toks.map (·.kind) = v := by simp [toks, List.map_map, Function.comp_def]
  obtain ⟨cs, c1, c2⟩ := forest_of_yields (kind := fun x : Token T V => x.kind) hw
    (Cfg.yields_iff.2 hv) toks hk
  obtain ⟨a, b, rfl, k1, k2⟩ := c1.split
  obtain ⟨q, hq, rfl, rfl⟩ := (Grammar.cfg_prod_iff hw).1 hp
  refine ⟨toks, ?_⟩
  intro hfin
  obtain ⟨B, hB⟩ := treesOf_finite_iff.1 hfin
  generalize hE : (Elem.nonterm q.head :: δ) = E at k2
  cases k2 with
  | nil => cases hE
  | cons h1 h2 =>
    rename_i c b'
    simp only [List.cons.injEq] at hE
    obtain ⟨rfl, rfl⟩ := hE
    have pump : ∀ k, ∃ d : DTree (Token T V) (Prod T NT AK AV),
        IsTree g (·.kind) (.nonterm q.head) d ∧ d.yield = c.yield ∧ k ≤ d.size := by
      intro k
      induction k with
      | zero => exact ⟨c, h1, rfl, Nat.zero_le _⟩
      | succ k ih =>
        obtain ⟨d, d1, d2, d3⟩ := ih
        obtain ⟨cs', m1, m2, m3⟩ := forest_above hw hcyc [d] (.cons d1 .nil)
        refine ⟨.node q cs', .node q cs' hq m1, ?_, ?_⟩
        · rw [DTree.yield, m2, ← d2]; simp [DTree.yields]
        · simp only [DTree.sizes] at m3
          rw [DTree.size]; omega
    obtain ⟨d, d1, d2, d3⟩ := pump (B + 1)
    obtain ⟨cs', m1, m2, m3⟩ := forest_above hw hctx (a ++ d :: b') (k1.append (IsForest.cons d1 h2))
    cases m1 with
    | cons m1 m0 =>
      cases m0
      rename_i r
      have := hB r ⟨m1, by
        have e : DTree.yields [r] = r.yield := by simp [DTree.yields]
        rw [← e, m2, ← c2]
        simp only [DTree.yields_append, DTree.yields, d2]⟩
      simp only [DTree.sizes_append, DTree.sizes] at m3
      omega

/-- C108 for grammars in which no nonterminal derives itself and productions divide words in one way
only. -/
theorem acyclic_walk_ends (hg : g.Accepted) (ha : AddrInj g.wrapped addr)
    {log : TreeLog T AK V} {w w' : World T AK V} {held : List Handle} (hist : History log w held)
    {t fuel : Nat} {toks : List (Token T V)} {n : Node}
    (h : parse addr g.wrapped fuel w t toks = .ok (w', some n)) (hf : g.PrefixFreeInside)
    (hac : g.Acyclic) : w'.WalkEnds n :=
  parse_walk_ends_partial hg ha hist h (prefixFree_splits_once hg hf _) (acyclic_trees_finite hg hac _)

/-- An unambiguous grammar has one derivation tree at most for an input. -/
theorem unambiguous_trees_finite (hu : g.Unambiguous) (toks : List (Token T V)) :
    (g.treesOf toks).Finite := by
  refine Set.Subsingleton.finite ?_
  rintro d ⟨h1, h2⟩ d' ⟨h1', h2'⟩
  have he := hu _ _ h1.mapLeaves h1'.mapLeaves
    (by rw [DTree.yield_mapLeaves, DTree.yield_mapLeaves, h2, h2'])
  exact (DTree.eq_of_mapLeaves _ d d' [] [] he (by rw [h2, h2'])).1

/-- C108 for unambiguous grammars without dead ends. -/
theorem unambiguous_walk_ends (hg : g.Accepted) (ha : AddrInj g.wrapped addr)
    {log : TreeLog T AK V} {w w' : World T AK V} {held : List Handle} (hist : History log w held)
    {t fuel : Nat} {toks : List (Token T V)} {n : Node}
    (h : parse addr g.wrapped fuel w t toks = .ok (w', some n)) (hu : g.Unambiguous)
    (hd : g.NoDeadEnds) : w'.WalkEnds n :=
  parse_walk_ends_partial hg ha hist h (splits_of_unambiguous hg.valid.toWF hu hd _)
    (unambiguous_trees_finite hu _)

/-- C108 for grammars whose productions are told apart by one token. -/
theorem ll1_walk_ends (hg : g.Accepted) (ha : AddrInj g.wrapped addr)
    {log : TreeLog T AK V} {w w' : World T AK V} {held : List Handle} (hist : History log w held)
    {t fuel : Nat} {toks : List (Token T V)} {n : Node}
    (h : parse addr g.wrapped fuel w t toks = .ok (w', some n)) (hl : g.LL1) : w'.WalkEnds n :=
  parse_walk_ends_partial hg ha hist h (prefixFree_splits_once hg (ll1_prefixFree hg hl) _)
    (unambiguous_trees_finite (ll1_unambiguous hg hl) _)

/-- No nonterminal derives itself if no production is empty or a single nonterminal. -/
theorem acyclic_of_no_units (hg : g.Accepted)
    (h : ∀ p ∈ g.prods, p.elements ≠ [] ∧ ∀ B, p.elements ≠ [.nonterm B]) : g.Acyclic := by
  have hw := hg.valid.toWF
  have hlen : ∀ {γ δ}, g.cfg.Derives γ δ → γ.length ≤ δ.length := by
    intro γ δ hd
    unfold Cfg.Derives at hd
    induction hd with
    | refl => exact Nat.le_refl _
    | tail _ hs ih =>
      cases hs with
      | mk u v A β hp =>
        obtain ⟨q, hq, rfl, rfl⟩ := (Grammar.cfg_prod_iff hw).1 hp
        have := List.length_pos_iff.2 (h q hq).1
        simp only [List.length_append, List.length_cons] at ih ⊢
        omega
  intro A β hp hd
  obtain ⟨q, hq, rfl, rfl⟩ := (Grammar.cfg_prod_iff hw).1 hp
  have h1 := hlen hd
  have h2 := h q hq
  generalize q.elements = l at h1 h2 hd
  match l with
  | [] => exact h2.1 rfl
  | [.term a] => have := Cfg.derives_term hd; simp at this
  | [.nonterm B] => exact h2.2 B rfl
  | _ :: _ :: _ => simp at h1

/-! ### A forest with a cycle

`N → X c | v`, `X → N M`, `M → b c b | b`, with `v`, `b`, `c` numbered 1, 2, 3. -/
def walkExample : Grammar Nat Nat Nat Unit :=
  ⟨0, [exRule 0 [(10, [.nonterm 1, .term 3]), (11, [.term 1])],
    exRule 1 [(12, [.nonterm 0, .nonterm 2])],
    exRule 2 [(13, [.term 2, .term 3, .term 2]), (14, [.term 2])]]⟩

theorem walkExample_accepted : walkExample.Accepted :=
  ⟨20, 0, [⟨0, [.addProd 10 () [.addNonterm 1, .addTerm 3], .addProd 11 () [.addTerm 1]]⟩,
    ⟨1, [.addProd 12 () [.addNonterm 0, .addNonterm 2]]⟩,
    ⟨2, [.addProd 13 () [.addTerm 2, .addTerm 3, .addTerm 2], .addProd 14 () [.addTerm 2]]⟩], by decide⟩

/-- The same with the productions of `M` added in the opposite order. -/
def walkExample' : Grammar Nat Nat Nat Unit :=
  ⟨0, [exRule 0 [(10, [.nonterm 1, .term 3]), (11, [.term 1])],
    exRule 1 [(12, [.nonterm 0, .nonterm 2])],
    exRule 2 [(14, [.term 2]), (13, [.term 2, .term 3, .term 2])]]⟩

theorem walkExample'_accepted : walkExample'.Accepted :=
  ⟨20, 0, [⟨0, [.addProd 10 () [.addNonterm 1, .addTerm 3], .addProd 11 () [.addTerm 1]]⟩,
    ⟨1, [.addProd 12 () [.addNonterm 0, .addNonterm 2]]⟩,
    ⟨2, [.addProd 14 () [.addTerm 2], .addProd 13 () [.addTerm 2, .addTerm 3, .addTerm 2]]⟩], by decide⟩

theorem walkExample_reordered : walkExample.Reordered walkExample' := by
  refine ⟨rfl, ?_⟩
  show List.Forall₂ _ [_, _, _] [_, _, _]
  exact .cons ⟨rfl, .refl _⟩ (.cons ⟨rfl, .refl _⟩ (.cons ⟨rfl, .swap _ _ _⟩ .nil))

theorem walkExample_acyclic : walkExample.Acyclic := by
  refine acyclic_of_no_units walkExample_accepted ?_
  have : walkExample.prods.map (·.elements) = [[.nonterm 1, .term 3], [.term 1], [.nonterm 0, .nonterm 2],
    [.term 2, .term 3, .term 2], [.term 2]] := rfl
  intro p hp
  have hm : p.elements ∈ walkExample.prods.map (·.elements) := List.mem_map.2 ⟨p, hp, rfl⟩
  rw [this] at hm
  simp only [List.mem_cons, List.not_mem_nil, or_false] at hm
  rcases hm with h | h | h | h | h <;> rw [h] <;> simp

/-- The tree after parsing `v b c b c`. -/
def walkInner : Inner Nat Nat Nat :=
  ⟨[[0], [1], [1, 6], [1], [1], [1], [1], [2], [2], [3], [4], [3], [4], [3], [5], [5], [6], [6], [6], [6],
    [6], [6], [7], [7], [7], [8, 9], [9], [10], [8], [9], [10], [8], [9], [11], [11], [12], [12], [12],
    [12], [12], [12]],
  ⟨[(.leaf 1 100, 0), (.leaf 2 101, 2), (.leaf 2 103, 7), (.leaf 3 102, 5), (.leaf 3 104, 11),
     (.branch 10 [10, 14], 6), (.branch 10 [27, 33], 12), (.branch 11 [0], 1), (.branch 12 [2, 9], 4),
     (.branch 12 [2, 25], 10), (.branch 13 [7, 15, 22], 8), (.branch 14 [8], 3), (.branch 14 [24], 9)],
   [.leaf 1 100, .branch 11 [0], .leaf 2 101, .branch 14 [8], .branch 12 [2, 9], .leaf 3 102,
     .branch 10 [10, 14], .leaf 2 103, .branch 13 [7, 15, 22], .branch 14 [24], .branch 12 [2, 25],
     .leaf 3 104, .branch 10 [27, 33]]⟩⟩

/-- The same with the productions of `M` added in the opposite order. -/
def walkInner' : Inner Nat Nat Nat :=
  ⟨[[0], [1], [1], [1], [1], [1], [1], [2], [2], [3], [4], [3], [4], [3], [5], [5], [6], [1, 6], [6], [6],
    [6], [6], [7], [7], [7], [8, 9], [9], [10], [8], [9], [10], [8], [9], [11], [11], [12], [12], [12],
    [12], [12], [12]],
  ⟨[(.leaf 1 100, 0), (.leaf 2 101, 2), (.leaf 2 103, 7), (.leaf 3 102, 5), (.leaf 3 104, 11),
     (.branch 10 [10, 14], 6), (.branch 10 [27, 33], 12), (.branch 11 [0], 1), (.branch 12 [2, 9], 4),
     (.branch 12 [17, 25], 10), (.branch 13 [8, 15, 23], 9), (.branch 14 [7], 3), (.branch 14 [22], 8)],
   [.leaf 1 100, .branch 11 [0], .leaf 2 101, .branch 14 [7], .branch 12 [2, 9], .leaf 3 102,
     .branch 10 [10, 14], .leaf 2 103, .branch 14 [22], .branch 13 [8, 15, 23], .branch 12 [17, 25],
     .leaf 3 104, .branch 10 [27, 33]]⟩⟩

theorem walkExample_parse {fuel : Nat} (h : 9 ≤ fuel) :
    parse exampleSAddr walkExample.wrapped fuel World.new 7 (exampleToks [1, 2, 3, 2, 3]) =
      .ok (World.new.set 7 walkInner, some ⟨35, 7⟩) := by
  have h9 : parse exampleSAddr walkExample.wrapped 9 World.new 7 (exampleToks [1, 2, 3, 2, 3]) =
      .ok (World.new.set 7 walkInner, some ⟨35, 7⟩) := by
    unfold parse
    have : parseInner exampleSAddr walkExample.wrapped 9 ((World.new : World Nat Nat Nat) 7)
      (exampleToks [1, 2, 3, 2, 3]) = .ok (walkInner, some 35) := by rfl
    rw [this]; rfl
  rw [parse_mono h (by rw [h9]; simp), h9]

theorem walkExample_parse' {fuel : Nat} (h : 9 ≤ fuel) :
    parse exampleSAddr walkExample'.wrapped fuel World.new 7 (exampleToks [1, 2, 3, 2, 3]) =
      .ok (World.new.set 7 walkInner', some ⟨35, 7⟩) := by
  have h9 : parse exampleSAddr walkExample'.wrapped 9 World.new 7 (exampleToks [1, 2, 3, 2, 3]) =
      .ok (World.new.set 7 walkInner', some ⟨35, 7⟩) := by
    unfold parse
    have : parseInner exampleSAddr walkExample'.wrapped 9 ((World.new : World Nat Nat Nat) 7)
      (exampleToks [1, 2, 3, 2, 3]) = .ok (walkInner', some 35) := by rfl
    rw [this]; rfl
  rw [parse_mono h (by rw [h9]; simp), h9]

/-- From the returned node to node 2, and then round. -/
theorem walkInner_endless : ¬ (World.new.set 7 walkInner).WalkEnds ⟨35, 7⟩ := by
  have edge : ∀ n m a ak ns, walkInner.Has n a → walkInner.altAt a = some (.branch ak ns) → m ∈ ns →
      (World.new.set 7 walkInner).Child ⟨m, 7⟩ ⟨n, 7⟩ := by
    intro n m a ak ns h1 h2 h3
    refine child_iff.2 ⟨rfl, a, ak, ns, ?_, ?_, h3⟩
    · rw [World.set_self]; exact h1
    · rw [World.set_self]; exact h2
  have e1 := edge 35 27 12 10 [27, 33] ⟨[12], rfl, by simp⟩ rfl (by simp)
  have e2 := edge 27 2 10 12 [2, 25] ⟨[10], rfl, by simp⟩ rfl (by simp)
  have e3 := edge 2 10 6 10 [10, 14] ⟨[1, 6], rfl, by simp⟩ rfl (by simp)
  have e4 := edge 10 2 4 12 [2, 9] ⟨[4], rfl, by simp⟩ rfl (by simp)
  intro h
  refine h ⟨fun i => match i with
    | 0 => ⟨35, 7⟩
    | 1 => ⟨27, 7⟩
    | i + 2 => if i % 2 = 0 then ⟨2, 7⟩ else ⟨10, 7⟩, rfl, ?_⟩
  intro i
  match i with
  | 0 => exact e1
  | 1 => exact e2
  | i + 2 =>
    simp only
    rcases Nat.mod_two_eq_zero_or_one i with h | h
    · have h' : (i + 1) % 2 = 1 := by omega
      simpa [h, h'] using e3
    · have h' : (i + 1) % 2 = 0 := by omega
      simpa [h, h'] using e4

theorem walkInner'_ends : (World.new.set 7 walkInner').WalkEnds ⟨35, 7⟩ := by
  have hdown : ∀ x s, walkInner'.nodes[x]? = some s → ∀ a ∈ s, ∀ ak ns,
      walkInner'.altAt a = some (.branch ak ns) → ∀ m ∈ ns, m < x := by
    have hall : ∀ x < 41, ∀ a ∈ (walkInner'.nodes[x]?).getD [],
        ∀ m ∈ (((walkInner'.altAt a).bind NodeContent.asBranch).map (·.2)).getD [], m < x := by
      decide +kernel
    intro x s hs a ha ak ns hb m hm
    have hx : x < 41 := (List.getElem?_eq_some_iff.1 hs).1
    refine hall x hx a (by rw [hs]; exact ha) m ?_
    rw [hb]; exact hm
  rw [walkEnds_iff_acc]
  have key : ∀ k x, x < k → Acc (World.new.set 7 walkInner').Child ⟨x, 7⟩ := by
    intro k
    induction k with
    | zero => intro x hx; omega
    | succ k ih =>
      intro x hx
      refine ⟨_, ?_⟩
      rintro ⟨m, t⟩ hm
      obtain ⟨rfl, a, ak, ns, ⟨s, h1, h2⟩, h3, h4⟩ := child_iff.1 hm
      simp only [World.set_self] at h1 h3
      exact ih m (by have := hdown x s h1 a h2 ak ns h3 m h4; omega)
  exact key 36 35 (by omega)

/-- C108 is false as stated: `parse` can return a node below which a walk does not end, although no
nonterminal derives itself, so that every input has finitely many derivation trees.  If the
productions of a rule are added in the opposite order it returns, for the same input, one below which
every walk ends. -/
theorem parse_walk_endless :
    ∃ (g g' : Grammar Nat Nat Nat Unit) (addr : StartNonTerminal Nat → Nat → Nat)
      (toks : List (Token Nat Nat)) (w₁ w₂ : World Nat Nat Nat) (n : Node),
      g.Accepted ∧ g'.Accepted ∧ g.Reordered g' ∧ AddrPlaced g.wrapped addr ∧
      AddrPlaced g'.wrapped addr ∧ (∀ v : List (Token Nat Nat), (g.treesOf v).Finite) ∧
      (∀ fuel, 9 ≤ fuel → parse addr g.wrapped fuel World.new 7 toks = .ok (w₁, some n) ∧
        parse addr g'.wrapped fuel World.new 7 toks = .ok (w₂, some n)) ∧
      ¬ w₁.WalkEnds n ∧ w₂.WalkEnds n :=
  ⟨walkExample, walkExample', exampleSAddr, exampleToks [1, 2, 3, 2, 3], _, _, _, walkExample_accepted,
    walkExample'_accepted, walkExample_reordered, exampleSAddr_placed _ (by decide),
    exampleSAddr_placed _ (by decide), acyclic_trees_finite walkExample_accepted walkExample_acyclic,
    fun _ h => ⟨walkExample_parse h, walkExample_parse' h⟩, walkInner_endless, walkInner'_ends⟩

/-- C108 for C87: whether every walk ends is the same wherever the arrays of the rules lie in memory. -/
theorem parse_walk_layout_independent (hg : g.Accepted)
    {addr' : StartNonTerminal NT → Nat → Nat} (ha : AddrPlaced g.wrapped addr)
    (ha' : AddrPlaced g.wrapped addr') {log₁ log₂ : TreeLog T AK V} {w₁ w₂ w₁' w₂' : World T AK V}
    {held₁ held₂ : List Handle} (hist₁ : History log₁ w₁ held₁) (hist₂ : History log₂ w₂ held₂)
    {t₁ t₂ fuel₁ fuel₂ : Nat} {toks : List (Token T V)} {n₁ n₂ : Node}
    (h₁ : parse addr g.wrapped fuel₁ w₁ t₁ toks = .ok (w₁', some n₁))
    (h₂ : parse addr' g.wrapped fuel₂ w₂ t₂ toks = .ok (w₂', some n₂)) :
    w₁'.WalkEnds n₁ ↔ w₂'.WalkEnds n₂ := by
  rw [parse_walk_ends_iff hg ha.addrInj hist₁ h₁, parse_walk_ends_iff hg ha'.addrInj hist₂ h₂]
  have : {s : DTree (Token T V) AK | Reads w₁' s n₁} = {s | Reads w₂' s n₂} :=
    Set.ext fun s => parse_forest_layout_independent hg ha ha' hist₁ hist₂ h₁ h₂ s
  rw [this]

/-- So infinitely many trees can be read off it. -/
theorem parse_trees_endless :
    ¬ {s : DTree (Token Nat Nat) Nat | Reads (World.new.set 7 walkInner) s ⟨35, 7⟩}.Finite :=
  fun h => walkInner_endless ((parse_walk_ends_iff walkExample_accepted (exampleSAddr_addrInj _) .start
    (walkExample_parse (Nat.le_refl 9))).2 h)

/-! ### The hypotheses are met -/

/-- Of `parse_walk_ends_iff`, `parse_walk_ends_trees`, `parse_walk_ends_partial` and
`unambiguous_walk_ends`. -/
example : ∃ w' n, parse exampleSAddr rightExample.wrapped 9 (World.new : World Nat Nat Nat) 7
    (exampleToks [1, 1, 2]) = .ok (w', some n) ∧ rightExample.Accepted ∧
    rightExample.SplitsOnce (kinds (exampleToks [1, 1, 2])) ∧
    (rightExample.treesOf (exampleToks [1, 1, 2])).Finite ∧ rightExample.Unambiguous ∧
    rightExample.NoDeadEnds ∧ w'.WalkEnds n := by
  have h : ∃ w' n, parse exampleSAddr rightExample.wrapped 9 (World.new : World Nat Nat Nat) 7
    (exampleToks [1, 1, 2]) = .ok (w', some n) := ⟨_, _, rfl⟩
  obtain ⟨w', n, h⟩ := h
  exact ⟨w', n, h, rightExample_accepted, splits_of_unambiguous rightExample_accepted.valid.toWF
    rightExample_unambiguous rightExample_noDeadEnds _, unambiguous_trees_finite rightExample_unambiguous _,
    rightExample_unambiguous, rightExample_noDeadEnds, unambiguous_walk_ends rightExample_accepted
      (exampleSAddr_addrInj _) .start h rightExample_unambiguous rightExample_noDeadEnds⟩

/-- Of `ll1_walk_ends` and `acyclic_walk_ends`. -/
example : ∃ w' n, parse exampleSAddr centreExample.wrapped 19 (World.new : World Nat Nat Nat) 7
    (exampleToks [1, 2, 1]) = .ok (w', some n) ∧ centreExample.LL1 ∧
    centreExample.PrefixFreeInside ∧ centreExample.Acyclic ∧ w'.WalkEnds n := by
  have h : ∃ w' n, parse exampleSAddr centreExample.wrapped 19 (World.new : World Nat Nat Nat) 7
    (exampleToks [1, 2, 1]) = .ok (w', some n) := ⟨_, _, rfl⟩
  obtain ⟨w', n, h⟩ := h
  refine ⟨w', n, h, centreExample_ll1, ll1_prefixFree centreExample_accepted centreExample_ll1, ?_,
    ll1_walk_ends centreExample_accepted (exampleSAddr_addrInj _) .start h centreExample_ll1⟩
  refine acyclic_of_no_units centreExample_accepted ?_
  intro p hp
  have hm : p.elements ∈ centreExample.prods.map (·.elements) := List.mem_map.2 ⟨p, hp, rfl⟩
  have : centreExample.prods.map (·.elements) = [[.term 1, .nonterm 0, .term 1], [.term 2]] := rfl
  rw [this] at hm
  simp only [List.mem_cons, List.not_mem_nil, or_false] at hm
  rcases hm with hm | hm <;> rw [hm] <;> simp

/-- `S → S | 2`: hypotheses of `cyclic_trees_infinite`. -/
def cycleExample : Grammar Nat Nat Nat Unit := ⟨0, [exRule 0 [(10, [.nonterm 0]), (11, [.term 2])]]⟩

theorem cycleExample_accepted : cycleExample.Accepted :=
  ⟨20, 0, [⟨0, [.addProd 10 () [.addNonterm 0], .addProd 11 () [.addTerm 2]]⟩], by decide⟩

theorem cycleExample_shape : cycleExample.AllReached ∧ ¬ cycleExample.Acyclic ∧ cycleExample.NoDeadEnds := by
  have hp : ∀ {A β}, cycleExample.cfg.prod A β ↔ A = 0 ∧ (β = [.nonterm 0] ∨ β = [.term 2]) := by
    intro A β
    simp [cycleExample, Grammar.cfg, exRule, and_assoc]
  refine ⟨?_, ?_, ?_⟩
  · intro A β h
    obtain ⟨rfl, -⟩ := hp.1 h
    exact ⟨[], [], .refl _⟩
  · intro h
    exact h 0 [.nonterm 0] (hp.2 ⟨rfl, Or.inl rfl⟩) (.refl _)
  · intro γ h
    have hγ : γ = [.nonterm 0] ∨ γ = [.term 2] := by
      unfold Cfg.Derives at h
      induction h with
      | refl => exact Or.inl rfl
      | tail _ hs ih =>
        cases hs with
        | mk u v A β h =>
          obtain ⟨rfl, hβ⟩ := hp.1 h
          rcases ih with ih | ih
          · rcases u with _ | ⟨x, u⟩
            · simp only [List.nil_append, List.cons.injEq] at ih
              obtain ⟨-, rfl⟩ := ih
              simpa using hβ
            · simp at ih
          · rcases u with _ | ⟨x, u⟩
            · simp at ih
            · simp at ih
    rcases hγ with rfl | rfl
    · exact ⟨[2], Cfg.derives_prod (hp.2 ⟨rfl, Or.inr rfl⟩)⟩
    · exact ⟨[2], .refl _⟩
end Bongo
