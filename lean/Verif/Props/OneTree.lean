import Verif.Props.EarleyExamples
/-!
# C95: one tree for unambiguous grammars
-/
set_option linter.unusedSectionVars false
namespace Bongo
open Std

namespace DTree
variable {L M P : Type}
mutual
theorem yield_mapLeaves (f : L → M) : (d : DTree L P) → (d.mapLeaves f).yield = d.yield.map f
  | .leaf l => by simp [mapLeaves, yield]
  | .node p cs => by rw [mapLeaves, yield, yield]; exact yields_mapLeaves f cs
theorem yields_mapLeaves (f : L → M) : (cs : List (DTree L P)) →
    yields (mapLeavesAll f cs) = (yields cs).map f
  | [] => by simp [mapLeavesAll, yields]
  | c :: cs => by
    rw [mapLeavesAll, yields, yields, yield_mapLeaves f c, yields_mapLeaves f cs, List.map_append]
end

mutual
/-- A tree is determined by its shape and its leaves. -/
theorem eq_of_mapLeaves (f : L → M) : (d d' : DTree L P) → (x x' : List L) →
    d.mapLeaves f = d'.mapLeaves f → d.yield ++ x = d'.yield ++ x' → d = d' ∧ x = x'
  | .leaf l, .leaf l', x, x', _, h2 => by
    simp only [yield, List.cons_append, List.nil_append, List.cons.injEq] at h2
    rw [h2.1]; exact ⟨rfl, h2.2⟩
  | .leaf _, .node _ _, _, _, h, _ => by simp [mapLeaves] at h
  | .node _ _, .leaf _, _, _, h, _ => by simp [mapLeaves] at h
  | .node p cs, .node p' cs', x, x', h, h2 => by
    simp only [mapLeaves, DTree.node.injEq] at h
    rw [yield, yield] at h2
    obtain ⟨rfl, h3⟩ := eqs_of_mapLeaves f cs cs' x x' h.2 h2
    rw [h.1]; exact ⟨rfl, h3⟩
theorem eqs_of_mapLeaves (f : L → M) : (cs cs' : List (DTree L P)) → (x x' : List L) →
    mapLeavesAll f cs = mapLeavesAll f cs' → yields cs ++ x = yields cs' ++ x' → cs = cs' ∧ x = x'
  | [], [], _, _, _, h2 => ⟨rfl, by simpa [yields] using h2⟩
  | [], _ :: _, _, _, h, _ => by simp [mapLeavesAll] at h
  | _ :: _, [], _, _, h, _ => by simp [mapLeavesAll] at h
  | c :: cs, c' :: cs', x, x', h, h2 => by
    simp only [mapLeavesAll, List.cons.injEq] at h
    rw [yields, yields, List.append_assoc, List.append_assoc] at h2
    obtain ⟨rfl, h3⟩ := eq_of_mapLeaves f c c' _ _ h.1 h2
    obtain ⟨rfl, h4⟩ := eqs_of_mapLeaves f cs cs' x x' h.2 h3
    exact ⟨rfl, h4⟩
end
end DTree

section
variable {T NT AK AV L : Type} {g : Grammar T NT AK AV} {kind : L → T}
mutual
theorem IsTree.mapLeaves {e : Elem T NT} : {d : DTree L (Prod T NT AK AV)} → IsTree g kind e d →
    IsTree g id e (d.mapLeaves kind)
  | _, .leaf l => by rw [DTree.mapLeaves]; exact IsTree.leaf (kind := id) (kind l)
  | _, .node p cs hp hc => by
    rw [DTree.mapLeaves]; exact IsTree.node p _ hp (IsForest.mapLeaves hc)
theorem IsForest.mapLeaves {es : List (Elem T NT)} : {cs : List (DTree L (Prod T NT AK AV))} →
    IsForest g kind es cs → IsForest g id es (DTree.mapLeavesAll kind cs)
  | _, .nil => by rw [DTree.mapLeavesAll]; exact .nil
  | _, .cons hc hcs => by
    rw [DTree.mapLeavesAll]; exact .cons (IsTree.mapLeaves hc) (IsForest.mapLeaves hcs)
end
end

variable {T NT AK AV V : Type}
variable [Ord T] [Ord NT] [Ord AK] [Ord V] [DecidableEq T] [DecidableEq NT]
variable [TransOrd T] [TransOrd NT] [TransOrd AK] [TransOrd V]
variable [LawfulEqOrd T] [LawfulEqOrd NT] [LawfulEqOrd AK] [LawfulEqOrd V]
variable {addr : StartNonTerminal NT → Nat → Nat} {g : Grammar T NT AK AV}

/-- C95: if the grammar is unambiguous (and every nonterminal it uses derives something), exactly one
tree can be read off the node that `parse` returns: the derivation tree of the input. -/
theorem parse_one_tree (hg : g.Accepted) (ha : AddrInj g.wrapped addr)
    {log : TreeLog T AK V} {w w' : World T AK V} {held : List Handle} (hist : History log w held)
    {t fuel : Nat} {toks : List (Token T V)} {n : Node} (hu : g.Unambiguous) (hd : g.NoDeadEnds)
    (h : parse addr g.wrapped fuel w t toks = .ok (w', some n)) :
    ∃ d : DTree (Token T V) (Prod T NT AK AV), IsTree g (·.kind) (.nonterm g.startSymbol) d ∧
      d.yield = toks ∧ ∀ s, Reads w' s n ↔ s = d.mapNodes (·.actionKey) := by
  have hw := hg.valid.toWF
  have hl := parse_some_in_language hg ha hist h
  obtain ⟨cs, hc, hy⟩ := forest_of_yields (kind := fun x : Token T V => x.kind) hw
    (Cfg.yields_iff.2 hl) toks rfl
  cases hc with
  | cons hc hn =>
    rename_i d cs
    cases hn
    simp only [DTree.yields, List.append_nil] at hy
    refine ⟨d, hc, hy, fun s => ⟨fun hs => ?_, ?_⟩⟩
    · obtain ⟨d', hd', rfl, -⟩ := parse_trees_grammatical hg ha hist h hs
      have hy' := parse_trees_spell_unambiguous hg ha hist hu hd h hs
      rw [DTree.yield_mapNodes] at hy'
      have he := hu _ _ hd'.mapLeaves hc.mapLeaves
        (by rw [DTree.yield_mapLeaves, DTree.yield_mapLeaves, hy, hy'])
      rw [(DTree.eq_of_mapLeaves _ d' d [] [] he (by rw [hy, hy'])).1]
    · rintro rfl
      exact parse_all_trees hg ha hist h hc hy

/-- Hypotheses of C95 are met. -/
example : ∃ I n, parse exampleSAddr rightExample.wrapped 9 (World.new : World Nat Nat Nat) 7
    (exampleToks [1, 1, 2]) = .ok (World.new.set 7 I, some n) ∧ rightExample.Accepted ∧
    AddrInj rightExample.wrapped exampleSAddr ∧ rightExample.Unambiguous ∧ rightExample.NoDeadEnds :=
  ⟨_, _, rfl, rightExample_accepted, exampleSAddr_addrInj _, rightExample_unambiguous, rightExample_noDeadEnds⟩
end Bongo
