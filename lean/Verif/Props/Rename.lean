import Verif.Proof.RenameReads
import Verif.Props.Mix
import Verif.Props.Earley
import Verif.Props.SameForest
/-!
# C127: names and orders of the user's types do not matter
-/
set_option linter.unusedSectionVars false
namespace Bongo
open Std
variable {T NT AK AV V T' NT' AK' AV' V' : Type}
variable [Ord T] [Ord NT] [Ord AK] [Ord V] [DecidableEq T] [DecidableEq NT]
variable [TransOrd T] [TransOrd NT] [TransOrd AK] [TransOrd V]
variable [LawfulEqOrd T] [LawfulEqOrd NT] [LawfulEqOrd AK] [LawfulEqOrd V]
variable [Ord T'] [Ord NT'] [Ord AK'] [Ord V'] [DecidableEq T'] [DecidableEq NT']
variable [TransOrd T'] [TransOrd NT'] [TransOrd AK'] [TransOrd V']
variable [LawfulEqOrd T'] [LawfulEqOrd NT'] [LawfulEqOrd AK'] [LawfulEqOrd V']

section forest
variable {fT : T → T'} {fA : AK → AK'} {fV : V → V'}

/-- C127 for trees: any sequence of calls can be made with other kinds, actions and values, ordered in
any other way; all the handles that are returned are the same ones, and all answers are the same up to
the names, those of the sequence and those of every further call. -/
theorem calls_renamed (hT : ∀ a b, fT a = fT b → a = b) (hA : ∀ a b, fA a = fA b → a = b)
    (hV : ∀ a b, fV a = fV b → a = b) {log : TreeLog T AK V} {w : World T AK V} {held : List Handle}
    (hist : History log w held) :
    ∃ w' : World T' AK' V', History (log.renamed fT fA fV) w' held ∧ w.AnswersAs fT fA fV w' := by
  have hi : RenInj fT fA fV := .of_inj hT hA hV
  obtain ⟨w', h1, h2⟩ := history_worldRen hi hist
  exact ⟨w', h1, fun op => (h2.exec hi op).2⟩

end forest

section parse
variable {ρ : Renaming T NT AK AV T' NT' AK' AV'} {fV : V → V'}
variable {g : Grammar T NT AK AV} {g' : Grammar T' NT' AK' AV'}
variable {addr : StartNonTerminal NT → Nat → Nat} {addr' : StartNonTerminal NT' → Nat → Nat}

/-- C127 for `parse`: with the renamed grammar, the renamed tokens and the renamed tree, `parse` does the
same.  It returns the same (up to the names in the tree), panics the same, or runs on the same; the
types may be ordered in any other way.  (The grammars are laid out in memory in the same way; see the
next theorem for other layouts.) -/
theorem parse_renamed (hg : g.Accepted) (hg' : g'.Accepted) (hρ : ρ.Injective)
    (hV : ∀ a b, fV a = fV b → a = b) (hr : g.RenamedTo ρ g')
    (ha : ∀ A i, addr' (ρ.start.nonterm A) i = addr A i) {log : TreeLog T AK V} {w : World T AK V}
    {w' : World T' AK' V'} {held held' : List Handle} (hist : History log w held)
    (hist' : History (log.renamed ρ.term ρ.key fV) w' held') (t fuel : Nat) (toks : List (Token T V)) :
    (∀ w₁ n, parse addr g.wrapped fuel w t toks = .ok (w₁, n) →
      ∃ w₁', parse addr' g'.wrapped fuel w' t (toks.map (Token.renamed ρ.term fV)) = .ok (w₁', n) ∧
        w₁.AnswersAs ρ.term ρ.key fV w₁') ∧
    (∀ p, parse addr g.wrapped fuel w t toks = .panic p ↔
      parse addr' g'.wrapped fuel w' t (toks.map (Token.renamed ρ.term fV)) = .panic p) ∧
    (parse addr g.wrapped fuel w t toks = .oof ↔
      parse addr' g'.wrapped fuel w' t (toks.map (Token.renamed ρ.term fV)) = .oof) := by
  have hi : RenInj ρ.term ρ.key fV := .of_inj hρ.term hρ.key hV
  have := parse_worldRen hg hg' hρ.toSymInjective hi hr ha (worldRen_of_histories hi hist hist') t fuel toks
  rcases this.out with ⟨a, b, e1, e2, r1, r2⟩ | ⟨p, e1, e2⟩ | ⟨e1, e2⟩ <;> rw [e1, e2]
  · refine ⟨fun w₁ n h => ?_, fun p => by simp, by simp⟩
    cases h
    obtain ⟨b1, b2⟩ := b
    simp only at r2
    subst r2
    exact ⟨b1, rfl, fun op => (r1.exec hi op).2⟩
  · exact ⟨fun w₁ n h => (by cases h), fun p => (by simp), (by simp)⟩
  · exact ⟨fun w₁ n h => (by cases h), fun p => (by simp), (by simp)⟩

/-- C127 for `parse` in general: wherever the grammars lie in memory and whatever trees and calls there
were before, on either side, a call with the renamed grammar and tokens panics in the same way, returns
`None` in both cases, or returns `Some` in both. -/
theorem parse_renamed_outcome (hg : g.Accepted) (hg' : g'.Accepted) (hρ : ρ.Injective)
    (hV : ∀ a b, fV a = fV b → a = b) (hr : g.RenamedTo ρ g') (ha : AddrPlaced g.wrapped addr)
    (ha' : AddrPlaced g'.wrapped addr') {log : TreeLog T AK V} {log' : TreeLog T' AK' V'} {w : World T AK V}
    {w' : World T' AK' V'} {held held' : List Handle} (hist : History log w held)
    (hist' : History log' w' held') (t t' : Nat) (toks : List (Token T V)) :
    ∃ N, ∀ fuel, N ≤ fuel → (parse addr g.wrapped fuel w t toks).mapOut (fun r => r.2.isSome) =
      (parse addr' g'.wrapped fuel w' t' (toks.map (Token.renamed ρ.term fV))).mapOut
        (fun r => r.2.isSome) := by
  have hi : RenInj ρ.term ρ.key fV := .of_inj hρ.term hρ.key hV
  obtain ⟨addr₀, h1, h2⟩ := hr.wrapped.placed (fun a b => Renaming.start_nonterm_inj hρ.toSymInjective) ha
  obtain ⟨w₀, h3, h4⟩ := history_worldRen (T' := T') (AK' := AK') (V' := V') hi hist
  obtain ⟨N, hN⟩ := parse_layout_independent hg' h2.addrInj ha'.addrInj h3 hist' t t'
    (toks.map (Token.renamed ρ.term fV))
  refine ⟨N, fun fuel hf => ?_⟩
  rw [← hN fuel hf]
  rcases (parse_worldRen hg hg' hρ.toSymInjective hi hr h1 h4 t fuel toks).out with
    ⟨a, b, e1, e2, r1, r2⟩ | ⟨p, e1, e2⟩ | ⟨e1, e2⟩ <;> rw [e1, e2]
  · simp only [Res.mapOut, r2]
  · rfl
  · rfl

/-- C127 for the returned forests: the trees that can be read off the node returned for the renamed
grammar and tokens are the renamed ones of those that can be read off the node returned for the
original ones. -/
theorem parse_renamed_reads (hg : g.Accepted) (hg' : g'.Accepted) (hρ : ρ.Injective)
    (hV : ∀ a b, fV a = fV b → a = b) (hr : g.RenamedTo ρ g') (ha : AddrPlaced g.wrapped addr)
    (ha' : AddrPlaced g'.wrapped addr') {log : TreeLog T AK V} {log' : TreeLog T' AK' V'}
    {w w₁ : World T AK V} {w' w₁' : World T' AK' V'} {held held' : List Handle} (hist : History log w held)
    (hist' : History log' w' held') {t t' fuel fuel' : Nat} {toks : List (Token T V)} {n n' : Node}
    (h : parse addr g.wrapped fuel w t toks = .ok (w₁, some n))
    (h' : parse addr' g'.wrapped fuel' w' t' (toks.map (Token.renamed ρ.term fV)) = .ok (w₁', some n'))
    (s' : DTree (Token T' V') AK') :
    Reads w₁' s' n' ↔ ∃ s, s' = s.renamed ρ.term ρ.key fV ∧ Reads w₁ s n := by
  have hi : RenInj ρ.term ρ.key fV := .of_inj hρ.term hρ.key hV
  obtain ⟨addr₀, h1, h2⟩ := hr.wrapped.placed (fun a b => Renaming.start_nonterm_inj hρ.toSymInjective) ha
  obtain ⟨w₀, h3, h4⟩ := history_worldRen (T' := T') (AK' := AK') (V' := V') hi hist
  rcases (parse_worldRen hg hg' hρ.toSymInjective hi hr h1 h4 t fuel toks).out with
    ⟨a, b, e1, e2, r1, r2⟩ | ⟨p, e1, e2⟩ | ⟨e1, e2⟩
  · rw [h] at e1
    cases e1
    obtain ⟨b1, b2⟩ := b
    simp only at r2
    subst r2
    have hm := parse_forest_layout_independent hg' h2 ha' h3 hist' e2 h' s'
    rw [← hm]
    have hx := WorldRen.reads hi r1
    constructor
    · exact hx.2 s' n
    · rintro ⟨s, rfl, hs⟩
      exact hx.1 s n hs
  · rw [h] at e1; cases e1
  · rw [h] at e1; cases e1
end parse

/-! ## An example: everything turned around -/

/-- `n - a` for the first numbers. -/
def turn (n a : Nat) : Nat := if a ≤ n then n - a else a

theorem turn_inj (n : Nat) : ∀ a b, turn n a = turn n b → a = b := by
  intro a b h
  unfold turn at h
  split at h <;> split at h <;> omega

def turnRenaming : Renaming Nat Nat Nat Unit Nat Nat Nat Unit := ⟨turn 9, turn 3, turn 40, id⟩

theorem turnRenaming_injective : turnRenaming.Injective := ⟨⟨turn_inj 9, turn_inj 3⟩, turn_inj 40⟩

/-- `splitExample` with the order of all names turned around: its rules come in the opposite order. -/
def turnedExample : Grammar Nat Nat Nat Unit :=
  ⟨3, [exRule 0 [(9, [.term 4])],
    exRule 1 [(19, [.term 7, .term 6]), (18, [.term 6]), (17, [.term 7, .term 6, .term 5])],
    exRule 2 [(29, [.term 8]), (28, [.term 8, .term 7])],
    exRule 3 [(30, [.nonterm 2, .nonterm 1, .nonterm 0])]]⟩

theorem turnedExample_accepted : turnedExample.Accepted :=
  ⟨20, 3, [⟨3, [.addProd 30 () [.addNonterm 2, .addNonterm 1, .addNonterm 0]]⟩,
    ⟨2, [.addProd 29 () [.addTerm 8], .addProd 28 () [.addTerm 8, .addTerm 7]]⟩,
    ⟨1, [.addProd 19 () [.addTerm 7, .addTerm 6], .addProd 18 () [.addTerm 6],
        .addProd 17 () [.addTerm 7, .addTerm 6, .addTerm 5]]⟩,
    ⟨0, [.addProd 9 () [.addTerm 4]]⟩], by decide⟩

theorem turnedExample_renamed : splitExample.RenamedTo turnRenaming turnedExample := by
  have h : turnedExample.rules = (splitExample.rules.map turnRenaming.rule).reverse := by decide
  refine ⟨by decide, fun r' => ?_⟩
  rw [h, List.mem_reverse, List.mem_map]
  constructor
  · rintro ⟨r, hr, rfl⟩; exact ⟨r, hr, rfl⟩
  · rintro ⟨r, hr, rfl⟩; exact ⟨r, hr, rfl⟩

/-- The hypotheses of the theorems are met, and the parse is not trivial: the two forests are numbered in
different ways (the layouts differ), and the tree of `splitTree_reads` has its counterpart. -/
example : ∃ w₁' n', parse exampleSAddr turnedExample.wrapped 9 (World.new : World Nat Nat Nat) 7
      ((exampleToks [1, 2, 3, 4, 5]).map (Token.renamed turnRenaming.term (turn 200))) =
        .ok (w₁', some n') ∧
    Reads w₁' (splitTree.renamed turnRenaming.term turnRenaming.key (turn 200)) n' := by
  obtain ⟨w₁', n', h⟩ : ∃ w₁' n', parse exampleSAddr turnedExample.wrapped 9 (World.new : World Nat Nat Nat)
      7 ((exampleToks [1, 2, 3, 4, 5]).map (Token.renamed turnRenaming.term (turn 200))) =
        .ok (w₁', some n') := ⟨_, _, rfl⟩
  refine ⟨w₁', n', h, ?_⟩
  exact (parse_renamed_reads splitExample_accepted turnedExample_accepted turnRenaming_injective
    (turn_inj 200) turnedExample_renamed (exampleSAddr_placed _ (by decide))
    (exampleSAddr_placed _ (by decide)) History.start History.start
    (splitExample_parse_world (le_refl 9)) h _).2 ⟨splitTree, rfl, splitTree_reads⟩

/-- With the same layout on both sides (each rule of the one where its counterpart is) `parse` returns the
same node, although the kinds, actions and values come in the opposite order. -/
example : ∃ addr', (∀ A i, addr' (turnRenaming.start.nonterm A) i = exampleSAddr A i) ∧
    ∃ w₁', parse addr' turnedExample.wrapped 9 (World.new : World Nat Nat Nat) 7
      ((exampleToks [1, 2, 3, 4, 5]).map (Token.renamed turnRenaming.term (turn 200))) =
        .ok (w₁', some ⟨26, 7⟩) := by
  obtain ⟨addr', h1, -⟩ := turnedExample_renamed.wrapped.placed
    (fun a b => Renaming.start_nonterm_inj turnRenaming_injective.toSymInjective)
    (exampleSAddr_placed splitExample.wrapped (by decide))
  refine ⟨addr', h1, ?_⟩
  obtain ⟨w₁', h2, -⟩ := (parse_renamed splitExample_accepted turnedExample_accepted turnRenaming_injective
    (turn_inj 200) turnedExample_renamed h1 History.start History.start 7 9 _).1 _ _
    (splitExample_parse_world (le_refl 9))
  exact ⟨w₁', h2⟩

/-- Names must stay different: if the two terminals are given one name, the node for the input stands for
more. -/
example : ∃ w n, parse exampleSAddr (⟨0, [exRule 0 [(1, [.term 1]), (2, [.term 2])]]⟩ :
      Grammar Nat Nat Nat Unit).wrapped 9 (World.new : World Nat Nat Nat) 7 (exampleToks [1]) =
        .ok (w, some n) ∧ w.alts n = .ok [⟨1, 7⟩] ∧
    ∃ w' n', parse exampleSAddr (⟨0, [exRule 0 [(1, [.term 1]), (2, [.term 1])]]⟩ :
      Grammar Nat Nat Nat Unit).wrapped 9 (World.new : World Nat Nat Nat) 7 (exampleToks [1]) =
        .ok (w', some n') ∧ w'.alts n' = .ok [⟨1, 7⟩, ⟨2, 7⟩] := by
  exact ⟨_, _, rfl, rfl, _, _, rfl, rfl⟩
end Bongo
