import Verif.Proof.EarleyHistory
import Verif.Props.EarleyExamples
/-!
# C64, C65: what a parse does to the trees

`parse` changes the memory only as successful calls of the public tree operations on the tree it is
given would, so everything proved about histories of such calls (C33–C37) holds for programs that
parse, and the forests it returned before stay as they are.
-/
set_option linter.unusedSectionVars false
namespace Bongo
open Std
variable {T NT AK AV V : Type}
variable [Ord T] [Ord NT] [Ord AK] [Ord V] [DecidableEq T] [DecidableEq NT]
variable [TransOrd T] [TransOrd NT] [TransOrd AK] [TransOrd V]
variable [LawfulEqOrd T] [LawfulEqOrd NT] [LawfulEqOrd AK] [LawfulEqOrd V]
variable {addr : StartNonTerminal NT → Nat → Nat}

/-! ## C64 -/

/-- C64: a call of `parse` on any grammar that returns is a sequence of successful calls of
the tree operations on the given tree, each with handles obtained before; the node it returns is
among the handles obtained. -/
theorem parse_is_history {g : StartGrammar T NT AK AV} {log : TreeLog T AK V} {w w' : World T AK V}
    {held : List Handle} (hist : History log w held) {t fuel : Nat} (ht : ∃ h ∈ held, h.owner = t)
    {toks : List (Token T V)} {r : Option Node} (h : parse addr g fuel w t toks = .ok (w', r)) :
    ∃ new held', History (new ++ log) w' held' ∧ CallsOn t new ∧ (∀ x ∈ held, x ∈ held') ∧
      ∀ n, r = some n → .node n ∈ held' ∧ n.tree = t := by
  unfold parse at h
  cases hp : parseInner addr g fuel (w t) toks with
  | panic p => rw [hp] at h; cases h
  | oof => rw [hp] at h; cases h
  | ok x =>
    obtain ⟨I, n⟩ := x
    rw [hp] at h
    simp only [Res.ok.injEq, _root_.Prod.mk.injEq] at h
    obtain ⟨rfl, rfl⟩ := h
    have hw : w.set t (w t) = w := by
      funext t'
      simp only [World.set]
      split
      · next e => rw [e]
      · rfl
    have h0 : Hist log w t (w t) held :=
      ⟨⟨[], by rw [hw]; exact hist, by simp [CallsOn]⟩, ht⟩
    obtain ⟨held', ⟨⟨new, k1, k2⟩, -⟩, k3, k4⟩ := h0.parseInner hp
    refine ⟨new, held', k1, k2, k3, ?_⟩
    intro m hm
    cases n with
    | none => cases hm
    | some n => cases hm; exact ⟨k4 n rfl, rfl⟩

-- The parser is given a tree that already holds a forest.
example : ∃ w' n, parse exampleSAddr splitExample.wrapped 9 forestExample.2.1 7
      (exampleToks [1, 2, 3, 4, 5]) = .ok (w', some n) ∧
    History forestExample.1 forestExample.2.1 forestExample.2.2 ∧
    ∃ h ∈ forestExample.2.2, h.owner = 7 :=
  ⟨_, _, rfl, forestExample_history, by decide⟩

/-! ## C65 -/

section frame
variable {w w' : World T AK V}

mutual
theorem reads_frame
    (h1 : ∀ n : Node, n.index < (w n.tree).nodes.length → ∀ a, (w' n.tree).Has n.index a ↔
      (w n.tree).Has n.index a)
    (h2 : ∀ t n a, (w t).Has n a → (w' t).altAt a = (w t).altAt a)
    (h3 : ∀ t n a ak ns, (w t).Has n a → (w t).altAt a = some (.branch ak ns) →
      ∀ m ∈ ns, m < (w t).nodes.length) :
    ∀ (s : DTree (Token T V) AK) (n : Node), n.index < (w n.tree).nodes.length →
      (Reads w' s n ↔ Reads w s n)
  | .leaf tok, n, hn => by
    rw [reads_leaf, reads_leaf]
    constructor
    · rintro ⟨a, ha, hc⟩
      have ha' := (h1 n hn a).1 ha
      exact ⟨a, ha', by rw [← h2 _ _ _ ha']; exact hc⟩
    · rintro ⟨a, ha, hc⟩
      exact ⟨a, (h1 n hn a).2 ha, by rw [h2 _ _ _ ha]; exact hc⟩
  | .node ak cs, n, hn => by
    rw [reads_node, reads_node]
    constructor
    · rintro ⟨a, ns, ha, hc, hr⟩
      have ha' := (h1 n hn a).1 ha
      rw [h2 _ _ _ ha'] at hc
      refine ⟨a, ns, ha', hc, (readsAll_frame h1 h2 h3 cs _ ?_).1 hr⟩
      intro m hm
      obtain ⟨k, hk, rfl⟩ := List.mem_map.1 hm
      exact h3 _ _ _ _ _ ha' hc k hk
    · rintro ⟨a, ns, ha, hc, hr⟩
      refine ⟨a, ns, (h1 n hn a).2 ha, by rw [h2 _ _ _ ha]; exact hc,
        (readsAll_frame h1 h2 h3 cs _ ?_).2 hr⟩
      intro m hm
      obtain ⟨k, hk, rfl⟩ := List.mem_map.1 hm
      exact h3 _ _ _ _ _ ha hc k hk
theorem readsAll_frame
    (h1 : ∀ n : Node, n.index < (w n.tree).nodes.length → ∀ a, (w' n.tree).Has n.index a ↔
      (w n.tree).Has n.index a)
    (h2 : ∀ t n a, (w t).Has n a → (w' t).altAt a = (w t).altAt a)
    (h3 : ∀ t n a ak ns, (w t).Has n a → (w t).altAt a = some (.branch ak ns) →
      ∀ m ∈ ns, m < (w t).nodes.length) :
    ∀ (cs : List (DTree (Token T V) AK)) (ns : List Node),
      (∀ n ∈ ns, n.index < (w n.tree).nodes.length) → (ReadsAll w' cs ns ↔ ReadsAll w cs ns)
  | [], [], _ => by simp [ReadsAll]
  | [], _ :: _, _ => by simp [ReadsAll]
  | _ :: _, [], _ => by simp [ReadsAll]
  | c :: cs, n :: ns, hn => by
    rw [ReadsAll, ReadsAll, reads_frame h1 h2 h3 c n (hn n (by simp)),
      readsAll_frame h1 h2 h3 cs ns (fun m hm => hn m (by simp [hm]))]
end
end frame

/-- C65: the trees that can be read off a node obtained before a call of `parse`, by an earlier call
of `parse` or otherwise, are the same after it. -/
theorem parse_keeps_forests {g : Grammar T NT AK AV} (hg : g.Accepted) (ha : AddrInj g.wrapped addr)
    {log : TreeLog T AK V} {w w' : World T AK V} {held : List Handle} (hist : History log w held)
    {t fuel : Nat} {toks : List (Token T V)} {r : Option Node}
    (h : parse addr g.wrapped fuel w t toks = .ok (w', r)) {n : Node} (hn : .node n ∈ held)
    (s : DTree (Token T V) AK) : Reads w' s n ↔ Reads w s n := by
  have hw := hg.valid.toWF
  obtain ⟨I, m, h1, rfl, h2⟩ := parse_ok_iff h
  obtain ⟨sets, last, L, r1, -⟩ := parseInner_ok hw ha (unitLabel g.wrapped toks) (hist.inv.wf t) h1
  have hlt : ∀ t' n a, (w t').Has n a → ∃ c, (w t').altAt a = some c := by
    intro t' n a h
    obtain ⟨s, hs, hm⟩ := h
    have := (hist.inv.wf t').nodeAlts _ (List.mem_of_getElem? hs) a hm
    exact ⟨_, List.getElem?_eq_getElem this⟩
  refine reads_frame ?_ ?_ ?_ s n (hist.inv.handles _ hn)
  · intro n hn a
    by_cases e : n.tree = t
    · subst e
      rw [World.set_self]
      exact ⟨r1.ext.frame _ hn a, r1.ext.le.has _ a⟩
    · rw [World.set_other _ _ e]
  · intro t' n a hh
    by_cases e : t' = t
    · subst e
      obtain ⟨c, hc⟩ := hlt t' n a hh
      rw [World.set_self, hc]
      exact r1.ext.le.alts _ _ hc
    · rw [World.set_other _ _ e]
  · intro t' n a ak ns _ hc m hm
    exact (hist.inv.wf t').branchNodes _ _ _ hc m hm

/-- C65 for two calls of `parse`, with any two grammars, on one tree or two: what the first returned
can be read off the returned node after the second just as before it. -/
theorem parse_parse {g g' : Grammar T NT AK AV} {addr' : StartNonTerminal NT → Nat → Nat}
    (hg' : g'.Accepted) (ha' : AddrInj g'.wrapped addr')
    {log : TreeLog T AK V} {w w1 w2 : World T AK V} {held : List Handle} (hist : History log w held)
    {t t' fuel fuel' : Nat} {toks toks' : List (Token T V)} {n : Node} {r : Option Node}
    (ht : ∃ h ∈ held, h.owner = t) (h : parse addr g.wrapped fuel w t toks = .ok (w1, some n))
    (h' : parse addr' g'.wrapped fuel' w1 t' toks' = .ok (w2, r)) (s : DTree (Token T V) AK) :
    Reads w2 s n ↔ Reads w1 s n := by
  obtain ⟨new, held', k1, -, -, k4⟩ := parse_is_history hist ht h
  exact parse_keeps_forests hg' ha' k1 h' (k4 n rfl).1 s

-- Two parses into one tree.
example : ∃ w1 w2 n m, parse exampleSAddr splitExample.wrapped 9 (World.new : World Nat Nat Nat) 7
      (exampleToks [1, 2, 3, 4, 5]) = .ok (w1, some n) ∧
    parse exampleSAddr rightExample.wrapped 9 w1 7 (exampleToks [1, 1, 2]) = .ok (w2, some m) ∧
    History [] (World.new : World Nat Nat Nat) [.tree 7] :=
  ⟨_, _, _, _, splitExample_parse_world (by omega), rfl, .newOwner 7 .start (by simp)⟩
end Bongo
