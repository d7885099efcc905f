import Verif.Props.Firsts
import Verif.Props.Forest
import Verif.Props.Grammar
import Verif.Props.Lalr
import Verif.Props.LalrExamples
import Verif.Props.Lock
import Verif.Props.Pass
import Verif.Props.State
import Verif.Props.TokenStream
import Verif.Props.Utils
/-!
# What the code does exactly where it does not do what one would expect

Several properties (C04, C05, C10, C23, C37, C48, C53, C63) are false of the code.  The theorems here
say, as equivalences or complete case distinctions, what holds instead.
-/
set_option linter.unusedSectionVars false
namespace Bongo
open Std
variable {T NT AK AV V : Type}

section grammar
variable [Ord NT] [TransOrd NT] [LawfulEqOrd NT]

/-- C78: in an accepted grammar the reachable rules are the start symbol's and those whose head is
written in some production, no more and no less. -/
theorem rule_reachable_iff (g : Grammar T NT AK AV) (h : g.Accepted) (r : RuleInner T NT AK AV)
    (hr : r ∈ g.rules) :
    Relation.ReflTransGen g.cfg.Mentions g.startSymbol r.head ↔
      r.head = g.startSymbol ∨ ∃ p ∈ g.prods, Elem.nonterm r.head ∈ p.elements := by
  constructor
  · intro hreach
    rcases Relation.ReflTransGen.cases_tail hreach with h1 | ⟨B, -, β, hb, hm⟩
    · exact Or.inl h1
    · obtain ⟨p, hp, -, rfl⟩ := (Grammar.cfg_prod_iff h.valid.toWF).1 hb
      exact Or.inr ⟨p, hp, hm⟩
  · rintro (h1 | ⟨p, hp, hm⟩)
    · rw [h1]
    · rcases rules_reachable_partial g h r hr with h1 | h1
      · exact h1
      · exact absurd hm (h1 p hp)

/-- C79: in an accepted grammar `prod_key()` identifies the production if and only if the action keys
within each rule are distinct. -/
theorem prod_key_unique_iff (g : Grammar T NT AK AV) (h : g.Accepted) :
    (∀ p ∈ g.prods, ∀ q ∈ g.prods, p.prodKey = q.prodKey → p = q) ↔
      ∀ r ∈ g.rules, (r.prods.map (·.actionKey)).Nodup := by
  constructor
  · intro hu r hr
    have hwf := h.valid.toWF
    unfold Grammar.rules BMap.values at hr
    obtain ⟨⟨A, r'⟩, hm, rfl⟩ := List.mem_map.1 hr
    have hA := (Grammar.tryGetRule_iff hwf).2 hm
    have hget : ∀ (i : Nat) (x : ProdInner T NT AK AV), r'.prods[i]? = some x →
        (⟨A, i, x⟩ : Prod T NT AK AV) ∈ g.prods := by
      intro i x hx
      exact (Grammar.mem_prods hwf).2 ⟨r', hA, hx⟩
    rw [List.nodup_iff_injective_getElem]
    rintro ⟨i, hi⟩ ⟨j, hj⟩ hij
    simp only [List.length_map] at hi hj
    simp only [List.getElem_map] at hij
    have h1 := hget i _ (List.getElem?_eq_getElem hi)
    have h2 := hget j _ (List.getElem?_eq_getElem hj)
    have := hu _ h1 _ h2 (by simp [Prod.prodKey, Prod.actionKey, hij])
    simp only [Prod.mk.injEq] at this
    exact Fin.ext this.2.1
  · intro hd p hp q hq hk
    exact prod_key_unique_partial g h hd p q hp hq hk

-- Hypotheses of `rule_reachable_iff` and `prod_key_unique_iff`, with both sides true.
example : nullExample.Accepted ∧ 2 ≤ nullExample.rules.length ∧
    (∀ r ∈ nullExample.rules, (r.prods.map (·.actionKey)).Nodup) ∧
    ∀ r ∈ nullExample.rules, r.head = nullExample.startSymbol ∨
      ∃ p ∈ nullExample.prods, Elem.nonterm r.head ∈ p.elements :=
  ⟨nullExample_accepted, by decide, by decide, by decide⟩
end grammar

section passes
variable [Ord T] [TransOrd T] [LawfulEqOrd T] [Ord NT] [TransOrd NT] [LawfulEqOrd NT]

/-- C67: the exact outcome of the Follows pass.  It always ends; when the Nullable pass fails it
returns that error; otherwise it panics iff some production body has adjacent nonterminals `X Y`
where no production of `Y` has an element other than `Y` (after nullable `Y`s). -/
theorem follows_outcome (g : Grammar T NT AK AV) (hg : g.Accepted) (addr : NT → Nat → Nat)
    (ha : AddrInj g addr) : ∃ N, ∀ fuel, N ≤ fuel →
      (∃ e, calculateNullables fuel addr g = .ok (.error e) ∧
        followsPass fuel addr g = .ok (.error e)) ∨
      ((∃ i, calculateNullables fuel addr g = .ok (.ok i)) ∧
        let Gap := ∃ p ∈ g.prods, ∃ u X Y v, p.elements = u ++ .nonterm X :: .nonterm Y :: v ∧
          ¬ ∃ q ∈ g.prods, q.head = Y ∧ ∃ pre e post, q.elements = pre ++ e :: post ∧
            (∀ x ∈ pre, x = .nonterm Y ∧ g.cfg.Generates Y []) ∧ e ≠ .nonterm Y
        ((Gap ∧ followsPass fuel addr g = .panic .noFirsts) ∨
          (¬ Gap ∧ ∃ fo, followsPass fuel addr g = .ok (.ok fo)))) :=
  follows_outcome_partial g hg addr ha

/-- C72: what `ProdStateSet::add` does, exactly. -/
theorem prodStateSet_add_exact (g : Grammar T NT AK AV) (hg : g.Accepted) (addr : NT → Nat → Nat)
    (ha : AddrInj g addr) (s : ProdStateSet T NT AK AV) (hs : ProdStateSet.Obtained addr s)
    (hsg : ∀ x ∈ s, x.prod ∈ g.prods) (st : ProdState T NT AK AV) (hst : st.prod ∈ g.prods)
    (x : ProdState T NT AK AV) :
    x ∈ ProdStateSet.add addr s st ↔ x ∈ s ∨ (x = st ∧ ∀ y ∈ s, y.prod ≠ st.prod) :=
  prodStateSet_add_partial g hg addr ha s hs hsg st hst x

/-- C74: what equality of LALR states means, exactly: the two states have the same productions, with
the same lookaheads. -/
theorem lalr_state_eq_exact [DecidableEq T] [DecidableEq NT] (g : Grammar T NT AK AV) (hg : g.Accepted) (addr : NT → Nat → Nat)
    (ha : AddrInj g addr) (a b : ParseState T NT AK AV) (h1 : ParseState.Obtained addr g a)
    (h2 : ParseState.Obtained addr g b) :
    ParseState.cmp addr a b = .eq ↔
      ∀ q la, (∃ i, (⟨q, i⟩, la) ∈ a.prods) ↔ ∃ i, (⟨q, i⟩, la) ∈ b.prods :=
  lalr_state_eq_partial g hg addr ha a b h1 h2

-- Hypotheses of `follows_outcome`: one grammar where the pass succeeds and one where it panics.
example : (∃ fo, followExample.Accepted ∧ AddrInj followExample exampleAddr ∧
      followsPass 20 exampleAddr followExample = .ok (.ok fo)) ∧
    followPanicExample.Accepted ∧ AddrInj followPanicExample exampleAddr ∧
      followsPass 20 exampleAddr followPanicExample = .panic .noFirsts :=
  ⟨⟨_, followExample_accepted, exampleAddr_addrInj _, by rfl⟩, follows_panics.1,
    exampleAddr_addrInj _, by rfl⟩

-- Hypotheses of `prodStateSet_add_exact`: a set holding one production at its start, to which the
-- same production at position 1 is added in vain.
example : ∃ s : ProdStateSet Nat Nat Nat Unit, ProdStateSet.Obtained exampleAddr s ∧ s ≠ [] ∧
    (∀ x ∈ s, x.prod ∈ lalrExample.prods) ∧
    ∃ st : ProdState Nat Nat Nat Unit, st.prod ∈ lalrExample.prods ∧
      st ∉ ProdStateSet.add exampleAddr s st :=
  ⟨_, .add ⟨lalrA₁, 0⟩ .newEmpty, by decide, by decide, ⟨lalrA₁, 1⟩, by decide, by decide⟩

-- Hypotheses of `lalr_state_eq_exact`.
example : lalrExample.Accepted ∧
    ParseState.Obtained exampleAddr lalrExample ⟨[(⟨lalrA₁, 0⟩, [99])]⟩ ∧
    ParseState.Obtained exampleAddr lalrExample ⟨[(⟨lalrA₁, 2⟩, [99])]⟩ :=
  ⟨lalrExample_accepted, lalr_state_eq_ignores_positions.1, lalr_state_eq_ignores_positions.2.1⟩
end passes

section dot
variable [Ord T] [Ord AK] [Ord V] [TransOrd T] [TransOrd AK] [TransOrd V]
variable [LawfulEqOrd T] [LawfulEqOrd AK] [LawfulEqOrd V]

/-- C71: what `to_dot` exports, exactly. -/
theorem dot_graph_exact {log : TreeLog T AK V} {w : World T AK V} {held : List Handle}
    (h : History log w held) {n : Node} (hn : .node n ∈ held) :
    ∃ N ns es, (∀ fuel ≥ N, dotGraph fuel w n = .ok (ns, es)) ∧ ns.Nodup ∧
      (∀ x, x ∈ ns ↔ Relation.TransGen (ForestArrow w n.tree) (.node n.index) x) ∧
      (∀ x y, (x, y) ∈ es ↔ x ∈ ns ∧ ForestArrow w n.tree x y) :=
  dot_graph_partial h hn

-- Hypotheses of `dot_graph_exact`.
example : History dotExample.1 dotExample.2.1 dotExample.2.2 ∧ .node ⟨0, 0⟩ ∈ dotExample.2.2 :=
  ⟨dot_omits_root.1, dot_omits_root.2.1⟩
end dot

section utils
variable {K : Type} [Ord K] [TransOrd K] [LawfulEqOrd K]

/-- C76: `apply_fixed_point` returns if and only if the target is empty (and then at once, leaving
it empty); it never panics. -/
theorem apply_fixed_point_exact {V : Type} (proc : FixedPointProcessor K V) (target : BMap K V) (fuel : Nat) :
    applyFixedPoint compare fuel proc target = if target = [] then .ok [] else .oof := by
  split
  · next h => rw [h]; exact apply_fixed_point_partial proc fuel
  · next h => exact apply_fixed_point_diverges proc target h fuel
end utils

/-- C77: what the first `next` on a `VecTokenStream` does: it returns `None` on an empty stream and
panics on every other one. -/
theorem token_stream_exact {K : Type} (l : List (Token K V)) :
    (VecTokenStream.fromIntoIter l).next = if l = [] then .ok none else .panic .tokenStream := by
  split
  · next h => rw [h]; rfl
  · next h => exact (token_stream_panics l h).1

/-- C80: when calls on trees cannot deadlock.  In every reachable state either all threads have
finished or one can go on (and each step brings the end nearer: `lock_steps_terminate`), for any
threads and calls if the lock admits readers while no writer holds it; for calls that take one lock
at a time even if waiting writers go first; and for one thread in any case. -/
theorem tree_calls_progress {progs : List (List LockCall)} {s : LockState} :
    ((∀ cs ∈ progs, ∀ c ∈ cs, c.Eager) →
      Relation.ReflTransGen (LockStep readersFirst) (lockInit progs) s →
      s.Done ∨ ∃ s', LockStep readersFirst s s') ∧
    ((∀ cs ∈ progs, ∀ c ∈ cs, c.Flat) →
      Relation.ReflTransGen (LockStep writersFirst) (lockInit progs) s →
      s.Done ∨ ∃ s', LockStep writersFirst s s') ∧
    (progs.length = 1 → (∀ cs ∈ progs, ∀ c ∈ cs, c.Eager) →
      Relation.ReflTransGen (LockStep writersFirst) (lockInit progs) s →
      s.Done ∨ ∃ s', LockStep writersFirst s s') := by
  refine ⟨fun h hr => locks_progress_partial (fun _ _ => trivial) h hr,
    fun h hr => flat_calls_progress_partial h hr, fun hl h hr => ?_⟩
  obtain ⟨cs, rfl⟩ := List.length_eq_one_iff.1 hl
  exact single_thread_progress_partial (h cs (by simp)) hr

-- Hypotheses of `tree_calls_progress`: three threads with calls of every kind; three with calls
-- taking one lock at a time.
example : (∀ cs ∈ [[LockCall.write 0, .leafNode 0, .branchNode 0 [(0, []), (0, [])]],
      [.add 0 1, .isSame 1 0, .dot 1 4], [.read 0]], ∀ c ∈ cs, c.Eager) ∧
    ∀ cs ∈ [[LockCall.write 0, .read 1], [.dot 1 4], [.read 0, .branchAlt 1 []]],
      ∀ c ∈ cs, c.Flat := by
  simp [LockCall.Eager, LockCall.Flat]
end Bongo
