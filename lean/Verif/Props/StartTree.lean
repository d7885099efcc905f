import Verif.Spec.StartTree
import Verif.Spec.Earley
import Verif.Proof.Start
import Verif.Proof.Tree
import Verif.Props.EarleyExamples
/-!
# C101: the trees of the wrapped grammar
-/
set_option linter.unusedSectionVars false
namespace Bongo
open Std
variable {T NT AK AV L : Type}

theorem ProdInner.lifted_inj {p q : ProdInner T NT AK AV} (h : p.lifted = q.lifted) : p = q := by
  obtain ⟨k, v, es⟩ := p
  obtain ⟨k', v', es'⟩ := q
  simp only [ProdInner.lifted, ProdInner.mk.injEq, StartActionKey.actionKey.injEq,
    StartActionValue.actionValue.injEq] at h
  obtain ⟨rfl, rfl, h⟩ := h
  have : es = es' := by
    refine List.map_injective_iff.2 ?_ h
    rintro ⟨i, e⟩ ⟨i', e'⟩ h
    cases e <;> cases e' <;> simp_all
  rw [this]

theorem Prod.lifted_inj {p q : Prod T NT AK AV} (h : p.lifted = q.lifted) : p = q := by
  obtain ⟨hd, i, x⟩ := p
  obtain ⟨hd', i', x'⟩ := q
  simp only [Prod.lifted, Prod.mk.injEq, StartNonTerminal.nterm.injEq] at h
  obtain ⟨rfl, rfl, h⟩ := h
  rw [ProdInner.lifted_inj h]

mutual
theorem DTree.lifted_inj : {t t' : DTree L (Prod T NT AK AV)} → t.lifted = t'.lifted → t = t'
  | .leaf l, .leaf m, h => by simp only [DTree.lifted] at h; cases h; rfl
  | .leaf l, .node p cs, h => by simp only [DTree.lifted] at h; cases h
  | .node p cs, .leaf l, h => by simp only [DTree.lifted] at h; cases h
  | .node p cs, .node q ds, h => by
    simp only [DTree.lifted] at h
    injection h with h1 h2
    rw [Prod.lifted_inj h1, DTree.liftedAll_inj h2]
theorem DTree.liftedAll_inj : {t t' : List (DTree L (Prod T NT AK AV))} →
    DTree.liftedAll t = DTree.liftedAll t' → t = t'
  | [], [], _ => rfl
  | [], _ :: _, h => by simp only [DTree.liftedAll] at h; cases h
  | _ :: _, [], h => by simp only [DTree.liftedAll] at h; cases h
  | c :: cs, d :: ds, h => by
    simp only [DTree.liftedAll] at h
    injection h with h1 h2
    rw [DTree.lifted_inj h1, DTree.liftedAll_inj h2]
end

mutual
theorem DTree.yield_lifted : (t : DTree L (Prod T NT AK AV)) → t.lifted.yield = t.yield.map .term
  | .leaf l => by simp [DTree.lifted, DTree.yield]
  | .node p cs => by simp only [DTree.lifted, DTree.yield]; exact DTree.yields_lifted cs
theorem DTree.yields_lifted : (ts : List (DTree L (Prod T NT AK AV))) →
    DTree.yields (DTree.liftedAll ts) = (DTree.yields ts).map .term
  | [] => by simp [DTree.liftedAll, DTree.yields]
  | c :: cs => by
    simp only [DTree.liftedAll, DTree.yields, List.map_append]
    rw [DTree.yield_lifted c, DTree.yields_lifted cs]
end

variable [Ord NT] [TransOrd NT] [LawfulEqOrd NT] {g : Grammar T NT AK AV} {kind : L → T}

theorem Prod.lifted_elements (p : Prod T NT AK AV) :
    p.lifted.elements = p.elements.map baseElemToStartElem := _root_.Bongo.lifted_elems p.inner

theorem mem_prods_wrapped (hw : g.WF) {p : WProd T NT AK AV} : p ∈ g.wrapped.prods ↔
    p = ⟨.start, 0, startProduction g.startSymbol⟩ ∨ ∃ q ∈ g.prods, p = q.lifted := by
  rw [Grammar.mem_prods (Grammar.wrapped_wf hw)]
  obtain ⟨hd, i, x⟩ := p
  constructor
  · rintro ⟨r, h1, h2⟩
    cases hd with
    | start =>
      rw [wrapped_tryGetRule_start] at h1
      cases h1
      left
      cases i with
      | zero => cases h2; rfl
      | succ i => simp at h2
    | nterm A =>
      right
      simp only [wrapped_tryGetRule hw] at h1
      obtain ⟨r', h3, rfl⟩ := Option.map_eq_some_iff.1 h1
      simp only [RuleInner.lifted, List.getElem?_map] at h2
      obtain ⟨x', h4, rfl⟩ := Option.map_eq_some_iff.1 h2
      exact ⟨⟨A, i, x'⟩, (Grammar.mem_prods hw).2 ⟨r', h3, h4⟩, rfl⟩
  · rintro (h | ⟨q, hq, h⟩)
    · cases h; exact ⟨_, wrapped_tryGetRule_start g, rfl⟩
    · obtain ⟨r, h1, h2⟩ := (Grammar.mem_prods hw).1 hq
      cases h
      refine ⟨r.lifted, ?_, ?_⟩
      · show g.wrapped.tryGetRule (.nterm q.head) = _
        rw [wrapped_tryGetRule hw, h1]; rfl
      · show (r.prods.map ProdInner.lifted)[q.index]? = some q.inner.lifted
        rw [List.getElem?_map, h2]; rfl

mutual
theorem IsTree.lifted (hw : g.WF) {e : Elem T NT} : {t : DTree L (Prod T NT AK AV)} →
    IsTree g kind e t → IsTree g.wrapped (StreamTerminal.kindOf kind) (baseElemToStartElem e) t.lifted
  | _, .leaf l => by rw [DTree.lifted]; exact IsTree.leaf (StreamTerminal.term l)
  | _, .node p cs hp hf => by
    rw [DTree.lifted]
    refine .node p.lifted _ ((mem_prods_wrapped hw).2 (Or.inr ⟨p, hp, rfl⟩)) ?_
    rw [Prod.lifted_elements]
    exact hf.lifted hw
theorem IsForest.lifted (hw : g.WF) {es : List (Elem T NT)} : {ts : List (DTree L (Prod T NT AK AV))} →
    IsForest g kind es ts →
    IsForest g.wrapped (StreamTerminal.kindOf kind) (es.map baseElemToStartElem) (DTree.liftedAll ts)
  | _, .nil => by rw [DTree.liftedAll]; exact .nil
  | _, .cons h1 h2 => by rw [DTree.liftedAll]; exact .cons (h1.lifted hw) (h2.lifted hw)
end

mutual
theorem IsTree.of_lifted (hw : g.WF) : (t' : DTree (StreamTerminal L) (WProd T NT AK AV)) →
    (e : Elem T NT) → IsTree g.wrapped (StreamTerminal.kindOf kind) (baseElemToStartElem e) t' →
    ∃ t, IsTree g kind e t ∧ t' = t.lifted
  | .leaf l, e, h => by
    generalize he : baseElemToStartElem e = e' at h
    cases h with
    | leaf l =>
      cases e with
      | nonterm A => cases he
      | term a =>
        cases l with
        | endOfStream => cases he
        | term l =>
          cases he
          exact ⟨.leaf l, .leaf l, by rw [DTree.lifted]⟩
  | .node p cs, e, h => by
    generalize he : baseElemToStartElem e = e' at h
    cases h with
    | node _ _ hp hf =>
      rcases (mem_prods_wrapped hw).1 hp with rfl | ⟨q, hq, rfl⟩
      · cases e <;> cases he
      · cases e with
        | term a => cases he
        | nonterm A =>
          cases he
          rw [Prod.lifted_elements] at hf
          obtain ⟨ts, h1, rfl⟩ := IsForest.of_lifted hw cs q.elements hf
          exact ⟨.node q ts, .node q ts hq h1, by rw [DTree.lifted]⟩
theorem IsForest.of_lifted (hw : g.WF) : (ts' : List (DTree (StreamTerminal L) (WProd T NT AK AV))) →
    (es : List (Elem T NT)) →
    IsForest g.wrapped (StreamTerminal.kindOf kind) (es.map baseElemToStartElem) ts' →
    ∃ ts, IsForest g kind es ts ∧ ts' = DTree.liftedAll ts
  | [], [], _ => ⟨[], .nil, by rw [DTree.liftedAll]⟩
  | [], _ :: _, h => by cases h
  | _ :: _, [], h => by cases h
  | c :: cs, e :: es, h => by
    cases h with
    | cons h1 h2 =>
      obtain ⟨t, a1, rfl⟩ := IsTree.of_lifted hw c e h1
      obtain ⟨ts, b1, rfl⟩ := IsForest.of_lifted hw cs es h2
      exact ⟨t :: ts, .cons a1 b1, by rw [DTree.liftedAll]⟩
end

/-- C101.  The derivation trees of an original nonterminal are the same in the wrapped grammar, those of
the new start symbol are one production with a tree of the original start symbol and the end of the
stream below it, and different trees stay different. -/
theorem wrap_trees (hg : g.Accepted) (kind : L → T) :
    (∀ A t', IsTree g.wrapped (StreamTerminal.kindOf kind) (.nonterm (.nterm A)) t' ↔
      ∃ t, IsTree g kind (.nonterm A) t ∧ t' = t.lifted) ∧
    (∀ t', IsTree g.wrapped (StreamTerminal.kindOf kind) (.nonterm .start) t' ↔
      ∃ t, IsTree g kind (.nonterm g.startSymbol) t ∧
        t' = .node ⟨.start, 0, startProduction g.startSymbol⟩ [t.lifted, .leaf .endOfStream]) ∧
    (∀ t t' : DTree L (Prod T NT AK AV), t.lifted = t'.lifted → t = t') ∧
    ∀ t : DTree L (Prod T NT AK AV), t.lifted.yield = t.yield.map .term := by
  have hw := hg.valid.toWF
  refine ⟨fun A t' => ⟨fun h => IsTree.of_lifted hw t' (.nonterm A) h, ?_⟩, fun t' => ⟨fun h => ?_, ?_⟩,
    fun t t' => DTree.lifted_inj, DTree.yield_lifted⟩
  · rintro ⟨t, h, rfl⟩
    exact h.lifted hw
  · generalize he : Elem.nonterm StartNonTerminal.start = e at h
    cases h with
    | leaf l => cases he
    | node p cs hp hf =>
      rcases (mem_prods_wrapped hw).1 hp with rfl | ⟨q, hq, rfl⟩
      · cases hf with
        | cons h1 h2 =>
          cases h2 with
          | cons h2 h3 =>
            cases h3
            obtain ⟨t, a, rfl⟩ := IsTree.of_lifted hw _ (.nonterm g.startSymbol) h1
            refine ⟨t, a, ?_⟩
            generalize he : (Elem.term StreamTerminal.endOfStream : Elem (StreamTerminal T) (StartNonTerminal NT)) = e at h2
            cases h2 with
            | leaf l =>
              cases l with
              | endOfStream => rfl
              | term l => cases he
            | node => cases he
      · cases he
  · rintro ⟨t, h, rfl⟩
    exact .node _ _ ((mem_prods_wrapped hw).2 (Or.inl rfl)) (.cons (h.lifted hw) (.cons (IsTree.leaf StreamTerminal.endOfStream) .nil))

theorem StreamTerminal.kindOf_id : (StreamTerminal.kindOf (id : T → T)) = id := by
  funext t; cases t <;> rfl

/-- C101: wrapping neither makes nor removes ambiguities. -/
theorem wrap_unambiguous (hg : g.Accepted) : g.wrapped.Unambiguous ↔ g.Unambiguous := by
  obtain ⟨-, h2, h3, h4⟩ := wrap_trees hg (id : T → T)
  rw [StreamTerminal.kindOf_id] at h2
  constructor
  · intro hu t t' ht ht' hy
    have := hu _ _ ((h2 _).2 ⟨t, ht, rfl⟩) ((h2 _).2 ⟨t', ht', rfl⟩)
      (by simp only [DTree.yield, DTree.yields, h4, hy])
    injection this with _ h
    injection h with h _
    exact h3 _ _ h
  · intro hu t t' ht ht' hy
    obtain ⟨d, hd, rfl⟩ := (h2 _).1 ht
    obtain ⟨d', hd', rfl⟩ := (h2 _).1 ht'
    simp only [DTree.yield, DTree.yields, h4, List.append_nil] at hy
    have hy := List.append_cancel_right hy
    rw [hu d d' hd hd' (List.map_injective_iff.2 (fun a b h => by cases h; rfl) hy)]

/-- Hypotheses of C101 are met. -/
example : rightExample.Accepted ∧ rightExample.Unambiguous ∧
    IsTree rightExample id (.nonterm 0) (.node rightP1 [.leaf 1, .node rightP2 [.leaf 2]]) :=
  ⟨rightExample_accepted, rightExample_unambiguous,
    .node rightP1 _ (by rw [rightExample_prods]; simp) (.cons (.leaf 1) (.cons
      (.node rightP2 _ (by rw [rightExample_prods]; simp) (.cons (.leaf 2) .nil)) .nil))⟩
end Bongo
