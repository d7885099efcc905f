import Verif.Spec.Right
import Verif.Props.Fails
import Verif.Props.Mix
import Verif.Proof.Ambiguity
import Verif.Props.Extend
/-!
# C141: exactly the grammars for which `parse` is right
-/
set_option linter.unusedSectionVars false
namespace Bongo
open Std

section
variable {T NT AK AV : Type} {g : Grammar T NT AK AV}

theorem splitsOnce_of_not_divides (h : ¬ g.Divides) (w : List T) : g.SplitsOnce w := by
  intro u x y x' y' A β δ d e _ hxy _ hp he h1 h2 h3 h4
  by_contra hne
  exact h ⟨A, β, d, e, x, y, x', y', hp, he, hxy, hne, h1, h2, h3, h4⟩

/-- In a trimmed grammar such a production is at work in some text of the language. -/
theorem divides_in_text (ht : g.Trim) (h : g.Divides) :
    ∃ (u x y x' y' z : List T) (A : NT) (α β : List (Elem T NT)), x ++ y = x' ++ y' ∧ x ≠ x' ∧
      g.cfg.InLanguage (u ++ (x ++ y) ++ z) ∧
      g.cfg.Derives [.nonterm g.startSymbol] (u.map .term ++ .nonterm A :: z.map .term) ∧
      g.cfg.prod A (α ++ β) ∧
      g.cfg.Derives α (x.map .term) ∧ g.cfg.Derives β (y.map .term) ∧
      g.cfg.Derives α (x'.map .term) ∧ g.cfg.Derives β (y'.map .term) := by
  obtain ⟨A, β, d, e, x, y, x', y', hp, he, hxy, hne, h1, h2, h3, h4⟩ := h
  obtain ⟨u, δ, v, z, hu, hv, hz⟩ := ht.use hp
  have hd : d < β.length := (List.getElem?_eq_some_iff.1 he).1
  have hdrop : β.drop d = [e] ++ β.drop (d + 1) := by
    rw [List.drop_eq_getElem_cons hd, (List.getElem?_eq_some_iff.1 he).2]; rfl
  have hv' : g.cfg.Derives (β.take (d + 1) ++ β.drop (d + 1)) (v.map .term) := by
    rw [List.take_append_drop]; exact hv
  obtain ⟨c₁, c₂, h5, -, hr⟩ := hv'.split
  obtain ⟨v₁, r, rfl, rfl, rfl⟩ := terms_append h5.symm
  have hu' := hu.trans ((Cfg.Derives.refl (G := g.cfg) (u.map .term)).append
    (Cfg.Derives.append (a := [_]) (.refl _) hz))
  have hy : ∀ {y : List T}, g.cfg.Derives [e] (y.map .term) →
      g.cfg.Derives (β.drop d) ((y ++ r).map .term) := by
    intro y h
    rw [hdrop, List.map_append]
    exact h.append hr
  refine ⟨u, x, y ++ r, x', y' ++ r, z, A, β.take d, β.drop d, ?_, hne, ?_, hu', ?_, h1, hy h2, h3, hy h4⟩
  · rw [← List.append_assoc, hxy, List.append_assoc]
  · have h6 : g.cfg.Derives [.nonterm A] ((x ++ (y ++ r)).map .term) := by
      refine (Cfg.derives_prod hp).trans ?_
      have := h1.append (hy h2)
      rwa [List.take_append_drop, ← List.map_append] at this
    have h7 := hu'.trans ((Cfg.Derives.refl (G := g.cfg) (u.map .term)).append
      (Cfg.Derives.append (a := [_]) h6 (.refl _)))
    show g.cfg.Derives [.nonterm g.startSymbol] _
    simpa using h7
  · rw [List.take_append_drop]; exact hp
end

section
variable {T NT AK AV V : Type}
variable [Ord T] [Ord NT] [Ord AK] [Ord V] [DecidableEq T] [DecidableEq NT]
variable [TransOrd T] [TransOrd NT] [TransOrd AK] [TransOrd V]
variable [LawfulEqOrd T] [LawfulEqOrd NT] [LawfulEqOrd AK] [LawfulEqOrd V]
variable {addr : StartNonTerminal NT → Nat → Nat} {g : Grammar T NT AK AV}
variable (hg : g.Accepted) (ha : AddrInj g.wrapped addr) (ht : g.Trim) {log : TreeLog T AK V} {w : World T AK V}
  {held : List Handle} (hist : History log w held) (t : Nat)

include hg ha ht hist in
/-- C141.  `parse` returns, for some text of the language, a node from which something can be read that does not spell
the text, or panics on some, exactly if the grammar has one of three faults. -/
theorem wrong_exact [Nonempty V] :
    (∃ toks : List (Token T V), g.cfg.InLanguage (kinds toks) ∧
      ((∃ N, ∀ fuel, N ≤ fuel → parse addr g.wrapped fuel w t toks = .panic .lenMismatch) ∨
        ∃ fuel w' n s, parse addr g.wrapped fuel w t toks = .ok (w', some n) ∧ Reads w' s n ∧ s.yield ≠ toks)) ↔
    g.cfg.InLanguage [] ∨ g.Overlaps ∨ g.Divides := by
  constructor
  · rintro ⟨toks, hl, h | ⟨fuel, w', n, s, h1, h2, h3⟩⟩
    · exact ((fails_exact hg ha ht hist t).1 ⟨toks, hl, h⟩).elim Or.inl fun h => Or.inr (Or.inl h)
    · by_contra hno
      push Not at hno
      exact h3 (parse_trees_spell_partial hg ha hist (splitsOnce_of_not_divides hno.2.2 _) h1 h2)
  · intro h
    by_cases hf : g.cfg.InLanguage [] ∨ g.Overlaps
    · obtain ⟨toks, h1, h2⟩ := (fails_exact hg ha ht hist t (V := V)).2 hf
      exact ⟨toks, h1, Or.inl h2⟩
    · have hd : g.Divides := by
        rcases h with h | h | h
        · exact absurd (Or.inl h) hf
        · exact absurd (Or.inr h) hf
        · exact h
      obtain ⟨u, x, y, x', y', z, A, α, β, hxy, hne, hl, hu, hp, h1, h2, h3, h4⟩ := divides_in_text ht hd
      obtain ⟨v0⟩ := ‹Nonempty V›
      let toks : List (Token T V) := (u ++ (x ++ y) ++ z).map fun a => ⟨a, v0⟩
      have hk : kinds toks = u ++ (x ++ y) ++ z := by simp [toks, kinds, Function.comp_def]
      have hl' : g.cfg.InLanguage (kinds toks) := by rw [hk]; exact hl
      rw [not_or] at hf
      obtain ⟨N, w', n, h5⟩ := (reliable_exact hg ha ht hist t).2 hf toks hl'
      obtain ⟨s, h6, h7⟩ := parse_trees_not_spell hg ha hist (h5 N (Nat.le_refl _)) hk hxy hne hu hp h1 h2 h3 h4
      exact ⟨toks, hl', Or.inr ⟨N, w', n, s, h5 N (Nat.le_refl _), h6, h7⟩⟩

include hg ha ht hist in
/-- C141.  So the grammars for which `parse` is right – for every text of the language it returns a node from which
exactly the derivation trees of the text can be read – are those that have none of these faults. -/
theorem right_exact [Nonempty V] :
    (∀ toks : List (Token T V), g.cfg.InLanguage (kinds toks) → ∃ N w' n,
      (∀ fuel, N ≤ fuel → parse addr g.wrapped fuel w t toks = .ok (w', some n)) ∧
      ∀ s, Reads w' s n ↔ ∃ d : DTree (Token T V) (Prod T NT AK AV),
        IsTree g (·.kind) (.nonterm g.startSymbol) d ∧ d.yield = toks ∧ s = d.mapNodes (·.actionKey)) ↔
    ¬ g.cfg.InLanguage [] ∧ ¬ g.Overlaps ∧ ¬ g.Divides := by
  constructor
  · intro h
    rw [← not_or, ← not_or, ← wrong_exact hg ha ht hist t (V := V)]
    rintro ⟨toks, hl, ⟨N, h1⟩ | ⟨fuel, w', n, s, h1, h2, h3⟩⟩
    · obtain ⟨N', w', n, h4, -⟩ := h toks hl
      have h5 := h1 (max N N') (by omega)
      rw [h4 _ (by omega)] at h5
      cases h5
    · obtain ⟨N', w'', n', h4, h5⟩ := h toks hl
      have h6 := parse_mono (Nat.le_max_left fuel N') (sg := g.wrapped) (addr := addr) (w := w) (t := t) (toks := toks)
        (by rw [h1]; simp)
      rw [h4 _ (by omega), h1] at h6
      cases h6
      obtain ⟨d, h7, h8, rfl⟩ := (h5 s).1 h2
      rw [DTree.yield_mapNodes] at h3
      exact h3 h8
  · rintro ⟨h1, h2, h3⟩ toks hl
    obtain ⟨N, w', n, h4⟩ := (reliable_exact hg ha ht hist t).2 ⟨h1, h2⟩ toks hl
    have h := h4 N (Nat.le_refl _)
    refine ⟨N, w', n, h4, fun s => ⟨fun hs => ?_, ?_⟩⟩
    · obtain ⟨d', hd', rfl, -⟩ := parse_trees_grammatical hg ha hist h hs
      have hy' := parse_trees_spell_partial hg ha hist (splitsOnce_of_not_divides h3 _) h hs
      rw [DTree.yield_mapNodes] at hy'
      exact ⟨d', hd', hy', rfl⟩
    · rintro ⟨d, hc, hy, rfl⟩
      exact parse_all_trees hg ha hist h hc hy


include hg ha ht hist in
/-- C141.  What `parse` does with any text, for such a grammar: for a text of the language it returns a node with exactly
the trees; for a text that is none, but begins one, `None`; otherwise the assertion that a state is not empty fails. -/
theorem right_outcome [Nonempty V] (h1 : ¬ g.cfg.InLanguage []) (h2 : ¬ g.Overlaps) (h3 : ¬ g.Divides)
    (toks : List (Token T V)) :
    ∃ N, (g.cfg.InLanguage (kinds toks) → ∃ w' n,
        (∀ fuel, N ≤ fuel → parse addr g.wrapped fuel w t toks = .ok (w', some n)) ∧
        ∀ s, Reads w' s n ↔ ∃ d : DTree (Token T V) (Prod T NT AK AV),
          IsTree g (·.kind) (.nonterm g.startSymbol) d ∧ d.yield = toks ∧ s = d.mapNodes (·.actionKey)) ∧
      (¬ g.cfg.InLanguage (kinds toks) → (∃ z, kinds toks <+: z ∧ g.cfg.InLanguage z) →
        ∃ w', ∀ fuel, N ≤ fuel → parse addr g.wrapped fuel w t toks = .ok (w', none)) ∧
      ((¬ ∃ z, kinds toks <+: z ∧ g.cfg.InLanguage z) →
        ∀ fuel, N ≤ fuel → parse addr g.wrapped fuel w t toks = .panic .emptyState) := by
  obtain ⟨N, -, k2, k3⟩ := parse_outcome_noClash hg ha hist t ht.noDeadEnds
    (fun u hu => (clash_overlaps hu).elim h1 h2) toks
  by_cases hl : g.cfg.InLanguage (kinds toks)
  · obtain ⟨N', w', n, h4, h5⟩ := (right_exact hg ha ht hist t).2 ⟨h1, h2, h3⟩ toks hl
    exact ⟨max N N', fun _ => ⟨w', n, fun f hf => h4 f (by omega), h5⟩, fun h => absurd hl h,
      fun h => absurd ⟨_, List.prefix_rfl, hl⟩ h⟩
  · exact ⟨N, fun h => absurd h hl, k2, k3⟩
end

section
variable {T NT AK AV : Type} {g : Grammar T NT AK AV}

/-- C141.  In a trimmed grammar the third fault is seen in a text; so grammars without ambiguity have it not. -/
theorem not_divides_of_splitsOnce (ht : g.Trim) (h : ∀ w : List T, g.SplitsOnce w) : ¬ g.Divides := by
  rintro ⟨A, β, d, e, x, y, x', y', hp, he, hxy, hne, h1, h2, h3, h4⟩
  obtain ⟨u, δ, -, -, hu, -, -⟩ := ht.use hp
  exact hne (h _ u x y x' y' A β δ d e (List.prefix_refl _) hxy hu hp he h1 h2 h3 h4)

theorem not_divides_of_unambiguous [Ord NT] [TransOrd NT] [LawfulEqOrd NT] (hw : g.WF) (ht : g.Trim) (hu : g.Unambiguous) : ¬ g.Divides :=
  not_divides_of_splitsOnce ht fun w => splits_of_unambiguous hw hu ht.noDeadEnds w

/-- C141.  The trimmed grammars of C137 have none of the faults. -/
theorem separated_no_faults [DecidableEq T] [Ord NT] [DecidableEq NT] [TransOrd NT] [LawfulEqOrd NT]
    (hg : g.Accepted) (ht : g.Trim) (hs : g.SeparatedInside) :
    ¬ g.cfg.InLanguage [] ∧ ¬ g.Overlaps ∧ ¬ g.Divides := by
  refine ⟨fun h => separated_no_clash hg hs [] (Or.inl ⟨rfl, h⟩), fun h => ?_,
    not_divides_of_splitsOnce ht fun w => separated_splits_once hg hs w⟩
  obtain ⟨w, -, h1, -⟩ := overlaps_clash ht h
  exact separated_no_clash hg hs w h1
end

section
variable {T NT AK AV : Type} [Ord NT] [TransOrd NT] [LawfulEqOrd NT] {g g' : Grammar T NT AK AV}

/-- C141.  A grammar with more productions keeps the faults. -/
theorem faults_extend (he : g.ExtendedTo g') (hw : g.WF) (hw' : g'.WF) :
    (g.cfg.InLanguage [] → g'.cfg.InLanguage []) ∧ (g.Overlaps → g'.Overlaps) ∧ (g.Divides → g'.Divides) := by
  have hp := he.cfg hw hw'
  refine ⟨fun h => he.inLanguage hw hw' h, ?_, ?_⟩
  · rintro ⟨A, β, d₁, d₂, v, h1, h2, h3, h4, h5⟩
    exact ⟨A, β, d₁, d₂, v, hp _ _ h1, h2, h3, h4.mono hp, h5.mono hp⟩
  · rintro ⟨A, β, d, e, x, y, x', y', h1, h2, h3, h4, h5, h6, h7, h8⟩
    exact ⟨A, β, d, e, x, y, x', y', hp _ _ h1, h2, h3, h4, h5.mono hp, h6.mono hp, h7.mono hp, h8.mono hp⟩
end

section
variable {T NT AK AV V : Type}
variable [Ord T] [Ord NT] [Ord AK] [Ord V] [DecidableEq T] [DecidableEq NT]
variable [TransOrd T] [TransOrd NT] [TransOrd AK] [TransOrd V]
variable [LawfulEqOrd T] [LawfulEqOrd NT] [LawfulEqOrd AK] [LawfulEqOrd V]

/-- C141.  So a grammar for which `parse` is right stays one when productions are taken away. -/
theorem right_smaller [Nonempty V] {g g' : Grammar T NT AK AV} (he : g.ExtendedTo g') (hg : g.Accepted) (hg' : g'.Accepted)
    {addr addr' : StartNonTerminal NT → Nat → Nat} (ha : AddrInj g.wrapped addr) (ha' : AddrInj g'.wrapped addr')
    (ht : g.Trim) (ht' : g'.Trim) {log log' : TreeLog T AK V} {w w' : World T AK V} {held held' : List Handle}
    (hist : History log w held) (hist' : History log' w' held') (t t' : Nat)
    (h : ∀ toks : List (Token T V), g'.cfg.InLanguage (kinds toks) → ∃ N w₁ n,
      (∀ fuel, N ≤ fuel → parse addr' g'.wrapped fuel w' t' toks = .ok (w₁, some n)) ∧
      ∀ s, Reads w₁ s n ↔ ∃ d : DTree (Token T V) (Prod T NT AK AV),
        IsTree g' (·.kind) (.nonterm g'.startSymbol) d ∧ d.yield = toks ∧ s = d.mapNodes (·.actionKey)) :
    ∀ toks : List (Token T V), g.cfg.InLanguage (kinds toks) → ∃ N w₁ n,
      (∀ fuel, N ≤ fuel → parse addr g.wrapped fuel w t toks = .ok (w₁, some n)) ∧
      ∀ s, Reads w₁ s n ↔ ∃ d : DTree (Token T V) (Prod T NT AK AV),
        IsTree g (·.kind) (.nonterm g.startSymbol) d ∧ d.yield = toks ∧ s = d.mapNodes (·.actionKey) := by
  obtain ⟨h1, h2, h3⟩ := (right_exact hg' ha' ht' hist' t').1 h
  obtain ⟨e1, e2, e3⟩ := faults_extend he hg.valid.toWF hg'.valid.toWF
  exact (right_exact hg ha ht hist t).2 ⟨fun h => h1 (e1 h), fun h => h2 (e2 h), fun h => h3 (e3 h)⟩
end

/-! ## Witnesses -/

theorem divExample_prod {A : Nat} {β} : divExample.cfg.prod A β ↔ (A = 0 ∧ β = [.nonterm 1, .nonterm 2]) ∨
    (A = 1 ∧ β = [.term 1]) ∨ (A = 1 ∧ β = [.term 1, .term 2]) ∨
    (A = 2 ∧ β = [.term 2, .term 3]) ∨ (A = 2 ∧ β = [.term 3]) := by
  simp [divExample, Grammar.cfg, exRule, or_assoc, or_and_right, exists_or, and_assoc]
  grind

theorem divExample_trim : divExample.Trim := by
  have h0 : divExample.cfg.prod 0 [.nonterm 1, .nonterm 2] := divExample_prod.2 (by simp)
  constructor
  · intro A β h
    rcases divExample_prod.1 h with ⟨rfl, -⟩ | ⟨rfl, -⟩ | ⟨rfl, -⟩ | ⟨rfl, -⟩ | ⟨rfl, -⟩
    · exact ⟨[], [], .refl _⟩
    · exact ⟨[], [.nonterm 2], Cfg.derives_prod h0⟩
    · exact ⟨[], [.nonterm 2], Cfg.derives_prod h0⟩
    · exact ⟨[.nonterm 1], [], Cfg.derives_prod h0⟩
    · exact ⟨[.nonterm 1], [], Cfg.derives_prod h0⟩
  · refine noDeadEnds_of (fun A => A = 0 ∨ A = 1 ∨ A = 2) (Or.inl rfl) ?_ ?_
    · intro A β hp B hB
      rcases divExample_prod.1 hp with ⟨-, rfl⟩ | ⟨-, rfl⟩ | ⟨-, rfl⟩ | ⟨-, rfl⟩ | ⟨-, rfl⟩ <;> simp at hB
      omega
    · have h1 : divExample.cfg.Derives [.nonterm 1] [.term 1] := Cfg.derives_prod (divExample_prod.2 (by simp))
      have h2 : divExample.cfg.Derives [.nonterm 2] [.term 3] := Cfg.derives_prod (divExample_prod.2 (by simp))
      rintro A (rfl | rfl | rfl)
      · exact ⟨[1, 3], (Cfg.derives_prod h0).trans (h1.append h2)⟩
      · exact ⟨[1], h1⟩
      · exact ⟨[3], h2⟩

/-- The hypotheses of `wrong_exact` are met by a grammar that has the third fault. -/
example : divExample.Trim ∧ divExample.Divides ∧ ∃ toks : List (Token Nat Nat), divExample.cfg.InLanguage (kinds toks) ∧
    ((∃ N, ∀ fuel, N ≤ fuel → parse exampleSAddr divExample.wrapped fuel World.new 7 toks = .panic .lenMismatch) ∨
      ∃ fuel w' n s, parse exampleSAddr divExample.wrapped fuel World.new 7 toks = .ok (w', some n) ∧ Reads w' s n ∧
        s.yield ≠ toks) := by
  obtain ⟨-, h0, -, h1, h2, h3, h4, h5⟩ := divExample_divides
  have hd : divExample.Divides := ⟨0, _, 1, .nonterm 2, [1], [2, 3], [1, 2], [3], h1, rfl, h0, by simp, h2, h3, h4, h5⟩
  exact ⟨divExample_trim, hd, (wrong_exact divExample_accepted (exampleSAddr_addrInj _) divExample_trim .start 7).2
    (Or.inr (Or.inr hd))⟩

/-- `S → X Y`, `X → 1 | 1 2`, `Y → 2 3`: after `1` one does not know whether `X` goes on. -/
def lateExample : Grammar Nat Nat Nat Unit :=
  ⟨0, [exRule 0 [(10, [.nonterm 1, .nonterm 2])],
    exRule 1 [(11, [.term 1]), (12, [.term 1, .term 2])],
    exRule 2 [(21, [.term 2, .term 3])]]⟩

theorem lateExample_accepted : lateExample.Accepted :=
  ⟨20, 0, [⟨0, [.addProd 10 () [.addNonterm 1, .addNonterm 2]]⟩,
    ⟨1, [.addProd 11 () [.addTerm 1], .addProd 12 () [.addTerm 1, .addTerm 2]]⟩,
    ⟨2, [.addProd 21 () [.addTerm 2, .addTerm 3]]⟩], by decide⟩

theorem lateExample_prod {A : Nat} {β} : lateExample.cfg.prod A β ↔ (A = 0 ∧ β = [.nonterm 1, .nonterm 2]) ∨
    (A = 1 ∧ β = [.term 1]) ∨ (A = 1 ∧ β = [.term 1, .term 2]) ∨ (A = 2 ∧ β = [.term 2, .term 3]) := by
  simp [lateExample, Grammar.cfg, exRule, or_assoc, or_and_right, exists_or, and_assoc]
  grind

theorem lateExample_trim : lateExample.Trim := by
  have h0 : lateExample.cfg.prod 0 [.nonterm 1, .nonterm 2] := lateExample_prod.2 (by simp)
  constructor
  · intro A β h
    rcases lateExample_prod.1 h with ⟨rfl, -⟩ | ⟨rfl, -⟩ | ⟨rfl, -⟩ | ⟨rfl, -⟩
    · exact ⟨[], [], .refl _⟩
    · exact ⟨[], [.nonterm 2], Cfg.derives_prod h0⟩
    · exact ⟨[], [.nonterm 2], Cfg.derives_prod h0⟩
    · exact ⟨[.nonterm 1], [], Cfg.derives_prod h0⟩
  · refine noDeadEnds_of (fun A => A = 0 ∨ A = 1 ∨ A = 2) (Or.inl rfl) ?_ ?_
    · intro A β hp B hB
      rcases lateExample_prod.1 hp with ⟨-, rfl⟩ | ⟨-, rfl⟩ | ⟨-, rfl⟩ | ⟨-, rfl⟩ <;> simp at hB
      omega
    · have h1 : lateExample.cfg.Derives [.nonterm 1] [.term 1] := Cfg.derives_prod (lateExample_prod.2 (by simp))
      have h2 : lateExample.cfg.Derives [.nonterm 2] [.term 2, .term 3] :=
        Cfg.derives_prod (lateExample_prod.2 (by simp))
      rintro A (rfl | rfl | rfl)
      · exact ⟨[1, 2, 3], (Cfg.derives_prod h0).trans (h1.append h2)⟩
      · exact ⟨[1], h1⟩
      · exact ⟨[2, 3], h2⟩

theorem terms_only {G : Cfg Nat Nat} {u v : List Nat} (h : G.Derives (u.map .term) (v.map .term)) : v = u :=
  List.map_injective_iff.2 (fun a b h => by simpa using h) (Cfg.derives_terms h)

theorem lateExample_gen1 {v : List Nat} (h : lateExample.cfg.Derives [.nonterm 1] (v.map .term)) : v = [1] ∨ v = [1, 2] := by
  rcases Cfg.derives_nonterm h with h | ⟨β, h, h'⟩
  · cases v <;> simp at h
  · rcases lateExample_prod.1 h with ⟨h, -⟩ | ⟨-, rfl⟩ | ⟨-, rfl⟩ | ⟨h, -⟩
    · simp at h
    · exact Or.inl (terms_only (u := [1]) h')
    · exact Or.inr (terms_only (u := [1, 2]) h')
    · simp at h

theorem lateExample_gen2 {v : List Nat} (h : lateExample.cfg.Derives [.nonterm 2] (v.map .term)) : v = [2, 3] := by
  rcases Cfg.derives_nonterm h with h | ⟨β, h, h'⟩
  · cases v <;> simp at h
  · rcases lateExample_prod.1 h with ⟨h, -⟩ | ⟨h, -⟩ | ⟨h, -⟩ | ⟨-, rfl⟩
    · simp at h
    · simp at h
    · simp at h
    · exact terms_only (u := [2, 3]) h'

theorem lateExample_gen0 {v : List Nat} (h : lateExample.cfg.Derives [.nonterm 1, .nonterm 2] (v.map .term)) :
    v = [1, 2, 3] ∨ v = [1, 2, 2, 3] := by
  have h' : lateExample.cfg.Derives ([.nonterm 1] ++ [.nonterm 2]) (v.map .term) := h
  obtain ⟨c₁, c₂, h1, h2, h3⟩ := h'.split
  obtain ⟨x, y, rfl, rfl, rfl⟩ := terms_append h1.symm
  rcases lateExample_gen1 h2 with rfl | rfl <;> rcases lateExample_gen2 h3 with rfl <;> simp

theorem lateExample_no_faults :
    ¬ lateExample.cfg.InLanguage [] ∧ ¬ lateExample.Overlaps ∧ ¬ lateExample.Divides := by
  refine ⟨fun h => ?_, ?_, ?_⟩
  · rcases Cfg.derives_nonterm h with h | ⟨β, h, h'⟩
    · simp at h
    · rcases lateExample_prod.1 h with ⟨-, rfl⟩ | ⟨h, -⟩ | ⟨h, -⟩ | ⟨h, -⟩
      · rcases lateExample_gen0 (v := []) h' with h | h <;> simp at h
      all_goals exact absurd h (by decide)
  · rintro ⟨A, β, d₁, d₂, v, hp, h1, h2, h3, h4⟩
    have h0 : ∀ {v : List Nat}, lateExample.cfg.Derives [] (v.map .term) → v = [] := fun h => terms_only (u := []) h
    rcases lateExample_prod.1 hp with ⟨-, rfl⟩ | ⟨-, rfl⟩ | ⟨-, rfl⟩ | ⟨-, rfl⟩
    · have h5 : d₁ = 0 ∧ d₂ = 1 ∨ d₁ = 0 ∧ d₂ = 2 ∨ d₁ = 1 ∧ d₂ = 2 := by simp at h2; omega
      rcases h5 with ⟨rfl, rfl⟩ | ⟨rfl, rfl⟩ | ⟨rfl, rfl⟩
      · obtain rfl := h0 h3
        rcases lateExample_gen1 h4 with h | h <;> simp at h
      · obtain rfl := h0 h3
        rcases lateExample_gen0 h4 with h | h <;> simp at h
      · rcases lateExample_gen1 h3 with rfl | rfl <;> rcases lateExample_gen0 h4 with h | h <;> simp at h
    all_goals
      have key : ∀ a : List Nat, d₂ ≤ a.length → lateExample.cfg.Derives ((a.map .term).take d₁) (v.map .term) →
          lateExample.cfg.Derives ((a.map .term).take d₂) (v.map .term) → False := by
        intro a ha h5 h6
        rw [← List.map_take] at h5 h6
        have h7 := congrArg List.length ((terms_only h5).symm.trans (terms_only h6))
        simp only [List.length_take] at h7
        omega
    · exact key [1] h2 h3 h4
    · exact key [1, 2] h2 h3 h4
    · exact key [2, 3] h2 h3 h4
  · rintro ⟨A, β, d, e, x, y, x', y', hp, he, hxy, hne, h1, h2, h3, h4⟩
    have hy : ∀ t, e = .term t → False := by
      rintro t rfl
      have h5 := terms_only (u := [t]) h2
      have h6 := terms_only (u := [t]) h4
      subst h5 h6
      exact hne (List.append_cancel_right hxy)
    rcases lateExample_prod.1 hp with ⟨-, rfl⟩ | ⟨-, rfl⟩ | ⟨-, rfl⟩ | ⟨-, rfl⟩
    · rcases d with _ | _ | d
      · exact hne ((terms_only (u := []) h1).trans (terms_only (u := []) h3).symm)
      · simp at he
        subst he
        rw [lateExample_gen2 h2, lateExample_gen2 h4] at hxy
        exact hne (List.append_cancel_right hxy)
      · simp at he
    all_goals
      have := List.mem_of_getElem? he
      simp at this
    · exact hy _ this
    · rcases this with h | h <;> exact hy _ h
    · rcases this with h | h <;> exact hy _ h

/-- The hypotheses of `right_exact` are met by a grammar that C137 does not cover. -/
example : lateExample.Trim ∧ ¬ lateExample.SeparatedInside ∧
    ∀ toks : List (Token Nat Nat), lateExample.cfg.InLanguage (kinds toks) → ∃ N w' n,
      (∀ fuel, N ≤ fuel → parse exampleSAddr lateExample.wrapped fuel World.new 7 toks = .ok (w', some n)) ∧
      ∀ s, Reads w' s n ↔ ∃ d : DTree (Token Nat Nat) (Prod Nat Nat Nat Unit),
        IsTree lateExample (·.kind) (.nonterm 0) d ∧ d.yield = toks ∧ s = d.mapNodes (·.actionKey) := by
  refine ⟨lateExample_trim, fun h => ?_, (right_exact lateExample_accepted (exampleSAddr_addrInj _) lateExample_trim
    .start 7).2 lateExample_no_faults⟩
  obtain ⟨p, hp, -, he⟩ := (Grammar.cfg_prod_iff lateExample_accepted.valid.toWF).1
    (lateExample_prod.2 (Or.inl ⟨rfl, rfl⟩))
  refine h.apart p hp [] (.nonterm 1) (.nonterm 2) [] he 2
    ⟨[1], [], Cfg.derives_prod (lateExample_prod.2 (by simp)), Cfg.derives_prod (lateExample_prod.2 (by simp))⟩ [3]
    (Cfg.derives_prod (lateExample_prod.2 (by simp)))

/-- All three outcomes of `right_outcome`. -/
example : (∃ w' n, parse exampleSAddr lateExample.wrapped 9 (World.new : World Nat Nat Nat) 7 (exampleToks [1, 2, 2, 3]) =
      .ok (w', some n)) ∧
    (∃ w', parse exampleSAddr lateExample.wrapped 9 (World.new : World Nat Nat Nat) 7 (exampleToks [1, 2]) =
      .ok (w', none)) ∧
    parse exampleSAddr lateExample.wrapped 9 (World.new : World Nat Nat Nat) 7 (exampleToks [1, 3]) =
      .panic .emptyState :=
  ⟨⟨_, _, rfl⟩, ⟨_, rfl⟩, rfl⟩

/-- `lateExample` without `X → 1 2`. -/
def lateShort : Grammar Nat Nat Nat Unit :=
  ⟨0, [exRule 0 [(10, [.nonterm 1, .nonterm 2])], exRule 1 [(11, [.term 1])], exRule 2 [(21, [.term 2, .term 3])]]⟩

theorem lateShort_accepted : lateShort.Accepted :=
  ⟨20, 0, [⟨0, [.addProd 10 () [.addNonterm 1, .addNonterm 2]]⟩, ⟨1, [.addProd 11 () [.addTerm 1]]⟩,
    ⟨2, [.addProd 21 () [.addTerm 2, .addTerm 3]]⟩], by decide⟩

theorem lateShort_prod {A : Nat} {β} : lateShort.cfg.prod A β ↔ (A = 0 ∧ β = [.nonterm 1, .nonterm 2]) ∨
    (A = 1 ∧ β = [.term 1]) ∨ (A = 2 ∧ β = [.term 2, .term 3]) := by
  simp [lateShort, Grammar.cfg, exRule, or_and_right, exists_or, and_assoc]

theorem lateShort_trim : lateShort.Trim := by
  have h0 : lateShort.cfg.prod 0 [.nonterm 1, .nonterm 2] := lateShort_prod.2 (by simp)
  constructor
  · intro A β h
    rcases lateShort_prod.1 h with ⟨rfl, -⟩ | ⟨rfl, -⟩ | ⟨rfl, -⟩
    · exact ⟨[], [], .refl _⟩
    · exact ⟨[], [.nonterm 2], Cfg.derives_prod h0⟩
    · exact ⟨[.nonterm 1], [], Cfg.derives_prod h0⟩
  · refine noDeadEnds_of (fun A => A = 0 ∨ A = 1 ∨ A = 2) (Or.inl rfl) ?_ ?_
    · intro A β hp B hB
      rcases lateShort_prod.1 hp with ⟨-, rfl⟩ | ⟨-, rfl⟩ | ⟨-, rfl⟩ <;> simp at hB
      omega
    · have h1 : lateShort.cfg.Derives [.nonterm 1] [.term 1] := Cfg.derives_prod (lateShort_prod.2 (by simp))
      have h2 : lateShort.cfg.Derives [.nonterm 2] [.term 2, .term 3] := Cfg.derives_prod (lateShort_prod.2 (by simp))
      rintro A (rfl | rfl | rfl)
      · exact ⟨[1, 2, 3], (Cfg.derives_prod h0).trans (h1.append h2)⟩
      · exact ⟨[1], h1⟩
      · exact ⟨[2, 3], h2⟩

/-- The hypotheses of `right_smaller` are met by two different grammars. -/
example : lateShort.ExtendedTo lateExample ∧ lateShort.Trim ∧ lateExample.Trim ∧
    ∀ toks : List (Token Nat Nat), lateShort.cfg.InLanguage (kinds toks) → ∃ N w' n,
      (∀ fuel, N ≤ fuel → parse exampleSAddr lateShort.wrapped fuel World.new 7 toks = .ok (w', some n)) ∧
      ∀ s, Reads w' s n ↔ ∃ d : DTree (Token Nat Nat) (Prod Nat Nat Nat Unit),
        IsTree lateShort (·.kind) (.nonterm 0) d ∧ d.yield = toks ∧ s = d.mapNodes (·.actionKey) := by
  have he : lateShort.ExtendedTo lateExample := ⟨rfl, by decide⟩
  exact ⟨he, lateShort_trim, lateExample_trim, right_smaller he lateShort_accepted lateExample_accepted
    (exampleSAddr_addrInj _) (exampleSAddr_addrInj _) lateShort_trim lateExample_trim .start .start 7 7
    ((right_exact lateExample_accepted (exampleSAddr_addrInj _) lateExample_trim .start 7).2 lateExample_no_faults)⟩

end Bongo
