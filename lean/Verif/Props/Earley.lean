import Verif.Proof.Ambiguity
import Verif.Props.Start
import Verif.Props.Forest
/-!
# C39–C47: the Earley parser

`parse addr g.wrapped fuel w t toks` is the call of `parse` on the grammar `wrap_grammar_with_start`
makes of `g` (C27), with the handle of tree `t`, when the memory holds `w`.  The result is `.oof`
only if the call has not finished within `fuel` passes of a closure loop (C41: there is always a
bound).  `addr` is where the productions live, `AddrInj` says only that they live apart.
-/
set_option linter.unusedSectionVars false
namespace Bongo
open Std
variable {T NT AK AV V : Type}
variable [Ord T] [Ord NT] [Ord AK] [Ord V] [DecidableEq T] [DecidableEq NT]
variable [TransOrd T] [TransOrd NT] [TransOrd AK] [TransOrd V]
variable [LawfulEqOrd T] [LawfulEqOrd NT] [LawfulEqOrd AK] [LawfulEqOrd V]
variable {addr : StartNonTerminal NT → Nat → Nat} {g : Grammar T NT AK AV}

omit [LawfulEqOrd T] [LawfulEqOrd NT] [LawfulEqOrd AK] [LawfulEqOrd V] in
theorem parse_ok_iff {fuel : Nat} {w w' : World T AK V} {t : Nat} {toks : List (Token T V)}
    {r : Option Node} (h : parse addr g.wrapped fuel w t toks = .ok (w', r)) :
    ∃ I n, parseInner addr g.wrapped fuel (w t) toks = .ok (I, n) ∧ w' = w.set t I ∧
      r = n.map (⟨·, t⟩) := by
  unfold parse at h
  cases hp : parseInner addr g.wrapped fuel (w t) toks with
  | panic p => rw [hp] at h; cases h
  | oof => rw [hp] at h; cases h
  | ok x =>
    obtain ⟨I, n⟩ := x
    rw [hp] at h
    simp only [Res.ok.injEq, _root_.Prod.mk.injEq] at h
    exact ⟨I, n, rfl, h.1.symm, h.2.symm⟩

/-! ## C42: when `parse` panics -/

/-- The exact behaviour of `parse`.  Either every prefix of the input is viable and has no clash,
and `parse` returns, `Some` exactly for words of the language; or there is a first prefix that is
not (it decides the panic): the assertion that a state is not empty fails if it is not viable, the
one that merged values have equal length fails if it has a clash. -/
theorem parse_exact (hg : g.Accepted) (ha : AddrInj g.wrapped addr) {log : TreeLog T AK V}
    {w : World T AK V} {held : List Handle} (hist : History log w held) (t : Nat)
    (toks : List (Token T V)) :
    ∃ N, ((∀ j, j ≤ toks.length → g.Viable (kinds (toks.take j)) ∧ ¬ g.Clash (kinds (toks.take j))) ∧
        ∃ w' r, (∀ fuel, N ≤ fuel → parse addr g.wrapped fuel w t toks = .ok (w', r)) ∧
          (r.isSome ↔ g.cfg.InLanguage (kinds toks))) ∨
      ∃ b, b ≤ toks.length ∧
        (∀ j, j < b → g.Viable (kinds (toks.take j)) ∧ ¬ g.Clash (kinds (toks.take j))) ∧
        ((¬ g.Viable (kinds (toks.take b)) ∧
            ∀ fuel, N ≤ fuel → parse addr g.wrapped fuel w t toks = .panic .emptyState) ∨
          (g.Viable (kinds (toks.take b)) ∧ g.Clash (kinds (toks.take b)) ∧
            ∀ fuel, N ≤ fuel → parse addr g.wrapped fuel w t toks = .panic .lenMismatch)) := by
  have hw := hg.valid.toWF
  have good : ∀ k, k ≤ toks.length → GoodAt g.wrapped toks k →
      g.Viable (kinds (toks.take k)) ∧ ¬ g.Clash (kinds (toks.take k)) := by
    intro k hk h
    exact ⟨(exists_item_iff hw hk).1 h.1, fun hc => h.2 _ (.collides ((exists_clash_iff hw hk).2 hc))⟩
  obtain ⟨F, h | h⟩ := parseInner_spec hw ha (unitLabel g.wrapped toks) (hist.inv.wf t)
  · obtain ⟨I, sets, last, L, r, h1, h2, h3, h4, h5⟩ := h
    refine ⟨F, Or.inl ⟨fun j hj => good j hj (h4 j hj), w.set t I, r.map (⟨·, t⟩), ?_, ?_⟩⟩
    · intro fuel hf
      unfold parse
      rw [h1 fuel hf]
    · rcases h5 with ⟨rfl, hn⟩ | ⟨n, rfl, hn⟩
      · rw [final_item_iff hw] at hn
        exact ⟨fun h => by simp at h, fun h => absurd h hn⟩
      · have hlast := h2.sets toks.length last (by rw [← h3]; simp)
        have := (final_item_iff hw).1 (hlast.entry _ hn).1
        exact ⟨fun _ => this, fun _ => rfl⟩
  · obtain ⟨b, h1, h2, h3⟩ := h
    refine ⟨F, Or.inr ⟨b, h1, fun j hj => good j (by omega) (h2 j hj), ?_⟩⟩
    rcases h3 with ⟨k1, k2⟩ | ⟨k1, k2⟩
    · left
      refine ⟨fun hv => k2 ((exists_item_iff hw h1).2 hv), ?_⟩
      intro fuel hf
      unfold parse
      rw [k1 fuel hf]
    · right
      refine ⟨(exists_item_iff hw h1).1 ?_, (exists_clash_iff hw h1).1 k2, ?_⟩
      · obtain ⟨p, d, _, i, _, h, _⟩ := k2
        exact ⟨p, d, i, h⟩
      · intro fuel hf
        unfold parse
        rw [k1 fuel hf]

/-- C42, as far as it is true: `parse` does not panic if every prefix of the input is viable and has
no clash.  (The full statement, without that condition, is false: see `parse_panics`.) -/
theorem parse_no_panic_partial (hg : g.Accepted) (ha : AddrInj g.wrapped addr) {log : TreeLog T AK V}
    {w : World T AK V} {held : List Handle} (hist : History log w held) (t : Nat)
    (toks : List (Token T V))
    (h : ∀ j, j ≤ toks.length → g.Viable (kinds (toks.take j)) ∧ ¬ g.Clash (kinds (toks.take j)))
    (fuel : Nat) (p : Panic) : parse addr g.wrapped fuel w t toks ≠ .panic p := by
  intro hp
  obtain ⟨N, ⟨-, w', r, h1, -⟩ | ⟨b, hb, -, ⟨h1, -⟩ | ⟨-, h1, -⟩⟩⟩ := parse_exact hg ha hist t toks
  · have := h1 _ (Nat.le_max_left N fuel)
    rw [parse_mono (Nat.le_max_right N fuel) (by rw [hp]; simp), hp] at this
    cases this
  · exact h1 (h b hb).1
  · exact (h b hb).2 h1

/-- The converse: `parse` panics on every other input. -/
theorem parse_panics (hg : g.Accepted) (ha : AddrInj g.wrapped addr) {log : TreeLog T AK V}
    {w : World T AK V} {held : List Handle} (hist : History log w held) (t : Nat)
    (toks : List (Token T V)) {j : Nat} (hj : j ≤ toks.length)
    (h : ¬ g.Viable (kinds (toks.take j)) ∨ g.Clash (kinds (toks.take j))) :
    ∃ N p, ∀ fuel, N ≤ fuel → parse addr g.wrapped fuel w t toks = .panic p := by
  obtain ⟨N, ⟨h1, -⟩ | ⟨b, -, -, ⟨-, h1⟩ | ⟨-, -, h1⟩⟩⟩ := parse_exact hg ha hist t toks
  · rcases h with h | h
    · exact absurd (h1 j hj).1 h
    · exact absurd h (h1 j hj).2
  · exact ⟨N, _, h1⟩
  · exact ⟨N, _, h1⟩

/-- A grammar with a nullable start symbol cannot be used: every call panics. -/
theorem parse_nullable_start_panics (hg : g.Accepted) (ha : AddrInj g.wrapped addr)
    {log : TreeLog T AK V} {w : World T AK V} {held : List Handle} (hist : History log w held)
    (t : Nat) (toks : List (Token T V)) (hn : g.cfg.Generates g.startSymbol []) :
    ∃ N p, ∀ fuel, N ≤ fuel → parse addr g.wrapped fuel w t toks = .panic p :=
  parse_panics hg ha hist t toks (Nat.zero_le _) (Or.inr (Or.inl ⟨by simp [kinds], hn⟩))

/-- A directly left-recursive production `A => A e ...` cannot be used: if it derives a part of the
input where it was expected, the call panics. -/
theorem parse_left_recursion_panics (hg : g.Accepted) (ha : AddrInj g.wrapped addr)
    {log : TreeLog T AK V} {w : World T AK V} {held : List Handle} (hist : History log w held)
    (t : Nat) (toks : List (Token T V)) {A : NT} {e : Elem T NT} {β δ : List (Elem T NT)}
    {u v z : List T} (hp : g.cfg.prod A (.nonterm A :: e :: β)) (hk : kinds toks = u ++ v ++ z)
    (hu : g.cfg.Derives [.nonterm g.startSymbol] (u.map .term ++ .nonterm A :: δ))
    (hv : g.cfg.Derives (.nonterm A :: e :: β) (v.map .term)) :
    ∃ N p, ∀ fuel, N ≤ fuel → parse addr g.wrapped fuel w t toks = .panic p := by
  have hl : toks.length = u.length + v.length + z.length := by
    rw [← kinds_length, hk]; simp; omega
  refine parse_panics hg ha hist t toks (j := u.length + v.length) (by omega) (Or.inr (Or.inr ?_))
  refine ⟨u, v, A, _, δ, 1, (Elem.nonterm A :: e :: β).length, ?_, hu, hp, by simp,
    Nat.le_refl _, ?_, ?_⟩
  · have : kinds (toks.take (u.length + v.length)) = (kinds toks).take (u.length + v.length) := by
      unfold kinds; rw [List.map_take]
    rw [this, hk, ← List.length_append, List.take_left']; rfl
  · exact (Cfg.derives_prod hp).trans hv
  · rw [List.take_length]; exact hv

/-! ## C39, C40 -/

/-- C39: if `parse` returns `Some`, the input is in the language. -/
theorem parse_some_in_language (hg : g.Accepted) (ha : AddrInj g.wrapped addr) {log : TreeLog T AK V}
    {w w' : World T AK V} {held : List Handle} (hist : History log w held) {t fuel : Nat}
    {toks : List (Token T V)} {n : Node}
    (h : parse addr g.wrapped fuel w t toks = .ok (w', some n)) : g.cfg.InLanguage (kinds toks) := by
  obtain ⟨N, ⟨-, w'', r, h1, h2⟩ | ⟨b, -, -, ⟨-, h1⟩ | ⟨-, -, h1⟩⟩⟩ := parse_exact hg ha hist t toks
  all_goals
    have := h1 _ (Nat.le_max_left N fuel)
    rw [parse_mono (Nat.le_max_right N fuel) (by rw [h]; simp), h] at this
  · simp only [Res.ok.injEq, _root_.Prod.mk.injEq] at this
    rw [← this.2] at h2
    exact h2.1 rfl
  · cases this
  · cases this

/-- C40: if `parse` returns `None`, the input is not in the language. -/
theorem parse_none_not_in_language (hg : g.Accepted) (ha : AddrInj g.wrapped addr)
    {log : TreeLog T AK V} {w w' : World T AK V} {held : List Handle} (hist : History log w held)
    {t fuel : Nat} {toks : List (Token T V)}
    (h : parse addr g.wrapped fuel w t toks = .ok (w', none)) : ¬ g.cfg.InLanguage (kinds toks) := by
  obtain ⟨N, ⟨-, w'', r, h1, h2⟩ | ⟨b, -, -, ⟨-, h1⟩ | ⟨-, -, h1⟩⟩⟩ := parse_exact hg ha hist t toks
  all_goals
    have := h1 _ (Nat.le_max_left N fuel)
    rw [parse_mono (Nat.le_max_right N fuel) (by rw [h]; simp), h] at this
  · simp only [Res.ok.injEq, _root_.Prod.mk.injEq] at this
    rw [← this.2] at h2
    intro hl
    simpa using h2.2 hl
  · cases this
  · cases this

/-! ## C41 -/

/-- C41: for every input there is a bound on the passes of the closure loops, beyond which the
result is always the same return or panic. -/
theorem parse_terminates (hg : g.Accepted) (ha : AddrInj g.wrapped addr) {log : TreeLog T AK V}
    {w : World T AK V} {held : List Handle} (hist : History log w held) (t : Nat)
    (toks : List (Token T V)) :
    ∃ N R, R ≠ .oof ∧ ∀ fuel, N ≤ fuel → parse addr g.wrapped fuel w t toks = R := by
  obtain ⟨N, ⟨-, w'', r, h1, h2⟩ | ⟨b, -, -, ⟨-, h1⟩ | ⟨-, -, h1⟩⟩⟩ := parse_exact hg ha hist t toks
  · exact ⟨N, _, by simp, h1⟩
  · exact ⟨N, _, by simp, h1⟩
  · exact ⟨N, _, by simp, h1⟩

/-! ## C43 -/

/-- C43: the same input on the same grammar, with another layout of the productions, another memory
and another tree, panics in the same way, returns `None` both times, or returns `Some` both times. -/
theorem parse_layout_independent (hg : g.Accepted) {addr' : StartNonTerminal NT → Nat → Nat}
    (ha : AddrInj g.wrapped addr) (ha' : AddrInj g.wrapped addr') {log log' : TreeLog T AK V}
    {w w' : World T AK V} {held held' : List Handle} (hist : History log w held)
    (hist' : History log' w' held') (t t' : Nat) (toks : List (Token T V)) :
    ∃ N, ∀ fuel, N ≤ fuel → (parse addr g.wrapped fuel w t toks).mapOut (fun r => r.2.isSome) =
      (parse addr' g.wrapped fuel w' t' toks).mapOut (fun r => r.2.isSome) := by
  obtain ⟨N, h⟩ := parse_exact hg ha hist t toks
  obtain ⟨N', h'⟩ := parse_exact hg ha' hist' t' toks
  refine ⟨max N N', ?_⟩
  intro fuel hf
  have hN : N ≤ fuel := by omega
  have hN' : N' ≤ fuel := by omega
  rcases h with ⟨h0, w1, r1, h1, h2⟩ | ⟨b, hb, hlt, h⟩
  · rcases h' with ⟨-, w1', r1', h1', h2'⟩ | ⟨b', hb', -, ⟨h1', -⟩ | ⟨-, h1', -⟩⟩
    · rw [h1 fuel hN, h1' fuel hN']
      simp only [Res.mapOut, Res.ok.injEq]
      rw [Bool.eq_iff_iff, h2, h2']
    · exact absurd (h0 b' hb').1 h1'
    · exact absurd h1' (h0 b' hb').2
  · have hbad : ¬ (g.Viable (kinds (toks.take b)) ∧ ¬ g.Clash (kinds (toks.take b))) := by
      rcases h with ⟨h, -⟩ | ⟨-, h, -⟩
      · exact fun hh => h hh.1
      · exact fun hh => hh.2 h
    rcases h' with ⟨h0, -⟩ | ⟨b', hb', hlt', h'⟩
    · exact absurd (h0 b hb) hbad
    · have hbad' : ¬ (g.Viable (kinds (toks.take b')) ∧ ¬ g.Clash (kinds (toks.take b'))) := by
        rcases h' with ⟨h, -⟩ | ⟨-, h, -⟩
        · exact fun hh => h hh.1
        · exact fun hh => hh.2 h
      have hbb : b = b' := by
        rcases Nat.lt_trichotomy b b' with h | h | h
        · exact absurd (hlt' b h) hbad
        · exact h
        · exact absurd (hlt b' h) hbad'
      subst hbb
      rcases h with ⟨v1, e1⟩ | ⟨v1, -, e1⟩ <;> rcases h' with ⟨v2, e2⟩ | ⟨v2, -, e2⟩
      · rw [e1 fuel hN, e2 fuel hN']
      · exact absurd v2 v1
      · exact absurd v1 v2
      · rw [e1 fuel hN, e2 fuel hN']

/-! ## C44, C45, C46 -/

/-- All derivation trees of the input can be read off the node, whatever was in the tree before. -/
theorem parse_all_trees_of_wf (hw : g.WF) (ha : AddrInj g.wrapped addr) {w w' : World T AK V} {t fuel : Nat}
    (hi : (w t).WF) {toks : List (Token T V)} {n : Node}
    (h : parse addr g.wrapped fuel w t toks = .ok (w', some n))
    {d : DTree (Token T V) (Prod T NT AK AV)} (hd : IsTree g (·.kind) (.nonterm g.startSymbol) d)
    (hy : d.yield = toks) : Reads w' (d.mapNodes (·.actionKey)) n := by
  obtain ⟨I, m, h1, rfl, h2⟩ := parse_ok_iff h
  cases m with
  | none => cases h2
  | some m =>
    cases h2
    obtain ⟨sets, last, L, r1, r2, r3, ⟨h, -⟩ | ⟨_, hk, r4⟩⟩ :=
      parseInner_ok hw ha (unitLabel g.wrapped toks) hi h1
    · cases h
    · cases hk
      have hget : (sets ++ [last])[toks.length]? = some last := by rw [← r2]; simp
      have hlast := r1.sets _ _ hget
      obtain ⟨v, v1, v2⟩ := (r1.full _ _ hget).parse hlast (EParse.of_tree hw hd hy)
      have := hlast.unique (Grammar.wrapped_wf hw) ha v1 r4 rfl rfl
      simp only [_root_.Prod.mk.injEq, true_and] at this
      subst this
      rw [RepAll, RepAll] at v2
      refine Rep.reads d m ?_
      rw [World.set_self]
      exact v2.1

/-- C44: every derivation tree of the input can be read off the returned node (with the actions of
the productions at its nodes, and the tokens, with their values, at its leaves). -/
theorem parse_all_trees (hg : g.Accepted) (ha : AddrInj g.wrapped addr) {log : TreeLog T AK V}
    {w w' : World T AK V} {held : List Handle} (hist : History log w held) {t fuel : Nat}
    {toks : List (Token T V)} {n : Node}
    (h : parse addr g.wrapped fuel w t toks = .ok (w', some n))
    {d : DTree (Token T V) (Prod T NT AK AV)} (hd : IsTree g (·.kind) (.nonterm g.startSymbol) d)
    (hy : d.yield = toks) : Reads w' (d.mapNodes (·.actionKey)) n :=
  parse_all_trees_of_wf hg.valid.toWF ha (hist.inv.wf t) h hd hy

/-- Only derivation trees can be read off the node, whatever was in the tree before. -/
theorem parse_trees_grammatical_of_wf (hw : g.WF) (ha : AddrInj g.wrapped addr) {w w' : World T AK V}
    {t fuel : Nat} (hi : (w t).WF) {toks : List (Token T V)} {n : Node}
    (h : parse addr g.wrapped fuel w t toks = .ok (w', some n))
    {s : DTree (Token T V) AK} (hs : Reads w' s n) :
    ∃ d : DTree (Token T V) (Prod T NT AK AV), IsTree g (·.kind) (.nonterm g.startSymbol) d ∧
      d.mapNodes (·.actionKey) = s ∧ ∀ tok ∈ s.yield, tok ∈ toks := by
  obtain ⟨I, m, h1, rfl, h2⟩ := parse_ok_iff h
  cases m with
  | none => cases h2
  | some m =>
    cases h2
    obtain ⟨sets, last, L, r1, r2, r3, ⟨h, -⟩ | ⟨_, hk, r4⟩⟩ :=
      parseInner_ok hw ha (elemLabel g.wrapped toks) hi h1
    · cases h
    · cases hk
      have hlast := r1.sets toks.length last (by rw [← r2]; simp)
      have hL := (hlast.entry _ r4).2.2 0 m rfl
      refine Reads.grammatical hw (t := t) (by rw [World.set_self]; exact r1.typed) s m
        (.nonterm g.startSymbol) hL hs

/-- C45: every tree that can be read off the returned node is a derivation tree of the start symbol,
and its leaves are tokens of the input. -/
theorem parse_trees_grammatical (hg : g.Accepted) (ha : AddrInj g.wrapped addr)
    {log : TreeLog T AK V} {w w' : World T AK V} {held : List Handle} (hist : History log w held)
    {t fuel : Nat} {toks : List (Token T V)} {n : Node}
    (h : parse addr g.wrapped fuel w t toks = .ok (w', some n))
    {s : DTree (Token T V) AK} (hs : Reads w' s n) :
    ∃ d : DTree (Token T V) (Prod T NT AK AV), IsTree g (·.kind) (.nonterm g.startSymbol) d ∧
      d.mapNodes (·.actionKey) = s ∧ ∀ tok ∈ s.yield, tok ∈ toks :=
  parse_trees_grammatical_of_wf hg.valid.toWF ha (hist.inv.wf t) h hs

/-- C46, as far as it is true: if productions divide the parts of the input in one way only, every
tree that can be read off the returned node spells the input.  (The full statement, without that
condition, is false: see `parse_tree_not_spelling`.) -/
theorem parse_trees_spell_partial (hg : g.Accepted) (ha : AddrInj g.wrapped addr)
    {log : TreeLog T AK V} {w w' : World T AK V} {held : List Handle} (hist : History log w held)
    {t fuel : Nat} {toks : List (Token T V)} {n : Node} (hsplit : g.SplitsOnce (kinds toks))
    (h : parse addr g.wrapped fuel w t toks = .ok (w', some n))
    {s : DTree (Token T V) AK} (hs : Reads w' s n) : s.yield = toks := by
  have hw := hg.valid.toWF
  have hu := eunique_of_splits hw hsplit
  obtain ⟨I, m, h1, rfl, h2⟩ := parse_ok_iff h
  cases m with
  | none => cases h2
  | some m =>
    cases h2
    obtain ⟨sets, last, L, r1, r2, r3, ⟨h, -⟩ | ⟨_, hk, r4⟩⟩ :=
      parseInner_ok hw ha (spanLabel hu) (hist.inv.wf t) h1
    · cases h
    · cases hk
      have hlast := r1.sets toks.length last (by rw [← r2]; simp)
      have hL := (hlast.entry _ r4).2.2 0 m rfl
      have := Reads.spells hu (t := t) (by rw [World.set_self]; exact r1.typed) s m _ hL hs
      rw [this]
      have hi := (hlast.entry _ r4).1
      obtain ⟨c, hc⟩ := EItem.succ (d := 0) hi
      have hc0 := hc.1.zero
      simp only at hc0
      subst hc0
      have : (spanLabel hu).lab toks.length (startRef g) 1 0 0 = (0, toks.length) := by
        simp only [spanLabel, espan, if_true]
        rw [ecut_eq hu hc]
      simp only [this, seg_zero, List.take_length]

/-- C46 for unambiguous grammars without dead ends. -/
theorem parse_trees_spell_unambiguous (hg : g.Accepted) (ha : AddrInj g.wrapped addr)
    {log : TreeLog T AK V} {w w' : World T AK V} {held : List Handle} (hist : History log w held)
    {t fuel : Nat} {toks : List (Token T V)} {n : Node} (hu : g.Unambiguous) (hd : g.NoDeadEnds)
    (h : parse addr g.wrapped fuel w t toks = .ok (w', some n))
    {s : DTree (Token T V) AK} (hs : Reads w' s n) : s.yield = toks :=
  parse_trees_spell_partial hg ha hist (splits_of_unambiguous hg.valid.toWF hu hd _) h hs

/-! ## C47 -/

/-- C47: whatever a program could ask about the trees before the call, it gets the same answer
after it. -/
theorem parse_frame (hg : g.Accepted) (ha : AddrInj g.wrapped addr)
    {log : TreeLog T AK V} {w w' : World T AK V} {held : List Handle} (hist : History log w held)
    {t fuel : Nat} {toks : List (Token T V)} {r : Option Node}
    (h : parse addr g.wrapped fuel w t toks = .ok (w', r)) {op : TreeOp T AK V}
    (hop : op.Allowed held) (hread : op.target = none) : (op.exec w').2 = (op.exec w).2 := by
  have hw := hg.valid.toWF
  obtain ⟨I, m, h1, rfl, h2⟩ := parse_ok_iff h
  obtain ⟨sets, last, L, r1, -⟩ := parseInner_ok hw ha (unitLabel g.wrapped toks) (hist.inv.wf t) h1
  have hle : w.Le (w.set t I) := World.Le.set r1.ext.le
  have halt : ∀ (t' k : Nat) c, (w t').getAlt k = .ok c → ((w.set t I) t').getAlt k = .ok c := by
    intro t' k c hc
    exact getAlt_of_altAt ((hle t').alts _ _ (getAlt_iff.1 hc))
  have hok := hist.inv.handles
  cases op with
  | makeNode t => cases hread
  | makeLeafAlt t k v => cases hread
  | makeBranchAlt t a ns => cases hread
  | addAlt n a => cases hread
  | addAll n m => cases hread
  | alts n =>
    have hn : n.index < (w n.tree).nodes.length := hok _ hop
    have : (w.set t I).alts n = w.alts n := by
      unfold World.alts
      by_cases htr : n.tree = t
      · subst htr
        rw [World.set_self]
        have hl := r1.ext.le.nodesLen
        have e1 := List.getElem?_eq_getElem hn
        have e2 := List.getElem?_eq_getElem (l := I.nodes) (i := n.index) (by omega)
        have hs : I.nodes[n.index]'(by omega) = (w n.tree).nodes[n.index] := by
          refine BSet.ext (cmp := compare) (r1.typed.wf.nodeSorted _ (List.getElem_mem _))
            ((hist.inv.wf n.tree).nodeSorted _ (List.getElem_mem _)) ?_
          intro a
          constructor
          · intro hm
            obtain ⟨s, hs1, hs2⟩ := r1.ext.frame n.index hn a ⟨_, e2, hm⟩
            rw [e1] at hs1; cases hs1; exact hs2
          · intro hm
            obtain ⟨s, hs1, hs2⟩ := r1.ext.le.has n.index a ⟨_, e1, hm⟩
            rw [e2] at hs1; cases hs1; exact hs2
        unfold Inner.getNode
        rw [e1, e2, hs]
      · rw [World.set_other _ _ htr]
    simp only [TreeOp.exec, this]
  | content a =>
    have ha' : a.index < (w a.tree).alternatives.idToValue.length := hok _ hop
    have hc := List.getElem?_eq_getElem ha'
    have hc := getAlt_of_altAt (i := w a.tree) hc
    simp only [TreeOp.exec, World.content, hc, halt _ _ _ hc]
  | kind l =>
    obtain ⟨k, v, hc⟩ : ∃ k v, (w l.tree).altAt l.index = some (.leaf k v) := hok _ hop
    have hc := getAlt_of_altAt hc
    simp only [TreeOp.exec, World.kind, World.withLeaf, hc, halt _ _ _ hc]
  | value l =>
    obtain ⟨k, v, hc⟩ : ∃ k v, (w l.tree).altAt l.index = some (.leaf k v) := hok _ hop
    have hc := getAlt_of_altAt hc
    simp only [TreeOp.exec, World.value, World.withLeaf, hc, halt _ _ _ hc]
  | action b =>
    obtain ⟨k, v, hc⟩ : ∃ k v, (w b.tree).altAt b.index = some (.branch k v) := hok _ hop
    have hc := getAlt_of_altAt hc
    simp only [TreeOp.exec, World.action, World.withBranch, hc, halt _ _ _ hc]
  | nodes b =>
    obtain ⟨k, v, hc⟩ : ∃ k v, (w b.tree).altAt b.index = some (.branch k v) := hok _ hop
    have hc := getAlt_of_altAt hc
    simp only [TreeOp.exec, World.branchNodes, World.withBranch, hc, halt _ _ _ hc]
end Bongo
