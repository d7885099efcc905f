import Verif.Proof.EarleyStart
import Verif.Props.EarleyExamples
import Verif.Props.Mix
/-!
# C116: `parse` on start grammars that were built directly

C39–C47 are about `parse` on the result of `wrap_grammar_with_start`.  `parse` accepts every
`StartGrammar`, which is only a name for a grammar over `StreamTerminal`, `StartNonTerminal` and
`StartActionKey`; here is what it does on all of them.
-/
set_option linter.unusedSectionVars false
namespace Bongo
open Std
variable {T NT AK AV V : Type}
variable [Ord T] [Ord NT] [Ord AK] [Ord V] [DecidableEq T] [DecidableEq NT]
variable [TransOrd T] [TransOrd NT] [TransOrd AK] [TransOrd V]
variable [LawfulEqOrd T] [LawfulEqOrd NT] [LawfulEqOrd AK] [LawfulEqOrd V]
variable {addr : StartNonTerminal NT → Nat → Nat} {sg : StartGrammar T NT AK AV}

theorem accepted_start (hg : sg.Accepted) : (∃ r, sg.tryGetRule sg.startSymbol = some r) ∧
    ∃ p ∈ sg.prods, p.head = sg.startSymbol := by
  have hv := hg.valid
  obtain ⟨r, hr⟩ := hv.startRule
  refine ⟨⟨r, hr⟩, ?_⟩
  have hne := hv.nonempty _ r hr
  cases hp : r.prodRefs with
  | nil =>
    have h2 := RuleInner.prodRefs_isEmpty (r := r)
    rw [hp] at h2
    exact absurd (h2.1 rfl) hne
  | cons p l =>
    have := (Grammar.mem_prods_of_rule hv.toWF hr).1 (show p ∈ r.prodRefs by rw [hp]; simp)
    exact ⟨p, this⟩

/-- The exact behaviour of `parse` on a start grammar.  Either every prefix of the input is viable,
leaves every production at one position and completes no awaited production with the start action;
then the result is decided by the productions that stand before an end of stream: `None` if there
are none, otherwise the first in memory counts, which must be at position 1 (its one node is
returned) and otherwise makes the call panic.  Or there is a first prefix for which this does not
hold, and the call panics for the reason that holds. -/
theorem parse_start_exact (hg : sg.Accepted) (ha : AddrInj sg addr) {log : TreeLog T AK V}
    {w : World T AK V} {held : List Handle} (hist : History log w held) (t : Nat)
    (toks : List (Token T V)) :
    ∃ N, ((∀ j, j ≤ toks.length → sg.Viable (streamKinds (toks.take j)) ∧
          ¬ sg.TwoPlaces (streamKinds (toks.take j)) ∧ ¬ StartReduced sg (streamKinds (toks.take j))) ∧
        ((¬ sg.Viable (streamKinds toks ++ [.endOfStream]) ∧
            ∃ w', ∀ fuel, N ≤ fuel → parse addr sg fuel w t toks = .ok (w', none)) ∨
          ∃ p d i, FirstStop addr sg toks p d i ∧
            ((d = 1 ∧ ∃ w' n, ∀ fuel, N ≤ fuel → parse addr sg fuel w t toks = .ok (w', some n)) ∨
              (d ≠ 1 ∧ ∀ fuel, N ≤ fuel → parse addr sg fuel w t toks = .panic .finalLen)))) ∨
      ∃ b, b ≤ toks.length ∧
        (∀ j, j < b → sg.Viable (streamKinds (toks.take j)) ∧
          ¬ sg.TwoPlaces (streamKinds (toks.take j)) ∧ ¬ StartReduced sg (streamKinds (toks.take j))) ∧
        ((¬ sg.Viable (streamKinds (toks.take b)) ∧
            ∀ fuel, N ≤ fuel → parse addr sg fuel w t toks = .panic .emptyState) ∨
          (sg.Viable (streamKinds (toks.take b)) ∧ sg.TwoPlaces (streamKinds (toks.take b)) ∧
            ∀ fuel, N ≤ fuel → parse addr sg fuel w t toks = .panic .lenMismatch) ∨
          (sg.Viable (streamKinds (toks.take b)) ∧ StartReduced sg (streamKinds (toks.take b)) ∧
            ∀ fuel, N ≤ fuel → parse addr sg fuel w t toks = .panic .startActionKey)) := by
  have hw := hg.valid.toWF
  obtain ⟨⟨r, hr⟩, hne⟩ := accepted_start hg
  have hsg : SGOk addr sg := ⟨hw, ha⟩
  have good : ∀ k, k ≤ toks.length → GoodAt sg toks k →
      sg.Viable (streamKinds (toks.take k)) ∧ ¬ sg.TwoPlaces (streamKinds (toks.take k)) ∧
        ¬ StartReduced sg (streamKinds (toks.take k)) := by
    intro k hk h
    exact ⟨(viable_iff_item hw hne hk).1 h.1, fun hc => h.2 _ (.collides ((twoPlaces_iff hw hk).2 hc)),
      fun hc => h.2 _ (.startKey ((startReduced_iff hw hk).2 hc))⟩
  obtain ⟨F, h | h⟩ := parseInner_gen hsg hr hne (unitLabel sg toks) (hist.inv.wf t)
  · obtain ⟨I, sets, last, L, h1, h2, h3, h4⟩ := h
    have hget : (sets ++ [last])[toks.length]? = some last := by rw [← h3]; simp
    refine ⟨F, Or.inl ⟨fun j hj => good j hj (h4 j hj), ?_⟩⟩
    rcases getFinal_stops hsg (h2.sets _ _ hget) (h2.full _ _ hget) with
      ⟨k1, k2⟩ | ⟨p, d, i, v, k1, k2, k3, k4, k5⟩
    · refine Or.inl ⟨fun hv => ?_, w.set t I, ?_⟩
      · obtain ⟨p, d, i, hs⟩ := (stops_iff_viable hw).2 hv
        exact k2 p d i hs
      · intro fuel hf
        unfold parse
        rw [h1 fuel hf, k1]; rfl
    · refine Or.inr ⟨p, d, i, k2, ?_⟩
      by_cases hd : d = 1
      · rw [hd] at k3
        obtain ⟨n, rfl⟩ := List.length_eq_one_iff.1 k3
        refine Or.inl ⟨hd, w.set t I, ⟨n, t⟩, ?_⟩
        intro fuel hf
        unfold parse
        rw [h1 fuel hf, k4 n rfl]; rfl
      · refine Or.inr ⟨hd, ?_⟩
        intro fuel hf
        unfold parse
        rw [h1 fuel hf, k5 (by rw [k3]; exact hd)]
  · obtain ⟨b, h1, h2, h3⟩ := h
    refine ⟨F, Or.inr ⟨b, h1, fun j hj => good j (by omega) (h2 j hj), ?_⟩⟩
    rcases h3 with ⟨k1, k2⟩ | ⟨p, k1, k2, k3⟩
    · refine Or.inl ⟨fun hv => k2 ((viable_iff_item hw hne h1).2 hv), ?_⟩
      intro fuel hf
      unfold parse
      rw [k1 fuel hf]
    · have hv := (viable_iff_item hw hne h1).1 k3
      cases k2 with
      | collides k2 =>
        refine Or.inr (Or.inl ⟨hv, (twoPlaces_iff hw h1).1 k2, ?_⟩)
        intro fuel hf
        unfold parse
        rw [k1 fuel hf]
      | startKey k2 =>
        refine Or.inr (Or.inr ⟨hv, (startReduced_iff hw h1).1 k2, ?_⟩)
        intro fuel hf
        unfold parse
        rw [k1 fuel hf]

/-- `parse` finishes on every start grammar. -/
theorem parse_start_terminates (hg : sg.Accepted) (ha : AddrInj sg addr) {log : TreeLog T AK V}
    {w : World T AK V} {held : List Handle} (hist : History log w held) (t : Nat)
    (toks : List (Token T V)) :
    ∃ N R, R ≠ .oof ∧ ∀ fuel, N ≤ fuel → parse addr sg fuel w t toks = R := by
  obtain ⟨N, ⟨-, ⟨-, w', h⟩ | ⟨p, d, i, -, ⟨-, w', n, h⟩ | ⟨-, h⟩⟩⟩ |
    ⟨b, -, -, ⟨-, h⟩ | ⟨-, -, h⟩ | ⟨-, -, h⟩⟩⟩ := parse_start_exact hg ha hist t toks
  all_goals exact ⟨N, _, by simp, h⟩

/-- What a returned node says: there is a production `e EOS ...` that comes first among those that
stand before the end of stream after all tokens, and the trees that can be read off the node are
derivation trees of `e`, among them all those that spell the tokens read since that production was
started. -/
theorem parse_start_some (hg : sg.Accepted) (ha : AddrInj sg addr) {log : TreeLog T AK V}
    {w w' : World T AK V} {held : List Handle} (hist : History log w held) {t fuel : Nat}
    {toks : List (Token T V)} {n : Node} (h : parse addr sg fuel w t toks = .ok (w', some n)) :
    ∃ p i e, FirstStop addr sg toks p 1 i ∧ p.elements.take 2 = [e, .term .endOfStream] ∧
      (∀ d : DTree (Token T V) (SProd T NT AK AV), IsTree sg (fun tok => .term tok.kind) e d →
        d.yield = toks.drop i → ∃ s : DTree (Token T V) AK,
          s.mapNodes StartActionKey.actionKey = d.mapNodes (·.actionKey) ∧ Reads w' s n) ∧
      ∀ s : DTree (Token T V) AK, Reads w' s n → ∃ d : DTree (Token T V) (SProd T NT AK AV),
        IsTree sg (fun tok => .term tok.kind) e d ∧
          d.mapNodes (·.actionKey) = s.mapNodes StartActionKey.actionKey ∧
          ∀ tok ∈ s.yield, tok ∈ toks := by
  have hw := hg.valid.toWF
  obtain ⟨⟨r, hr⟩, hne⟩ := accepted_start hg
  have hsg : SGOk addr sg := ⟨hw, ha⟩
  have hm : ∀ F, parse addr sg (max F fuel) w t toks = .ok (w', some n) := by
    intro F
    rw [parse_mono (Nat.le_max_right F fuel) (by rw [h]; simp), h]
  obtain ⟨F, h' | h'⟩ := parseInner_gen hsg hr hne (elemLabel sg toks) (hist.inv.wf t)
  · obtain ⟨I, sets, last, L, h1, h2, h3, h4⟩ := h'
    have hget : (sets ++ [last])[toks.length]? = some last := by rw [← h3]; simp
    have hz := h2.sets _ _ hget
    have hf := h2.full _ _ hget
    have hrun := hm F
    unfold parse at hrun
    rw [h1 _ (Nat.le_max_left F fuel)] at hrun
    rcases getFinal_stops hsg hz hf with ⟨k1, k2⟩ | ⟨p, d, i, v, k1, k2, k3, k4, k5⟩
    · rw [k1] at hrun; simp at hrun
    · by_cases hd : d = 1
      · subst hd
        obtain ⟨m, rfl⟩ := List.length_eq_one_iff.1 k3
        rw [k4 m rfl] at hrun
        simp only [Option.map_some, Res.ok.injEq, _root_.Prod.mk.injEq, Option.some.injEq] at hrun
        obtain ⟨rfl, rfl⟩ := hrun
        have hent := hz.entry _ k1
        obtain ⟨s1, s2⟩ := (stopsAt_iff hw).1 k2.1
        have hlt := (List.getElem?_eq_some_iff.1 s2).1
        have he0 := List.getElem?_eq_getElem (show 0 < p.elements.length by omega)
        refine ⟨p, i, p.elements[0], k2, ?_, ?_, ?_⟩
        · apply List.ext_getElem?
          intro x
          rcases x with _ | _ | x
          · simpa using he0
          · simpa using s2
          · simp only [List.getElem?_take]; simp
            intro hx; omega
        · intro dt hdt hy
          have hb := s1.bounds.2.1
          have hi0 : EItem sg toks i p 0 i := by
            refine (eitem_iff hw (Nat.le_refl i) hb).2 ?_
            have := (eitem_iff hw hb (Nat.le_refl _)).1 s1
            exact ⟨this.1, Nat.zero_le _, this.2.2.1, by simp [streamKinds]; exact .refl _⟩
          obtain ⟨ts0, hi0⟩ := hi0
          have hts : ts0 = [] := List.length_eq_zero_iff.1 hi0.bounds.2.2.2
          subst hts
          have hp := EParse.tree (hdt : IsTree sg sKind _ dt) hi0 (j := toks.length) he0 hb
            (Nat.le_refl _) (by rw [hy]; unfold seg; simp)
          obtain ⟨v, v1, v2⟩ := hf.parse hz hp
          have := hz.unique hw ha v1 k1 rfl rfl
          simp only [_root_.Prod.mk.injEq] at this
          obtain ⟨-, rfl⟩ := this
          rw [List.nil_append, RepAll, RepAll] at v2
          exact Rep.readsS (t := t) dt m (by rw [World.set_self]; exact v2.1)
        · intro s hs
          have hL := hent.2.2 0 m rfl
          simp only [elemLabel] at hL
          rw [he0] at hL
          exact Reads.grammaticalS (t := t) (by rw [World.set_self]; exact h2.typed) s m _ hL hs
      · rw [k5 (by rw [k3]; exact hd)] at hrun
        cases hrun
  · obtain ⟨b, -, -, ⟨h1, -⟩ | ⟨p, h1, -⟩⟩ := h'
    all_goals
      have hrun := hm F
      unfold parse at hrun
      rw [h1 _ (Nat.le_max_left F fuel)] at hrun
      cases hrun

/-- `Some` means that the end of stream can follow the input, `None` that it cannot; but not that the
input is a sentence (see `parse_start_not_sentence`). -/
theorem parse_start_isSome (hg : sg.Accepted) (ha : AddrInj sg addr) {log : TreeLog T AK V}
    {w w' : World T AK V} {held : List Handle} (hist : History log w held) {t fuel : Nat}
    {toks : List (Token T V)} {r : Option Node} (h : parse addr sg fuel w t toks = .ok (w', r)) :
    r.isSome ↔ sg.Viable (streamKinds toks ++ [.endOfStream]) := by
  have hw := hg.valid.toWF
  have hm : ∀ F, parse addr sg (max F fuel) w t toks = .ok (w', r) := by
    intro F
    rw [parse_mono (Nat.le_max_right F fuel) (by rw [h]; simp), h]
  obtain ⟨N, ⟨-, ⟨hv, w'', h'⟩ | ⟨p, d, i, hs, ⟨-, w'', n, h'⟩ | ⟨-, h'⟩⟩⟩ |
    ⟨b, -, -, ⟨-, h'⟩ | ⟨-, -, h'⟩ | ⟨-, -, h'⟩⟩⟩ := parse_start_exact hg ha hist t toks
  all_goals
    have := h' _ (Nat.le_max_left N fuel)
    rw [hm N] at this
    simp only [Res.ok.injEq, _root_.Prod.mk.injEq, reduceCtorEq] at this
  · rw [this.2]
    exact ⟨fun h => (by cases h), fun h => absurd h hv⟩
  · rw [this.2]
    exact ⟨fun _ => (stops_iff_viable hw).1 ⟨p, d, i, hs.1⟩, fun _ => rfl⟩

/-! ## Start grammars that no `wrap_grammar_with_start` returns

Numbers for terminals, non-terminals and actions; `EOS` is the end of stream. -/
section
abbrev SG := StartGrammar Nat Nat Nat Unit
abbrev SE := Elem (StreamTerminal Nat) (StartNonTerminal Nat)

def sgRule (h : StartNonTerminal Nat) (ps : List (StartActionKey Nat × List SE)) :
    StartNonTerminal Nat × RuleInner (StreamTerminal Nat) (StartNonTerminal Nat) (StartActionKey Nat)
      (StartActionValue Unit) := (h, ⟨h, ps.map fun p => ⟨p.1, .actionValue (), p.2.map (⟨none, ·⟩)⟩⟩)

/-- `Start → 1 EOS 2 | 3 4 EOS | A EOS`, `A → 5`, with the start action for `A → 5`. -/
def oddStart : SG :=
  ⟨.start, [sgRule .start [(.actionKey 10, [.term (.term 1), .term .endOfStream, .term (.term 2)]),
      (.actionKey 11, [.term (.term 3), .term (.term 4), .term .endOfStream]),
      (.actionKey 12, [.nonterm (.nterm 0), .term .endOfStream])],
    sgRule (.nterm 0) [(.start, [.term (.term 5)])]]⟩

theorem oddStart_accepted : oddStart.Accepted :=
  ⟨20, .start, [⟨.start, [
      .addProd (.actionKey 10) (.actionValue ()) [.addTerm (.term 1), .addTerm .endOfStream, .addTerm (.term 2)],
      .addProd (.actionKey 11) (.actionValue ()) [.addTerm (.term 3), .addTerm (.term 4), .addTerm .endOfStream],
      .addProd (.actionKey 12) (.actionValue ()) [.addNonterm (.nterm 0), .addTerm .endOfStream]]⟩,
    ⟨.nterm 0, [.addProd .start (.actionValue ()) [.addTerm (.term 5)]]⟩], by decide⟩

/-- Five of the outcomes of `parse_start_exact` on one grammar; for the sixth, `lenMismatch`, see
`parse_panics_left_recursion`. -/
example : oddStart.Accepted ∧ AddrInj oddStart exampleSAddr ∧
    History [] (World.new : World Nat Nat Nat) [.tree 7] ∧
    (∃ w n, parse exampleSAddr oddStart 9 (World.new : World Nat Nat Nat) 7 (exampleToks [1]) =
      .ok (w, some n)) ∧
    (∃ w, parse exampleSAddr oddStart 9 (World.new : World Nat Nat Nat) 7 (exampleToks [3]) =
      .ok (w, none)) ∧
    parse exampleSAddr oddStart 9 (World.new : World Nat Nat Nat) 7 (exampleToks [3, 4]) =
      .panic .finalLen ∧
    parse exampleSAddr oddStart 9 (World.new : World Nat Nat Nat) 7 (exampleToks [5]) =
      .panic .startActionKey ∧
    parse exampleSAddr oddStart 9 (World.new : World Nat Nat Nat) 7 (exampleToks [4]) =
      .panic .emptyState :=
  ⟨oddStart_accepted, exampleSAddr_addrInj _, .newOwner _ .start (by simp), ⟨_, _, rfl⟩, ⟨_, rfl⟩, rfl, rfl,
    rfl⟩

theorem oddStart_prod {A : StartNonTerminal Nat} {β : List SE} (h : oddStart.cfg.prod A β) :
    (A = .start ∧ (β = [.term (.term 1), .term .endOfStream, .term (.term 2)] ∨
      β = [.term (.term 3), .term (.term 4), .term .endOfStream] ∨
      β = [.nonterm (.nterm 0), .term .endOfStream])) ∨ (A = .nterm 0 ∧ β = [.term (.term 5)]) := by
  obtain ⟨r, p, h1, h2, rfl⟩ := h
  simp only [oddStart, sgRule, List.mem_cons, List.not_mem_nil, or_false, _root_.Prod.mk.injEq] at h1
  rcases h1 with ⟨rfl, rfl⟩ | ⟨rfl, rfl⟩
  · simp only [List.map_cons, List.map_nil, List.mem_cons, List.not_mem_nil, or_false] at h2
    rcases h2 with rfl | rfl | rfl
    · exact .inl ⟨rfl, .inl rfl⟩
    · exact .inl ⟨rfl, .inr (.inl rfl)⟩
    · exact .inl ⟨rfl, .inr (.inr rfl)⟩
  · simp only [List.map_cons, List.map_nil, List.mem_cons, List.not_mem_nil, or_false] at h2
    subst h2
    exact .inr ⟨rfl, rfl⟩

/-- A returned node does not mean that the tokens followed by the end of stream are a sentence:
`parse` does not look at what comes after the end of stream. -/
theorem parse_start_not_sentence : ∃ (sg : SG) (w : World Nat Nat Nat) (n : Node), sg.Accepted ∧
    (∀ fuel, 9 ≤ fuel → parse exampleSAddr sg fuel World.new 7 (exampleToks [1]) = .ok (w, some n)) ∧
    ¬ sg.cfg.InLanguage (streamKinds (exampleToks [1]) ++ [.endOfStream]) := by
  have h9 : ∃ w n, parse exampleSAddr oddStart 9 (World.new : World Nat Nat Nat) 7 (exampleToks [1]) =
      .ok (w, some n) := ⟨_, _, rfl⟩
  obtain ⟨w, n, h9⟩ := h9
  refine ⟨oddStart, w, n, oddStart_accepted, fun fuel h => ?_, ?_⟩
  · rw [parse_mono h (by rw [h9]; simp), h9]
  · intro h
    obtain ⟨β, h1, h2⟩ := Cfg.generates_iff.1 h
    rcases oddStart_prod h1 with ⟨-, rfl | rfl | rfl⟩ | ⟨h3, -⟩
    · simp [Cfg.yields_cons_term_iff, streamKinds, exampleToks] at h2
    · simp [Cfg.yields_cons_term_iff, streamKinds, exampleToks] at h2
    · obtain ⟨u, v, h3, h4, -⟩ := Cfg.yields_cons_nonterm_iff.1 h2
      obtain ⟨β, h5, h6⟩ := Cfg.generates_iff.1 h4
      rcases oddStart_prod h5 with ⟨h, -⟩ | ⟨-, rfl⟩
      · cases h
      · obtain ⟨w', rfl, -⟩ := Cfg.yields_cons_term_iff.1 h6
        simp [streamKinds, exampleToks] at h3
    · cases h3

/-- `Start → A EOS | B EOS`, `A → 1`, `B → 1`. -/
def twoStart : SG :=
  ⟨.start, [sgRule .start [(.actionKey 10, [.nonterm (.nterm 0), .term .endOfStream]),
      (.actionKey 11, [.nonterm (.nterm 1), .term .endOfStream])],
    sgRule (.nterm 0) [(.actionKey 12, [.term (.term 1)])],
    sgRule (.nterm 1) [(.actionKey 13, [.term (.term 1)])]]⟩

theorem twoStart_accepted : twoStart.Accepted :=
  ⟨20, .start, [⟨.start, [
      .addProd (.actionKey 10) (.actionValue ()) [.addNonterm (.nterm 0), .addTerm .endOfStream],
      .addProd (.actionKey 11) (.actionValue ()) [.addNonterm (.nterm 1), .addTerm .endOfStream]]⟩,
    ⟨.nterm 0, [.addProd (.actionKey 12) (.actionValue ()) [.addTerm (.term 1)]]⟩,
    ⟨.nterm 1, [.addProd (.actionKey 13) (.actionValue ()) [.addTerm (.term 1)]]⟩], by decide⟩

/-- `Start → A | B`, `A → C EOS`, `B → D EOS`, `C → 1`, `D → 1`. -/
def deepStart : SG :=
  ⟨.start, [sgRule .start [(.actionKey 10, [.nonterm (.nterm 0)]), (.actionKey 11, [.nonterm (.nterm 1)])],
    sgRule (.nterm 0) [(.actionKey 12, [.nonterm (.nterm 2), .term .endOfStream])],
    sgRule (.nterm 1) [(.actionKey 13, [.nonterm (.nterm 3), .term .endOfStream])],
    sgRule (.nterm 2) [(.actionKey 14, [.term (.term 1)])],
    sgRule (.nterm 3) [(.actionKey 15, [.term (.term 1)])]]⟩

theorem deepStart_accepted : deepStart.Accepted :=
  ⟨20, .start, [⟨.start, [.addProd (.actionKey 10) (.actionValue ()) [.addNonterm (.nterm 0)],
      .addProd (.actionKey 11) (.actionValue ()) [.addNonterm (.nterm 1)]]⟩,
    ⟨.nterm 0, [.addProd (.actionKey 12) (.actionValue ()) [.addNonterm (.nterm 2), .addTerm .endOfStream]]⟩,
    ⟨.nterm 1, [.addProd (.actionKey 13) (.actionValue ()) [.addNonterm (.nterm 3), .addTerm .endOfStream]]⟩,
    ⟨.nterm 2, [.addProd (.actionKey 14) (.actionValue ()) [.addTerm (.term 1)]]⟩,
    ⟨.nterm 3, [.addProd (.actionKey 15) (.actionValue ()) [.addTerm (.term 1)]]⟩], by decide⟩

/-- The tree after `parse` of one token `1`, with the array of the rule of `A` before that of `B`. -/
def deepInner : Inner Nat Nat Nat :=
  ⟨[[0], [0], [1], [2], [1], [2]],
    ⟨[(.leaf 1 100, 0), (.branch 14 [0], 1), (.branch 15 [1], 2)],
      [.leaf 1 100, .branch 14 [0], .branch 15 [1]]⟩⟩

/-- The same with the array of the rule of `B` before that of `A`. -/
def deepInner' : Inner Nat Nat Nat :=
  ⟨[[0], [0], [1], [2], [1], [2]],
    ⟨[(.leaf 1 100, 0), (.branch 14 [1], 2), (.branch 15 [0], 1)],
      [.leaf 1 100, .branch 15 [0], .branch 14 [1]]⟩⟩

/-- Which trees are in the forest depends on where the rules lie in memory, even when no production can
divide the input in two ways.  (For the results of `wrap_grammar_with_start` it does not: C87.) -/
theorem parse_start_layout : ∃ (sg : SG) (addr addr' : StartNonTerminal Nat → Nat → Nat)
    (w₁ w₂ : World Nat Nat Nat) (n₁ n₂ : Node) (s : DTree (Token Nat Nat) Nat), sg.Accepted ∧
    AddrPlaced sg addr ∧ AddrPlaced sg addr' ∧
    (∀ fuel, 9 ≤ fuel → parse addr sg fuel World.new 7 (exampleToks [1]) = .ok (w₁, some n₁) ∧
      parse addr' sg fuel World.new 7 (exampleToks [1]) = .ok (w₂, some n₂)) ∧
    Reads w₁ s n₁ ∧ ¬ Reads w₂ s n₂ := by
  have h1 : parse exampleSAddr deepStart 9 (World.new : World Nat Nat Nat) 7 (exampleToks [1]) =
      .ok (World.new.set 7 deepInner, some ⟨2, 7⟩) := by
    unfold parse
    have : parseInner exampleSAddr deepStart 9 ((World.new : World Nat Nat Nat) 7) (exampleToks [1]) =
      .ok (deepInner, some 2) := by rfl
    rw [this]; rfl
  have h2 : parse exampleSAddr' deepStart 9 (World.new : World Nat Nat Nat) 7 (exampleToks [1]) =
      .ok (World.new.set 7 deepInner', some ⟨2, 7⟩) := by
    unfold parse
    have : parseInner exampleSAddr' deepStart 9 ((World.new : World Nat Nat Nat) 7) (exampleToks [1]) =
      .ok (deepInner', some 2) := by rfl
    rw [this]; rfl
  refine ⟨deepStart, exampleSAddr, exampleSAddr', World.new.set 7 deepInner, World.new.set 7 deepInner',
    ⟨2, 7⟩, ⟨2, 7⟩, .node 14 [.leaf ⟨1, 100⟩], deepStart_accepted, exampleSAddr_placed _ (by decide),
    exampleSAddr'_placed _ (by decide), fun fuel h => ⟨?_, ?_⟩, ?_, ?_⟩
  · rw [parse_mono h (by rw [h1]; simp), h1]
  · rw [parse_mono h (by rw [h2]; simp), h2]
  · refine reads_node.2 ⟨1, [0], ⟨[1], rfl, by simp⟩, rfl, ?_⟩
    simp only [List.map_cons, List.map_nil, ReadsAll, and_true]
    exact reads_leaf.2 ⟨0, ⟨[0], rfl, by simp⟩, rfl⟩
  · intro h
    obtain ⟨a, ns, ⟨s, k1, k2⟩, k3, -⟩ := reads_node.1 h
    simp only [World.set_self] at k1 k3
    have : deepInner'.nodes[2]? = some [1] := rfl
    rw [this] at k1
    cases k1
    simp only [List.mem_singleton] at k2
    subst k2
    have : deepInner'.altAt 1 = some (.branch 15 [0]) := rfl
    rw [this] at k3
    cases k3

/-- `parse_start_some` on `twoStart`: the trees of the first production in memory are read. -/
example : ∃ w n p, parse exampleSAddr twoStart 9 (World.new : World Nat Nat Nat) 7 (exampleToks [1]) =
    .ok (w, some n) ∧ FirstStop exampleSAddr twoStart (exampleToks [1]) p 1 0 := by
  have h1 : ∃ w n, parse exampleSAddr twoStart 9 (World.new : World Nat Nat Nat) 7 (exampleToks [1]) =
    .ok (w, some n) := ⟨_, _, rfl⟩
  obtain ⟨w, n, h1⟩ := h1
  have h0 : History [] (World.new : World Nat Nat Nat) [.tree 7] := .newOwner _ .start (by simp)
  obtain ⟨p, i, e, h2, h3, -⟩ := parse_start_some twoStart_accepted (exampleSAddr_addrInj _) h0 h1
  refine ⟨w, n, p, h1, ?_⟩
  have hi : i = 0 := by
    rcases i with _ | i
    · rfl
    · exfalso
      obtain ⟨k1, k2, k3⟩ := h2.1
      have : i = 0 := by simp [exampleToks] at k1; exact k1
      subst this
      obtain ⟨q1, q2, q3, q4⟩ := k2
      have hd : (exampleToks [1]).drop 1 = [] := rfl
      rw [show 0 + 1 = 1 from rfl, hd] at q4
      have hall : ∀ p ∈ twoStart.prods, p.elements[1]? = some (.term .endOfStream) →
          p.elements.take 1 = [.nonterm (.nterm 0)] ∨ p.elements.take 1 = [.nonterm (.nterm 1)] := by
        decide
      have hnn : ∀ A, ¬ twoStart.cfg.Generates A [] := by
        intro A hA
        obtain ⟨β, b1, b2⟩ := Cfg.generates_iff.1 hA
        obtain ⟨q, c1, -, rfl⟩ := (Grammar.cfg_prod_iff twoStart_accepted.valid.toWF).1 b1
        have hq : ∀ q ∈ twoStart.prods, q.elements = [.term (.term 1)] ∨
          q.elements = [.nonterm (.nterm 0), .term .endOfStream] ∨
          q.elements = [.nonterm (.nterm 1), .term .endOfStream] := by decide
        rcases hq q c1 with h | h | h <;> rw [h] at b2
        · obtain ⟨_, h, -⟩ := Cfg.yields_cons_term_iff.1 b2; cases h
        · obtain ⟨u, v, h, -, h'⟩ := Cfg.yields_cons_nonterm_iff.1 b2
          obtain ⟨_, rfl, -⟩ := Cfg.yields_cons_term_iff.1 h'
          simp at h
        · obtain ⟨u, v, h, -, h'⟩ := Cfg.yields_cons_nonterm_iff.1 b2
          obtain ⟨_, rfl, -⟩ := Cfg.yields_cons_term_iff.1 h'
          simp at h
      rcases hall p q1 k3 with h | h <;> rw [h] at q4 <;> exact hnn _ q4
  rw [hi] at h2
  exact h2
end
section
variable {T NT AK AV : Type} [Ord NT] [TransOrd NT] [LawfulEqOrd NT]

/-- C27: `start_rule` and `start_prod` of any start grammar, wrapped or built directly.  `start_rule` returns
the rule of `Start` and panics if there is none; `start_prod` returns the production of that rule if it is the
only one, panics like `start_rule` if there is no such rule, and panics by its own `expect` if the rule has
another number of productions. -/
theorem start_prod_any {g : StartGrammar T NT AK AV} (hw : g.WF) :
    (∀ r, g.startRule = .ok r ↔ r ∈ g.rules ∧ r.head = .start) ∧
    (g.startRule = .panic .noRule ↔ ∀ r ∈ g.rules, r.head ≠ .start) ∧
    (∀ p, g.startProd = .ok p ↔ ∃ pi, ⟨.start, [pi]⟩ ∈ g.rules ∧ p = ⟨.start, 0, pi⟩) ∧
    (g.startProd = .panic .noRule ↔ ∀ r ∈ g.rules, r.head ≠ .start) ∧
    (g.startProd = .panic .startProd ↔ ∃ r ∈ g.rules, r.head = .start ∧ r.prods.length ≠ 1) := by
  have hmem : ∀ r, g.tryGetRule .start = some r ↔ r ∈ g.rules ∧ r.head = .start := by
    intro r
    rw [Grammar.tryGetRule_iff hw]
    constructor
    · intro h
      exact ⟨List.mem_map.2 ⟨_, h, rfl⟩, hw.heads _ _ h⟩
    · rintro ⟨h1, h2⟩
      obtain ⟨⟨A, r'⟩, h3, rfl⟩ := List.mem_map.1 h1
      have := hw.heads _ _ h3
      simp only at h2
      rw [this] at h2
      subst h2
      exact h3
  have huniq : ∀ r r', r ∈ g.rules ∧ r.head = .start → r' ∈ g.rules ∧ r'.head = .start → r = r' := by
    intro r r' h h'
    have h1 := (hmem r).2 h
    have h2 := (hmem r').2 h'
    rw [h1] at h2
    exact Option.some.inj h2
  cases hc : g.tryGetRule .start with
  | none =>
    have hno : ∀ r ∈ g.rules, r.head ≠ .start := by
      intro r h1 h2
      have := (hmem r).2 ⟨h1, h2⟩
      rw [hc] at this
      cases this
    have h1 : g.startRule = .panic .noRule := by
      simp [StartGrammar.startRule, Grammar.getRule, hc, Res.expect]
    have h2 : g.startProd = .panic .noRule := by simp [StartGrammar.startProd, h1]
    rw [h1, h2]
    refine ⟨fun r => ⟨by simp, fun h => absurd h.2 (hno r h.1)⟩, by simpa using hno, ?_, by simpa using hno, ?_⟩
    · intro p
      refine ⟨by simp, ?_⟩
      rintro ⟨pi, h, -⟩
      exact absurd rfl (hno _ h)
    · refine ⟨by simp, ?_⟩
      rintro ⟨r, h, h', -⟩
      exact absurd h' (hno _ h)
  | some r =>
    have hr := (hmem r).1 hc
    have h1 : g.startRule = .ok r := by
      simp [StartGrammar.startRule, Grammar.getRule, hc, Res.expect]
    have hyes : ¬ ∀ r ∈ g.rules, r.head ≠ .start := fun h => h r hr.1 hr.2
    have h2 : g.startProd = Res.expect .startProd (takeOnly r.prodRefs) := by simp [StartGrammar.startProd, h1]
    rw [h1, h2]
    refine ⟨?_, ⟨by simp, fun h => absurd h hyes⟩, ?_, ?_, ?_⟩
    · intro r'
      constructor
      · intro h; cases h; exact hr
      · intro h; rw [huniq r r' hr h]
    all_goals
      obtain ⟨A, ps⟩ := r
      obtain ⟨h3, rfl⟩ : _ ∧ A = .start := hr
      rcases ps with _ | ⟨p1, _ | ⟨p2, ps⟩⟩
    · intro p
      refine ⟨by simp [RuleInner.prodRefs, takeOnly, Res.expect], ?_⟩
      rintro ⟨pi, h, -⟩
      cases huniq _ _ ⟨h3, rfl⟩ ⟨h, rfl⟩
    · intro p
      simp only [RuleInner.prodRefs, takeOnly, Res.expect, List.zipIdx_cons, List.zipIdx_nil, List.map_cons,
        List.map_nil, Res.ok.injEq]
      constructor
      · rintro rfl; exact ⟨p1, h3, rfl⟩
      · rintro ⟨pi, h, rfl⟩
        cases huniq _ _ ⟨h3, rfl⟩ ⟨h, rfl⟩
        rfl
    · intro p
      refine ⟨by simp [RuleInner.prodRefs, takeOnly, Res.expect], ?_⟩
      rintro ⟨pi, h, -⟩
      cases huniq _ _ ⟨h3, rfl⟩ ⟨h, rfl⟩
    · exact ⟨by simp [RuleInner.prodRefs, takeOnly, Res.expect], fun h => absurd h hyes⟩
    · exact ⟨by simp [RuleInner.prodRefs, takeOnly, Res.expect], fun h => absurd h hyes⟩
    · exact ⟨by simp [RuleInner.prodRefs, takeOnly, Res.expect], fun h => absurd h hyes⟩
    · exact iff_of_true (by simp [RuleInner.prodRefs, takeOnly, Res.expect]) ⟨_, h3, rfl, by simp⟩
    · refine iff_of_false (by simp [RuleInner.prodRefs, takeOnly, Res.expect]) ?_
      rintro ⟨r', h4, h5, h6⟩
      cases huniq _ _ ⟨h3, rfl⟩ ⟨h4, h5⟩
      exact h6 rfl
    · exact iff_of_true (by simp [RuleInner.prodRefs, takeOnly, Res.expect]) ⟨_, h3, rfl, by simp⟩
end

/-- A grammar with two productions of `Start`, and one without `Start`. -/
example : twoStart.WF ∧ StartGrammar.startProd twoStart = .panic .startProd ∧
    StartGrammar.startProd (⟨.nterm 0, [sgRule (.nterm 0) [(.actionKey 12, [.term (.term 1)])]]⟩ : SG) =
      .panic .noRule :=
  ⟨twoStart_accepted.valid.toWF, by rfl, by rfl⟩
end Bongo
