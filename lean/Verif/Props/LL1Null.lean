import Verif.Proof.LL1Null
import Verif.Props.Factored
import Verif.Props.NonNullPasses
/-!
# C138: parsing with LL(1) grammars that have empty productions
-/
set_option linter.unusedSectionVars false
namespace Bongo
open Std

section
variable {T NT AK AV : Type} [Ord T] [TransOrd T] [LawfulEqOrd T] [Ord NT] [TransOrd NT] [LawfulEqOrd NT]

/-- C138: the non-null transform of an LL(1) grammar is factored, and has no production twice. -/
theorem ll1null_factored (g : Grammar T NT AK AV) (hg : g.Accepted) (addr : NT → Nat → Nat)
    (ha : AddrInj g addr) (fuel : Nat) (g' : NonNullGrammar T NT AK AV)
    (h : transformToNonnull fuel addr g = .ok (.ok g')) (hl : g.LL1Null) : g'.Factored ∧ g'.NoRepeats := by
  have hw := hg.valid.toWF
  have h1 := (nonnull_no_nullable g hg addr ha fuel g' h).1
  obtain ⟨info, hn, rfl, hv⟩ := transform_ok hw h
  obtain ⟨origin, o1, o2, o3⟩ := nn_origin hw ha hn
  exact ll1null_transformed hw hv.toWF h1 (fun s hs => nn_yields_nonempty hw ha hn hs rfl) ⟨o1, o2, o3⟩ hl

/-- C138: if moreover only empty productions derive the empty text, the grammar is unambiguous. -/
theorem ll1null_unambiguous (g : Grammar T NT AK AV) (hg : g.Accepted) (addr : NT → Nat → Nat)
    (ha : AddrInj g addr) (fuel : Nat) (g' : NonNullGrammar T NT AK AV)
    (h : transformToNonnull fuel addr g = .ok (.ok g')) (hl : g.LL1Null)
    (he : ∀ p ∈ g.prods, g.cfg.Derives p.elements [] → p.elements = []) : g.Unambiguous := by
  obtain ⟨h1, h2⟩ := ll1null_factored g hg addr ha fuel g' h hl
  exact (nonnull_unambiguous_iff g hg addr ha fuel g' h he).1
    (factored_unambiguous (nonnull_accepted g addr fuel g' h) h1 h2)

variable {g : Grammar T NT AK AV} {addr : NT → Nat → Nat}

theorem vanishes_iff (hg : g.Accepted) (ha : AddrInj g addr) {fuel : Nat} {i : GrammarNullableInfo NT AK}
    (h : calculateNullables fuel addr g = .ok (.ok i)) {es : List (Elem T NT)} (hd : g.cfg.Derives es []) :
    vanishes i es = true := by
  induction es with
  | nil => rfl
  | cons e es ih =>
    obtain ⟨c₁, c₂, h1, h2, h3⟩ := hd.cons_split
    obtain ⟨rfl, rfl⟩ := List.append_eq_nil_iff.1 h1.symm
    cases e with
    | term t => cases Cfg.derives_term h2
    | nonterm A =>
      rw [vanishes, ih h3, Bool.and_true]
      exact ((nullable_exact g hg addr ha fuel i h).1 A).2 h2

theorem startsOf_complete (hg : g.Accepted) (ha : AddrInj g addr) {fuel fuel' : Nat} {i : GrammarNullableInfo NT AK}
    (h : calculateNullables fuel addr g = .ok (.ok i)) {f : Firsts T NT} (hf : firstsPass fuel' addr g = .ok (.ok f))
    {es : List (Elem T NT)} {t : T} (hb : g.cfg.Begins es t) : t ∈ startsOf i f es := by
  induction es with
  | nil =>
    obtain ⟨γ, hγ⟩ := hb
    cases Cfg.derives_nil hγ
  | cons e es ih =>
    rcases Cfg.Begins.split (a := [e]) hb with ⟨γ, h1⟩ | ⟨h1, h2⟩
    · cases e with
      | term a =>
        have := Cfg.derives_term h1
        simp only [List.cons.injEq, Elem.term.injEq] at this
        simp [startsOf, this.1]
      | nonterm A =>
        obtain ⟨s, h1, h2⟩ := ((firsts_exact g hg addr ha fuel' f hf A).1 t).2 ⟨γ, h1⟩
        simp [startsOf, h1, h2]
    · cases e with
      | term a => cases Cfg.derives_term h1
      | nonterm A =>
        have : i.isNullable A = true := ((nullable_exact g hg addr ha fuel i h).1 A).2 h1
        simp [startsOf, this, ih h2]

/-- C138: the condition can be checked with what the crate computes and a table of the terminals that may follow
nonterminals. -/
theorem ll1null_check (hg : g.Accepted) (ha : AddrInj g addr) {fuel fuel' : Nat} {i : GrammarNullableInfo NT AK}
    (h : calculateNullables fuel addr g = .ok (.ok i)) {f : Firsts T NT} (hf : firstsPass fuel' addr g = .ok (.ok f))
    {table : NT → List T} (hc : g.LL1NullCheck i f table) : g.LL1Null := by
  have hw := hg.valid.toWF
  have hs : ∀ {es : List (Elem T NT)} {t}, g.cfg.Begins es t → t ∈ startsOf i f es :=
    fun hb => startsOf_complete hg ha h hf hb
  have hfol : ∀ {B t}, g.cfg.FollowedBy B t → t ∈ table B := by
    refine fun hb => Cfg.FollowedBy.mem ?_ ?_ hb
    · intro A α B β hp t hb
      obtain ⟨p, hp', rfl, he⟩ := (Grammar.cfg_prod_iff hw).1 hp
      exact hc.beside p hp' α.length (by rw [he]; simp) B (by rw [he]; simp) t (hs (by rw [he]; simpa using hb))
    · intro A α B β hp hd t ht
      obtain ⟨p, hp', rfl, he⟩ := (Grammar.cfg_prod_iff hw).1 hp
      exact hc.inside p hp' α.length (by rw [he]; simp) B (by rw [he]; simp)
        (vanishes_iff hg ha h (by rw [he]; simpa using hd)) t ht
  refine ⟨fun p hp q hq hh t h1 h2 => ?_, fun p hp q hq hh hpq hd t hb hfo => ?_⟩
  · by_contra hne
    exact hc.choice p hp q hq hh hne t (hs h1) (hs h2)
  · exact hc.null p hp q hq hh hpq (vanishes_iff hg ha h hd) t (hs hb) (hfol hfo)
end

/-! ## Parsing -/
section
variable {T NT AK AV V : Type}
variable [Ord T] [Ord NT] [Ord AK] [Ord V] [DecidableEq T] [DecidableEq NT]
variable [TransOrd T] [TransOrd NT] [TransOrd AK] [TransOrd V]
variable [LawfulEqOrd T] [LawfulEqOrd NT] [LawfulEqOrd AK] [LawfulEqOrd V]

/-- C138: parsing with the transformed grammar of an LL(1) grammar, in general.  For a text of the grammar (with
productions that derive the empty text made empty, which is what the transform does) that is not empty it
returns a node from which one tree can be read, that stands for a derivation tree of the text in the
original grammar; for other beginnings of such texts, and the empty text, `None`; otherwise the assertion that a
state is not empty fails. -/
theorem ll1null_parse_cut (g : Grammar T NT AK AV) (hg : g.Accepted) (addr : NT → Nat → Nat)
    (ha : AddrInj g addr) (fuel : Nat) (g' : NonNullGrammar T NT AK AV)
    (h : transformToNonnull fuel addr g = .ok (.ok g')) (hl : g.LL1Null) :
    ∃ restore : DTree (Token T V) (NNProd T NT AK AV) → DTree (Token T V) (Prod T NT AK AV),
      (∀ l, restore (.leaf l) = .leaf l) ∧
      (∀ e p' cs, IsTree g' (·.kind) e (.node p' cs) → ∃ p ds, restore (.node p' cs) = .node p ds ∧
        p.head = p'.head ∧ p'.actionKey.action = p.actionKey ∧
        Refilled g (·.kind) p.prodElements p'.actionKey.ntNullableStates (cs.map restore) ds) ∧
      ∀ (saddr : StartNonTerminal NT → Nat → Nat), AddrInj g'.wrapped saddr →
      ∀ {log : TreeLog T (NNActionKey AK) V} {w : World T (NNActionKey AK) V} {held : List Handle},
        History log w held → ∀ (t : Nat) (toks : List (Token T V)),
      ∃ N, (toks ≠ [] → g.cutNull.InLanguage (kinds toks) → ∃ w' n d',
          (∀ fuel, N ≤ fuel → parse saddr g'.wrapped fuel w t toks = .ok (w', some n)) ∧
          IsTree g' (·.kind) (.nonterm g.startSymbol) d' ∧
          (∀ s, Reads w' s n ↔ s = d'.mapNodes (·.actionKey)) ∧
          IsTree g (·.kind) (.nonterm g.startSymbol) (restore d') ∧ (restore d').yield = toks) ∧
        (toks = [] ∨ ¬ g.cutNull.InLanguage (kinds toks) →
          (∃ δ, g.cutNull.Derives [.nonterm g.startSymbol] ((kinds toks).map .term ++ δ)) →
          ∃ w', ∀ fuel, N ≤ fuel → parse saddr g'.wrapped fuel w t toks = .ok (w', none)) ∧
        ((¬ ∃ δ, g.cutNull.Derives [.nonterm g.startSymbol] ((kinds toks).map .term ++ δ)) →
          ∀ fuel, N ≤ fuel → parse saddr g'.wrapped fuel w t toks = .panic .emptyState) := by
  obtain ⟨restore, h1, h2, h3, -⟩ := nonnull_trees g hg addr ha fuel g' h
    (fun x : Token T V => x.kind)
  refine ⟨restore, h1, fun e p' cs hd => ?_, ?_⟩
  · obtain ⟨p, ds, a, b, c, -, d⟩ := h2 e p' cs hd
    exact ⟨p, ds, a, b, c, d⟩
  intro saddr hsa log w held hist t toks
  have hs : g'.startSymbol = g.startSymbol := by
    obtain ⟨info, hn, rfl, -⟩ := transform_ok hg.valid.toWF h; rfl
  obtain ⟨f1, f2⟩ := ll1null_factored g hg addr ha fuel g' h hl
  have hlang : g'.cfg.InLanguage (kinds toks) ↔ toks ≠ [] ∧ g.cutNull.InLanguage (kinds toks) := by
    have hk : kinds toks ≠ [] ↔ toks ≠ [] := by unfold kinds; simp
    unfold Cfg.InLanguage
    rw [show g'.cfg.start = g'.startSymbol from rfl, hs, nonnull_language_exact g hg addr ha fuel g' h, hk]
    rfl
  have hvia : g'.Viable (kinds toks) ↔
      ∃ δ, g.cutNull.Derives [.nonterm g.startSymbol] ((kinds toks).map .term ++ δ) := by
    unfold Grammar.Viable
    rw [hs]
    by_cases hk : kinds toks = []
    · rw [hk]
      exact ⟨fun _ => ⟨_, .refl _⟩, fun _ => ⟨_, .refl _⟩⟩
    · simp only [nonnull_sentential g hg addr ha fuel g' h]
      exact exists_congr fun δ => and_iff_right (by simp [hk])
  obtain ⟨N, k1, k2, k3⟩ := factored_parse (nonnull_accepted g addr fuel g' h) f1 f2 hsa hist t toks
  refine ⟨N, fun hne hin => ?_, fun hn hv => ?_, fun hv => k3 (fun h => hv (hvia.1 h))⟩
  · obtain ⟨w', n, d', a1, a2, a3, a4⟩ := k1 (hlang.2 ⟨hne, hin⟩)
    rw [hs] at a2
    obtain ⟨b1, b2, -⟩ := h3 _ _ a2
    exact ⟨w', n, d', a1, a2, a4, b1, b2.trans a3⟩
  · exact k2 (fun h => by rcases hn with rfl | hn; exacts [(hlang.1 h).1 rfl, hn (hlang.1 h).2]) (hvia.2 hv)

/-- C138.  If only empty productions derive the empty text, these are the texts and the trees of the grammar itself:
the way to parse with an LL(1) grammar that has empty productions is to transform it first. -/
theorem ll1null_parse (g : Grammar T NT AK AV) (hg : g.Accepted) (addr : NT → Nat → Nat)
    (ha : AddrInj g addr) (fuel : Nat) (g' : NonNullGrammar T NT AK AV)
    (h : transformToNonnull fuel addr g = .ok (.ok g')) (hl : g.LL1Null)
    (he : ∀ p ∈ g.prods, g.cfg.Derives p.elements [] → p.elements = []) :
    ∃ restore : DTree (Token T V) (NNProd T NT AK AV) → DTree (Token T V) (Prod T NT AK AV),
      (∀ l, restore (.leaf l) = .leaf l) ∧
      (∀ e p' cs, IsTree g' (·.kind) e (.node p' cs) → ∃ p ds, restore (.node p' cs) = .node p ds ∧
        p.head = p'.head ∧ p'.actionKey.action = p.actionKey ∧
        Refilled g (·.kind) p.prodElements p'.actionKey.ntNullableStates (cs.map restore) ds) ∧
      ∀ (saddr : StartNonTerminal NT → Nat → Nat), AddrInj g'.wrapped saddr →
      ∀ {log : TreeLog T (NNActionKey AK) V} {w : World T (NNActionKey AK) V} {held : List Handle},
        History log w held → ∀ (t : Nat) (toks : List (Token T V)),
      ∃ N, (toks ≠ [] → g.cfg.InLanguage (kinds toks) → ∃ w' n d',
          (∀ fuel, N ≤ fuel → parse saddr g'.wrapped fuel w t toks = .ok (w', some n)) ∧
          IsTree g' (·.kind) (.nonterm g.startSymbol) d' ∧
          (∀ s, Reads w' s n ↔ s = d'.mapNodes (·.actionKey)) ∧
          ∀ d, IsTree g (·.kind) (.nonterm g.startSymbol) d ∧ d.yield = toks ↔ d = restore d') ∧
        (toks = [] ∨ ¬ g.cfg.InLanguage (kinds toks) → g.Viable (kinds toks) →
          ∃ w', ∀ fuel, N ≤ fuel → parse saddr g'.wrapped fuel w t toks = .ok (w', none)) ∧
        (¬ g.Viable (kinds toks) →
          ∀ fuel, N ≤ fuel → parse saddr g'.wrapped fuel w t toks = .panic .emptyState) := by
  obtain ⟨restore, h1, h2, h3⟩ := ll1null_parse_cut (V := V) g hg addr ha fuel g' h hl
  refine ⟨restore, h1, h2, fun saddr hsa log w held hist t toks => ?_⟩
  obtain ⟨N, k1, k2, k3⟩ := h3 saddr hsa hist t toks
  have hd := cutNull_derives_iff g hg he
  have hl' : g.cutNull.InLanguage (kinds toks) ↔ g.cfg.InLanguage (kinds toks) := hd _ _
  simp only [hd, hl'] at k1 k2 k3
  refine ⟨N, fun hne hin => ?_, k2, k3⟩
  obtain ⟨w', n, d', a1, a2, a3, a4, a5⟩ := k1 hne hin
  refine ⟨w', n, d', a1, a2, a3, fun d => ⟨fun ⟨b1, b2⟩ => ?_, ?_⟩⟩
  · have hu := ll1null_unambiguous g hg addr ha fuel g' h hl he _ _ b1.mapLeaves a4.mapLeaves
      (by rw [DTree.yield_mapLeaves, DTree.yield_mapLeaves, b2, a5])
    exact (DTree.eq_of_mapLeaves _ d (restore d') [] [] hu (by rw [b2, a5])).1
  · rintro rfl
    exact ⟨a4, a5⟩
end

/-! ## Witness: lists in brackets -/

/-- `S → [ L ]`, `L → ε | n M`, `M → ε | , n M`, where `S, L, M` are `0, 1, 2` and `[ ] n ,` are `11, …, 14`. -/
def listExample : Grammar Nat Nat Nat Unit :=
  ⟨0, [exRule 0 [(1, [.term 11, .nonterm 1, .term 12])], exRule 1 [(2, []), (3, [.term 13, .nonterm 2])],
    exRule 2 [(4, []), (5, [.term 14, .term 13, .nonterm 2])]]⟩

theorem listExample_accepted : listExample.Accepted :=
  ⟨20, 0, [⟨0, [.addProd 1 () [.addTerm 11, .addNonterm 1, .addTerm 12]]⟩,
    ⟨1, [.addProd 2 () [], .addProd 3 () [.addTerm 13, .addNonterm 2]]⟩,
    ⟨2, [.addProd 4 () [], .addProd 5 () [.addTerm 14, .addTerm 13, .addNonterm 2]]⟩], by decide⟩

def listNulls : GrammarNullableInfo Nat Nat := ⟨[(1, .mk ⟨1, 2⟩ []), (2, .mk ⟨2, 4⟩ [])]⟩
def listFirsts : Firsts Nat Nat := ⟨[(0, [11]), (1, [13]), (2, [14])]⟩

/-- What may follow a list or the rest of one. -/
def listTable : Nat → List Nat
  | 0 => []
  | _ => [12]

set_option synthInstance.maxSize 1000 in
set_option synthInstance.maxHeartbeats 400000 in
theorem listExample_check : listExample.LL1NullCheck listNulls listFirsts listTable where
  choice := by decide
  null := by decide
  beside := by
    have : ∀ p ∈ listExample.prods, ∀ n < p.elements.length, ∀ e ∈ p.elements[n]?, ∀ B ∈ e.asNonterm,
      ∀ t ∈ startsOf listNulls listFirsts (p.elements.drop (n + 1)), t ∈ listTable B := by decide
    exact fun p hp n hn B hB => this p hp n hn _ hB B rfl
  inside := by
    have : ∀ p ∈ listExample.prods, ∀ n < p.elements.length, ∀ e ∈ p.elements[n]?, ∀ B ∈ e.asNonterm,
      vanishes listNulls (p.elements.drop (n + 1)) = true → ∀ t ∈ listTable p.head, t ∈ listTable B := by decide
    exact fun p hp n hn B hB => this p hp n hn _ hB B rfl

theorem listExample_ll1 : listExample.LL1Null :=
  ll1null_check listExample_accepted (exampleAddr_addrInj _) (fuel := 9) (fuel' := 20) (i := listNulls) (by rfl)
    (by rfl) listExample_check

/-- Only its empty productions derive the empty text. -/
theorem listExample_empty : ∀ p ∈ listExample.prods, listExample.cfg.Derives p.elements [] → p.elements = [] := by
  intro p hp hd
  have h1 := vanishes_iff (i := listNulls) listExample_accepted (exampleAddr_addrInj _) (fuel := 9) (by rfl) hd
  have : ∀ p ∈ listExample.prods, vanishes listNulls p.elements = true → p.elements = [] := by decide
  exact this p hp h1

set_option maxRecDepth 4000 in
-- Hypotheses of the theorems above, with all outcomes.
example : listExample.Accepted ∧ AddrInj listExample exampleAddr ∧ listExample.LL1Null ∧
    (∀ p ∈ listExample.prods, listExample.cfg.Derives p.elements [] → p.elements = []) ∧
    ∃ g', transformToNonnull 9 exampleAddr listExample = .ok (.ok g') ∧ g'.Factored ∧
      AddrInj g'.wrapped exampleSAddr ∧
      (∃ I n, parse exampleSAddr g'.wrapped 19 (World.new : World Nat (NNActionKey Nat) Nat) 7
        (exampleToks [11, 12]) = .ok (World.new.set 7 I, some n)) ∧
      (∃ I n, parse exampleSAddr g'.wrapped 19 (World.new : World Nat (NNActionKey Nat) Nat) 7
        (exampleToks [11, 13, 14, 13, 12]) = .ok (World.new.set 7 I, some n)) ∧
      (∃ I, parse exampleSAddr g'.wrapped 19 (World.new : World Nat (NNActionKey Nat) Nat) 7
        (exampleToks [11, 13, 14]) = .ok (World.new.set 7 I, none)) ∧
      parse exampleSAddr g'.wrapped 19 (World.new : World Nat (NNActionKey Nat) Nat) 7
        (exampleToks [11, 14]) = .panic .emptyState :=
  ⟨listExample_accepted, exampleAddr_addrInj _, listExample_ll1, listExample_empty, _, rfl,
    (ll1null_factored listExample listExample_accepted exampleAddr (exampleAddr_addrInj _) 9 _ rfl listExample_ll1).1,
    exampleSAddr_addrInj _, ⟨_, _, rfl⟩, ⟨_, _, rfl⟩, ⟨_, rfl⟩, rfl⟩
end Bongo
