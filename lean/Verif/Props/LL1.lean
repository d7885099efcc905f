import Verif.Spec.LL1
import Verif.Props.OneTree
import Verif.Props.Firsts
import Verif.Props.Examples
/-!
# C107: grammars on which `parse` can be relied on
-/
set_option linter.unusedSectionVars false
namespace Bongo
open Std

section
variable {T NT AK AV L : Type} [Ord NT] [TransOrd NT] [LawfulEqOrd NT] {g : Grammar T NT AK AV}

mutual
theorem IsTree.yield_ne_nil (hn : ∀ p ∈ g.prods, p.elements ≠ []) {e : Elem T NT} {kind : L → T} :
    {d : DTree L (Prod T NT AK AV)} → IsTree g kind e d → d.yield ≠ []
  | _, .leaf l => by simp [DTree.yield]
  | _, .node p cs hp hc => by rw [DTree.yield]; exact IsForest.yield_ne_nil hn (hn p hp) hc
theorem IsForest.yield_ne_nil (hn : ∀ p ∈ g.prods, p.elements ≠ []) {es : List (Elem T NT)}
    {kind : L → T} (he : es ≠ []) :
    {cs : List (DTree L (Prod T NT AK AV))} → IsForest g kind es cs → DTree.yields cs ≠ []
  | _, .nil => absurd rfl he
  | _, .cons hc _ => by
    rw [DTree.yields]
    intro h
    exact IsTree.yield_ne_nil hn hc (List.append_eq_nil_iff.1 h).1
end

theorem IsForest.begins (hw : g.WF) {es : List (Elem T NT)} {cs : List (DTree T (Prod T NT AK AV))}
    (h : IsForest g id es cs) {t : T} {r : List T} (hy : DTree.yields cs = t :: r) :
    g.cfg.Begins es t := by
  have := (h.yields hw).derives
  rw [hy] at this
  exact ⟨r.map .term, by simpa using this⟩

mutual
/-- The tree of an element is determined by any text that begins with its leaves. -/
theorem LL1.tree (hw : g.WF) (hl : g.LL1) {e : Elem T NT} : {d d' : DTree T (Prod T NT AK AV)} →
    {x x' : List T} → IsTree g id e d → IsTree g id e d' → d.yield ++ x = d'.yield ++ x' →
    d = d' ∧ x = x'
  | .leaf l, d', x, x', h, h', hy => by
    cases h
    cases h'
    simp only [DTree.yield, List.cons_append, List.nil_append, List.cons.injEq] at hy
    exact ⟨rfl, hy.2⟩
  | .node p cs, d', x, x', h, h', hy => by
    cases h with
    | node _ _ hp hc =>
      generalize he : Elem.nonterm p.head = e' at h'
      cases h' with
      | leaf l => cases he
      | node q cs' hq hc' =>
        have hh : p.head = q.head := by injection he
        have hn := IsForest.yield_ne_nil hl.nonempty (hl.nonempty p hp) hc
        have hn' := IsForest.yield_ne_nil hl.nonempty (hl.nonempty q hq) hc'
        rw [DTree.yield, DTree.yield] at hy
        obtain ⟨t, r, hr⟩ := List.exists_cons_of_ne_nil hn
        obtain ⟨t', r', hr'⟩ := List.exists_cons_of_ne_nil hn'
        have ht : t = t' := by rw [hr, hr'] at hy; simp at hy; exact hy.1
        subst ht
        have hpq := hl.choice p hp q hq hh t (hc.begins hw hr) (hc'.begins hw hr')
        subst hpq
        obtain ⟨rfl, hx⟩ := LL1.forest hw hl hc hc' hy
        exact ⟨rfl, hx⟩
theorem LL1.forest (hw : g.WF) (hl : g.LL1) {es : List (Elem T NT)} :
    {cs cs' : List (DTree T (Prod T NT AK AV))} → {x x' : List T} → IsForest g id es cs →
    IsForest g id es cs' → DTree.yields cs ++ x = DTree.yields cs' ++ x' → cs = cs' ∧ x = x'
  | [], _, x, x', h, h', hy => by
    cases h
    cases h'
    exact ⟨rfl, by simpa [DTree.yields] using hy⟩
  | c :: cs, _, x, x', h, h', hy => by
    cases h with
    | cons h1 h2 =>
      cases h' with
      | cons h1' h2' =>
        rw [DTree.yields, DTree.yields, List.append_assoc, List.append_assoc] at hy
        obtain ⟨rfl, hy'⟩ := LL1.tree hw hl h1 h1' hy
        obtain ⟨rfl, hx⟩ := LL1.forest hw hl h2 h2' hy'
        exact ⟨rfl, hx⟩
end

/-- What a sequence of elements derives does not begin with something else it derives. -/
theorem LL1.prefix_free (hw : g.WF) (hl : g.LL1) {es : List (Elem T NT)} {u v : List T}
    (h : g.cfg.Yields es u) (h' : g.cfg.Yields es (u ++ v)) : v = [] := by
  obtain ⟨cs, h1, h2⟩ := forest_of_yields (kind := id) hw h u (by simp)
  obtain ⟨cs', h1', h2'⟩ := forest_of_yields (kind := id) hw h' (u ++ v) (by simp)
  exact (LL1.forest hw hl (x := v) (x' := []) h1 h1' (by rw [h2, h2', List.append_nil])).2

theorem yields_ne_nil (hw : g.WF) (hn : ∀ p ∈ g.prods, p.elements ≠ []) {es : List (Elem T NT)}
    (he : es ≠ []) (h : g.cfg.Yields es []) : False := by
  obtain ⟨cs, h1, h2⟩ := forest_of_yields (kind := id) hw h [] (by simp)
  exact IsForest.yield_ne_nil hn he h1 h2

theorem LL1.ne_nil (hw : g.WF) (hl : g.LL1) {es : List (Elem T NT)} (he : es ≠ [])
    (h : g.cfg.Yields es []) : False := yields_ne_nil hw hl.nonempty he h

/-- C107: no text has two derivation trees. -/
theorem ll1_unambiguous (hg : g.Accepted) (hl : g.LL1) : g.Unambiguous := by
  intro t t' h h' hy
  exact (LL1.tree hg.valid.toWF hl (x := []) (x' := []) h h' (by simpa using hy)).1

theorem ll1_prefixFree (hg : g.Accepted) (hl : g.LL1) : g.PrefixFreeInside :=
  ⟨hl.nonempty, fun _ _ _ _ _ _ h h' =>
    LL1.prefix_free hg.valid.toWF hl (Cfg.yields_iff.2 h) (Cfg.yields_iff.2 h')⟩

theorem rightLinear_prefixFree (hr : g.RightLinear) : g.PrefixFreeInside :=
  ⟨fun p hp => (hr p hp).1, fun p hp B hB => absurd hB ((hr p hp).2 B)⟩

/-- Concatenations of prefix-free languages are prefix-free. -/
theorem prefix_free_concat {es : List (Elem T NT)}
    (hf : ∀ B, Elem.nonterm B ∈ es → ∀ u v, g.cfg.Generates B u → g.cfg.Generates B (u ++ v) → v = [])
    {u v : List T} (h : g.cfg.Yields es u) (h' : g.cfg.Yields es (u ++ v)) : v = [] := by
  induction es generalizing u with
  | nil =>
    rw [Cfg.yields_nil_iff] at h h'
    subst h
    simpa using h'
  | cons e es ih =>
    have ih := fun {u} => ih (fun B hB => hf B (List.mem_cons_of_mem _ hB)) (u := u)
    obtain ⟨x, y, rfl, h1, h2⟩ := Cfg.Yields.split (a := [e]) h
    obtain ⟨x', y', hxy, h1', h2'⟩ := Cfg.Yields.split (a := [e]) h'
    have hx : x = x' := by
      cases e with
      | term t =>
        have := Cfg.yields_iff.1 h1
        have h3 := Cfg.derives_term this
        have h4 := Cfg.derives_term (Cfg.yields_iff.1 h1')
        cases x with
        | nil => simp at h3
        | cons a x =>
          cases x' with
          | nil => simp at h4
          | cons a' x' => simp_all
      | nonterm B =>
        have hB := hf B List.mem_cons_self
        rw [List.append_assoc] at hxy
        rcases List.append_eq_append_iff.1 hxy with ⟨z, rfl, -⟩ | ⟨z, rfl, -⟩
        · rw [hB _ _ (Cfg.yields_iff.1 h1) (Cfg.yields_iff.1 h1'), List.append_nil]
        · rw [hB _ _ (Cfg.yields_iff.1 h1') (Cfg.yields_iff.1 h1), List.append_nil]
    subst hx
    rw [List.append_assoc, List.append_cancel_left_eq] at hxy
    subst hxy
    exact ih h2 h2'

theorem prefix_free_take (hw : g.WF) (hf : g.PrefixFreeInside) {A : NT} {β : List (Elem T NT)}
    (hp : g.cfg.prod A β) {d : Nat} (hd : d < β.length) {u v : List T}
    (h : g.cfg.Yields (β.take d) u) (h' : g.cfg.Yields (β.take d) (u ++ v)) : v = [] := by
  obtain ⟨p, hp', rfl, rfl⟩ := (Grammar.cfg_prod_iff hw).1 hp
  refine prefix_free_concat (fun B hB => hf.free p hp' B ?_) h h'
  have : p.elements.take d = (p.elements.dropLast).take d := by
    rw [List.dropLast_eq_take, List.take_take]
    congr 1
    omega
  rw [this] at hB
  exact List.mem_of_mem_take hB

/-- C107: no production can be at two positions after the same input. -/
theorem prefixFree_no_clash (hg : g.Accepted) (hf : g.PrefixFreeInside) (w : List T) :
    ¬ g.Clash w := by
  have hw := hg.valid.toWF
  rintro (⟨-, h⟩ | ⟨u, v, A, β, δ, d₁, d₂, -, -, hp, h1, h2, h3, h4⟩)
  · exact yields_ne_nil hw hf.nonempty (by simp) (Cfg.yields_iff.2 h)
  · rw [show β.take d₂ = β.take d₁ ++ (β.drop d₁).take (d₂ - d₁) by
      conv => lhs; rw [show d₂ = d₁ + (d₂ - d₁) by omega, List.take_add]] at h4
    obtain ⟨v₁, v₂, rfl, h5, h6⟩ := (Cfg.yields_iff.2 h4).split
    have := prefix_free_take hw hf hp (by omega) h5 (Cfg.yields_iff.2 h3)
    subst this
    refine yields_ne_nil hw hf.nonempty ?_ h6
    intro h
    have := congrArg List.length h
    simp at this
    omega

/-- C107: productions divide the input in only one way. -/
theorem prefixFree_splits_once (hg : g.Accepted) (hf : g.PrefixFreeInside) (w : List T) :
    g.SplitsOnce w := by
  have hw := hg.valid.toWF
  intro u x y x' y' A β δ d e _ hxy _ hp he h1 _ h2 _
  have h1 := Cfg.yields_iff.2 h1
  have h2 := Cfg.yields_iff.2 h2
  have hd : d < β.length := (List.getElem?_eq_some_iff.1 he).1
  rcases List.append_eq_append_iff.1 hxy with ⟨z, rfl, -⟩ | ⟨z, rfl, -⟩
  · rw [prefix_free_take hw hf hp hd h1 h2, List.append_nil]
  · rw [prefix_free_take hw hf hp hd h2 h1, List.append_nil]

theorem Grammar.Viable.prefix {u v : List T} (h : g.Viable (u ++ v)) : g.Viable u := by
  obtain ⟨δ, h⟩ := h
  exact ⟨v.map .term ++ δ, by simpa using h⟩
end

section
variable {T NT AK AV V : Type}
variable [Ord T] [Ord NT] [Ord AK] [Ord V] [DecidableEq T] [DecidableEq NT]
variable [TransOrd T] [TransOrd NT] [TransOrd AK] [TransOrd V]
variable [LawfulEqOrd T] [LawfulEqOrd NT] [LawfulEqOrd AK] [LawfulEqOrd V]
variable {addr : StartNonTerminal NT → Nat → Nat} {g : Grammar T NT AK AV}

/-- C107: if no production is empty and nonterminals inside productions are prefix-free, `parse` does
what one expects of it, for every input.  For a word of the language it returns a node from which
exactly the derivation trees of the input can be read.  If the input could go on to something the
grammar derives, it returns `None`; otherwise the assertion that a state is not empty fails. -/
theorem prefixFree_parse (hg : g.Accepted) (hf : g.PrefixFreeInside) (ha : AddrInj g.wrapped addr)
    {log : TreeLog T AK V} {w : World T AK V} {held : List Handle} (hist : History log w held)
    (t : Nat) (toks : List (Token T V)) :
    ∃ N, (g.cfg.InLanguage (kinds toks) → ∃ w' n,
        (∀ fuel, N ≤ fuel → parse addr g.wrapped fuel w t toks = .ok (w', some n)) ∧
        ∀ s, Reads w' s n ↔ ∃ d : DTree (Token T V) (Prod T NT AK AV),
          IsTree g (·.kind) (.nonterm g.startSymbol) d ∧ d.yield = toks ∧
          s = d.mapNodes (·.actionKey)) ∧
      (¬ g.cfg.InLanguage (kinds toks) → g.Viable (kinds toks) →
        ∃ w', ∀ fuel, N ≤ fuel → parse addr g.wrapped fuel w t toks = .ok (w', none)) ∧
      (¬ g.Viable (kinds toks) →
        ∀ fuel, N ≤ fuel → parse addr g.wrapped fuel w t toks = .panic .emptyState) := by
  have hself : g.cfg.InLanguage (kinds toks) → g.Viable (kinds toks) :=
    fun h => ⟨[], by rw [List.append_nil]; exact h⟩
  have hpre : ∀ b, g.Viable (kinds toks) → g.Viable (kinds (toks.take b)) := by
    intro b h
    rw [kinds_take]
    rw [← List.take_append_drop b (kinds toks)] at h
    exact h.prefix
  obtain ⟨N, ⟨h1, w', r, h2, h3⟩ | ⟨b, hb, -, ⟨hv, h2⟩ | ⟨-, h, -⟩⟩⟩ := parse_exact hg ha hist t toks
  · have hv := (h1 toks.length (Nat.le_refl _)).1
    rw [List.take_length] at hv
    refine ⟨N, fun hl' => ?_, fun hl' _ => ?_, fun hn => absurd hv hn⟩
    · obtain ⟨n, rfl⟩ := Option.isSome_iff_exists.1 (h3.2 hl')
      have h := h2 N (Nat.le_refl _)
      refine ⟨w', n, h2, fun s => ⟨fun hs => ?_, ?_⟩⟩
      · obtain ⟨d', hd', rfl, -⟩ := parse_trees_grammatical hg ha hist h hs
        have hy' := parse_trees_spell_partial hg ha hist (prefixFree_splits_once hg hf _) h hs
        rw [DTree.yield_mapNodes] at hy'
        exact ⟨d', hd', hy', rfl⟩
      · rintro ⟨d, hc, hy, rfl⟩
        exact parse_all_trees hg ha hist h hc hy
    · cases r with
      | none => exact ⟨w', h2⟩
      | some n => exact absurd (h3.1 rfl) hl'
  · have hnv : ¬ g.Viable (kinds toks) := fun h => hv (hpre b h)
    exact ⟨N, fun h => absurd (hself h) hnv, fun _ h => absurd h hnv, fun _ => h2⟩
  · exact absurd h (prefixFree_no_clash hg hf _)

/-- C107: if in addition one token tells the productions of a nonterminal apart, there is exactly one
tree for each word of the language. -/
theorem ll1_parse (hg : g.Accepted) (hl : g.LL1) (ha : AddrInj g.wrapped addr) {log : TreeLog T AK V}
    {w : World T AK V} {held : List Handle} (hist : History log w held) (t : Nat)
    (toks : List (Token T V)) :
    ∃ N, (g.cfg.InLanguage (kinds toks) → ∃ w' n, ∃ d : DTree (Token T V) (Prod T NT AK AV),
        (∀ fuel, N ≤ fuel → parse addr g.wrapped fuel w t toks = .ok (w', some n)) ∧
        IsTree g (·.kind) (.nonterm g.startSymbol) d ∧ d.yield = toks ∧
        ∀ s, Reads w' s n ↔ s = d.mapNodes (·.actionKey)) ∧
      (¬ g.cfg.InLanguage (kinds toks) → g.Viable (kinds toks) →
        ∃ w', ∀ fuel, N ≤ fuel → parse addr g.wrapped fuel w t toks = .ok (w', none)) ∧
      (¬ g.Viable (kinds toks) →
        ∀ fuel, N ≤ fuel → parse addr g.wrapped fuel w t toks = .panic .emptyState) := by
  have hw := hg.valid.toWF
  obtain ⟨N, h1, h2, h3⟩ := prefixFree_parse hg (ll1_prefixFree hg hl) ha hist t toks
  refine ⟨N, fun hl' => ?_, h2, h3⟩
  obtain ⟨w', n, h4, h5⟩ := h1 hl'
  obtain ⟨cs, hc, hy⟩ := forest_of_yields (kind := fun x : Token T V => x.kind) hw
    (Cfg.yields_iff.2 hl') toks rfl
  cases hc with
  | cons hc hn =>
    rename_i d cs
    cases hn
    simp only [DTree.yields, List.append_nil] at hy
    refine ⟨w', n, d, h4, hc, hy, fun s => ?_⟩
    rw [h5]
    constructor
    · rintro ⟨d', hd', hy', rfl⟩
      have he := ll1_unambiguous hg hl _ _ hd'.mapLeaves hc.mapLeaves
        (by rw [DTree.yield_mapLeaves, DTree.yield_mapLeaves, hy, hy'])
      rw [(DTree.eq_of_mapLeaves _ d' d [] [] he (by rw [hy, hy'])).1]
    · rintro rfl
      exact ⟨d, hc, hy, rfl⟩
end

section
variable {T NT AK AV : Type} [Ord T] [TransOrd T] [LawfulEqOrd T] [Ord NT] [TransOrd NT]
  [LawfulEqOrd NT] (g : Grammar T NT AK AV) (hg : g.Accepted) (addr : NT → Nat → Nat)
  (ha : AddrInj g addr)

include hg ha in
/-- C107: the condition can be checked with the FIRST sets of the crate. -/
theorem ll1_check (fuel : Nat) (f : Firsts T NT) (h : firstsPass fuel addr g = .ok (.ok f)) :
    g.LL1 ↔ g.LL1Check f := by
  have hw := hg.valid.toWF
  have key : (∀ p ∈ g.prods, p.elements ≠ []) → ∀ p ∈ g.prods, ∀ t,
      g.cfg.Begins p.elements t ↔ t ∈ p.starts f := by
    intro hn p hp t
    have h0 := hn p hp
    unfold Prod.starts
    cases he : p.elements with
    | nil => exact absurd he h0
    | cons e es =>
      cases e with
      | term a =>
        simp only [List.mem_singleton]
        constructor
        · rintro ⟨δ, hδ⟩
          obtain ⟨x, y, hxy, h1, -⟩ := hδ.cons_split
          rw [Cfg.derives_term h1] at hxy
          simp at hxy
          exact hxy.1
        · rintro rfl
          exact ⟨es, .refl _⟩
      | nonterm A =>
        have hA := (firsts_exact g hg addr ha fuel f h A).1 t
        have hget : t ∈ (f.get A).getD [] ↔ ∃ s, f.get A = some s ∧ t ∈ s := by
          cases f.get A <;> simp
        rw [hget, hA]
        constructor
        · rintro ⟨δ, hδ⟩
          obtain ⟨x, y, hxy, h1, -⟩ := hδ.cons_split
          cases x with
          | nil => exact (yields_ne_nil hw hn (es := [.nonterm A]) (by simp)
              (Cfg.yields_iff.2 (by simpa using h1))).elim
          | cons b x =>
            simp at hxy
            rw [← hxy.1] at h1
            exact ⟨x, h1⟩
        · rintro ⟨γ, hγ⟩
          exact ⟨γ ++ es, Cfg.Derives.append (a := [.nonterm A]) hγ (.refl _)⟩
  constructor
  · intro hl
    exact ⟨hl.nonempty, fun p hp q hq hh t h1 h2 => hl.choice p hp q hq hh t
      ((key hl.nonempty p hp t).2 h1) ((key hl.nonempty q hq t).2 h2)⟩
  · rintro ⟨hn, hc⟩
    exact ⟨hn, fun p hp q hq hh t h1 h2 => hc p hp q hq hh t ((key hn p hp t).1 h1)
      ((key hn q hq t).1 h2)⟩

include hg ha in
/-- C107: if no production is empty, the FIRST sets are there to check it with. -/
theorem ll1_check_possible (hn : ∀ p ∈ g.prods, p.elements ≠ []) :
    ∃ N f, ∀ fuel, N ≤ fuel → firstsPass fuel addr g = .ok (.ok f) := by
  have hw := hg.valid.toWF
  obtain ⟨N, hN⟩ := firsts_terminates g hg addr ha
  rcases hN (max N (g.prods.length + 1)) (by omega) with ⟨⟨f, h⟩, -⟩ | ⟨e, -, h⟩
  · exact ⟨_, f, fun fuel hf => firstsPass_mono hf h⟩
  · cases e
    obtain ⟨A, t, _, _, ht, -, hy, -⟩ := (nullable_ambiguity_exact g hg addr ha _ (by omega)).1.1 h
    exact absurd hy (IsTree.yield_ne_nil hn ht)

-- Hypotheses of `ll1_check` and `ll1_check_possible`.
example : rightExample.Accepted ∧ AddrInj rightExample exampleAddr ∧
    firstsPass 9 exampleAddr rightExample = .ok (.ok ⟨[(0, [1, 2])]⟩) ∧
    (∀ p ∈ rightExample.prods, p.elements ≠ []) ∧ rightExample.LL1Check ⟨[(0, [1, 2])]⟩ :=
  ⟨rightExample_accepted, exampleAddr_addrInj _, by rfl, by decide, by unfold Grammar.LL1Check; decide⟩
end

theorem rightExample_ll1 : rightExample.LL1 :=
  (ll1_check rightExample rightExample_accepted exampleAddr (exampleAddr_addrInj _) 9 ⟨[(0, [1, 2])]⟩
    (by rfl)).2 (by unfold Grammar.LL1Check; decide)

/-- `0 → 1 0 1 | 2`, with a nonterminal inside a production. -/
def centreExample : Grammar Nat Nat Nat Unit :=
  ⟨0, [exRule 0 [(10, [.term 1, .nonterm 0, .term 1]), (11, [.term 2])]]⟩

theorem centreExample_accepted : centreExample.Accepted :=
  ⟨20, 0, [⟨0, [.addProd 10 () [.addTerm 1, .addNonterm 0, .addTerm 1],
    .addProd 11 () [.addTerm 2]]⟩], by decide⟩

theorem centreExample_ll1 : centreExample.LL1 :=
  (ll1_check centreExample centreExample_accepted exampleAddr (exampleAddr_addrInj _) 9
    ⟨[(0, [1, 2])]⟩ (by rfl)).2 (by unfold Grammar.LL1Check; decide)

-- Hypotheses of `ll1_parse` and `prefixFree_parse`, with all three outcomes.
example : centreExample.Accepted ∧ centreExample.LL1 ∧ centreExample.PrefixFreeInside ∧
    AddrInj centreExample.wrapped exampleSAddr ∧
    (∃ I n, parse exampleSAddr centreExample.wrapped 19 (World.new : World Nat Nat Nat) 7
      (exampleToks [1, 2, 1]) = .ok (World.new.set 7 I, some n)) ∧
    (∃ I, parse exampleSAddr centreExample.wrapped 19 (World.new : World Nat Nat Nat) 7
      (exampleToks [1, 2]) = .ok (World.new.set 7 I, none)) ∧
    parse exampleSAddr centreExample.wrapped 19 (World.new : World Nat Nat Nat) 7
      (exampleToks [2, 2]) = .panic .emptyState :=
  ⟨centreExample_accepted, centreExample_ll1, ll1_prefixFree centreExample_accepted centreExample_ll1,
    exampleSAddr_addrInj _, ⟨_, _, rfl⟩, ⟨_, rfl⟩, rfl⟩

/-- `0 → 0 | 1 0 | 1 | 1`: ambiguous, with infinitely many trees for each word, and not `LL1`. -/
def regularExample : Grammar Nat Nat Nat Unit :=
  ⟨0, [exRule 0 [(10, [.nonterm 0]), (11, [.term 1, .nonterm 0]), (12, [.term 1]), (13, [.term 1])]]⟩

theorem regularExample_accepted : regularExample.Accepted :=
  ⟨20, 0, [⟨0, [.addProd 10 () [.addNonterm 0], .addProd 11 () [.addTerm 1, .addNonterm 0],
    .addProd 12 () [.addTerm 1], .addProd 13 () [.addTerm 1]]⟩], by decide⟩

set_option maxRecDepth 4000 in
-- Hypotheses of `rightLinear_prefixFree` and `prefixFree_parse`; `LL1` asks for more.
example : regularExample.Accepted ∧ regularExample.RightLinear ∧ regularExample.PrefixFreeInside ∧
    ¬ regularExample.LL1 ∧
    (∃ I n, parse exampleSAddr regularExample.wrapped 19 (World.new : World Nat Nat Nat) 7
      (exampleToks [1, 1]) = .ok (World.new.set 7 I, some n)) := by
  have hr : regularExample.RightLinear := by
    intro p hp
    have hp' : p = ⟨0, 0, ⟨10, (), [⟨none, .nonterm 0⟩]⟩⟩ ∨
        p = ⟨0, 1, ⟨11, (), [⟨none, .term 1⟩, ⟨none, .nonterm 0⟩]⟩⟩ ∨
        p = ⟨0, 2, ⟨12, (), [⟨none, .term 1⟩]⟩⟩ ∨ p = ⟨0, 3, ⟨13, (), [⟨none, .term 1⟩]⟩⟩ := by
      revert p; decide
    rcases hp' with rfl | rfl | rfl | rfl <;>
      exact ⟨by decide, fun B => by simp [Prod.elements, ProdInner.elems]⟩
  refine ⟨regularExample_accepted, hr, rightLinear_prefixFree hr, fun h => ?_, ⟨_, _, rfl⟩⟩
  have := h.choice ⟨0, 2, ⟨12, (), [⟨none, .term 1⟩]⟩⟩ (by decide) ⟨0, 3, ⟨13, (), [⟨none, .term 1⟩]⟩⟩
    (by decide) rfl 1 ⟨[], .refl _⟩ ⟨[], .refl _⟩
  exact absurd this (by decide)
end Bongo
