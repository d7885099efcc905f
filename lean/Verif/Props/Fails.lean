import Verif.Spec.Fails
import Verif.Props.Walk
import Verif.Props.Examples
import Verif.Props.Factored
/-!
# C140: grammars whose sentences cannot all be parsed
-/
set_option linter.unusedSectionVars false
namespace Bongo
open Std

section
variable {T NT AK AV : Type} {g : Grammar T NT AK AV}

theorem clash_overlaps {w : List T} (h : g.Clash w) : g.cfg.InLanguage [] ∨ g.Overlaps := by
  rcases h with ⟨-, h⟩ | ⟨u, v, A, β, δ, d₁, d₂, -, -, h1, h2, h3, h4, h5⟩
  · exact Or.inl h
  · exact Or.inr ⟨A, β, d₁, d₂, v, h1, h2, h3, h4, h5⟩

theorem terms_append {a b : List (Elem T NT)} {w : List T} (h : a ++ b = w.map .term) :
    ∃ u v : List T, w = u ++ v ∧ a = u.map .term ∧ b = v.map .term := by
  obtain ⟨u, v, rfl, h1, h2⟩ := List.map_eq_append_iff.1 h.symm
  exact ⟨u, v, rfl, h1.symm, h2.symm⟩

/-- A production of a trimmed grammar is used in the derivation of a text. -/
theorem Grammar.Trim.use (ht : g.Trim) {A : NT} {β : List (Elem T NT)} (hp : g.cfg.prod A β) :
    ∃ (u : List T) (δ : List (Elem T NT)) (x z : List T), g.cfg.Derives [.nonterm g.startSymbol] (u.map .term ++ .nonterm A :: δ) ∧
      g.cfg.Derives β (x.map .term) ∧ g.cfg.Derives δ (z.map .term) := by
  obtain ⟨γ, δ, h1⟩ := ht.reached A β hp
  have h2 : g.cfg.Derives (γ ++ .nonterm A :: δ) (γ ++ (β ++ δ)) :=
    (Cfg.Derives.refl γ).append (Cfg.Derives.append (a := [_]) (Cfg.derives_prod hp) (.refl δ))
  obtain ⟨w, h3⟩ := ht.noDeadEnds _ (h1.trans h2)
  obtain ⟨c₁, c₂, h4, h5, h6⟩ := h3.split
  obtain ⟨u, v, rfl, rfl, rfl⟩ := terms_append h4.symm
  obtain ⟨c₁, c₂, h4, h7, h8⟩ := h6.split
  obtain ⟨x, z, rfl, rfl, rfl⟩ := terms_append h4.symm
  exact ⟨u, δ, x, z, h1.trans (h5.append (.refl _)), h7, h8⟩

/-- In a trimmed grammar two beginnings with a common text come to grief in some sentence. -/
theorem overlaps_clash (ht : g.Trim) (ho : g.Overlaps) : ∃ w z : List T, g.Clash w ∧ g.cfg.InLanguage (w ++ z) := by
  obtain ⟨A, β, d₁, d₂, v, h1, h2, h3, h4, h5⟩ := ho
  obtain ⟨u, δ, x, z, h6, h7, h8⟩ := ht.use h1
  have h7' : g.cfg.Derives (β.take d₁ ++ β.drop d₁) (x.map .term) := by rw [List.take_append_drop]; exact h7
  obtain ⟨c₁, c₂, h9, -, h10⟩ := h7'.split
  obtain ⟨x₁, x₂, rfl, rfl, rfl⟩ := terms_append h9.symm
  refine ⟨u ++ v, x₂ ++ z, Or.inr ⟨u, v, A, β, δ, d₁, d₂, rfl, h6, h1, h2, h3, h4, h5⟩, ?_⟩
  have h11 : g.cfg.Derives [.nonterm A] (v.map .term ++ x₂.map .term) := by
    refine (Cfg.derives_prod h1).trans ?_
    have := h4.append h10
    rwa [List.take_append_drop] at this
  have h12 := h6.trans ((Cfg.Derives.refl (G := g.cfg) (u.map .term)).append (Cfg.Derives.append (a := [_]) h11 h8))
  show g.cfg.Derives [.nonterm g.startSymbol] _
  simpa using h12

/-- C140.  If one beginning of a production derives another one, they have a common text: for instance if they differ
by elements that can be empty, or if what follows the shorter one is what it can repeat. -/
theorem overlaps_of_derives (ht : g.Trim) {A : NT} {β : List (Elem T NT)} (hp : g.cfg.prod A β) {d d' : Nat}
    (hd : d ≠ d') (hd1 : d ≤ β.length) (hd2 : d' ≤ β.length) (h : g.cfg.Derives (β.take d) (β.take d')) :
    g.Overlaps := by
  obtain ⟨-, -, x, -, -, h1, -⟩ := ht.use hp
  have h1' : g.cfg.Derives (β.take d' ++ β.drop d') (x.map .term) := by rw [List.take_append_drop]; exact h1
  obtain ⟨c₁, c₂, h2, h3, -⟩ := h1'.split
  obtain ⟨v, -, -, rfl, -⟩ := terms_append h2.symm
  rcases Nat.lt_or_gt_of_ne hd with hlt | hlt
  · exact ⟨A, β, d, d', v, hp, hlt, hd2, h.trans h3, h3⟩
  · exact ⟨A, β, d', d, v, hp, hlt, hd1, h3, h.trans h3⟩

/-- C140.  A production that begins with its own nonterminal and goes on has two beginnings with a common text. -/
theorem overlaps_of_leftRecursion (ht : g.Trim) {A : NT} {γ : List (Elem T NT)} (hγ : γ ≠ [])
    (hp : g.cfg.prod A (.nonterm A :: γ)) : g.Overlaps := by
  have := List.length_pos_of_ne_nil hγ
  refine overlaps_of_derives ht hp (d := 1) (d' := γ.length + 1) (by omega) (by simp) (by simp) ?_
  have h1 : (Elem.nonterm A :: γ).take (γ.length + 1) = Elem.nonterm A :: γ := by simp
  rw [h1]
  exact Cfg.derives_prod hp

/-- C140.  So has a production with a nonterminal that can be empty. -/
theorem overlaps_of_nullable (ht : g.Trim) {A B : NT} {β : List (Elem T NT)} (hp : g.cfg.prod A β)
    (hB : .nonterm B ∈ β) (hn : g.cfg.Generates B []) : g.Overlaps := by
  obtain ⟨d, hd, h1⟩ := List.mem_iff_getElem.1 hB
  refine overlaps_of_derives ht hp (d := d + 1) (d' := d) (by omega) (by omega) (by omega) ?_
  rw [List.take_add_one, List.getElem?_eq_getElem hd, h1]
  have := (Cfg.Derives.refl (G := g.cfg) (β.take d)).append (show g.cfg.Derives [.nonterm B] [] from hn)
  simpa using this

theorem sentential_occurs {γ : List (Elem T NT)} (h : g.cfg.Derives [.nonterm g.startSymbol] γ) {B : NT}
    (hB : .nonterm B ∈ γ) : B = g.startSymbol ∨ ∃ A β, g.cfg.prod A β ∧ .nonterm B ∈ β := by
  unfold Cfg.Derives at h
  induction h with
  | refl => simp at hB; exact Or.inl hB
  | tail _ hs ih =>
    cases hs with
    | mk u v A β hp =>
      simp only [List.mem_append] at hB
      rcases hB with (hB | hB) | hB
      · exact ih (by simp [hB])
      · exact Or.inr ⟨A, β, hp, hB⟩
      · exact ih (by simp [hB])

/-- C140.  In a trimmed grammar without such productions no nonterminal can be empty (unless the empty text is in the
language). -/
theorem nonnull_of_not_overlaps (ht : g.Trim) (he : ¬ g.cfg.InLanguage []) (ho : ¬ g.Overlaps) (A : NT) :
    ¬ g.cfg.Generates A [] := by
  intro hA
  have hprod : ∃ β, g.cfg.prod A β := by
    rcases Cfg.derives_nonterm hA with h | ⟨β, h, -⟩
    · simp at h
    · exact ⟨β, h⟩
  obtain ⟨β, hβ⟩ := hprod
  obtain ⟨γ, δ, h⟩ := ht.reached A β hβ
  rcases sentential_occurs h (B := A) (by simp) with rfl | ⟨C, β', h1, h2⟩
  · exact he hA
  · exact ho (overlaps_of_nullable ht h1 h2 hA)
end

section
variable {T NT AK AV V : Type}
variable [Ord T] [Ord NT] [Ord AK] [Ord V] [DecidableEq T] [DecidableEq NT]
variable [TransOrd T] [TransOrd NT] [TransOrd AK] [TransOrd V]
variable [LawfulEqOrd T] [LawfulEqOrd NT] [LawfulEqOrd AK] [LawfulEqOrd V]
variable {addr : StartNonTerminal NT → Nat → Nat} {g : Grammar T NT AK AV}
variable (hg : g.Accepted) (ha : AddrInj g.wrapped addr) (ht : g.Trim) {log : TreeLog T AK V} {w : World T AK V}
  {held : List Handle} (hist : History log w held) (t : Nat)

include hg ha ht hist in
/-- C140.  `parse` panics on some text of the language exactly if the empty text is in the language or two beginnings of
a production derive the same text. -/
theorem fails_exact [Nonempty V] :
    (∃ toks : List (Token T V), g.cfg.InLanguage (kinds toks) ∧
      ∃ N, ∀ fuel, N ≤ fuel → parse addr g.wrapped fuel w t toks = .panic .lenMismatch) ↔
    g.cfg.InLanguage [] ∨ g.Overlaps := by
  constructor
  · rintro ⟨toks, h1, N, h2⟩
    by_contra hno
    obtain ⟨N', h3, -⟩ := parse_outcome_noClash hg ha hist t ht.noDeadEnds
      (fun u hu => hno (clash_overlaps hu)) toks
    obtain ⟨w', n, h4⟩ := h3 h1
    have h5 := h2 (max N N') (by omega)
    rw [h4 _ (by omega)] at h5
    cases h5
  · rintro (h | h)
    · exact ⟨[], h, parse_nullable_start_exact hg ha hist t h []⟩
    · obtain ⟨u, z, hc, hl⟩ := overlaps_clash ht h
      obtain ⟨v0⟩ := ‹Nonempty V›
      let toks : List (Token T V) := (u ++ z).map fun a => ⟨a, v0⟩
      have hk : kinds toks = u ++ z := by simp [toks, kinds, Function.comp_def]
      have hlen : toks.length = u.length + z.length := by simp [toks]
      have hku : kinds (toks.take u.length) = u := by rw [kinds_take, hk, List.take_left]
      have hvia : ∀ j, g.Viable (kinds (toks.take j)) := fun j =>
        (viable_iff_prefix ht.noDeadEnds).2 ⟨u ++ z, by rw [kinds_take, hk]; exact List.take_prefix _ _, hl⟩
      refine ⟨toks, by rw [hk]; exact hl, ?_⟩
      obtain ⟨N, ⟨h1, -⟩ | ⟨b, hb, -, ⟨hv, -⟩ | ⟨-, -, h2⟩⟩⟩ := parse_exact hg ha hist t toks
      · exact absurd (by rw [hku]; exact hc) (h1 u.length (by omega)).2
      · exact absurd (hvia b) hv
      · exact ⟨N, h2⟩

include hg ha ht hist in
/-- C140.  So the grammars of which `parse` accepts every text are exactly those of which the empty text is not one and
that have no such production. -/
theorem reliable_exact [Nonempty V] :
    (∀ toks : List (Token T V), g.cfg.InLanguage (kinds toks) → ∃ N w' n, ∀ fuel, N ≤ fuel →
      parse addr g.wrapped fuel w t toks = .ok (w', some n)) ↔
    ¬ g.cfg.InLanguage [] ∧ ¬ g.Overlaps := by
  constructor
  · intro h
    rw [← not_or, ← fails_exact hg ha ht hist t (V := V)]
    rintro ⟨toks, h1, N, h2⟩
    obtain ⟨N', w', n, h3⟩ := h toks h1
    have h5 := h2 (max N N') (by omega)
    rw [h3 _ (by omega)] at h5
    cases h5
  · rintro ⟨h1, h2⟩ toks hl
    obtain ⟨N, h3, -⟩ := parse_outcome_noClash hg ha hist t ht.noDeadEnds
      (fun u hu => (clash_overlaps hu).elim h1 h2) toks
    obtain ⟨w', n, h4⟩ := h3 hl
    exact ⟨N, w', n, h4⟩

include hg ha ht hist in
/-- C140.  Such a grammar has no nonterminal that can be empty, and no production that begins with its own nonterminal
and goes on. -/
theorem reliable_shape [Nonempty V]
    (h : ∀ toks : List (Token T V), g.cfg.InLanguage (kinds toks) → ∃ N w' n, ∀ fuel, N ≤ fuel →
      parse addr g.wrapped fuel w t toks = .ok (w', some n)) :
    (∀ A, ¬ g.cfg.Generates A []) ∧
    ∀ p ∈ g.prods, ∀ γ, p.elements = .nonterm p.head :: γ → γ = [] := by
  obtain ⟨h1, h2⟩ := (reliable_exact hg ha ht hist t).1 h
  refine ⟨nonnull_of_not_overlaps ht h1 h2, fun p hp γ hγ => ?_⟩
  by_contra hne
  refine h2 (overlaps_of_leftRecursion ht hne (A := p.head) ?_)
  exact (Grammar.cfg_prod_iff hg.valid.toWF).2 ⟨p, hp, rfl, hγ⟩
end

/-! ## Witnesses -/

/-- `E → E 1 E | 2`: infix expressions. -/
def infixExample : Grammar Nat Nat Nat Unit :=
  ⟨0, [exRule 0 [(10, [.nonterm 0, .term 1, .nonterm 0]), (11, [.term 2])]]⟩

theorem infixExample_accepted : infixExample.Accepted :=
  ⟨20, 0, [⟨0, [.addProd 10 () [.addNonterm 0, .addTerm 1, .addNonterm 0], .addProd 11 () [.addTerm 2]]⟩], by decide⟩

theorem infixExample_prod {A : Nat} {β} : infixExample.cfg.prod A β ↔
    A = 0 ∧ (β = [.nonterm 0, .term 1, .nonterm 0] ∨ β = [.term 2]) := by
  simp [infixExample, Grammar.cfg, exRule, and_assoc]

theorem infixExample_trim : infixExample.Trim := by
  constructor
  · intro A β h
    obtain ⟨rfl, -⟩ := infixExample_prod.1 h
    exact ⟨[], [], .refl _⟩
  · refine noDeadEnds_of (fun A => A = 0) rfl ?_ ?_
    · intro A β hp B hB
      rcases infixExample_prod.1 hp with ⟨-, rfl | rfl⟩ <;> simp at hB <;> exact hB
    · rintro A rfl
      exact ⟨[2], Cfg.derives_prod (infixExample_prod.2 ⟨rfl, Or.inr rfl⟩)⟩

/-- The hypotheses of `overlaps_of_leftRecursion` and of `fails_exact` are met: `parse` panics on some expression. -/
example : infixExample.Overlaps ∧ ∃ toks : List (Token Nat Nat), infixExample.cfg.InLanguage (kinds toks) ∧
    ∃ N, ∀ fuel, N ≤ fuel → parse exampleSAddr infixExample.wrapped fuel World.new 7 toks = .panic .lenMismatch := by
  have h := overlaps_of_leftRecursion infixExample_trim (γ := [.term 1, .nonterm 0]) (by simp)
    (infixExample_prod.2 ⟨rfl, Or.inl rfl⟩)
  exact ⟨h, (fails_exact infixExample_accepted (exampleSAddr_addrInj _) infixExample_trim .start 7).2 (Or.inr h)⟩

/-- The hypotheses of `reliable_shape` are met by `S → 1 S | 2`. -/
example : rightExample.Trim ∧ ∀ toks : List (Token Nat Nat), rightExample.cfg.InLanguage (kinds toks) →
    ∃ N w' n, ∀ fuel, N ≤ fuel → parse exampleSAddr rightExample.wrapped fuel World.new 7 toks = .ok (w', some n) := by
  refine ⟨⟨?_, rightExample_noDeadEnds⟩, fun toks hl => ?_⟩
  · intro A β h
    have : A = 0 := by
      have h' := h
      simp [rightExample, Grammar.cfg, exRule] at h'
      exact h'.1
    subst this
    exact ⟨[], [], .refl _⟩
  · obtain ⟨N, h1, -⟩ := ll1_parse rightExample_accepted rightExample_ll1 (exampleSAddr_addrInj _)
      .start 7 toks
    obtain ⟨w', n, d, h2, -⟩ := h1 hl
    exact ⟨N, w', n, h2⟩

end Bongo
