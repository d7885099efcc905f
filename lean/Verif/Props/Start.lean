import Verif.Proof.Start
import Verif.Props.Nullable
/-!
# C27, C28: wrapping a grammar with a start symbol
-/
set_option linter.unusedSectionVars false
namespace Bongo
open Std
variable {T NT AK AV : Type} [Ord NT] [TransOrd NT] [LawfulEqOrd NT]

/-- C27.  `wrap_grammar_with_start` accepts every grammar `build` accepts (so the result is again
an accepted grammar), and the result is, rule by rule and production by production, the grammar
written out in `Spec/Start.lean`. -/
theorem wrap_exact (g : Grammar T NT AK AV) (hg : g.Accepted) :
    (∃ N, ∀ fuel, N ≤ fuel → wrapGrammarWithStart fuel g = .ok (.ok g.wrapped)) ∧
    (∀ fuel, wrapGrammarWithStart fuel g = .ok (.ok g.wrapped) ∨
      wrapGrammarWithStart fuel g = .oof) ∧
    g.wrapped.Accepted := by
  have hv := hg.valid
  have hw := Grammar.wrapped_valid hv
  have heq : ∀ fuel, wrapGrammarWithStart fuel g = Grammar.new fuel .start
      (⟨.start, [startProduction g.startSymbol]⟩ :: g.rules.map RuleInner.lifted) := by
    intro fuel
    unfold wrapGrammarWithStart
    rw [grammar_builder_records, wrapCalls_declares]
  have hof := ofRules_wrap hv.toWF
  obtain ⟨N, hN⟩ := Grammar.new_of_valid (start := .start)
    (rules := ⟨.start, [startProduction g.startSymbol]⟩ :: g.rules.map RuleInner.lifted)
    (by rw [hof]; exact hw)
  rw [hof] at hN
  refine ⟨⟨N, fun fuel hf => by rw [heq]; exact hN fuel hf⟩, ?_, ?_⟩
  · intro fuel
    rw [heq]
    unfold Grammar.new Grammar.checkGrammar Grammar.unreachableNonterms
    rw [hof]
    cases hr : g.wrapped.reachableNonterms fuel with
    | oof => right; simp only [hr]
    | panic w =>
      obtain ⟨-, B, h1, h2⟩ := Grammar.reachable_panic hw.toWF hr
      exfalso
      rcases Relation.ReflTransGen.cases_tail h1 with rfl | ⟨C, -, hC⟩
      · obtain ⟨r, hr'⟩ := hw.startRule; rw [hr'] at h2; cases h2
      · obtain ⟨r, hr'⟩ := hw.closed C B hC; rw [hr'] at h2; cases h2
    | ok s =>
      left
      have hN' := hN (max N g.wrapped.checkFuel) (Nat.le_max_left _ _)
      unfold Grammar.new Grammar.checkGrammar Grammar.unreachableNonterms at hN'
      rw [hof] at hN'
      cases hr2 : g.wrapped.reachableNonterms (max N g.wrapped.checkFuel) with
      | oof => simp [hr2] at hN'
      | panic w => simp [hr2] at hN'
      | ok s2 =>
        have hu : ∀ s, (∀ B, B ∈ s ↔ Relation.TransGen g.wrapped.cfg.Mentions
            g.wrapped.startSymbol B) → BSet.ofList compare (g.wrapped.getNonterminals.filter
              (fun nt => !BSet.contains compare s nt)) = [] := by
          intro s hs
          have : g.wrapped.getNonterminals.filter (fun nt => !BSet.contains compare s nt) = [] := by
            rw [List.filter_eq_nil_iff]
            intro B hB
            rw [Grammar.mem_getNonterminals] at hB
            obtain ⟨A, hA⟩ := hB
            have := (BSet.contains_iff_mem (cmp := compare)).2 ((hs B).2 (hw.reach A B hA))
            simp [this]
          rw [this]; rfl
        simp only [hr, hr2, hu s (Grammar.reachable_ok hw.toWF hr),
          hu s2 (Grammar.reachable_ok hw.toWF hr2)] at hN' ⊢
        exact hN'
  · refine ⟨N, .start, wrapCalls g, ?_⟩
    have := hN N (Nat.le_refl _)
    rw [← heq] at this
    exact this

/-- C27.  The rule and the production of the new start symbol: neither accessor panics, and the
production is `Start => start:<s> EOS`. -/
theorem start_prod_exact (g : Grammar T NT AK AV) :
    StartGrammar.startRule g.wrapped = .ok ⟨.start, [startProduction g.startSymbol]⟩ ∧
    StartGrammar.startProd g.wrapped = .ok ⟨.start, 0, startProduction g.startSymbol⟩ :=
  ⟨rfl, rfl⟩

/-- C28.  The wrapped grammar derives exactly the strings `w EOS` with `w` in the original
language. -/
theorem wrap_language (g : Grammar T NT AK AV) (w' : List (StreamTerminal T)) :
    g.wrapped.cfg.InLanguage w' ↔
      ∃ w, g.cfg.InLanguage w ∧ w' = w.map .term ++ [.endOfStream] := by
  unfold Cfg.InLanguage
  rw [Cfg.generates_iff]
  constructor
  · rintro ⟨β, h1, h2⟩
    rw [show g.wrapped.cfg.start = .start from rfl, wrapped_prod_start] at h1
    subst h1
    rw [Cfg.yields_cons_nonterm_iff] at h2
    obtain ⟨w1, w2, rfl, h3, h5⟩ := h2
    obtain ⟨β, h3, h4⟩ := Cfg.generates_iff.1 h3
    rw [Cfg.yields_cons_term_iff] at h5
    obtain ⟨w3, rfl, h6⟩ := h5
    rw [Cfg.yields_nil_iff] at h6
    subst h6
    obtain ⟨β', h7, rfl⟩ := wrapped_prod_nterm.1 h3
    obtain ⟨w, rfl, h8⟩ := of_wrapped_yields h4 β' rfl
    exact ⟨w, Cfg.generates_iff.2 ⟨β', h7, h8⟩, rfl⟩
  · rintro ⟨w, h1, rfl⟩
    rw [Cfg.generates_iff] at h1
    obtain ⟨β, h2, h3⟩ := h1
    refine ⟨_, wrapped_prod_start.2 rfl, ?_⟩
    exact .nonterm (wrapped_prod_nterm.2 ⟨β, h2, rfl⟩) (wrapped_yields h3) (.term _ .nil)

/-- C28.  A wrapped nonterminal derives exactly the wrapped strings of the original. -/
theorem wrap_language_nt (g : Grammar T NT AK AV) (A : NT) (w' : List (StreamTerminal T)) :
    g.wrapped.cfg.Generates (.nterm A) w' ↔
      ∃ w, g.cfg.Generates A w ∧ w' = w.map .term := by
  rw [Cfg.generates_iff]
  constructor
  · rintro ⟨β, h1, h2⟩
    obtain ⟨β', h3, rfl⟩ := wrapped_prod_nterm.1 h1
    obtain ⟨w, rfl, h4⟩ := of_wrapped_yields h2 β' rfl
    exact ⟨w, Cfg.generates_iff.2 ⟨β', h3, h4⟩, rfl⟩
  · rintro ⟨w, h1, rfl⟩
    obtain ⟨β, h2, h3⟩ := Cfg.generates_iff.1 h1
    exact ⟨_, wrapped_prod_nterm.2 ⟨β, h2, rfl⟩, wrapped_yields h3⟩

/-- C27.  The accessors of the wrapped symbols: only the terminal wrapping `kind` has that kind,
only the end of stream is the end of stream, and `as_base` recovers exactly the original action
keys. -/
theorem start_accessors [DecidableEq T] (s : StreamTerminal T) (kind : T) (k : StartActionKey AK)
    (ak : AK) :
    (s.hasKind kind = true ↔ s = .term kind) ∧ (s.isEos = true ↔ s = .endOfStream) ∧
    (k.asBase = some ak ↔ k = .actionKey ak) := by
  refine ⟨?_, ?_, ?_⟩
  · cases s <;> simp [StreamTerminal.hasKind]
  · cases s <;> simp [StreamTerminal.isEos]
  · cases k <;> simp [StartActionKey.asBase]

/-- C27.  In the order of the wrapped terminals the end of stream comes first and the original
terminals follow in their own order; likewise for the start symbol. -/
theorem start_orders [Ord T] (a b : T) (A B : NT) :
    compare (StreamTerminal.endOfStream : StreamTerminal T) (.term a) = .lt ∧
    compare (StreamTerminal.term a) (.term b) = compare a b ∧
    compare (StartNonTerminal.start : StartNonTerminal NT) (.nterm A) = .lt ∧
    compare (StartNonTerminal.nterm A) (.nterm B) = compare A B := ⟨rfl, rfl, rfl, rfl⟩

/-- A concrete accepted grammar is wrapped as claimed. -/
example : nullExample.Accepted ∧ wrapGrammarWithStart 30 nullExample = .ok (.ok nullExample.wrapped) ∧
    nullExample.wrapped.prods.length = nullExample.prods.length + 1 :=
  ⟨nullExample_accepted, rfl, rfl⟩
end Bongo
