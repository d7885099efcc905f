import Verif.Props.WrappedPasses
import Verif.Props.NonNullPasses
import Verif.Props.StartTree
/-!
# C126: the textbook FIRST and FOLLOW sets, by wrapping and transforming
-/
set_option linter.unusedSectionVars false
namespace Bongo
open Std
variable {T NT AK AV : Type}
variable [Ord T] [Ord NT] [TransOrd T] [TransOrd NT] [LawfulEqOrd T] [LawfulEqOrd NT]

/-- The sentential forms of the new start symbol. -/
theorem wrapped_derives_start {g : Grammar T NT AK AV} {x} :
    g.wrapped.cfg.Derives [.nonterm .start] x ↔ x = [.nonterm .start] ∨
      ∃ u, x = u.map baseElemToStartElem ++ [.term .endOfStream] ∧ g.cfg.Derives [.nonterm g.startSymbol] u := by
  constructor
  · intro h
    induction h with
    | refl => exact .inl rfl
    | @tail y z _ h ih =>
      right
      rcases ih with rfl | ⟨u, rfl, h1⟩
      · generalize hx : [Elem.nonterm StartNonTerminal.start] = x at h
        cases h with
        | mk a b A β hp =>
          cases a with
          | nil =>
            simp only [List.nil_append, List.cons.injEq, Elem.nonterm.injEq] at hx
            obtain ⟨rfl, rfl⟩ := hx
            rw [wrapped_prod_start] at hp
            subst hp
            exact ⟨[.nonterm g.startSymbol], rfl, .refl _⟩
          | cons c a => simp at hx
      · generalize hx : u.map baseElemToStartElem ++ [.term .endOfStream] = x at h
        cases h with
        | mk a b A β hp =>
          rw [List.append_eq_append_iff] at hx
          rcases hx with ⟨c, rfl, hc⟩ | ⟨c, hc, hb⟩
          · cases c with
            | nil => simp at hc
            | cons c d => simp at hc
          · cases c with
            | nil => simp at hb
            | cons c d =>
              simp only [List.cons_append, List.cons.injEq] at hb
              obtain ⟨rfl, rfl⟩ := hb
              have hst : g.wrapped.cfg.Step (u.map baseElemToStartElem) (a ++ β ++ d) := by
                rw [hc]; exact .mk _ _ _ _ hp
              obtain ⟨v, hv, h2⟩ := wrapped_step.1 hst
              exact ⟨v, by rw [← hv]; simp, h1.tail h2⟩
  · rintro (rfl | ⟨u, rfl, h⟩)
    · exact .refl _
    induction h with
    | refl => exact .single (Cfg.Step.mk [] [] _ _ (wrapped_prod_start.2 rfl))
    | tail _ h ih =>
      refine ih.tail ?_
      cases h with
      | mk a b A β hp =>
        have := Cfg.Step.mk (G := g.wrapped.cfg) (a.map baseElemToStartElem)
          (b.map baseElemToStartElem ++ [.term .endOfStream]) _ _ (wrapped_prod_nterm.2 ⟨_, hp, rfl⟩)
        simpa [baseElemToStartElem] using this

theorem wrapped_noDeadEnds {g : Grammar T NT AK AV} (hd : g.NoDeadEnds) : g.wrapped.NoDeadEnds := by
  have key : ∀ u, g.cfg.Derives [.nonterm g.startSymbol] u → ∃ w : List (StreamTerminal T),
      g.wrapped.cfg.Derives (u.map baseElemToStartElem ++ [.term .endOfStream]) (w.map .term) := by
    intro u hu
    obtain ⟨w, hw⟩ := hd u hu
    refine ⟨w.map .term ++ [.endOfStream], ?_⟩
    have h1 := (wrapped_derives (g := g)).2 ⟨_, rfl, hw⟩
    have h2 := Cfg.Derives.append h1 (Cfg.Derives.refl [Elem.term StreamTerminal.endOfStream])
    simpa [baseElemToStartElem, Function.comp_def] using h2
  intro γ h
  rcases wrapped_derives_start.1 h with rfl | ⟨u, rfl, hu⟩
  · obtain ⟨w, hw⟩ := key [.nonterm g.startSymbol] (.refl _)
    exact ⟨w, (wrapped_derives_start.2 (.inr ⟨_, rfl, .refl _⟩)).trans hw⟩
  · exact key u hu

theorem wrapped_only_empty {g : Grammar T NT AK AV} (hg : g.Accepted)
    (he : ∀ p ∈ g.prods, g.cfg.Derives p.elements [] → p.elements = []) :
    ∀ p ∈ g.wrapped.prods, g.wrapped.cfg.Derives p.elements [] → p.elements = [] := by
  intro p hp h
  have hp' := (Grammar.cfg_prod_iff (Grammar.wrapped_wf hg.valid.toWF)).2 ⟨p, hp, rfl, rfl⟩
  cases hh : p.head with
  | start =>
    rw [hh, wrapped_prod_start] at hp'
    rw [hp'] at h
    have := (wrapped_derives_start (g := g)).1 (Relation.ReflTransGen.head
      (Cfg.Step.mk (G := g.wrapped.cfg) [] [] _ _ (wrapped_prod_start.2 rfl)) (show g.wrapped.cfg.Derives _ _ by simpa using h))
    rcases this with h | ⟨u, hu, -⟩
    · cases h
    · simp at hu
  | nterm A =>
    rw [hh, wrapped_prod_nterm] at hp'
    obtain ⟨β, h1, h2⟩ := hp'
    rw [h2] at h ⊢
    obtain ⟨u, hu, h3⟩ := wrapped_derives.1 h
    obtain rfl := List.map_eq_nil_iff.1 hu.symm
    obtain ⟨q, hq, -, rfl⟩ := (Grammar.cfg_prod_iff hg.valid.toWF).1 h1
    rw [he q hq h3]; rfl

/-- C126.  Wrapping a grammar with a start symbol, transforming the result and running the passes gives the
textbook sets of the original grammar: `t` is in FIRST of `A` exactly if `A` derives something beginning with
`t`; `t` is in FOLLOW of `A` exactly if some nonterminal derives something in which `t` comes right after `A`;
and the end of the stream is in FOLLOW of `A` exactly if the start symbol derives something that ends with `A`,
and in no FIRST set of an original nonterminal.  Conditions: only empty productions derive the empty string, and
every sentential form derives a word. -/
theorem wrapped_nonnull_textbook (g : Grammar T NT AK AV) (hg : g.Accepted)
    (saddr : StartNonTerminal NT → Nat → Nat) (hs : AddrInj g.wrapped saddr) (fuel : Nat)
    (g' : NonNullGrammar (StreamTerminal T) (StartNonTerminal NT) (StartActionKey AK) (StartActionValue AV))
    (h : transformToNonnull fuel saddr g.wrapped = .ok (.ok g'))
    (addr' : StartNonTerminal NT → Nat → Nat) (ha' : AddrInj g' addr')
    (he : ∀ p ∈ g.prods, g.cfg.Derives p.elements [] → p.elements = []) (hd : g.NoDeadEnds) :
    ∃ N, ∀ fuel, N ≤ fuel → ∃ f fo, firstsPass fuel addr' g' = .ok (.ok f) ∧
      followsPass fuel addr' g' = .ok (.ok fo) ∧
      (∀ A t, (∃ s, f.get (.nterm A) = some s ∧ .term t ∈ s) ↔
        ∃ γ, g.cfg.Derives [.nonterm A] (.term t :: γ)) ∧
      (∀ A s, f.get (.nterm A) = some s → .endOfStream ∉ s) ∧
      (∀ A t, (∃ s, BMap.get? compare fo.map (.nterm A) = some s ∧ .term t ∈ s) ↔
        ∃ B u v, g.cfg.Derives [.nonterm B] (u ++ .nonterm A :: .term t :: v)) ∧
      ∀ A, (∃ s, BMap.get? compare fo.map (.nterm A) = some s ∧ .endOfStream ∈ s) ↔
        ∃ u, g.cfg.Derives [.nonterm g.startSymbol] (u ++ [.nonterm A]) := by
  have hgw : g.wrapped.Accepted := (wrap_exact g hg).2.2
  obtain ⟨N, hN⟩ := nonnull_textbook g.wrapped hgw saddr hs fuel g' h addr' ha'
    (wrapped_only_empty hg he) (wrapped_noDeadEnds hd)
  refine ⟨N, fun fuel' hf => ?_⟩
  obtain ⟨-, f, fo, -, h1, h2, -, h3, h4⟩ := hN fuel' hf
  have hfirst : ∀ A t', (∃ s, f.get (.nterm A) = some s ∧ t' ∈ s) ↔
      ∃ t, t' = .term t ∧ ∃ γ, g.cfg.Derives [.nonterm A] (.term t :: γ) := fun A t' => by
    rw [h3, ← wrapped_derives_term]; rfl
  have hfollow : ∀ A t', (∃ s, BMap.get? compare fo.map (.nterm A) = some s ∧ t' ∈ s) ↔
      (∃ t, t' = .term t ∧ ∃ B u v, g.cfg.Derives [.nonterm B] (u ++ .nonterm A :: .term t :: v)) ∨
      (t' = .endOfStream ∧ ∃ u, g.cfg.Derives [.nonterm g.startSymbol] (u ++ [.nonterm A])) := by
    intro A t'
    rw [h4]
    -- two adjacent symbols of a form of the original grammar
    have inner : ∀ (x : List (Elem T NT)) (u v), x.map baseElemToStartElem = u ++ .nonterm (.nterm A) :: .term t' :: v →
        ∃ t, t' = .term t ∧ ∃ u v, x = u ++ .nonterm A :: .term t :: v := by
      intro x u v hx
      obtain ⟨a, b, rfl, rfl, hb⟩ := List.map_eq_append_iff.1 hx
      obtain ⟨c, d, rfl, hc, hd⟩ := List.map_eq_cons_iff.1 hb
      obtain ⟨c', d', rfl, hc', hd'⟩ := List.map_eq_cons_iff.1 hd
      cases c with
      | term c => cases hc
      | nonterm c =>
        cases hc
        cases c' with
        | nonterm c' => cases hc'
        | term c' => cases hc'; exact ⟨_, rfl, _, _, rfl⟩
    constructor
    · rintro ⟨B, u, v, hB⟩
      cases B with
      | start =>
        rcases wrapped_derives_start.1 hB with h5 | ⟨x, h5, h6⟩
        · have := congrArg List.length h5
          simp at this
          omega
        · rcases List.eq_nil_or_concat v with rfl | ⟨v, e, rfl⟩
          · have h7 : (u ++ [.nonterm (.nterm A)]) ++ [.term t'] =
                x.map baseElemToStartElem ++ [.term .endOfStream] := by simpa using h5
            obtain ⟨h8, h9⟩ := List.append_inj' h7 rfl
            obtain ⟨a, b, rfl, rfl, hb⟩ := List.map_eq_append_iff.1 h8.symm
            obtain ⟨c, d, rfl, hc, hd⟩ := List.map_eq_cons_iff.1 hb
            obtain rfl := List.map_eq_nil_iff.1 hd
            cases c with
            | term c => cases hc
            | nonterm c =>
              cases hc
              cases h9
              exact .inr ⟨rfl, a, h6⟩
          · have h7 : (u ++ .nonterm (.nterm A) :: .term t' :: v) ++ [e] =
                x.map baseElemToStartElem ++ [.term .endOfStream] := by simpa using h5
            obtain ⟨h8, -⟩ := List.append_inj' h7 rfl
            obtain ⟨t, rfl, a, b, rfl⟩ := inner x u v h8.symm
            exact .inl ⟨t, rfl, _, a, b, h6⟩
      | nterm B =>
        obtain ⟨x, h5, h6⟩ := (wrapped_derives (s := [.nonterm B])).1 hB
        obtain ⟨t, rfl, a, b, rfl⟩ := inner x u v h5.symm
        exact .inl ⟨t, rfl, _, a, b, h6⟩
    · rintro (⟨t, rfl, B, u, v, hB⟩ | ⟨rfl, u, hu⟩)
      · refine ⟨.nterm B, u.map baseElemToStartElem, v.map baseElemToStartElem, ?_⟩
        have := (wrapped_derives (g := g)).2 ⟨_, rfl, hB⟩
        simpa [baseElemToStartElem] using this
      · refine ⟨.start, u.map baseElemToStartElem, [], ?_⟩
        have := wrapped_derives_start.2 (.inr ⟨_, rfl, hu⟩)
        simpa [baseElemToStartElem] using this
  refine ⟨f, fo, h1, h2, fun A t => ?_, fun A s hs he => ?_, fun A t => ?_, fun A => ?_⟩
  · rw [hfirst]; simp
  · obtain ⟨t, ht, -⟩ := (hfirst A .endOfStream).1 ⟨s, hs, he⟩
    cases ht
  · rw [hfollow]; simp
  · rw [hfollow]; simp

/-- C126.  Where only empty productions derive the empty string, the transform succeeds exactly if every rule has
a production that is not empty and at most one empty one.  (A `Prod` is a head, an index and the production.) -/
theorem nonnull_outcome_simple (g : Grammar T NT AK AV) (hg : g.Accepted) (addr : NT → Nat → Nat)
    (ha : AddrInj g addr) (he : ∀ p ∈ g.prods, g.cfg.Derives p.elements [] → p.elements = []) :
    ∃ N, ∀ fuel, N ≤ fuel → ((∃ g', transformToNonnull fuel addr g = .ok (.ok g')) ↔
      (∀ r ∈ g.rules, ∃ p ∈ r.prodRefs, p.elements ≠ []) ∧
      ∀ p ∈ g.prods, ∀ q ∈ g.prods, p.head = q.head → p.elements = [] → q.elements = [] → p = q) := by
  have hv := hg.valid
  have hw := hv.toWF
  have hnull : ∀ p ∈ g.prods, g.cfg.Derives p.elements [] ↔ p.elements = [] := fun p hp =>
    ⟨he p hp, fun h => by rw [h]; exact .refl _⟩
  have hroot : ∀ (A : NT) (t : DTree T (Prod T NT AK AV)), IsTree g id (.nonterm A) t → t.yield = [] →
      ∃ p ∈ g.prods, p.head = A ∧ p.elements = [] ∧ t = .node p [] := by
    intro A t ht hy
    cases ht with
    | node p cs hp hf =>
      have h1 := hf.yields hw
      rw [show DTree.yields cs = [] from hy] at h1
      have h2 := (hnull p hp).1 (Cfg.yields_iff.1 h1)
      rw [h2] at hf
      cases hf
      exact ⟨p, hp, rfl, h2, rfl⟩
  have hamb : (¬ ∃ (A : NT) (t₁ t₂ : DTree T (Prod T NT AK AV)), t₁ ≠ t₂ ∧ IsTree g id (.nonterm A) t₁ ∧
      IsTree g id (.nonterm A) t₂ ∧ t₁.yield = [] ∧ t₂.yield = []) ↔
      ∀ p ∈ g.prods, ∀ q ∈ g.prods, p.head = q.head → p.elements = [] → q.elements = [] → p = q := by
    constructor
    · intro h p hp q hq hpq h1 h2
      by_contra hne
      refine h ⟨q.head, .node p [], .node q [], fun e => hne (by cases e; rfl), ?_,
        .node q [] hq (h2 ▸ .nil), rfl, rfl⟩
      rw [← hpq]
      exact .node p [] hp (h1 ▸ .nil)
    · rintro h ⟨A, t1, t2, hne, k1, k2, y1, y2⟩
      obtain ⟨p, hp, hpA, hpe, rfl⟩ := hroot A t1 k1 y1
      obtain ⟨q, hq, hqA, hqe, rfl⟩ := hroot A t2 k2 y2
      exact hne (by rw [h p hp q hq (hpA.trans hqA.symm) hpe hqe])
  have hreach : ∀ A B, (∃ p ∈ g.prods, p.head = A ∧ ¬ g.cfg.Derives p.elements [] ∧ Elem.nonterm B ∈ p.elements) ↔
      g.cfg.Mentions A B := by
    intro A B
    constructor
    · rintro ⟨p, hp, rfl, -, hB⟩
      exact ⟨p.elements, (Grammar.cfg_prod_iff hw).2 ⟨p, hp, rfl, rfl⟩, hB⟩
    · rintro ⟨β, hβ, hB⟩
      obtain ⟨p, hp, rfl, rfl⟩ := (Grammar.cfg_prod_iff hw).1 hβ
      refine ⟨p, hp, rfl, fun h => ?_, hB⟩
      rw [(hnull p hp).1 h] at hB
      cases hB
  obtain ⟨N, hN⟩ := nonnull_outcome g hg addr ha
  refine ⟨N + g.prods.length + 1, fun fuel hf => ?_⟩
  obtain ⟨h1, h2, r, h3⟩ := hN fuel (by omega)
  have h4 := (nullable_ambiguity_exact g hg addr ha fuel (by omega)).2
  rw [hamb] at h4
  have hgood : ((∀ r ∈ g.rules, ∃ p ∈ r.prodRefs, ¬ g.cfg.Derives p.elements []) ∧
      ∀ A B, (∃ p ∈ g.prods, p.head = A ∧ ¬ g.cfg.Derives p.elements [] ∧ Elem.nonterm B ∈ p.elements) →
        Relation.TransGen (fun A B => ∃ p ∈ g.prods, p.head = A ∧ ¬ g.cfg.Derives p.elements [] ∧
          Elem.nonterm B ∈ p.elements) g.startSymbol B) ↔
      ∀ r ∈ g.rules, ∃ p ∈ r.prodRefs, p.elements ≠ [] := by
    have hrel : (fun A B => ∃ p ∈ g.prods, p.head = A ∧ ¬ g.cfg.Derives p.elements [] ∧
          Elem.nonterm B ∈ p.elements) = g.cfg.Mentions := by
      funext A B; exact propext (hreach A B)
    rw [hrel]
    constructor
    · rintro ⟨h5, -⟩ r hr
      obtain ⟨p, hp, hne⟩ := h5 r hr
      exact ⟨p, hp, fun h => hne (by rw [h]; exact .refl _)⟩
    · intro h5
      refine ⟨fun r hr => ?_, fun A B h => hv.reach A B ((hreach A B).1 h)⟩
      obtain ⟨p, hp, hne⟩ := h5 r hr
      exact ⟨p, hp, fun h => hne (he p (List.mem_flatMap.2 ⟨r, hr, hp⟩) h)⟩
  cases r with
  | error e =>
    constructor
    · rintro ⟨g', hg'⟩
      rw [h1 e h3] at hg'
      cases hg'
    · rintro ⟨-, h5⟩
      obtain ⟨info, h6⟩ := h4.2 h5
      rw [h3] at h6
      cases h6
  | ok info =>
    obtain ⟨h5, h6⟩ := h2 info h3
    constructor
    · rintro ⟨g', hg'⟩
      refine ⟨hgood.1 ?_, h4.1 ⟨info, h3⟩⟩
      by_contra hb
      rw [h6 hb] at hg'
      cases hg'
    · rintro ⟨h7, -⟩
      exact h5 (hgood.2 h7)

/-- C126.  The same for a wrapped grammar: the condition is that on the original. -/
theorem wrapped_nonnull_outcome_simple (g : Grammar T NT AK AV) (hg : g.Accepted)
    (saddr : StartNonTerminal NT → Nat → Nat) (hs : AddrInj g.wrapped saddr)
    (he : ∀ p ∈ g.prods, g.cfg.Derives p.elements [] → p.elements = []) :
    ∃ N, ∀ fuel, N ≤ fuel → ((∃ g', transformToNonnull fuel saddr g.wrapped = .ok (.ok g')) ↔
      (∀ r ∈ g.rules, ∃ p ∈ r.prodRefs, p.elements ≠ []) ∧
      ∀ p ∈ g.prods, ∀ q ∈ g.prods, p.head = q.head → p.elements = [] → q.elements = [] → p = q) := by
  have hw := hg.valid.toWF
  have hgw : g.wrapped.Accepted := (wrap_exact g hg).2.2
  obtain ⟨N, hN⟩ := nonnull_outcome_simple g.wrapped hgw saddr hs (wrapped_only_empty hg he)
  refine ⟨N, fun fuel hf => (hN fuel hf).trans ?_⟩
  have hrules : g.wrapped.rules = ⟨.start, [startProduction g.startSymbol]⟩ :: g.rules.map RuleInner.lifted := by
    simp [Grammar.wrapped, Grammar.rules, BMap.values]
  have hempty : ∀ q : Prod T NT AK AV, q.lifted.elements = [] ↔ q.elements = [] := by
    intro q
    rw [show q.lifted.elements = q.elements.map baseElemToStartElem from lifted_elems q.inner]
    simp
  have hrefs : ∀ r : RuleInner T NT AK AV, r.lifted.prodRefs = r.prodRefs.map Prod.lifted := by
    intro r
    simp [RuleInner.prodRefs, RuleInner.lifted, List.zipIdx_map, Prod.lifted]
  have hprods : ∀ p, p ∈ g.wrapped.prods ↔ p = ⟨.start, 0, startProduction g.startSymbol⟩ ∨
      ∃ q ∈ g.prods, p = q.lifted := fun p => mem_prods_wrapped hw
  refine and_congr ?_ ?_
  · rw [hrules]
    simp only [List.mem_cons, List.mem_map, forall_eq_or_imp, forall_exists_index, and_imp,
      forall_apply_eq_imp_iff₂]
    constructor
    · rintro ⟨-, h⟩ r hr
      obtain ⟨p, hp, hne⟩ := h r hr
      rw [hrefs] at hp
      obtain ⟨q, hq, rfl⟩ := List.mem_map.1 hp
      exact ⟨q, hq, fun h => hne ((hempty q).2 h)⟩
    · intro h
      refine ⟨⟨⟨.start, 0, startProduction g.startSymbol⟩, by simp [RuleInner.prodRefs], by
        simp [Prod.elements, startProduction, ProdInner.elems]⟩, fun r hr => ?_⟩
      obtain ⟨q, hq, hne⟩ := h r hr
      exact ⟨q.lifted, by rw [hrefs]; exact List.mem_map_of_mem hq, fun h => hne ((hempty q).1 h)⟩
  · constructor
    · intro h p hp q hq hpq h1 h2
      have := h p.lifted ((hprods _).2 (.inr ⟨p, hp, rfl⟩)) q.lifted ((hprods _).2 (.inr ⟨q, hq, rfl⟩))
        (by simp [Prod.lifted, hpq]) ((hempty p).2 h1) ((hempty q).2 h2)
      exact Prod.lifted_inj this
    · intro h p hp q hq hpq h1 h2
      rcases (hprods p).1 hp with rfl | ⟨p, hp', rfl⟩
      · simp [Prod.elements, startProduction, ProdInner.elems] at h1
      rcases (hprods q).1 hq with rfl | ⟨q, hq', rfl⟩
      · simp [Prod.elements, startProduction, ProdInner.elems] at h2
      rw [h p hp' q hq' (by simpa [Prod.lifted] using hpq) ((hempty p).1 h1) ((hempty q).1 h2)]

/-- `S → A B c; A → a; B → ε | b`: after wrapping and transforming, FOLLOW of `A` is `b`, `c` and FOLLOW of `S`
is the end of the stream. -/
example : followExample.Accepted ∧ AddrInj followExample.wrapped exampleSAddr ∧
    (∀ p ∈ followExample.prods, followExample.cfg.Derives p.elements [] → p.elements = []) ∧
    followExample.NoDeadEnds ∧ ∃ g' fo, transformToNonnull 20 exampleSAddr followExample.wrapped = .ok (.ok g') ∧
      AddrInj g' exampleSAddr ∧ followsPass 20 exampleSAddr g' = .ok (.ok fo) ∧
      BMap.get? compare fo.map (.nterm 1) = some [.term 101, .term 102] ∧
      BMap.get? compare fo.map (.nterm 0) = some [.endOfStream] := by
  refine ⟨followExample_accepted, exampleSAddr_addrInj _, followExample_cut,
    followExample_noDeadEnds, _, _, by rfl, ?_, by rfl, by rfl, by rfl⟩
  intro p _ q _ h
  obtain ⟨h1, h2⟩ := exampleAddr_inj h
  exact ⟨exampleRank_inj _ _ h1, h2⟩

/-- `S → A a`, `A → ε`: an accepted grammar with a rule all productions of which are empty. -/
def onlyEmpty : Grammar Nat Nat Nat Unit := ⟨0, [exRule 0 [(1, [.nonterm 1, .term 5])], exRule 1 [(2, [])]]⟩

/-- The condition on these grammars. -/
example : ((∀ r ∈ followExample.rules, ∃ p ∈ r.prodRefs, p.elements ≠ []) ∧
    ∀ p ∈ followExample.prods, ∀ q ∈ followExample.prods, p.head = q.head → p.elements = [] →
      q.elements = [] → p = q) ∧
    onlyEmpty.Accepted ∧ ¬ (∀ r ∈ onlyEmpty.rules, ∃ p ∈ r.prodRefs, p.elements ≠ []) ∧
    transformToNonnull 20 exampleAddr onlyEmpty = .ok (.error .build) ∧
    transformToNonnull 20 exampleSAddr onlyEmpty.wrapped = .ok (.error .build) :=
  ⟨by decide, ⟨9, 0, [⟨0, [.addProd 1 () [.addNonterm 1, .addTerm 5]]⟩, ⟨1, [.addProd 2 () []]⟩], by decide⟩,
    by decide, rfl, rfl⟩
end Bongo
