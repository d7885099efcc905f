import Verif.Props.Rename
import Verif.Props.WrappedPasses
/-!
# C128: names and orders do not matter to building and to the analyses
-/
set_option linter.unusedSectionVars false
namespace Bongo
open Std
variable {T NT AK AV T' NT' AK' AV' : Type}
variable {ρ : Renaming T NT AK AV T' NT' AK' AV'}

/-! ## Building -/

theorem Renaming.declares_prod (op : ProdOp T NT) :
    (op.renamed ρ).declares = ρ.prodElement op.declares := by
  cases op <;> rfl

theorem Renaming.declares_rule (op : RuleOp T NT AK AV) :
    (op.renamed ρ).declares = ρ.prodInner op.declares := by
  cases op with
  | addProd k v calls =>
    simp only [RuleOp.renamed, RuleOp.declares, Renaming.prodInner, List.map_map]
    congr 1
    exact List.map_congr_left fun x _ => ρ.declares_prod x
  | addProdWithElems k v es => rfl

theorem Renaming.declares_grammar (calls : List (GrammarOp T NT AK AV)) :
    (calls.map (GrammarOp.renamed ρ)).map GrammarOp.declares = (calls.map GrammarOp.declares).map ρ.rule := by
  rw [List.map_map, List.map_map]
  refine List.map_congr_left fun op _ => ?_
  simp only [Function.comp, GrammarOp.renamed, GrammarOp.declares, Renaming.rule, List.map_map]
  congr 1
  exact List.map_congr_left fun x _ => ρ.declares_rule x

theorem hasRule_iff_lastRule {rules : List (RuleInner T NT AK AV)} {A : NT} :
    HasRule rules A ↔ ∃ r, LastRule rules A r := by
  constructor
  · intro h
    induction rules with
    | nil => obtain ⟨r, hr, -⟩ := h; cases hr
    | cons r₀ rules ih =>
      by_cases hm : HasRule rules A
      · obtain ⟨r', pre, post, rfl, h3⟩ := ih hm
        exact ⟨r', r₀ :: pre, post, rfl, h3⟩
      · obtain ⟨r, hr, hA⟩ := h
        rcases List.mem_cons.1 hr with rfl | hr
        · exact ⟨r, [], rules, rfl, hA, fun x hx e => hm ⟨x, hx, e⟩⟩
        · exact absurd ⟨r, hr, hA⟩ hm
  · rintro ⟨r, pre, post, rfl, h, -⟩
    exact ⟨r, by simp, h⟩

theorem lastRule_iff_mem {rules : List (RuleInner T NT AK AV)} (hnd : (rules.map (·.head)).Nodup) {A : NT}
    {r : RuleInner T NT AK AV} : LastRule rules A r ↔ r ∈ rules ∧ r.head = A := by
  constructor
  · rintro ⟨pre, post, rfl, h, -⟩
    exact ⟨by simp, h⟩
  · rintro ⟨h1, rfl⟩
    obtain ⟨pre, post, rfl⟩ := List.append_of_mem h1
    refine ⟨pre, post, rfl, rfl, fun x hx e => ?_⟩
    rw [List.map_append, List.map_cons, List.nodup_append, List.nodup_cons] at hnd
    exact hnd.2.1.1 (List.mem_map.2 ⟨x, hx, e⟩)

section rules
variable {rules : List (RuleInner T NT AK AV)} (hn : ∀ a b, ρ.nonterm a = ρ.nonterm b → a = b)
include hn

theorem lastRule_renamed {A' : NT'} {r' : RuleInner T' NT' AK' AV'} :
    LastRule (rules.map ρ.rule) A' r' ↔ ∃ A r, A' = ρ.nonterm A ∧ r' = ρ.rule r ∧ LastRule rules A r := by
  constructor
  · rintro ⟨pre, post, h1, h2, h3⟩
    rw [List.map_eq_append_iff] at h1
    obtain ⟨a, b, rfl, rfl, hb⟩ := h1
    rw [List.map_eq_cons_iff] at hb
    obtain ⟨r, c, rfl, rfl, rfl⟩ := hb
    refine ⟨r.head, r, h2.symm, rfl, a, c, rfl, rfl, fun r' hr' e => ?_⟩
    exact h3 (ρ.rule r') (List.mem_map_of_mem hr') (by rw [← h2]; simp only [Renaming.rule, e])
  · rintro ⟨A, r, rfl, rfl, pre, post, rfl, rfl, h3⟩
    refine ⟨pre.map ρ.rule, post.map ρ.rule, by simp, rfl, ?_⟩
    intro r' hr' e
    obtain ⟨q, hq, rfl⟩ := List.mem_map.1 hr'
    exact h3 q hq (hn _ _ e)

theorem lastRule_renamed' {A : NT} {r' : RuleInner T' NT' AK' AV'} :
    LastRule (rules.map ρ.rule) (ρ.nonterm A) r' ↔ ∃ r, r' = ρ.rule r ∧ LastRule rules A r := by
  rw [lastRule_renamed hn]
  constructor
  · rintro ⟨B, r, h1, h2, h3⟩
    rw [hn _ _ h1]; exact ⟨r, h2, h3⟩
  · rintro ⟨r, h2, h3⟩; exact ⟨A, r, rfl, h2, h3⟩

theorem hasRule_renamed {A' : NT'} :
    HasRule (rules.map ρ.rule) A' ↔ ∃ A, A' = ρ.nonterm A ∧ HasRule rules A := by
  constructor
  · rintro ⟨r', h, rfl⟩
    obtain ⟨r, hr, rfl⟩ := List.mem_map.1 h
    exact ⟨r.head, rfl, r, hr, rfl⟩
  · rintro ⟨A, rfl, r, hr, rfl⟩
    exact ⟨ρ.rule r, List.mem_map_of_mem hr, rfl⟩

theorem writes_renamed {A' B' : NT'} :
    Writes (rules.map ρ.rule) A' B' ↔ ∃ A B, A' = ρ.nonterm A ∧ B' = ρ.nonterm B ∧ Writes rules A B := by
  constructor
  · rintro ⟨r', h, p', hp', e', he', hb⟩
    obtain ⟨A, r, rfl, rfl, h1⟩ := (lastRule_renamed hn).1 h
    obtain ⟨p, hp, rfl⟩ := List.mem_map.1 hp'
    obtain ⟨e, he, rfl⟩ := List.mem_map.1 he'
    obtain ⟨id, x⟩ := e
    cases x with
    | term t => cases hb
    | nonterm B => cases hb; exact ⟨A, B, rfl, rfl, r, h1, p, hp, _, he, rfl⟩
  · rintro ⟨A, B, rfl, rfl, r, h1, p, hp, e, he, hb⟩
    refine ⟨ρ.rule r, (lastRule_renamed' hn).2 ⟨r, rfl, h1⟩, ρ.prodInner p, List.mem_map_of_mem hp,
      ρ.prodElement e, List.mem_map_of_mem he, ?_⟩
    simp only [Renaming.prodElement, hb, Renaming.elem]

theorem writes_renamed' {A B : NT} :
    Writes (rules.map ρ.rule) (ρ.nonterm A) (ρ.nonterm B) ↔ Writes rules A B := by
  rw [writes_renamed hn]
  constructor
  · rintro ⟨A', B', h1, h2, h3⟩
    rw [hn _ _ h1, hn _ _ h2]; exact h3
  · intro h; exact ⟨A, B, rfl, rfl, h⟩

theorem reaches_renamed {A : NT} {B' : NT'} :
    Relation.ReflTransGen (Writes (rules.map ρ.rule)) (ρ.nonterm A) B' ↔
      ∃ B, B' = ρ.nonterm B ∧ Relation.ReflTransGen (Writes rules) A B := by
  constructor
  · intro h
    induction h with
    | refl => exact ⟨A, rfl, .refl⟩
    | tail _ h ih =>
      obtain ⟨B, rfl, h1⟩ := ih
      obtain ⟨C, D, h2, rfl, h3⟩ := (writes_renamed hn).1 h
      cases hn _ _ h2
      exact ⟨D, rfl, h1.tail h3⟩
  · rintro ⟨B, rfl, h⟩
    induction h with
    | refl => exact .refl
    | tail _ h ih => exact ih.tail ((writes_renamed' hn).2 h)

theorem reachesT_renamed {A : NT} {B' : NT'} :
    Relation.TransGen (Writes (rules.map ρ.rule)) (ρ.nonterm A) B' ↔
      ∃ B, B' = ρ.nonterm B ∧ Relation.TransGen (Writes rules) A B := by
  simp only [Relation.TransGen.tail'_iff]
  constructor
  · rintro ⟨C', h1, h2⟩
    obtain ⟨C, rfl, h3⟩ := (reaches_renamed hn).1 h1
    obtain ⟨D, B, e, rfl, h4⟩ := (writes_renamed hn).1 h2
    cases hn _ _ e
    exact ⟨B, rfl, C, h3, h4⟩
  · rintro ⟨B, rfl, C, h1, h2⟩
    exact ⟨ρ.nonterm C, (reaches_renamed hn).2 ⟨C, rfl, h1⟩, (writes_renamed' hn).2 h2⟩

theorem reachesT_renamed' {A B : NT} :
    Relation.TransGen (Writes (rules.map ρ.rule)) (ρ.nonterm A) (ρ.nonterm B) ↔
      Relation.TransGen (Writes rules) A B := by
  rw [reachesT_renamed hn]
  constructor
  · rintro ⟨C, e, h⟩; rw [hn _ _ e]; exact h
  · intro h; exact ⟨B, rfl, h⟩
end rules

section build
variable [Ord NT] [TransOrd NT] [LawfulEqOrd NT] [Ord NT'] [TransOrd NT'] [LawfulEqOrd NT']

/-- The same for calls that come in another order, as long as the last rule of each head is the same. -/
theorem build_renamed_of (hn : ∀ a b, ρ.nonterm a = ρ.nonterm b → a = b) (start : NT)
    (calls : List (GrammarOp T NT AK AV)) (calls' : List (GrammarOp T' NT' AK' AV'))
    (hc : ∀ A r, LastRule (calls'.map GrammarOp.declares) A r ↔
      LastRule ((calls.map GrammarOp.declares).map ρ.rule) A r) :
    ∃ N, ∀ fuel, N ≤ fuel →
      (buildGrammar fuel start calls = .panic .noRule ∧
        buildGrammar fuel (ρ.nonterm start) calls' = .panic .noRule) ∨
      (∃ e e', buildGrammar fuel start calls = .ok (.error e) ∧
        buildGrammar fuel (ρ.nonterm start) calls' = .ok (.error e') ∧
        (∀ B', B' ∈ e'.unreachableNonterms ↔ ∃ B ∈ e.unreachableNonterms, B' = ρ.nonterm B) ∧
        (∀ B', B' ∈ e'.nontermsWithoutRules ↔ ∃ B ∈ e.nontermsWithoutRules, B' = ρ.nonterm B) ∧
        (∀ B', B' ∈ e'.rulesWithoutProds ↔ ∃ B ∈ e.rulesWithoutProds, B' = ρ.nonterm B)) ∨
      (∃ g g', buildGrammar fuel start calls = .ok (.ok g) ∧
        buildGrammar fuel (ρ.nonterm start) calls' = .ok (.ok g') ∧
        g.RenamedTo ρ g') := by
  obtain ⟨N1, h1⟩ := build_exact start calls
  obtain ⟨N2, h2⟩ := build_exact (ρ.nonterm start) calls'
  refine ⟨N1 + N2, fun fuel hf => ?_⟩
  obtain ⟨p1, q1⟩ := h1 fuel (by omega)
  obtain ⟨p2, q2⟩ := h2 fuel (by omega)
  have hrl := fun g => rules_listing fuel start calls g
  have hrl' := fun g => rules_listing fuel (ρ.nonterm start) calls' g
  have hL : LastRule (calls'.map GrammarOp.declares) = LastRule ((calls.map GrammarOp.declares).map ρ.rule) := by
    funext A r; exact propext (hc A r)
  have hWr : Writes (calls'.map GrammarOp.declares) = Writes ((calls.map GrammarOp.declares).map ρ.rule) := by
    unfold Writes; rw [hL]
  have hH : HasRule (calls'.map GrammarOp.declares) = HasRule ((calls.map GrammarOp.declares).map ρ.rule) := by
    funext A
    apply propext
    rw [hasRule_iff_lastRule, hasRule_iff_lastRule, hL]
  rw [hL, hWr, hH] at q2
  rw [hWr, hH] at p2
  simp only [hL] at hrl'
  clear hL hWr hH hc
  generalize hR : calls.map GrammarOp.declares = rules at *
  have c1 : (∃ A, Relation.ReflTransGen (Writes (rules.map ρ.rule)) (ρ.nonterm start) A ∧
      ¬ HasRule (rules.map ρ.rule) A) ↔ ∃ A, Relation.ReflTransGen (Writes rules) start A ∧
      ¬ HasRule rules A := by
    simp only [reaches_renamed hn, hasRule_renamed hn]
    constructor
    · rintro ⟨_, ⟨B, rfl, h⟩, k⟩
      exact ⟨B, h, fun hb => k ⟨B, rfl, hb⟩⟩
    · rintro ⟨B, h, k⟩
      exact ⟨_, ⟨B, rfl, h⟩, fun ⟨C, e, hb⟩ => k (by rw [hn _ _ e]; exact hb)⟩
  by_cases hc : ∃ A, Relation.ReflTransGen (Writes rules) start A ∧ ¬ HasRule rules A
  · exact .inl ⟨p1 hc, p2 (c1.2 hc)⟩
  · have hc' := mt c1.1 hc
    push Not at hc hc'
    obtain ⟨s1, t1⟩ := q1 hc
    obtain ⟨s2, t2⟩ := q2 hc'
    have hW : ∀ B', (∃ A, Writes (rules.map ρ.rule) A B') ↔ ∃ B, B' = ρ.nonterm B ∧ ∃ A, Writes rules A B := by
      intro B'
      simp only [writes_renamed hn]
      constructor
      · rintro ⟨_, A, B, rfl, rfl, h⟩; exact ⟨B, rfl, A, h⟩
      · rintro ⟨B, rfl, A, h⟩; exact ⟨_, A, B, rfl, rfl, h⟩
    have c2 : ((∀ B, (∃ A, Writes (rules.map ρ.rule) A B) →
          Relation.TransGen (Writes (rules.map ρ.rule)) (ρ.nonterm start) B) ∧
        (∀ A r, LastRule (rules.map ρ.rule) A r → r.prods ≠ [])) ↔
        ((∀ B, (∃ A, Writes rules A B) → Relation.TransGen (Writes rules) start B) ∧
        (∀ A r, LastRule rules A r → r.prods ≠ [])) := by
      constructor
      · rintro ⟨a, b⟩
        refine ⟨fun B hB => (reachesT_renamed' hn).1 (a _ ((hW _).2 ⟨B, rfl, hB⟩)), fun A r hr e => ?_⟩
        exact b (ρ.nonterm A) (ρ.rule r) ((lastRule_renamed' hn).2 ⟨r, rfl, hr⟩) (by simp [Renaming.rule, e])
      · rintro ⟨a, b⟩
        refine ⟨fun B' hB' => ?_, fun A' r' hr' e => ?_⟩
        · obtain ⟨B, rfl, hB⟩ := (hW _).1 hB'
          exact (reachesT_renamed' hn).2 (a B hB)
        · obtain ⟨A, r, rfl, rfl, hr⟩ := (lastRule_renamed hn).1 hr'
          exact b A r hr (List.map_eq_nil_iff.1 e)
    by_cases hk : ((∀ B, (∃ A, Writes rules A B) → Relation.TransGen (Writes rules) start B) ∧
        (∀ A r, LastRule rules A r → r.prods ≠ []))
    · obtain ⟨g, hg⟩ := s1 hk
      obtain ⟨g', hg'⟩ := s2 (c2.2 hk)
      refine .inr (.inr ⟨g, g', hg, hg', ?_⟩)
      obtain ⟨a1, -, a3⟩ := hrl g hg
      obtain ⟨b1, -, b3⟩ := hrl' g' hg'
      refine ⟨by rw [a1, b1], fun r' => ?_⟩
      rw [b3, lastRule_renamed hn]
      constructor
      · rintro ⟨A, r, e, rfl, h⟩
        have := hn _ _ e
        subst this
        exact ⟨r, (a3 r).2 h, rfl⟩
      · rintro ⟨r, h, rfl⟩
        exact ⟨_, r, rfl, rfl, (a3 r).1 h⟩
    · obtain ⟨e, he, e1, e2, e3⟩ := t1 hk
      obtain ⟨e', he', e1', e2', e3'⟩ := t2 (mt c2.1 hk)
      refine .inr (.inl ⟨e, e', he, he', fun B' => ?_, fun B' => ?_, fun B' => ?_⟩)
      · rw [e1', hW, reachesT_renamed hn]
        constructor
        · rintro ⟨⟨B, rfl, h⟩, k⟩
          exact ⟨B, (e1 B).2 ⟨h, fun hb => k ⟨B, rfl, hb⟩⟩, rfl⟩
        · rintro ⟨B, h, rfl⟩
          obtain ⟨h, k⟩ := (e1 B).1 h
          exact ⟨⟨B, rfl, h⟩, fun ⟨C, e, hb⟩ => k (by rw [hn _ _ e]; exact hb)⟩
      · rw [e2', hW, hasRule_renamed hn]
        constructor
        · rintro ⟨⟨B, rfl, h⟩, k⟩
          exact ⟨B, (e2 B).2 ⟨h, fun hb => k ⟨B, rfl, hb⟩⟩, rfl⟩
        · rintro ⟨B, h, rfl⟩
          obtain ⟨h, k⟩ := (e2 B).1 h
          exact ⟨⟨B, rfl, h⟩, fun ⟨C, e, hb⟩ => k (by rw [hn _ _ e]; exact hb)⟩
      · rw [e3']
        constructor
        · rintro ⟨r', h, k⟩
          obtain ⟨A, r, rfl, rfl, h1⟩ := (lastRule_renamed hn).1 h
          exact ⟨A, (e3 A).2 ⟨r, h1, List.map_eq_nil_iff.1 k⟩, rfl⟩
        · rintro ⟨B, h, rfl⟩
          obtain ⟨r, h1, h2⟩ := (e3 B).1 h
          exact ⟨ρ.rule r, (lastRule_renamed' hn).2 ⟨r, rfl, h1⟩, by simp [Renaming.rule, h2]⟩

/-- C128 for building: with the renamed calls, `build` panics in the same way, returns an error that
names exactly the renamed nonterminals, or returns the renamed grammar. -/
theorem build_renamed (hn : ∀ a b, ρ.nonterm a = ρ.nonterm b → a = b) (start : NT)
    (calls : List (GrammarOp T NT AK AV)) :
    ∃ N, ∀ fuel, N ≤ fuel →
      (buildGrammar fuel start calls = .panic .noRule ∧
        buildGrammar fuel (ρ.nonterm start) (calls.map (GrammarOp.renamed ρ)) = .panic .noRule) ∨
      (∃ e e', buildGrammar fuel start calls = .ok (.error e) ∧
        buildGrammar fuel (ρ.nonterm start) (calls.map (GrammarOp.renamed ρ)) = .ok (.error e') ∧
        (∀ B', B' ∈ e'.unreachableNonterms ↔ ∃ B ∈ e.unreachableNonterms, B' = ρ.nonterm B) ∧
        (∀ B', B' ∈ e'.nontermsWithoutRules ↔ ∃ B ∈ e.nontermsWithoutRules, B' = ρ.nonterm B) ∧
        (∀ B', B' ∈ e'.rulesWithoutProds ↔ ∃ B ∈ e.rulesWithoutProds, B' = ρ.nonterm B)) ∨
      (∃ g g', buildGrammar fuel start calls = .ok (.ok g) ∧
        buildGrammar fuel (ρ.nonterm start) (calls.map (GrammarOp.renamed ρ)) = .ok (.ok g') ∧
        g.RenamedTo ρ g') :=
  build_renamed_of hn start calls _ (fun A r => by rw [ρ.declares_grammar])
end build

/-! ## Derivations -/

theorem Renaming.prod_elements (p : Prod T NT AK AV) : (ρ.prod p).elements = p.elements.map ρ.elem := by
  simp only [Prod.elements, Renaming.prod, Renaming.prodInner, ProdInner.elems, List.map_map]
  rfl

theorem Renaming.prod_prodElements (p : Prod T NT AK AV) :
    (ρ.prod p).prodElements = p.prodElements.map ρ.prodElement := rfl

theorem Renaming.elem_inj (hρ : ρ.SymInjective) {a b : Elem T NT} (h : ρ.elem a = ρ.elem b) : a = b := by
  cases a <;> cases b <;> simp only [Renaming.elem, Elem.term.injEq, Elem.nonterm.injEq, reduceCtorEq] at h
  · rw [hρ.term _ _ h]
  · rw [hρ.nonterm _ _ h]

theorem Renaming.elems_inj (hρ : ρ.SymInjective) {a b : List (Elem T NT)} (h : a.map ρ.elem = b.map ρ.elem) :
    a = b :=
  List.map_injective_iff.2 (fun _ _ => ρ.elem_inj hρ) h

theorem Renaming.elem_nonterm {e : Elem T NT} {B : NT'} (h : ρ.elem e = .nonterm B) :
    ∃ A, e = .nonterm A ∧ B = ρ.nonterm A := by
  cases e with
  | term t => cases h
  | nonterm A => cases h; exact ⟨A, rfl, rfl⟩

theorem Renaming.elem_term {e : Elem T NT} {t : T'} (h : ρ.elem e = .term t) :
    ∃ s, e = .term s ∧ t = ρ.term s := by
  cases e with
  | term t => cases h; exact ⟨_, rfl, rfl⟩
  | nonterm A => cases h

section derives
variable [Ord NT] [TransOrd NT] [LawfulEqOrd NT] [Ord NT'] [TransOrd NT'] [LawfulEqOrd NT']
variable {g : Grammar T NT AK AV} {g' : Grammar T' NT' AK' AV'}
variable (hw : g.WF) (hw' : g'.WF) (hρ : ρ.SymInjective) (hr : g.RenamedTo ρ g')
include hw hw' hρ hr

theorem renamed_prod {A : NT} {β' : List (Elem T' NT')} :
    g'.cfg.prod (ρ.nonterm A) β' ↔ ∃ β, β' = β.map ρ.elem ∧ g.cfg.prod A β := by
  rw [Grammar.cfg_prod_iff hw']
  constructor
  · rintro ⟨p', hp', h1, rfl⟩
    obtain ⟨p, hp, rfl⟩ := (hr.prods p').1 hp'
    refine ⟨p.elements, ρ.prod_elements p, (Grammar.cfg_prod_iff hw).2 ⟨p, hp, ?_, rfl⟩⟩
    exact hρ.nonterm _ _ h1
  · rintro ⟨β, rfl, h⟩
    obtain ⟨p, hp, rfl, rfl⟩ := (Grammar.cfg_prod_iff hw).1 h
    exact ⟨ρ.prod p, (hr.prods _).2 ⟨p, hp, rfl⟩, rfl, ρ.prod_elements p⟩

theorem renamed_prod_head {A' : NT'} {β' : List (Elem T' NT')} (h : g'.cfg.prod A' β') :
    ∃ A, A' = ρ.nonterm A := by
  obtain ⟨p', hp', rfl, rfl⟩ := (Grammar.cfg_prod_iff hw').1 h
  obtain ⟨p, hp, rfl⟩ := (hr.prods p').1 hp'
  exact ⟨p.head, rfl⟩

theorem renamed_step {s : List (Elem T NT)} {s'} :
    g'.cfg.Step (s.map ρ.elem) s' ↔ ∃ u, s' = u.map ρ.elem ∧ g.cfg.Step s u := by
  constructor
  · intro h
    generalize hx : s.map ρ.elem = x at h
    cases h with
    | mk u v A β hp =>
      rw [List.map_eq_append_iff] at hx
      obtain ⟨u0, r, rfl, rfl, hx⟩ := hx
      rw [List.map_eq_cons_iff] at hx
      obtain ⟨e, v0, rfl, he, rfl⟩ := hx
      obtain ⟨B, rfl, rfl⟩ := ρ.elem_nonterm he
      obtain ⟨β', rfl, h1⟩ := (renamed_prod hw hw' hρ hr).1 hp
      exact ⟨u0 ++ β' ++ v0, by simp, .mk _ _ _ _ h1⟩
  · rintro ⟨u, rfl, h⟩
    cases h with
    | mk u v A β hp =>
      simp only [List.map_append, List.map_cons]
      exact .mk _ _ _ _ ((renamed_prod hw hw' hρ hr).2 ⟨_, rfl, hp⟩)

theorem renamed_derives {s : List (Elem T NT)} {s'} :
    g'.cfg.Derives (s.map ρ.elem) s' ↔ ∃ u, s' = u.map ρ.elem ∧ g.cfg.Derives s u := by
  constructor
  · intro h
    induction h with
    | refl => exact ⟨s, rfl, .refl _⟩
    | tail _ h ih =>
      obtain ⟨u, rfl, h1⟩ := ih
      obtain ⟨v, rfl, h2⟩ := (renamed_step hw hw' hρ hr).1 h
      exact ⟨v, rfl, h1.tail h2⟩
  · rintro ⟨u, rfl, h⟩
    induction h with
    | refl => exact .refl _
    | tail _ h ih => exact ih.tail ((renamed_step hw hw' hρ hr).2 ⟨_, rfl, h⟩)

theorem renamed_derives_nil {s : List (Elem T NT)} :
    g'.cfg.Derives (s.map ρ.elem) [] ↔ g.cfg.Derives s [] := by
  rw [renamed_derives hw hw' hρ hr]
  constructor
  · rintro ⟨u, h, h1⟩
    rw [List.map_eq_nil_iff.1 h.symm] at h1
    exact h1
  · exact fun h => ⟨[], rfl, h⟩

theorem renamed_generates_nil (A : NT) : g'.cfg.Generates (ρ.nonterm A) [] ↔ g.cfg.Generates A [] :=
  renamed_derives_nil hw hw' hρ hr (s := [.nonterm A])

theorem renamed_derives_term {s : List (Elem T NT)} {t' : T'} :
    (∃ γ, g'.cfg.Derives (s.map ρ.elem) (.term t' :: γ)) ↔
      ∃ t, t' = ρ.term t ∧ ∃ γ, g.cfg.Derives s (.term t :: γ) := by
  constructor
  · rintro ⟨γ, h⟩
    obtain ⟨u, hu, h1⟩ := (renamed_derives hw hw' hρ hr).1 h
    symm at hu
    rw [List.map_eq_cons_iff] at hu
    obtain ⟨e, v, rfl, he, rfl⟩ := hu
    obtain ⟨t, rfl, rfl⟩ := ρ.elem_term he
    exact ⟨t, rfl, v, h1⟩
  · rintro ⟨t, rfl, γ, h⟩
    exact ⟨γ.map ρ.elem, (renamed_derives hw hw' hρ hr).2 ⟨_, rfl, h⟩⟩

theorem renamed_directFollow (X : NT') (t' : T') :
    g'.cfg.DirectFollow X t' ↔ ∃ A t, X = ρ.nonterm A ∧ t' = ρ.term t ∧ g.cfg.DirectFollow A t := by
  constructor
  · intro h
    induction h with
    | @next B' A' u v γ e t' hp hd =>
      obtain ⟨B, rfl⟩ := renamed_prod_head hw hw' hρ hr hp
      obtain ⟨β, h2, h1⟩ := (renamed_prod hw hw' hρ hr).1 hp
      symm at h2
      rw [List.map_eq_append_iff] at h2
      obtain ⟨a, b, rfl, rfl, hb⟩ := h2
      rw [List.map_eq_cons_iff] at hb
      obtain ⟨x, b, rfl, hx, hb⟩ := hb
      rw [List.map_eq_cons_iff] at hb
      obtain ⟨e0, b, rfl, rfl, rfl⟩ := hb
      obtain ⟨C, rfl, rfl⟩ := ρ.elem_nonterm hx
      obtain ⟨t0, rfl, γ0, h3⟩ := (renamed_derives_term hw hw' hρ hr (s := [e0])).1 ⟨γ, hd⟩
      exact ⟨C, t0, rfl, rfl, .next h1 h3⟩
    | @last B' A' u t' hp hf ih =>
      obtain ⟨B, t, rfl, rfl, ih⟩ := ih
      obtain ⟨β, h2, h1⟩ := (renamed_prod hw hw' hρ hr).1 hp
      symm at h2
      rw [List.map_eq_append_iff] at h2
      obtain ⟨a, b, rfl, rfl, hb⟩ := h2
      rw [List.map_eq_singleton_iff] at hb
      obtain ⟨e, rfl, he⟩ := hb
      obtain ⟨C, rfl, rfl⟩ := ρ.elem_nonterm he
      exact ⟨C, t, rfl, rfl, .last h1 ih⟩
  · rintro ⟨A, t, rfl, rfl, h⟩
    induction h with
    | @next B A u v γ e t hp hd =>
      obtain ⟨γ', h'⟩ := (renamed_derives_term hw hw' hρ hr (s := [e])).2 ⟨t, rfl, γ, hd⟩
      exact .next (u := u.map ρ.elem) (v := v.map ρ.elem)
        ((renamed_prod hw hw' hρ hr).2 ⟨_, by simp [Renaming.elem], hp⟩) h'
    | @last B A u t hp _ ih =>
      exact .last (u := u.map ρ.elem) ((renamed_prod hw hw' hρ hr).2 ⟨_, by simp [Renaming.elem], hp⟩) ih

theorem renamed_key (A : NT) :
    (∃ q ∈ g'.prods, q.head = ρ.nonterm A ∧ ∃ pre e post, q.elements = pre ++ e :: post ∧
      (∀ x ∈ pre, x = .nonterm (ρ.nonterm A) ∧ g'.cfg.Generates (ρ.nonterm A) []) ∧
      e ≠ .nonterm (ρ.nonterm A)) ↔
    ∃ q ∈ g.prods, q.head = A ∧ ∃ pre e post, q.elements = pre ++ e :: post ∧
      (∀ x ∈ pre, x = .nonterm A ∧ g.cfg.Generates A []) ∧ e ≠ .nonterm A := by
  rw [renamed_generates_nil hw hw' hρ hr]
  constructor
  · rintro ⟨p', hp', hh, pre, e, post, he, hpre, hne⟩
    obtain ⟨q, hq, rfl⟩ := (hr.prods p').1 hp'
    cases hρ.nonterm _ _ hh
    rw [ρ.prod_elements, List.map_eq_append_iff] at he
    obtain ⟨a, b, hab, rfl, hb⟩ := he
    rw [List.map_eq_cons_iff] at hb
    obtain ⟨e0, c, rfl, rfl, rfl⟩ := hb
    refine ⟨q, hq, rfl, a, e0, c, hab, ?_, ?_⟩
    · intro x hx
      obtain ⟨k1, k2⟩ := hpre _ (List.mem_map.2 ⟨x, hx, rfl⟩)
      exact ⟨ρ.elem_inj hρ k1, k2⟩
    · rintro rfl; exact hne rfl
  · rintro ⟨p, hp, rfl, pre, e, post, he, hpre, hne⟩
    refine ⟨ρ.prod p, (hr.prods _).2 ⟨p, hp, rfl⟩, rfl, pre.map ρ.elem, ρ.elem e, post.map ρ.elem, ?_, ?_, ?_⟩
    · rw [ρ.prod_elements, he]; simp
    · intro x hx
      obtain ⟨y, hy, rfl⟩ := List.mem_map.1 hx
      obtain ⟨rfl, k2⟩ := hpre y hy
      exact ⟨rfl, k2⟩
    · intro h
      exact hne (ρ.elem_inj (b := .nonterm p.head) hρ h)

theorem renamed_gap :
    (∃ p ∈ g'.prods, ∃ u X Y v, p.elements = u ++ .nonterm X :: .nonterm Y :: v ∧
      ¬ ∃ q ∈ g'.prods, q.head = Y ∧ ∃ pre e post, q.elements = pre ++ e :: post ∧
        (∀ x ∈ pre, x = .nonterm Y ∧ g'.cfg.Generates Y []) ∧ e ≠ .nonterm Y) ↔
    (∃ p ∈ g.prods, ∃ u X Y v, p.elements = u ++ .nonterm X :: .nonterm Y :: v ∧
      ¬ ∃ q ∈ g.prods, q.head = Y ∧ ∃ pre e post, q.elements = pre ++ e :: post ∧
        (∀ x ∈ pre, x = .nonterm Y ∧ g.cfg.Generates Y []) ∧ e ≠ .nonterm Y) := by
  constructor
  · rintro ⟨p', hp', u, X', Y', v, he, hn⟩
    obtain ⟨q, hq, rfl⟩ := (hr.prods p').1 hp'
    rw [ρ.prod_elements, List.map_eq_append_iff] at he
    obtain ⟨a, b, hab, rfl, hb⟩ := he
    rw [List.map_eq_cons_iff] at hb
    obtain ⟨x, b, rfl, hx, hb⟩ := hb
    rw [List.map_eq_cons_iff] at hb
    obtain ⟨y, b, rfl, hy, rfl⟩ := hb
    obtain ⟨X, rfl, rfl⟩ := ρ.elem_nonterm hx
    obtain ⟨Y, rfl, rfl⟩ := ρ.elem_nonterm hy
    exact ⟨q, hq, a, X, Y, b, hab, mt (renamed_key hw hw' hρ hr Y).2 hn⟩
  · rintro ⟨p, hp, u, X, Y, v, he, hn⟩
    refine ⟨ρ.prod p, (hr.prods _).2 ⟨p, hp, rfl⟩, u.map ρ.elem, ρ.nonterm X, ρ.nonterm Y, v.map ρ.elem, ?_,
      mt (renamed_key hw hw' hρ hr Y).1 hn⟩
    rw [ρ.prod_elements, he]; simp [Renaming.elem]

/-- Productions of one rule that are renamed alike: with values not told apart, the index still is. -/
theorem renamed_prod_inj {p q : Prod T NT AK AV} (hp : p ∈ g.prods) (hq : q ∈ g.prods)
    (h : ρ.prod p = ρ.prod q) : p = q := by
  have h1 : p.head = q.head := hρ.nonterm _ _ (congrArg Prod.head h)
  have h2 : p.index = q.index := by
    have := congrArg Prod.index h
    exact this
  obtain ⟨r, k1, k2⟩ := (Grammar.mem_prods hw).1 hp
  obtain ⟨r', k1', k2'⟩ := (Grammar.mem_prods hw).1 hq
  rw [← h1, k1] at k1'
  cases k1'
  rw [← h2, k2] at k2'
  obtain ⟨a, b, c⟩ := p
  obtain ⟨a', b', c'⟩ := q
  simp only at h1 h2
  subst h1 h2
  cases k2'
  rfl

theorem renamed_nullUnique : NullUnique g' ↔ NullUnique g := by
  have hd : ∀ p : Prod T NT AK AV, g'.cfg.Yields (ρ.prod p).elements [] ↔ g.cfg.Yields p.elements [] := by
    intro p
    rw [ρ.prod_elements]
    have := renamed_derives_nil hw hw' hρ hr (s := p.elements)
    rwa [show g'.cfg.Derives (p.elements.map ρ.elem) [] ↔ g'.cfg.Yields (p.elements.map ρ.elem) [] from
        (Cfg.yields_iff (w := [])).symm, show g.cfg.Derives p.elements [] ↔ g.cfg.Yields p.elements [] from
        (Cfg.yields_iff (w := [])).symm] at this
  have hl : ∀ A (p : Prod T NT AK AV), NullProd g A p → NullProd g' (ρ.nonterm A) (ρ.prod p) :=
    fun A p ⟨h1, h2, h3⟩ => ⟨(hr.prods _).2 ⟨p, h1, rfl⟩, by rw [← h2]; rfl, (hd p).2 h3⟩
  constructor
  · intro h A p q hp hq
    exact renamed_prod_inj hw hw' hρ hr hp.1 hq.1 (h _ _ _ (hl A p hp) (hl A q hq))
  · rintro h A p' q' ⟨p1, p2, p3⟩ ⟨q1, q2, q3⟩
    obtain ⟨p, hp, rfl⟩ := (hr.prods _).1 p1
    obtain ⟨q, hq, rfl⟩ := (hr.prods _).1 q1
    subst p2
    have e : q.head = p.head := hρ.nonterm _ _ q2
    rw [h p.head p q ⟨hp, rfl, (hd p).1 p3⟩ ⟨hq, e, (hd q).1 q3⟩]
end derives

/-! ## The passes -/

theorem TreeNode.renamedAll_eq (ps : List (Name × TreeNode (ProdKey NT AK))) :
    TreeNode.renamedAll ρ ps = ps.map fun x => (x.1, x.2.renamed ρ) := by
  induction ps with
  | nil => rfl
  | cons x ps ih => rw [TreeNode.renamedAll, ih]; rfl

theorem TreeNode.renamed_eq (t : TreeNode (ProdKey NT AK)) :
    t.renamed ρ = .mk (t.action.renamed ρ) (t.params.map fun x => (x.1, x.2.renamed ρ)) := by
  cases t with
  | mk k ps => rw [TreeNode.renamed, TreeNode.renamedAll_eq]; rfl

section passes
variable [Ord NT] [TransOrd NT] [LawfulEqOrd NT] [Ord NT'] [TransOrd NT'] [LawfulEqOrd NT']
variable {g : Grammar T NT AK AV} {g' : Grammar T' NT' AK' AV'}
variable {addr : NT → Nat → Nat} {addr' : NT' → Nat → Nat}

/-- C128 for the Nullable pass: on the renamed grammar it succeeds exactly if it does on the original, the
renamed nonterminals are nullable exactly if the original ones are, and the null trees are the renamed
ones. -/
theorem nullable_renamed (hg : g.Accepted) (hg' : g'.Accepted) (hρ : ρ.SymInjective) (hr : g.RenamedTo ρ g')
    (ha : AddrInj g addr) (ha' : AddrInj g' addr') :
    ∃ N, ∀ fuel, N ≤ fuel →
      (calculateNullables fuel addr g = .ok (.error .ambiguity) ∧
        calculateNullables fuel addr' g' = .ok (.error .ambiguity)) ∨
      ∃ i i', calculateNullables fuel addr g = .ok (.ok i) ∧
        calculateNullables fuel addr' g' = .ok (.ok i') ∧
        (∀ A, i'.isNullable (ρ.nonterm A) = i.isNullable A) ∧
        (∀ A, i'.getNullableAction (ρ.nonterm A) = (i.getNullableAction A).map (TreeNode.renamed ρ)) ∧
        (∀ A', A' ∈ i'.getNullableSet ↔ ∃ A ∈ i.getNullableSet, A' = ρ.nonterm A) ∧
        (∀ p : Prod T NT AK AV, i'.prodNullable (ρ.prod p) = i.prodNullable p) := by
  have hw := hg.valid.toWF
  have hw' := hg'.valid.toWF
  refine ⟨g.prods.length + g'.prods.length + 1, fun fuel hf => ?_⟩
  rcases calculateNullables_spec hw ha (fuel := fuel) (by omega) with ⟨hu, i, h1, -⟩ | ⟨hu, h1⟩
  · rcases calculateNullables_spec hw' ha' (fuel := fuel) (by omega) with ⟨hu', i', h2, -⟩ | ⟨hu', h2⟩
    · right
      refine ⟨i, i', h1, h2, ?_⟩
      obtain ⟨e1, e2, e3, e4, e5⟩ := nullable_exact g hg addr ha fuel i h1
      obtain ⟨f1, f2, f3, f4, f5⟩ := nullable_exact g' hg' addr' ha' fuel i' h2
      obtain ⟨n1, n2⟩ := null_tree_exact g hg addr ha fuel i h1
      obtain ⟨m1, m2⟩ := null_tree_exact g' hg' addr' ha' fuel i' h2
      have hgen := renamed_generates_nil hw hw' hρ hr
      have tree : ∀ k (t : TreeNode (ProdKey NT AK)), sizeOf t = k → ∀ A, i.getNullableAction A = some t →
          i'.getNullableAction (ρ.nonterm A) = some (t.renamed ρ) := by
        intro k
        induction k using Nat.strongRecOn with
        | ind k ih =>
          rintro t rfl A ht
          obtain ⟨p, hp, rfl, hpd, hpu, hk, hpar⟩ := n2 A t ht
          obtain ⟨t', ht'⟩ := Option.isSome_iff_exists.1 ((m1 (ρ.nonterm p.head)).2
            ((hgen _).2 ((n1 _).1 (by rw [ht]; rfl))))
          rw [ht']
          obtain ⟨q, hq, hqh, hqd, -, hk', hpar'⟩ := m2 _ t' ht'
          have hqp : q = ρ.prod p := by
            obtain ⟨q, hq0, rfl⟩ := (hr.prods q).1 hq
            rw [ρ.prod_elements, renamed_derives_nil hw hw' hρ hr] at hqd
            rw [hpu q hq0 (hρ.nonterm _ _ hqh) hqd]
          subst hqp
          have hsort := null_tree_sorted g hg addr ha fuel i h1 _ t ht
          have hsort' := null_tree_sorted g' hg' addr' ha' fuel i' h2 _ t' ht'
          rw [TreeNode.renamed_eq]
          cases t' with
          | mk a' ps' =>
            congr 2
            · rw [show a' = (ρ.prod p).prodKey from hk', hk]; rfl
            · refine BMap.ext (cmp := compare) hsort' (List.pairwise_map.2 hsort) ?_
              intro n
              rw [get?_map_val]
              have hpe := ρ.prod_prodElements p
              have hall : ∀ e ∈ p.prodElements, ∃ B u, e.element = .nonterm B ∧ i.getNullableAction B = some u := by
                intro e he
                have := (e3 p).2 hpd
                have := (e2 p).1 this e.element (List.mem_map.2 ⟨e, he, rfl⟩)
                cases hee : e.element with
                | term t =>
                  rw [hee] at this
                  exact absurd this (fun hd => by
                    have := (Cfg.yields_iff (w := [])).2 hd
                    rw [Cfg.yields_nil_word_iff] at this
                    obtain ⟨B, hB, -⟩ := this _ (List.mem_singleton.2 rfl)
                    cases hB)
                | nonterm B =>
                  rw [hee] at this
                  obtain ⟨u, hu⟩ := Option.isSome_iff_exists.1 ((n1 B).2 this)
                  exact ⟨B, u, rfl, hu⟩
              cases hn : BMap.get? compare t.params n with
              | some u =>
                obtain ⟨pre, B, post, h3, h4, h5⟩ := (hpar n u).1 hn
                have h6 := ih _ (param_lt hn) u rfl B h5
                refine (hpar' n (u.renamed ρ)).2 ⟨pre.map ρ.prodElement, ρ.nonterm B, post.map ρ.prodElement,
                  ?_, ?_, h6⟩
                · rw [hpe, h3]; simp [Renaming.prodElement, Renaming.elem]
                · intro e he
                  obtain ⟨e0, he0, rfl⟩ := List.mem_map.1 he
                  exact h4 e0 he0
              | none =>
                cases hn' : BMap.get? compare ps' n with
                | none => rfl
                | some u' =>
                  obtain ⟨pre, B, post, h3, h4, h5⟩ := (hpar' n u').1 hn'
                  rw [hpe, List.map_eq_append_iff] at h3
                  obtain ⟨a, b, hab, rfl, hb⟩ := h3
                  rw [List.map_eq_cons_iff] at hb
                  obtain ⟨e, c, rfl, he, rfl⟩ := hb
                  obtain ⟨B0, u0, hB0, hu0⟩ := hall e (by rw [hab]; simp)
                  have hid : e.identifier = some n := congrArg ProdElement.identifier he
                  have : BMap.get? compare t.params n = some u0 := (hpar n u0).2 ⟨a, B0, c, by
                    rw [hab]; congr 2; cases e; simp at hid hB0; rw [hid, hB0], fun x hx =>
                      h4 _ (List.mem_map.2 ⟨x, hx, rfl⟩), hu0⟩
                  rw [hn] at this
                  cases this
      refine ⟨?_, ?_, ?_, ?_⟩
      · intro A
        rw [Bool.eq_iff_iff, f1, e1, hgen]
      · intro A
        cases hA : i.getNullableAction A with
        | some t => exact tree _ t rfl A hA
        | none =>
          cases h : i'.getNullableAction (ρ.nonterm A) with
          | none => rfl
          | some t =>
            have := (n1 A).2 ((hgen A).1 ((m1 _).1 (by rw [h]; rfl)))
            rw [hA] at this
            cases this
      · intro A'
        rw [f4]
        constructor
        · intro h
          obtain ⟨β, hβ, -⟩ := Cfg.generates_iff.1 h
          obtain ⟨A, rfl⟩ := renamed_prod_head hw hw' hρ hr hβ
          exact ⟨A, (e4 A).2 ((hgen A).1 h), rfl⟩
        · rintro ⟨A, h, rfl⟩
          exact (hgen A).2 ((e4 A).1 h)
      · intro p
        rw [Bool.eq_iff_iff, f3, e3, ρ.prod_elements, renamed_derives_nil hw hw' hρ hr]
    · exact absurd ((renamed_nullUnique hw hw' hρ hr).2 hu) hu'
  · rcases calculateNullables_spec hw' ha' (fuel := fuel) (by omega) with ⟨hu', i', h2, -⟩ | ⟨hu', h2⟩
    · exact absurd ((renamed_nullUnique hw hw' hρ hr).1 hu') hu
    · exact .inl ⟨h1, h2⟩

/-- The rule `transform_to_nonnull` makes of a rule. -/
theorem nonnullCalls_rules (hw : g.WF) (i : GrammarNullableInfo NT AK) :
    (nonnullCalls i g).map GrammarOp.declares = g.rules.map fun r => ⟨r.head, (r.prodRefs.flatMap fun p =>
      if i.prodNullable p then [] else buildNonnullProds i p).map RuleOp.declares⟩ := by
  simp only [nonnullCalls, Grammar.rules, BMap.values, List.map_map]
  refine List.map_congr_left fun kr hkr => ?_
  simp only [Function.comp, GrammarOp.declares]
  rw [hw.heads kr.1 kr.2 hkr]

theorem Grammar.heads_nodup (hw : g.WF) : (g.rules.map (·.head)).Nodup := by
  have hk : g.rules.map (·.head) = BMap.keys g.ruleSet := by
    unfold Grammar.rules BMap.values BMap.keys
    rw [List.map_map]
    exact List.map_congr_left fun kr hkr => hw.heads kr.1 kr.2 hkr
  rw [hk]
  refine (BMap.keys_sorted hw.sorted).imp fun {a b} h e => ?_
  subst e
  simp at h

/-- The build states with the other names. -/
def ProdBuildState.renamed (ρ : Renaming T NT AK AV T' NT' AK' AV') (s : ProdBuildState T NT AK) :
    ProdBuildState T' NT' AK' :=
  ⟨s.elems.map ρ.prodElement, s.ntNullableStates, TreeNode.renamedAll ρ s.actionArgs⟩

theorem insert_map_val {K V W : Type} {cmp : K → K → Ordering} (f : V → W) (m : BMap K V) (k : K) (v : V) :
    BMap.insert cmp (m.map fun x => (x.1, f x.2)) k (f v) = (BMap.insert cmp m k v).map fun x => (x.1, f x.2) := by
  induction m with
  | nil => rfl
  | cons x m ih =>
    obtain ⟨a, b⟩ := x
    simp only [List.map_cons, BMap.insert]
    split
    · rfl
    · rfl
    · rw [ih]; rfl

theorem nonnullStep_renamed {i : GrammarNullableInfo NT AK} {i' : GrammarNullableInfo NT' AK'}
    (hi : ∀ A, i'.getNullableAction (ρ.nonterm A) = (i.getNullableAction A).map (TreeNode.renamed ρ))
    (states : List (ProdBuildState T NT AK)) (e : ProdElement T NT) :
    nonnullStep i' (states.map (ProdBuildState.renamed ρ)) (ρ.prodElement e) =
      (nonnullStep i states e).map (ProdBuildState.renamed ρ) := by
  have hkeep : ∀ s : ProdBuildState T NT AK, (s.renamed ρ).keepNt (ρ.prodElement e) = (s.keepNt e).renamed ρ := by
    intro s; simp [ProdBuildState.renamed, ProdBuildState.keepNt]
  have hterm : ∀ s : ProdBuildState T NT AK,
      (s.renamed ρ).keepTerm (ρ.prodElement e) = (s.keepTerm e).renamed ρ := by
    intro s; simp [ProdBuildState.renamed, ProdBuildState.keepTerm]
  have hdrop : ∀ (s : ProdBuildState T NT AK) t,
      (s.renamed ρ).dropNt (ρ.prodElement e) (t.renamed ρ) = (s.dropNt e t).renamed ρ := by
    intro s t
    simp only [ProdBuildState.renamed, ProdBuildState.dropNt, Renaming.prodElement]
    cases e.identifier with
    | none => rfl
    | some id =>
      simp only [TreeNode.renamedAll_eq, insert_map_val (TreeNode.renamed ρ)]
  obtain ⟨id, x⟩ := e
  cases x with
  | term t =>
    simp only [nonnullStep, Renaming.prodElement, Renaming.elem, List.map_map]
    exact List.map_congr_left fun s _ => hterm s
  | nonterm A =>
    simp only [nonnullStep, Renaming.prodElement, Renaming.elem, hi]
    cases i.getNullableAction A with
    | none =>
      simp only [Option.map_none, List.map_map]
      exact List.map_congr_left fun s _ => hkeep s
    | some t =>
      simp only [Option.map_some, List.map_append, List.map_map]
      congr 1
      · exact List.map_congr_left fun s _ => hkeep s
      · exact List.map_congr_left fun s _ => hdrop s t

theorem buildNonnullProds_renamed {i : GrammarNullableInfo NT AK} {i' : GrammarNullableInfo NT' AK'}
    (hi : ∀ A, i'.getNullableAction (ρ.nonterm A) = (i.getNullableAction A).map (TreeNode.renamed ρ))
    (p : Prod T NT AK AV) :
    buildNonnullProds i' (ρ.prod p) = (buildNonnullProds i p).map (RuleOp.renamed ρ.nonnull) := by
  have : ∀ (es : List (ProdElement T NT)) (states : List (ProdBuildState T NT AK)),
      (es.map ρ.prodElement).foldl (nonnullStep i') (states.map (ProdBuildState.renamed ρ)) =
        (es.foldl (nonnullStep i) states).map (ProdBuildState.renamed ρ) := by
    intro es
    induction es with
    | nil => intro states; rfl
    | cons e es ih => intro states; rw [List.map_cons, List.foldl_cons, nonnullStep_renamed hi, ih]; rfl
  have h := this p.prodElements [⟨[], [], []⟩]
  unfold buildNonnullProds
  rw [ρ.prod_prodElements]
  rw [show [(⟨[], [], []⟩ : ProdBuildState T' NT' AK')] = [(⟨[], [], []⟩ : ProdBuildState T NT AK)].map
    (ProdBuildState.renamed ρ) from rfl, h, List.map_map, List.map_map]
  exact List.map_congr_left fun s _ => rfl

/-- C128 for `transform_to_nonnull`: on the renamed grammar it fails with the same error, panics in the
same way, or returns the renamed grammar. -/
theorem nonnull_renamed (hg : g.Accepted) (hg' : g'.Accepted) (hρ : ρ.SymInjective) (hr : g.RenamedTo ρ g')
    (ha : AddrInj g addr) (ha' : AddrInj g' addr') :
    ∃ N, ∀ fuel, N ≤ fuel →
      (∃ e, transformToNonnull fuel addr g = .ok (.error e) ∧
        transformToNonnull fuel addr' g' = .ok (.error e)) ∨
      (∃ p, transformToNonnull fuel addr g = .panic p ∧ transformToNonnull fuel addr' g' = .panic p) ∨
      ∃ h h', transformToNonnull fuel addr g = .ok (.ok h) ∧ transformToNonnull fuel addr' g' = .ok (.ok h') ∧
        h.RenamedTo ρ.nonnull h' := by
  have hw := hg.valid.toWF
  have hw' := hg'.valid.toWF
  obtain ⟨N1, h1⟩ := nullable_renamed hg hg' hρ hr ha ha'
  rcases h1 N1 (Nat.le_refl _) with ⟨a, b⟩ | ⟨i, i', a, b, -, hi, -, hp⟩
  · refine ⟨N1, fun fuel hf => .inl ⟨.nullable .ambiguity, ?_, ?_⟩⟩
    · unfold transformToNonnull; rw [calculateNullables_mono hf a]
    · unfold transformToNonnull; rw [calculateNullables_mono hf b]
  · obtain ⟨N2, h2⟩ := build_renamed_of (ρ := ρ.nonnull) hρ.nonterm g.startSymbol (nonnullCalls i g)
      (nonnullCalls i' g') (by
        intro A r
        rw [nonnullCalls_rules hw, nonnullCalls_rules hw']
        rw [lastRule_iff_mem (by
          rw [List.map_map]; exact Grammar.heads_nodup hw'), lastRule_iff_mem (by
          rw [List.map_map, List.map_map]
          have := (Grammar.heads_nodup hw).map (f := ρ.nonterm) (fun a b => hρ.nonterm a b)
          rw [List.map_map] at this
          exact this)]
        refine and_congr_left fun _ => ?_
        rw [List.map_map]
        simp only [List.mem_map]
        have key : ∀ r : RuleInner T NT AK AV, (⟨(ρ.rule r).head, ((ρ.rule r).prodRefs.flatMap fun p =>
              if i'.prodNullable p then [] else buildNonnullProds i' p).map RuleOp.declares⟩ :
              RuleInner T' NT' (NNActionKey AK') (NNActionValue NT' AK' AV')) =
            ρ.nonnull.rule ⟨r.head, (r.prodRefs.flatMap fun p =>
              if i.prodNullable p then [] else buildNonnullProds i p).map RuleOp.declares⟩ := by
          intro r
          simp only [Renaming.rule, RuleInner.mk.injEq]
          refine ⟨rfl, ?_⟩
          rw [show (⟨ρ.nonterm r.head, r.prods.map ρ.prodInner⟩ : RuleInner T' NT' AK' AV') = ρ.rule r from rfl,
            ρ.prodRefs, List.flatMap_map, List.map_map, List.map_flatMap, List.map_flatMap]
          congr 1
          funext p
          rw [hp p, buildNonnullProds_renamed hi]
          split
          · rfl
          · rw [List.map_map]
            exact List.map_congr_left fun op _ => ρ.nonnull.declares_rule op
        constructor
        · rintro ⟨r', hr', rfl⟩
          obtain ⟨r, hr0, rfl⟩ := (hr.2 r').1 hr'
          exact ⟨r, hr0, (key r).symm⟩
        · rintro ⟨r, hr0, rfl⟩
          exact ⟨ρ.rule r, (hr.2 _).2 ⟨r, hr0, rfl⟩, key r⟩)
    refine ⟨N1 + N2, fun fuel hf => ?_⟩
    have a' := calculateNullables_mono (show N1 ≤ fuel by omega) a
    have b' := calculateNullables_mono (show N1 ≤ fuel by omega) b
    unfold transformToNonnull
    rw [a', b', hr.1]
    rcases h2 fuel (by omega) with ⟨k1, k2⟩ | ⟨e, e', k1, k2, -⟩ | ⟨h, h', k1, k2, k3⟩
    · refine .inr (.inl ⟨.noRule, ?_, ?_⟩)
      · simp only [k1]
      · rw [show ρ.nonterm g.startSymbol = ρ.nonnull.nonterm g.startSymbol from rfl]; simp only [k2]
    · refine .inl ⟨.build, ?_, ?_⟩
      · simp only [k1]
      · rw [show ρ.nonterm g.startSymbol = ρ.nonnull.nonterm g.startSymbol from rfl]; simp only [k2]
    · refine .inr (.inr ⟨h, h', ?_, ?_, k3⟩)
      · simp only [k1]
      · rw [show ρ.nonterm g.startSymbol = ρ.nonnull.nonterm g.startSymbol from rfl]; simp only [k2]

variable [Ord T] [TransOrd T] [LawfulEqOrd T] [Ord T'] [TransOrd T'] [LawfulEqOrd T']

/-- C128 for the Firsts pass: on the renamed grammar it succeeds exactly if it does on the original; then
a renamed nonterminal has a set exactly if the original one has, and that set has the renamed members. -/
theorem firsts_renamed (hg : g.Accepted) (hg' : g'.Accepted) (hρ : ρ.SymInjective) (hr : g.RenamedTo ρ g')
    (ha : AddrInj g addr) (ha' : AddrInj g' addr') :
    ∃ N, ∀ fuel, N ≤ fuel →
      (firstsPass fuel addr g = .ok (.error .ambiguity) ∧
        firstsPass fuel addr' g' = .ok (.error .ambiguity)) ∨
      ∃ f f', firstsPass fuel addr g = .ok (.ok f) ∧ firstsPass fuel addr' g' = .ok (.ok f') ∧
        ∀ A, (f.get A = none ∧ f'.get (ρ.nonterm A) = none) ∨
          ∃ s s', f.get A = some s ∧ f'.get (ρ.nonterm A) = some s' ∧
            ∀ t', t' ∈ s' ↔ ∃ t ∈ s, t' = ρ.term t := by
  have hw := hg.valid.toWF
  have hw' := hg'.valid.toWF
  obtain ⟨N1, h1⟩ := nullable_renamed hg hg' hρ hr ha ha'
  obtain ⟨N2, h2⟩ := firsts_terminates g hg addr ha
  obtain ⟨N3, h3⟩ := firsts_terminates g' hg' addr' ha'
  refine ⟨N1 + N2 + N3, fun fuel hf => ?_⟩
  rcases h1 fuel (by omega) with ⟨a1, a2⟩ | ⟨i, i', a1, a2, -⟩
  · left
    rcases h2 fuel (by omega) with ⟨-, j, b⟩ | ⟨e, b1, b2⟩
    · rw [a1] at b; cases b
    rcases h3 fuel (by omega) with ⟨-, j, c⟩ | ⟨e', c1, c2⟩
    · rw [a2] at c; cases c
    rw [a1] at b2; cases b2
    rw [a2] at c2; cases c2
    exact ⟨b1, c1⟩
  · right
    rcases h2 fuel (by omega) with ⟨⟨f, b1⟩, -⟩ | ⟨e, b1, b2⟩
    swap
    · rw [a1] at b2; cases b2
    rcases h3 fuel (by omega) with ⟨⟨f', c1⟩, -⟩ | ⟨e, c1, c2⟩
    swap
    · rw [a2] at c2; cases c2
    refine ⟨f, f', b1, c1, ?_⟩
    intro A
    obtain ⟨d1, d2⟩ := firsts_exact g hg addr ha fuel f b1 A
    obtain ⟨d1', d2'⟩ := firsts_exact g' hg' addr' ha' fuel f' c1 (ρ.nonterm A)
    have hkey : (f'.get (ρ.nonterm A)).isSome = true ↔ (f.get A).isSome = true := by
      rw [firsts_key_exact g hg addr ha fuel f b1 A, firsts_key_exact g' hg' addr' ha' fuel f' c1 (ρ.nonterm A)]
      exact renamed_key hw hw' hρ hr A
    cases hA : f.get A with
    | none =>
      cases hA' : f'.get (ρ.nonterm A) with
      | none => exact .inl ⟨rfl, rfl⟩
      | some s' => rw [hA, hA'] at hkey; simp at hkey
    | some s =>
      cases hA' : f'.get (ρ.nonterm A) with
      | none => rw [hA, hA'] at hkey; simp at hkey
      | some s' =>
        refine .inr ⟨s, s', rfl, rfl, fun t' => ?_⟩
        have e1 := d1' t'
        rw [hA'] at e1
        have e1' : t' ∈ s' ↔ ∃ γ, g'.cfg.Derives [.nonterm (ρ.nonterm A)] (.term t' :: γ) := by
          simpa using e1
        refine e1'.trans ((renamed_derives_term hw hw' hρ hr (s := [.nonterm A])).trans ?_)
        constructor
        · rintro ⟨t, rfl, h⟩
          obtain ⟨s0, k1, k2⟩ := (d1 t).2 h
          rw [hA] at k1; cases k1
          exact ⟨t, k2, rfl⟩
        · rintro ⟨t, h, rfl⟩
          exact ⟨t, rfl, (d1 t).1 ⟨s, hA, h⟩⟩

/-- C128 for the Follows pass: on the renamed grammar it has the same outcome (the same error, the same
panic or success), and the sets have the renamed members. -/
theorem follows_renamed (hg : g.Accepted) (hg' : g'.Accepted) (hρ : ρ.SymInjective) (hr : g.RenamedTo ρ g')
    (ha : AddrInj g addr) (ha' : AddrInj g' addr') :
    ∃ N, ∀ fuel, N ≤ fuel →
      (followsPass fuel addr g = .ok (.error .ambiguity) ∧
        followsPass fuel addr' g' = .ok (.error .ambiguity)) ∨
      (followsPass fuel addr g = .panic .noFirsts ∧ followsPass fuel addr' g' = .panic .noFirsts) ∨
      ∃ fo fo', followsPass fuel addr g = .ok (.ok fo) ∧ followsPass fuel addr' g' = .ok (.ok fo') ∧
        ∀ A' t', (∃ s', BMap.get? compare fo'.map A' = some s' ∧ t' ∈ s') ↔
          ∃ A t, A' = ρ.nonterm A ∧ t' = ρ.term t ∧ ∃ s, BMap.get? compare fo.map A = some s ∧ t ∈ s := by
  have hw := hg.valid.toWF
  have hw' := hg'.valid.toWF
  obtain ⟨N1, h1⟩ := nullable_renamed hg hg' hρ hr ha ha'
  obtain ⟨N2, h2⟩ := follows_outcome g hg addr ha
  obtain ⟨N3, h3⟩ := follows_outcome g' hg' addr' ha'
  refine ⟨N1 + N2 + N3, fun fuel hf => ?_⟩
  rcases h1 fuel (by omega) with ⟨a1, a2⟩ | ⟨i, i', a1, a2, -⟩
  · left
    rcases h2 fuel (by omega) with ⟨e, b2, b1⟩ | ⟨⟨j, b⟩, -⟩
    swap
    · rw [a1] at b; cases b
    rcases h3 fuel (by omega) with ⟨e', c2, c1⟩ | ⟨⟨j, c⟩, -⟩
    swap
    · rw [a2] at c; cases c
    rw [a1] at b2; cases b2
    rw [a2] at c2; cases c2
    exact ⟨b1, c1⟩
  · right
    rcases h2 fuel (by omega) with ⟨e, b2, b1⟩ | ⟨-, b⟩
    · rw [a1] at b2; cases b2
    rcases h3 fuel (by omega) with ⟨e', c2, c1⟩ | ⟨-, c⟩
    · rw [a2] at c2; cases c2
    simp only at b c
    rw [renamed_gap hw hw' hρ hr] at c
    rcases b with ⟨k, b⟩ | ⟨k, fo, b⟩
    · rcases c with ⟨-, c⟩ | ⟨k', -⟩
      · exact .inl ⟨b, c⟩
      · exact absurd k k'
    · rcases c with ⟨k', -⟩ | ⟨-, fo', c⟩
      · exact absurd k' k
      · right
        refine ⟨fo, fo', b, c, fun A' t' => ?_⟩
        rw [follows_exact g' hg' addr' ha' fuel fo' c, renamed_directFollow hw hw' hρ hr]
        simp only [follows_exact g hg addr ha fuel fo b]
end passes

/-! ## Examples: everything turned around -/

theorem renamedTo_of_reverse {g : Grammar T NT AK AV} {g' : Grammar T' NT' AK' AV'}
    (h1 : g'.startSymbol = ρ.nonterm g.startSymbol) (h2 : g'.rules = (g.rules.map ρ.rule).reverse) :
    g.RenamedTo ρ g' := by
  refine ⟨h1, fun r' => ?_⟩
  rw [h2, List.mem_reverse, List.mem_map]
  exact ⟨fun ⟨r, hr, e⟩ => ⟨r, hr, e.symm⟩, fun ⟨r, hr, e⟩ => ⟨r, hr, e.symm⟩⟩

/-- `nullExample` with the order of all names turned around. -/
def nullTurned : Grammar Nat Nat Nat Unit :=
  ⟨3, [(2, ⟨2, [⟨37, (), []⟩, ⟨36, (), [⟨none, .term 1⟩, ⟨none, .nonterm 2⟩]⟩]⟩),
       (3, ⟨3, [⟨39, (), [⟨some "x", .nonterm 2⟩, ⟨some "y", .nonterm 2⟩]⟩, ⟨38, (), [⟨none, .term 2⟩]⟩]⟩)]⟩

theorem nullTurned_accepted : nullTurned.Accepted :=
  ⟨9, 3, [⟨2, [.addProd 37 () [], .addProd 36 () [.addTerm 1, .addNonterm 2]]⟩,
    ⟨3, [.addProd 39 () [.addNamedNonterm "x" 2, .addNamedNonterm "y" 2], .addProd 38 () [.addTerm 2]]⟩],
    by decide⟩

theorem nullTurned_renamed : nullExample.RenamedTo turnRenaming nullTurned :=
  renamedTo_of_reverse (by decide) (by decide)

/-- The hypotheses are met.  The members of the sets come in the opposite order; the parameters of the null
tree do not. -/
example : nullExample.Accepted ∧ nullTurned.Accepted ∧ turnRenaming.Injective ∧
    nullExample.RenamedTo turnRenaming nullTurned ∧ AddrInj nullExample exampleAddr ∧
    AddrInj nullTurned exampleAddr ∧
    ∃ i i' f f' fo fo', calculateNullables 20 exampleAddr nullExample = .ok (.ok i) ∧
      calculateNullables 20 exampleAddr nullTurned = .ok (.ok i') ∧
      firstsPass 20 exampleAddr nullExample = .ok (.ok f) ∧
      firstsPass 20 exampleAddr nullTurned = .ok (.ok f') ∧
      followsPass 20 exampleAddr nullExample = .ok (.ok fo) ∧
      followsPass 20 exampleAddr nullTurned = .ok (.ok fo') ∧
      i.getNullableSet = [0, 1] ∧ i'.getNullableSet = [2, 3] ∧
      i'.getNullableAction 3 = some (.mk ⟨3, 39⟩ [("x", .mk ⟨2, 37⟩ []), ("y", .mk ⟨2, 37⟩ [])]) ∧
      i'.getNullableAction 3 = (i.getNullableAction 0).map (TreeNode.renamed turnRenaming) ∧
      f.get 0 = some [7, 8] ∧ f'.get 3 = some [1, 2] ∧ turnRenaming.term 7 = 2 ∧ turnRenaming.term 8 = 1 ∧
      BMap.get? compare fo.map 1 = some [8] ∧ BMap.get? compare fo'.map 2 = some [1] :=
  ⟨nullExample_accepted, nullTurned_accepted, turnRenaming_injective, nullTurned_renamed,
    exampleAddr_addrInj _, exampleAddr_addrInj _, _, _, _, _, _, _, by rfl, by rfl, by rfl, by rfl, by rfl, by rfl,
    by rfl, by rfl, by rfl, by rfl, by rfl, by rfl, by rfl, by rfl, by rfl, by rfl⟩

/-- `nonnullExample` with the order of the nonterminals and keys turned around. -/
def nonnullTurned : Grammar Nat Nat Nat Unit :=
  ⟨3, [(2, ⟨2, [⟨37, (), []⟩, ⟨36, (), [⟨none, .term 12⟩, ⟨some "z", .nonterm 2⟩]⟩]⟩),
    (3, ⟨3, [⟨39, (), [⟨some "x", .nonterm 2⟩, ⟨some "y", .nonterm 2⟩, ⟨none, .term 11⟩]⟩]⟩)]⟩

theorem nonnullTurned_accepted : nonnullTurned.Accepted :=
  ⟨9, 3, [⟨2, [.addProd 37 () [], .addProd 36 () [.addTerm 12, .addNamedNonterm "z" 2]]⟩,
    ⟨3, [.addProd 39 () [.addNamedNonterm "x" 2, .addNamedNonterm "y" 2, .addTerm 11]]⟩], by decide⟩

/-- The transform of the turned grammar is the turned transform: the six productions of the example of
C29–C32, with the rules the other way round. -/
example : nonnullExample.RenamedTo turnRenaming nonnullTurned ∧
    (∃ h', transformToNonnull 9 exampleAddr nonnullTurned = .ok (.ok h') ∧
      h'.prods.map (fun p => (p.head, p.actionKey.ntNullableStates, p.elements)) =
      [(2, [false], [.term 12, .nonterm 2]),
       (2, [true], [.term 12]),
       (3, [false, false], [.nonterm 2, .nonterm 2, .term 11]),
       (3, [true, false], [.nonterm 2, .term 11]),
       (3, [false, true], [.nonterm 2, .term 11]),
       (3, [true, true], [.term 11])]) ∧
    transformToNonnull 9 exampleAddr nullExample = .ok (.error .build) ∧
    transformToNonnull 9 exampleAddr nullTurned = .ok (.error .build) :=
  ⟨renamedTo_of_reverse (by decide) (by decide), ⟨_, by rfl, by rfl⟩, by rfl, by rfl⟩

/-- Building: an error names the renamed nonterminals, in their own order (`1` and `2` are unreachable). -/
example : ∃ e e', buildGrammar 9 0 ([⟨0, [.addProd 1 () [.addTerm 7]]⟩, ⟨1, [.addProd 2 () [.addNonterm 2]]⟩,
      ⟨2, [.addProd 3 () [.addNonterm 1]]⟩] : List (GrammarOp Nat Nat Nat Unit)) = .ok (.error e) ∧
    buildGrammar 9 (turnRenaming.nonterm 0) (([⟨0, [.addProd 1 () [.addTerm 7]]⟩,
      ⟨1, [.addProd 2 () [.addNonterm 2]]⟩, ⟨2, [.addProd 3 () [.addNonterm 1]]⟩] :
      List (GrammarOp Nat Nat Nat Unit)).map (GrammarOp.renamed turnRenaming)) = .ok (.error e') ∧
    e.unreachableNonterms = [1, 2] ∧ e'.unreachableNonterms = [1, 2] ∧ e'.rulesWithoutProds = [] :=
  ⟨_, _, by rfl, by rfl, by rfl, by rfl, by rfl⟩
end Bongo
