import Verif.Proof.GrammarBuild
import Verif.Props.Builder
/-!
# C91: what the accessors of an accepted grammar report
-/
set_option linter.unusedSectionVars false
namespace Bongo
open Std
variable {T NT AK AV : Type} [Ord NT] [TransOrd NT] [LawfulEqOrd NT]

/-- `p` is the declared production number `i` of the last rule declared for `A`. -/
def DeclaredAt (calls : List (GrammarOp T NT AK AV)) (A : NT) (i : Nat) (p : ProdInner T NT AK AV) : Prop :=
  ∃ pre call post op, calls = pre ++ call :: post ∧ call.head = A ∧ (∀ c ∈ post, c.head ≠ A) ∧
    call.buildFn[i]? = some op ∧ op.declares = p

theorem declaredAt_iff (calls : List (GrammarOp T NT AK AV)) (A : NT) (i : Nat) (p) :
    DeclaredAt calls A i p ↔ ∃ r, LastRule (calls.map GrammarOp.declares) A r ∧ r.prods[i]? = some p := by
  constructor
  · rintro ⟨pre, call, post, op, rfl, h1, h2, h3, rfl⟩
    refine ⟨call.declares, ⟨pre.map GrammarOp.declares, post.map GrammarOp.declares, by simp, h1, ?_⟩, ?_⟩
    · intro r hr
      obtain ⟨c, hc, rfl⟩ := List.mem_map.1 hr
      exact h2 c hc
    · simp [GrammarOp.declares, h3]
  · rintro ⟨r, ⟨pre, post, h1, h2, h3⟩, h4⟩
    obtain ⟨l1, l2, rfl, rfl, h5⟩ := List.map_eq_append_iff.1 h1
    obtain ⟨call, l3, rfl, rfl, rfl⟩ := List.map_eq_cons_iff.1 h5
    simp only [GrammarOp.declares, List.getElem?_map, Option.map_eq_some_iff] at h4
    obtain ⟨op, h6, h7⟩ := h4
    exact ⟨l1, call, l3, op, rfl, h2, fun c hc => h3 _ (List.mem_map_of_mem hc), h6, h7⟩

/-- C91: the productions of a built grammar are exactly the declared ones, and each accessor of a
production reports what was declared; positions past the end give `None` (they do not panic, as
the comments in the source say they do). -/
theorem production_accessors {fuel : Nat} {start : NT} {calls : List (GrammarOp T NT AK AV)}
    {g : Grammar T NT AK AV} (h : buildGrammar fuel start calls = .ok (.ok g)) :
    (∀ A i q, DeclaredAt calls A i q ↔ ∃ p ∈ g.prods, p.head = A ∧ p.index = i ∧ p.inner = q) ∧
    ∀ p ∈ g.prods, ∃ q, DeclaredAt calls p.head p.index q ∧
      p.actionKey = q.actionKey ∧ p.actionValue = q.actionValue ∧ p.prodKey = ⟨p.head, q.actionKey⟩ ∧
      p.prodElements = q.elements ∧ p.numElements = q.elements.length ∧
      p.elements.length = q.elements.length ∧
      (∀ i e, q.elements[i]? = some e → p.prodElementAt i = some e ∧ p.elementAt i = some e.element ∧
        p.elements[i]? = some e.element) ∧
      (∀ i, q.elements.length ≤ i → p.prodElementAt i = none ∧ p.elementAt i = none) ∧
      (q.elements = [] → p.firstElem = none) ∧
      ∀ e l, q.elements = e :: l → p.firstElem = some e.element := by
  rw [grammar_builder_records] at h
  obtain ⟨hv, rfl⟩ := Grammar.valid_of_new h
  have key : ∀ A i q, DeclaredAt calls A i q ↔
      ∃ p ∈ (Grammar.ofRules start (calls.map GrammarOp.declares)).prods,
        p.head = A ∧ p.index = i ∧ p.inner = q := by
    intro A i q
    rw [declaredAt_iff]
    simp only [← tryGetRule_ofRules start]
    constructor
    · rintro ⟨r, h1, h2⟩
      exact ⟨⟨A, i, q⟩, (Grammar.mem_prods hv.toWF).2 ⟨r, h1, h2⟩, rfl, rfl, rfl⟩
    · rintro ⟨p, hp, rfl, rfl, rfl⟩
      exact (Grammar.mem_prods hv.toWF).1 hp
  refine ⟨key, fun p hp => ⟨p.inner, (key _ _ _).2 ⟨p, hp, rfl, rfl, rfl⟩, rfl, rfl, rfl, rfl, rfl,
    by simp [Prod.elements, ProdInner.elems], ?_, ?_, ?_, ?_⟩⟩
  · intro i e he
    simp [Prod.prodElementAt, Prod.prodElements, Prod.elementAt, Prod.elements, ProdInner.elems, he]
  · intro i hi
    simp [Prod.prodElementAt, Prod.prodElements, Prod.elementAt, Prod.elements, ProdInner.elems, hi]
  · intro hq
    simp [Prod.firstElem, Prod.elements, ProdInner.elems, hq]
  · intro e l hq
    simp [Prod.firstElem, Prod.elements, ProdInner.elems, hq]

/-- C91: the terminals and nonterminals a built grammar lists are the ones written in its
productions, with repetitions and in the order of the productions. -/
theorem grammar_elements {fuel : Nat} {start : NT} {calls : List (GrammarOp T NT AK AV)}
    {g : Grammar T NT AK AV} (h : buildGrammar fuel start calls = .ok (.ok g)) :
    g.getElements = g.prods.flatMap (·.elements) ∧
    g.getTerminals.map Elem.term = g.getElements.filter (fun e => e.asTerm.isSome) ∧
    g.getNonterminals.map Elem.nonterm = g.getElements.filter (fun e => e.asTerm.isNone) ∧
    (∀ t, t ∈ g.getTerminals ↔ ∃ A i q, DeclaredAt calls A i q ∧ ∃ e ∈ q.elements, e.element = .term t) ∧
    ∀ B, B ∈ g.getNonterminals ↔ ∃ A i q, DeclaredAt calls A i q ∧ ∃ e ∈ q.elements, e.element = .nonterm B := by
  have h1 : g.getElements = g.prods.flatMap (·.elements) := by
    unfold Grammar.getElements Grammar.prods Grammar.rules RuleInner.prodRefs Prod.elements
    rw [List.flatMap_assoc, List.flatMap_assoc]
    congr 1
    funext r
    rw [List.flatMap_map]
    conv => lhs; rw [← List.zipIdx_map_fst 0 r.prods, List.flatMap_map]
  have hd := (production_accessors h).1
  refine ⟨h1, ?_, ?_, ?_, ?_⟩
  · unfold Grammar.getTerminals
    generalize g.getElements = l
    induction l with
    | nil => rfl
    | cons e l ih =>
      rw [List.filterMap_cons, List.filter_cons]
      cases e <;> simp only [Elem.asTerm, Option.isSome, if_true, List.map_cons, ih] <;> rfl
  · unfold Grammar.getNonterminals
    generalize g.getElements = l
    induction l with
    | nil => rfl
    | cons e l ih =>
      rw [List.filterMap_cons, List.filter_cons]
      cases e <;> simp only [Elem.asTerm, Elem.asNonterm, Option.isNone, if_true, List.map_cons, ih] <;> rfl
  · intro t
    unfold Grammar.getTerminals
    rw [h1]
    simp only [List.mem_filterMap, List.mem_flatMap, hd]
    constructor
    · rintro ⟨e, ⟨p, hp, he⟩, ht⟩
      obtain ⟨e', he', rfl⟩ := List.mem_map.1 he
      refine ⟨_, _, _, ⟨p, hp, rfl, rfl, rfl⟩, e', he', ?_⟩
      cases hx : e'.element <;> simp_all [Elem.asTerm]
    · rintro ⟨A, i, q, ⟨p, hp, rfl, rfl, rfl⟩, e, he, ht⟩
      exact ⟨e.element, ⟨p, hp, List.mem_map_of_mem he⟩, by rw [ht]; rfl⟩
  · intro t
    unfold Grammar.getNonterminals
    rw [h1]
    simp only [List.mem_filterMap, List.mem_flatMap, hd]
    constructor
    · rintro ⟨e, ⟨p, hp, he⟩, ht⟩
      obtain ⟨e', he', rfl⟩ := List.mem_map.1 he
      refine ⟨_, _, _, ⟨p, hp, rfl, rfl, rfl⟩, e', he', ?_⟩
      cases hx : e'.element <;> simp_all [Elem.asNonterm]
    · rintro ⟨A, i, q, ⟨p, hp, rfl, rfl, rfl⟩, e, he, ht⟩
      exact ⟨e.element, ⟨p, hp, List.mem_map_of_mem he⟩, by rw [ht]; rfl⟩

-- A grammar with two productions and a named element, of which a terminal occurs twice.
example : ∃ g : Grammar Nat Nat Nat Unit,
    buildGrammar 20 0 [⟨0, [.addProd 10 () [.addTerm 5, .addNamedNonterm "rest" 1]]⟩,
      ⟨1, [.addProd 11 () [.addTerm 5], .addProd 12 () []]⟩] = .ok (.ok g) ∧
    g.prods.length = 3 ∧ g.getTerminals = [5, 5] ∧ g.getNonterminals = [1] ∧
    DeclaredAt [⟨0, [.addProd 10 () [.addTerm 5, .addNamedNonterm "rest" 1]]⟩,
      ⟨1, [.addProd 11 () [.addTerm 5], .addProd 12 () []]⟩] 1 1 (⟨12, (), []⟩ : ProdInner Nat Nat Nat Unit) :=
  ⟨_, rfl, rfl, by decide, by decide, ⟨[_], _, [], .addProd 12 () [], rfl, rfl, by simp, rfl, rfl⟩⟩
end Bongo
