import Verif.Spec.Decl
/-!
# Property C06: the builders record what was added
-/
set_option linter.unusedSectionVars false
namespace Bongo
variable {T NT AK AV : Type}

/-! ## C06 builders -/

/-- C06.  A production builder ends up with exactly the elements of the calls made on it, in
call order. -/
theorem production_builder_records (k : AK) (v : AV) (calls : List (ProdOp T NT)) :
    (calls.foldl ProductionBuilder.call (.new k v)).build = ⟨k, v, calls.map ProdOp.declares⟩ := by
  suffices ∀ b : ProductionBuilder T NT AK AV, (calls.foldl ProductionBuilder.call b).build =
      ⟨b.actionKey, b.actionValue, b.elems ++ calls.map ProdOp.declares⟩ by
    rw [this]; simp [ProductionBuilder.new]
  induction calls with
  | nil => intro b; simp [ProductionBuilder.build]
  | cons c calls ih =>
    intro b
    rw [List.foldl_cons, ih]
    cases c <;> simp [ProductionBuilder.call, ProdOp.declares]

/-- C06.  A rule builder ends up with exactly the productions added, in call order. -/
theorem rule_builder_records (head : NT) (calls : List (RuleOp T NT AK AV)) :
    (calls.foldl RuleBuilder.call (.new head)).build = ⟨head, calls.map RuleOp.declares⟩ := by
  suffices ∀ b : RuleBuilder T NT AK AV, (calls.foldl RuleBuilder.call b).build =
      ⟨b.head, b.prods ++ calls.map RuleOp.declares⟩ by rw [this]; simp [RuleBuilder.new]
  induction calls with
  | nil => intro b; simp [RuleBuilder.build]
  | cons c calls ih =>
    intro b
    rw [List.foldl_cons, ih]
    cases c with
    | addProd k v f => simp [RuleBuilder.call, RuleOp.declares, production_builder_records]
    | addProdWithElems k v es => simp [RuleBuilder.call, RuleOp.declares]

/-- C06.  `build` hands exactly the declared rules, in call order, to the grammar constructor. -/
theorem grammar_builder_records [Ord NT] (fuel : Nat) (start : NT)
    (calls : List (GrammarOp T NT AK AV)) :
    buildGrammar fuel start calls = Grammar.new fuel start (calls.map GrammarOp.declares) := by
  have : ∀ b : GrammarBuilder T NT AK AV, calls.foldl GrammarBuilder.addRule b =
      ⟨b.start, b.rules ++ calls.map GrammarOp.declares⟩ := by
    induction calls with
    | nil => intro b; simp
    | cons c calls ih =>
      intro b
      rw [List.foldl_cons, ih]
      simp [GrammarBuilder.addRule, GrammarOp.declares, rule_builder_records]
  unfold buildGrammar
  rw [this]
  simp [GrammarBuilder.new, GrammarBuilder.build]


example : (([.addTerm 7, .addNamedNonterm "rest" 0] : List (ProdOp Nat Nat)).foldl
    ProductionBuilder.call (.new 1 ())).build =
    ⟨1, (), [⟨none, .term 7⟩, ⟨some "rest", .nonterm 0⟩]⟩ := by decide
end Bongo
