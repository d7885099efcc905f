import Verif.Model.Grammar
import Verif.Spec.Cfg
/-!
# Specification: null / non-null choices
-/
namespace Bongo
variable {T NT AK AV : Type}

/-- `Choice nullable es c kept dropped`: `c` chooses, for each nonterminal occurrence of `es` in
order, null (`true`, allowed only for nullable nonterminals) or non-null (`false`); `kept` is `es`
without the occurrences chosen null, and `dropped` is those occurrences. -/
inductive Choice (nullable : NT → Prop) : List (ProdElement T NT) → List Bool →
    List (ProdElement T NT) → List (ProdElement T NT) → Prop where
  | nil : Choice nullable [] [] [] []
  | term {es c k d} (id : Option Name) (t : T) : Choice nullable es c k d →
      Choice nullable (⟨id, .term t⟩ :: es) c (⟨id, .term t⟩ :: k) d
  | nonNull {es c k d} (id : Option Name) (A : NT) : Choice nullable es c k d →
      Choice nullable (⟨id, .nonterm A⟩ :: es) (false :: c) (⟨id, .nonterm A⟩ :: k) d
  | null {es c k d} (id : Option Name) (A : NT) : nullable A → Choice nullable es c k d →
      Choice nullable (⟨id, .nonterm A⟩ :: es) (true :: c) k (⟨id, .nonterm A⟩ :: d)

/-- The grammar in which every production that derives the empty string is replaced by an empty
production of the same head. -/
def Grammar.cutNull (g : Grammar T NT AK AV) : Cfg T NT where
  start := g.startSymbol
  prod A β := (g.cfg.prod A β ∧ ¬ g.cfg.Derives β []) ∨ (β = [] ∧ g.cfg.Generates A [])
end Bongo
