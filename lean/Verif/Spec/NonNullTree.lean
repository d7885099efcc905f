import Verif.Spec.Tree
import Verif.Spec.NonNull
import Verif.Model.NonNull
/-!
# Specification: what the trees of the non-null grammar stand for
-/
namespace Bongo
variable {T NT AK AV L : Type}

/-- `Refilled g kind es c ds full`: `full` is the list of children for the elements `es` that one gets
from the children `ds` kept by the choice `c` (see `Choice`), with a derivation tree of the empty word
put in for every element chosen null. -/
inductive Refilled (g : Grammar T NT AK AV) (kind : L → T) : List (ProdElement T NT) → List Bool →
    List (DTree L (Prod T NT AK AV)) → List (DTree L (Prod T NT AK AV)) → Prop where
  | nil : Refilled g kind [] [] [] []
  | term {es c ds full} (id : Option Name) (t : T) (d : DTree L (Prod T NT AK AV)) :
      Refilled g kind es c ds full → Refilled g kind (⟨id, .term t⟩ :: es) c (d :: ds) (d :: full)
  | nonNull {es c ds full} (id : Option Name) (A : NT) (d : DTree L (Prod T NT AK AV)) :
      Refilled g kind es c ds full →
      Refilled g kind (⟨id, .nonterm A⟩ :: es) (false :: c) (d :: ds) (d :: full)
  | null {es c ds full} (id : Option Name) (A : NT) (n : DTree L (Prod T NT AK AV)) :
      IsTree g kind (.nonterm A) n → n.yield = [] → Refilled g kind es c ds full →
      Refilled g kind (⟨id, .nonterm A⟩ :: es) (true :: c) ds (n :: full)

/-- Wherever the tree spells something, the production used there could not have derived the empty
word. -/
inductive Solid (g : Grammar T NT AK AV) : DTree L (Prod T NT AK AV) → Prop where
  | leaf (l : L) : Solid g (.leaf l)
  | node (p : Prod T NT AK AV) (cs : List (DTree L (Prod T NT AK AV))) :
      (DTree.yields cs ≠ [] → ¬ g.cfg.Derives p.elements []) → (∀ c ∈ cs, Solid g c) →
      Solid g (.node p cs)

/-- A production of the non-null grammar. -/
abbrev NNProd (T NT AK AV : Type) := Prod T NT (NNActionKey AK) (NNActionValue NT AK AV)
end Bongo
