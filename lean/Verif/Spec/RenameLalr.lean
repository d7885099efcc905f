import Verif.Spec.Rename
import Verif.Spec.Lalr
/-!
# Specification: LALR states with other names
-/
namespace Bongo
set_option linter.unusedSectionVars false
variable {T NT AK AV T' NT' AK' AV' : Type}

/-- The same position in the production with the other names. -/
def Renaming.item (ρ : Renaming T NT AK AV T' NT' AK' AV') (s : ProdState T NT AK AV) :
    ProdState T' NT' AK' AV' :=
  ⟨ρ.prod s.prod, s.index⟩

/-- The item `s` is listed, and (for `some t`) with lookahead `t`. -/
def ItemsHave (items : List (ProdState T NT AK AV × BSet T)) (s : ProdState T NT AK AV) (o : Option T) : Prop :=
  ∃ la, (s, la) ∈ items ∧ ∀ t, o = some t → t ∈ la

/-- The same items with the same lookaheads, up to names and in any order. -/
def ItemsRenamed (ρ : Renaming T NT AK AV T' NT' AK' AV') (items : List (ProdState T NT AK AV × BSet T))
    (items' : List (ProdState T' NT' AK' AV' × BSet T')) : Prop :=
  ∀ s' o', ItemsHave items' s' o' ↔ ∃ s o, s' = ρ.item s ∧ o' = o.map ρ.term ∧ ItemsHave items s o

/-- The same state up to names. -/
def ParseState.RenamedTo (ρ : Renaming T NT AK AV T' NT' AK' AV') (st : ParseState T NT AK AV)
    (st' : ParseState T' NT' AK' AV') : Prop :=
  ItemsRenamed ρ st.prods st'.prods
end Bongo
