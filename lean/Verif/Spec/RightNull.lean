import Verif.Spec.Right
/-!
# Specification: productions whose elements may be empty, and divide a text in two ways
-/
namespace Bongo
variable {T NT AK AV : Type}

/-- `us` are texts of the first elements of `β`, one for each. -/
def Cfg.Fills (G : Cfg T NT) (β : List (Elem T NT)) (us : List (List T)) : Prop :=
  List.Forall₂ (fun e u => G.Derives [e] (u.map .term)) (β.take us.length) us

/-- Some text is both a text of the first elements of a production and of those with some more, where the
same elements are empty in both and not all of the further ones are. -/
def Grammar.OverlapsFilled (g : Grammar T NT AK AV) : Prop :=
  ∃ A β us vs, g.cfg.prod A β ∧ g.cfg.Fills β us ∧ g.cfg.Fills β vs ∧
    us.map List.isEmpty <+: vs.map List.isEmpty ∧ us.flatten = vs.flatten ∧ ∃ v ∈ vs.drop us.length, v ≠ []

/-- Some text can be divided in two ways between the first elements of a production and the next one, where the same
elements are empty in both. -/
def Grammar.DividesFilled (g : Grammar T NT AK AV) : Prop :=
  ∃ A β us u vs v, g.cfg.prod A β ∧ g.cfg.Fills β (us ++ [u]) ∧ g.cfg.Fills β (vs ++ [v]) ∧
    (us ++ [u]).map List.isEmpty = (vs ++ [v]).map List.isEmpty ∧
    us.flatten ++ u = vs.flatten ++ v ∧ us.flatten ≠ vs.flatten
end Bongo
