import Verif.Spec.RightNull
import Verif.Spec.NonNull
import Verif.Spec.Earley
/-!
# Specification: the two faults, for what the non-null transform keeps of a grammar
-/
namespace Bongo
variable {T NT AK AV : Type}

/-- Some text is both a text of the first elements of a production and of those with some more, where the
same elements are empty in both and not all of the further ones are. -/
def Cfg.OverlapsFilled (G : Cfg T NT) : Prop :=
  ∃ A β us vs, G.prod A β ∧ G.Fills β us ∧ G.Fills β vs ∧
    us.map List.isEmpty <+: vs.map List.isEmpty ∧ us.flatten = vs.flatten ∧ ∃ v ∈ vs.drop us.length, v ≠ []

/-- Some text can be divided in two ways between the first elements of a production and the next one, where the same
elements are empty in both. -/
def Cfg.DividesFilled (G : Cfg T NT) : Prop :=
  ∃ A β us u vs v, G.prod A β ∧ G.Fills β (us ++ [u]) ∧ G.Fills β (vs ++ [v]) ∧
    (us ++ [u]).map List.isEmpty = (vs ++ [v]).map List.isEmpty ∧
    us.flatten ++ u = vs.flatten ++ v ∧ us.flatten ≠ vs.flatten

/-- A grammar without useless parts, for the transform: every production that does not derive the empty text occurs in a
derivation in which productions that do derive it are empty; and every derivation of the grammar can be completed. -/
structure Grammar.CutTrim (g : Grammar T NT AK AV) : Prop where
  reached : ∀ p ∈ g.prods, ¬ g.cfg.Derives p.elements [] →
    ∃ γ δ, g.cutNull.Derives [.nonterm g.startSymbol] (γ ++ .nonterm p.head :: δ)
  noDeadEnds : g.NoDeadEnds
end Bongo
