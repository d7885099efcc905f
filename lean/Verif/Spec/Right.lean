import Verif.Spec.Fails
/-!
# Specification: grammars whose productions divide a text in two ways
-/
namespace Bongo
variable {T NT AK AV : Type}

/-- Some text can be divided in two ways between the first elements of a production and the next one. -/
def Grammar.Divides (g : Grammar T NT AK AV) : Prop :=
  ∃ A β d e, ∃ x y x' y' : List T, g.cfg.prod A β ∧ β[d]? = some e ∧ x ++ y = x' ++ y' ∧ x ≠ x' ∧
    g.cfg.Derives (β.take d) (x.map .term) ∧ g.cfg.Derives [e] (y.map .term) ∧
    g.cfg.Derives (β.take d) (x'.map .term) ∧ g.cfg.Derives [e] (y'.map .term)
end Bongo
