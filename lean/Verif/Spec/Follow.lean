import Verif.Spec.Cfg
/-!
# Specification: what the Follows pass records

`t` is recorded for `A` when `A` stands directly before an element that can begin with `t`, or when
`A` ends a production of a nonterminal for which `t` is recorded.  (The textbook FOLLOW set would
also look past elements that can derive the empty string.)
-/
namespace Bongo

/-- `t` follows `A` without looking past vanishing elements. -/
inductive Cfg.DirectFollow {T N : Type} (G : Cfg T N) : N → T → Prop where
  | next {B A : N} {u v γ : List (Elem T N)} {e : Elem T N} {t : T} :
      G.prod B (u ++ .nonterm A :: e :: v) → G.Derives [e] (.term t :: γ) → DirectFollow G A t
  | last {B A : N} {u : List (Elem T N)} {t : T} :
      G.prod B (u ++ [.nonterm A]) → DirectFollow G B t → DirectFollow G A t
end Bongo
