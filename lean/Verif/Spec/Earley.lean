import Verif.Model.Earley
import Verif.Spec.Cfg
import Verif.Spec.Tree
import Verif.Spec.Start
import Verif.Spec.Forest
/-!
# Specification: what a parser should do, and what makes this one stop

Derivations, derivation trees and languages are in `Spec/Cfg.lean` and `Spec/Tree.lean`.  Here: the
finite trees that can be read off a forest through its API, and the two conditions on a prefix of
the input under which `parse` panics.
-/
namespace Bongo

namespace DTree
variable {L P Q : Type}
mutual
/-- The same tree with other labels at the inner nodes. -/
def mapNodes (f : P → Q) : DTree L P → DTree L Q
  | .leaf l => .leaf l
  | .node p cs => .node (f p) (mapNodesAll f cs)
def mapNodesAll (f : P → Q) : List (DTree L P) → List (DTree L Q)
  | [] => []
  | c :: cs => c.mapNodes f :: mapNodesAll f cs
end
end DTree

section
variable {T AK V : Type}
mutual
/-- The tree can be read off the forest at the node: `alts` lists an alternative whose `content` is
a leaf with the token's `kind` and `value`, or a branch with the tree's `action` and `nodes` at which
its children can be read off. -/
def Reads (w : World T AK V) : DTree (Token T V) AK → Node → Prop
  | .leaf tok, n => ∃ alts a l, w.alts n = .ok alts ∧ a ∈ alts ∧ w.content a = .ok (.leaf l) ∧
      w.kind l = .ok tok.kind ∧ w.value l = .ok tok.value
  | .node ak cs, n => ∃ alts a b ns, w.alts n = .ok alts ∧ a ∈ alts ∧
      w.content a = .ok (.branch b) ∧ w.action b = .ok ak ∧ w.branchNodes b = .ok ns ∧
      ReadsAll w cs ns
def ReadsAll (w : World T AK V) : List (DTree (Token T V) AK) → List Node → Prop
  | [], [] => True
  | c :: cs, n :: ns => Reads w c n ∧ ReadsAll w cs ns
  | _, _ => False
end
end

section
variable {T NT AK AV : Type}

/-- `u` begins some sentential form of the grammar. -/
def Grammar.Viable (g : Grammar T NT AK AV) (u : List T) : Prop :=
  ∃ δ, g.cfg.Derives [.nonterm g.startSymbol] (u.map .term ++ δ)

/-- After reading `w`, some production can be at two different positions: it was started at the same
point `u`, and both `d₁` and `d₂ ≠ d₁` of its elements derive the same rest of `w`.  (The added start
production `Start => s EOS` is at two positions if `w` is empty and `s` derives the empty string.) -/
def Grammar.Clash (g : Grammar T NT AK AV) (w : List T) : Prop :=
  (w = [] ∧ g.cfg.Generates g.startSymbol []) ∨
  ∃ u v A β δ d₁ d₂, w = u ++ v ∧
    g.cfg.Derives [.nonterm g.startSymbol] (u.map .term ++ .nonterm A :: δ) ∧ g.cfg.prod A β ∧
    d₁ < d₂ ∧ d₂ ≤ β.length ∧
    g.cfg.Derives (β.take d₁) (v.map .term) ∧ g.cfg.Derives (β.take d₂) (v.map .term)

/-- Wherever a production can be at work inside `w`, what its first `d` elements and the next one
derive together can be divided between them in only one way. -/
def Grammar.SplitsOnce (g : Grammar T NT AK AV) (w : List T) : Prop :=
  ∀ u x y x' y' A β δ d e, u ++ x ++ y <+: w → x ++ y = x' ++ y' →
    g.cfg.Derives [.nonterm g.startSymbol] (u.map .term ++ .nonterm A :: δ) → g.cfg.prod A β →
    β[d]? = some e →
    g.cfg.Derives (β.take d) (x.map .term) → g.cfg.Derives [e] (y.map .term) →
    g.cfg.Derives (β.take d) (x'.map .term) → g.cfg.Derives [e] (y'.map .term) → x = x'

/-- No word has two derivation trees. -/
def Grammar.Unambiguous (g : Grammar T NT AK AV) : Prop :=
  ∀ t t' : DTree T (Prod T NT AK AV), IsTree g id (.nonterm g.startSymbol) t →
    IsTree g id (.nonterm g.startSymbol) t' → t.yield = t'.yield → t = t'

/-- Every sentential form derives some word: there are no nonterminals that derive nothing. -/
def Grammar.NoDeadEnds (g : Grammar T NT AK AV) : Prop :=
  ∀ γ, g.cfg.Derives [.nonterm g.startSymbol] γ → ∃ w : List T, g.cfg.Derives γ (w.map .term)

/-- The kinds of the tokens. -/
def kinds {T V : Type} (toks : List (Token T V)) : List T := toks.map (·.kind)
end
end Bongo
