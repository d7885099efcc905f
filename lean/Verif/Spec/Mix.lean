import Mathlib.Data.List.Forall2
import Verif.Spec.Earley
/-!
# Specification: trees with mixed and with loose children

`parse` merges what it has found about one production, element by element.  So the children of a node
of its forest are chosen independently of each other.
-/
namespace Bongo
section
variable {T NT AK AV V : Type} (g : Grammar T NT AK AV)

/-- The tree is put together for the element over the tokens like a derivation tree, but the children
of a node are chosen independently of each other: for each of them there is a division of the tokens
of the node among its elements, such that the child is over the tokens of its element. -/
inductive Mix : List (Token T V) → Elem T NT → DTree (Token T V) (Prod T NT AK AV) → Prop where
  | leaf (tok : Token T V) : Mix [tok] (.term tok.kind) (.leaf tok)
  | node (v : List (Token T V)) (p : Prod T NT AK AV) (cs : List (DTree (Token T V) (Prod T NT AK AV)))
      (before over after : Nat → List (Token T V)) :
      p ∈ g.prods → g.cfg.Derives p.elements ((kinds v).map .term) →
      cs.length = p.elements.length →
      (∀ (x : Nat) (e : Elem T NT), p.elements[x]? = some e → v = before x ++ over x ++ after x ∧
        g.cfg.Derives (p.elements.take x) ((kinds (before x)).map .term) ∧
        g.cfg.Derives [e] ((kinds (over x)).map .term) ∧
        g.cfg.Derives (p.elements.drop (x + 1)) ((kinds (after x)).map .term)) →
      (∀ (x : Nat) (e : Elem T NT) (c : DTree (Token T V) (Prod T NT AK AV)),
        p.elements[x]? = some e → cs[x]? = some c → Mix (over x) e c) →
      Mix v (.nonterm p.head) (.node p cs)

/-- The tree is put together for the element over the tokens `v`, which follow the first tokens `u` of
the input, like a derivation tree, but with less care: the children of a node are chosen independently
of each other, a child only has to begin where its element can, and only the last child has to end
where the node does. -/
inductive Loose (toks : List (Token T V)) : List (Token T V) → List (Token T V) → Elem T NT →
    DTree (Token T V) (Prod T NT AK AV) → Prop where
  | leaf (u : List (Token T V)) (tok : Token T V) : u ++ [tok] <+: toks →
      Loose toks u [tok] (.term tok.kind) (.leaf tok)
  | node (u v : List (Token T V)) (p : Prod T NT AK AV)
      (cs : List (DTree (Token T V) (Prod T NT AK AV))) (before over : Nat → List (Token T V)) :
      p ∈ g.prods → u ++ v <+: toks → g.cfg.Derives p.elements ((kinds v).map .term) →
      cs.length = p.elements.length →
      (∀ (x : Nat) (e : Elem T NT), p.elements[x]? = some e →
        g.cfg.Derives (p.elements.take x) ((kinds (before x)).map .term) ∧
        g.cfg.Derives [e] ((kinds (over x)).map .term) ∧
        (x + 1 = p.elements.length → before x ++ over x = v)) →
      (∀ (x : Nat) (e : Elem T NT) (c : DTree (Token T V) (Prod T NT AK AV)),
        p.elements[x]? = some e → cs[x]? = some c → Loose toks (u ++ before x) (over x) e c) →
      Loose toks u v (.nonterm p.head) (.node p cs)
end
/-- The second grammar differs from the first only in the order in which the productions of the rules
were added. -/
def Grammar.Reordered {T NT AK AV : Type} (g g' : Grammar T NT AK AV) : Prop :=
  g.startSymbol = g'.startSymbol ∧
    List.Forall₂ (fun r r' => r.head = r'.head ∧ r.prods.Perm r'.prods) g.rules g'.rules
end Bongo
