import Mathlib.Data.List.Forall2
import Mathlib.Logic.Relation
import Verif.Spec.Forest
/-!
# Specification: forests of the same shape

Two forests are compared through the public operations on nodes only: what `alts` lists and what
`content`, `kind`, `value`, `action` and `nodes` say of it.
-/
namespace Bongo
section
variable {T AK V : Type} [Ord T] [Ord AK] [Ord V]

/-- The two alternatives say the same, if the nodes `R` relates are taken for the same: both are leaves
with the same kind and value, or both are branches with the same action and related nodes. -/
def SameAlt (R : Node → Node → Prop) (w₁ : World T AK V) (a₁ : Alternative) (w₂ : World T AK V)
    (a₂ : Alternative) : Prop :=
  (∃ l₁ l₂ k v, w₁.content a₁ = .ok (.leaf l₁) ∧ w₂.content a₂ = .ok (.leaf l₂) ∧
    w₁.kind l₁ = .ok k ∧ w₂.kind l₂ = .ok k ∧ w₁.value l₁ = .ok v ∧ w₂.value l₂ = .ok v) ∨
  ∃ b₁ b₂ ak ns₁ ns₂, w₁.content a₁ = .ok (.branch b₁) ∧ w₂.content a₂ = .ok (.branch b₂) ∧
    w₁.action b₁ = .ok ak ∧ w₂.action b₂ = .ok ak ∧
    w₁.branchNodes b₁ = .ok ns₁ ∧ w₂.branchNodes b₂ = .ok ns₂ ∧ List.Forall₂ R ns₁ ns₂

/-- `R` pairs nodes of the one state with nodes of the other, one to one, and the alternatives of the
two nodes of a pair say the same, one for one, in some order. -/
structure SameForest (R : Node → Node → Prop) (w₁ w₂ : World T AK V) : Prop where
  right : ∀ n m m', R n m → R n m' → m = m'
  left : ∀ n n' m, R n m → R n' m → n = n'
  alts : ∀ n₁ n₂, R n₁ n₂ → ∃ as₁ as₂ as, w₁.alts n₁ = .ok as₁ ∧ w₂.alts n₂ = .ok as₂ ∧
    as.Perm as₂ ∧ List.Forall₂ (fun a b => SameAlt R w₁ a w₂ b) as₁ as

/-- The pairs of nodes and of alternatives that `to_dot` draws: nodes `R` relates, and alternatives that
say the same. -/
def SameDot (R : Node → Node → Prop) (w₁ : World T AK V) (t₁ : Nat) (w₂ : World T AK V) (t₂ : Nat) :
    DotNode → DotNode → Prop
  | .node i, .node j => R ⟨i, t₁⟩ ⟨j, t₂⟩
  | .alt a, .alt b => SameAlt R w₁ ⟨a, t₁⟩ w₂ ⟨b, t₂⟩
  | _, _ => False

/-- The node is the given one or lies below it. -/
inductive Under (w : World T AK V) : Node → Node → Prop where
  | self (n : Node) : Under w n n
  | step {n m k : Node} {as : List Alternative} {a : Alternative} {b : Branch} {ns : List Node} :
      w.alts n = .ok as → a ∈ as → w.content a = .ok (.branch b) → w.branchNodes b = .ok ns → m ∈ ns →
      Under w m k → Under w n k
end
end Bongo
