import Verif.Model.Res
/-!
# Specification: what a user's function was asked

Independent of the model of the code: it mentions only the user's function.
-/
namespace Bongo
variable {A : Type u} {σ : Type v}

/-- A sequence of calls of the user's function `f`, begun in state `s₀`: it was asked about the
items `cs`, in that order, gave the answers `outs`, never panicked, and is now in state `s`.
Every item it was asked about is one of `start` or occurs in an earlier answer. -/
inductive Session (f : σ → A → σ × Res (List A)) (start : List A) (s₀ : σ) :
    List A → List (List A) → σ → Prop where
  | nil : Session f start s₀ [] [] s₀
  | call {cs outs s x s' out} : Session f start s₀ cs outs s → (x ∈ start ∨ x ∈ outs.flatten) →
      f s x = (s', .ok out) → Session f start s₀ (cs ++ [x]) (outs ++ [out]) s'

/-- A chain of calls of `apply`, begun in state `s₀` with `a`: each is on the answer of the one
before, and each answer so far differed from its argument.  Now `b` is next, in state `s`. -/
inductive Chain (apply : σ → A → σ × Res A) (a : A) (s₀ : σ) : A → σ → Prop where
  | nil : Chain apply a s₀ a s₀
  | call {b s c s'} : Chain apply a s₀ b s → apply s b = (s', .ok c) → c ≠ b → Chain apply a s₀ c s'

end Bongo
