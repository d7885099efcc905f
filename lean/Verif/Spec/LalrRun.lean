import Verif.Spec.Lalr
import Verif.Spec.Earley
/-!
# Specification: shifting tokens one after another in LALR states
-/
namespace Bongo
variable {T NT AK AV : Type}

/-- `ShiftRun addr g st w st'`: shifting the tokens `w` one after another, beginning in the state `st`, leads to
`st'`.  Every time any context on which passes were requested before may be used. -/
inductive ShiftRun [Ord T] [Ord NT] (addr : NT → Nat → Nat) (g : Grammar T NT AK AV) (st : ParseState T NT AK AV) :
    List T → ParseState T NT AK AV → Prop where
  | nil : ShiftRun addr g st [] st
  | snoc {w st₁ collect fuel passes passes' m t st₂} : ShiftRun addr g st w st₁ →
      CollectMapSpec (ProdState.cmp addr) collect → UsedContext fuel addr g passes →
      ParseState.shiftActions fuel collect addr g passes st₁ = .ok (passes', .ok m) → (t, st₂) ∈ m →
      ShiftRun addr g st (w ++ [t]) st₂

/-- The textbook LR(0) items that are reached from a kernel by reading terminals only: `ShiftItem g kernel w p i` says
that after reading `w` the production `p` may have been read up to position `i`. -/
inductive ShiftItem (g : Grammar T NT AK AV) (kernel : List (ProdState T NT AK AV × BSet T)) :
    List T → Prod T NT AK AV → Nat → Prop where
  | kernel {s la} : (s, la) ∈ kernel → ShiftItem g kernel [] s.prod s.index
  | shift {w p i t} : ShiftItem g kernel w p i → p.elements[i]? = some (.term t) →
      ShiftItem g kernel (w ++ [t]) p (i + 1)
  | expand {w p i B q} : ShiftItem g kernel w p i → p.elements[i]? = some (.nonterm B) → q ∈ g.prods → q.head = B →
      ShiftItem g kernel w q 0

/-- A kernel for the beginning of the input: productions of the start symbol, of which nothing is read. -/
def StartKernel (g : Grammar T NT AK AV) (kernel : List (ProdState T NT AK AV × BSet T)) : Prop :=
  ∀ e ∈ kernel, e.1.prod.head = g.startSymbol ∧ e.1.index = 0

/-- After no beginning of `w` can one production have been read up to two different positions. -/
def NoShiftClash (g : Grammar T NT AK AV) (kernel : List (ProdState T NT AK AV × BSet T)) (w : List T) : Prop :=
  ∀ u v, w = u ++ v → ∀ p i j, ShiftItem g kernel u p i → ShiftItem g kernel u p j → i = j
end Bongo
