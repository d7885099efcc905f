import Verif.Spec.Dot
/-!
# Specification: things whose `Debug` panics
-/
namespace Bongo

/-- Printing the action, or the kind or the value, of an alternative panics: what `Debug` gives for it is `none`. -/
inductive DebugPanics {T AK V : Type} [Ord T] [Ord AK] [Ord V] (dbgT : T → Option String) (dbgAK : AK → Option String)
    (dbgV : V → Option String) (w : World T AK V) (t : Nat) : DotNode → Prop where
  | action {a : Nat} {b : Branch} {k : AK} : w.content ⟨a, t⟩ = .ok (.branch b) → w.action b = .ok k → dbgAK k = none →
      DebugPanics dbgT dbgAK dbgV w t (.alt a)
  | kind {a : Nat} {l : Leaf} {k : T} : w.content ⟨a, t⟩ = .ok (.leaf l) → w.kind l = .ok k → dbgT k = none →
      DebugPanics dbgT dbgAK dbgV w t (.alt a)
  | value {a : Nat} {l : Leaf} {v : V} : w.content ⟨a, t⟩ = .ok (.leaf l) → w.value l = .ok v → dbgV v = none →
      DebugPanics dbgT dbgAK dbgV w t (.alt a)
end Bongo
