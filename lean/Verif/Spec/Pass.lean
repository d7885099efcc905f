import Verif.Model.Pass
import Mathlib.Logic.Relation
/-!
# Specification: what a pass means, without memoisation or cycle detection
-/
namespace Bongo
variable {P V E : Type} (prog : P → PassProg P V E)

/-- Running (the rest of) a pass body, evaluating every request from scratch, ends with `r`. -/
inductive Runs : PassProg P V E → Except E V → Prop where
  | ret (r) : Runs (.ret r) r
  | get {q k r r'} : Runs (prog q) r' → Runs (k r') r → Runs (.get q k) r

/-- Running pass `p` from scratch ends with `r`. -/
def Eval (p : P) (r : Except E V) : Prop := Runs prog (prog p) r

/-- The rest of a pass body requests `q` at some point, given that all its earlier requests end. -/
inductive Reaches : PassProg P V E → P → Prop where
  | here (q k) : Reaches (.get q k) q
  | later {q' k r' q} : Eval prog q' r' → Reaches (k r') q → Reaches (.get q' k) q

/-- While running, `p` requests `q`. -/
def Asks (p q : P) : Prop := Reaches prog (prog p) q

/-- `q` is named in some branch of the body. -/
inductive Names : PassProg P V E → P → Prop where
  | here (q k) : Names (.get q k) q
  | later {q' k r' q} : Names (k r') q → Names (.get q' k) q

namespace PassProg
/-- The body's own loops end. -/
def NoStuck : PassProg P V E → Prop
  | .stuck => False
  | .get _ k => ∀ r, NoStuck (k r)
  | _ => True
/-- The body itself never panics. -/
def NoFail : PassProg P V E → Prop
  | .fail _ => False
  | .get _ k => ∀ r, NoFail (k r)
  | _ => True
/-- Errors of requested passes are passed on at once (`?`). -/
def Strict : PassProg P V E → Prop
  | .get _ k => (∀ e, ∃ e', k (.error e) = .ret (.error e')) ∧ ∀ r, Strict (k r)
  | _ => True
end PassProg
end Bongo
