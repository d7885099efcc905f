/-!
# Results of modelled Rust code

Not a file of /repo: the vocabulary in which the model of /repo is written.  A Rust function
that may panic or run a `loop` returns a `Res`:

* `ok a`     – it returned `a`;
* `panic w`  – it panicked at the site named by `w`;
* `oof`      – the fuel given to one of its loops ran out before it returned.

A function terminates on an input when some fuel makes it return something else than `oof`.
-/
namespace Bongo

/-- The panic sites of the modelled code, one constructor per site. -/
inductive Panic where
  /-- `.expect("An NT rule exists in the grammar.")`, src/grammar/base.rs:418-422. -/
  | noRule
  /-- `panic!("Unexpectedly empty nullable action!")`, src/grammar/passes/nullable/nullables.rs:166. -/
  | emptyNullable
  /-- `get_only` on a set that is not a singleton, nullables.rs:247-255. -/
  | getOnly
  /-- `nullable_action_map.get(..).unwrap()`, nullables.rs:185. -/
  | noNullableAction
  /-- `firsts.get(nt).unwrap()`, src/grammar/passes/follows.rs:44 and src/parsers/lalr.rs:94. -/
  | noFirsts
  /-- `panic!("Detected recursive loop in pass dependencies.")`, src/grammar/passes/mod.rs:96. -/
  | passRecursion
  /-- `.expect("existence already checked")` / `.expect("type already verified")`, passes/mod.rs:121-125. -/
  | passMissing
  /-- `.expect("The start rule should only have a single production.")`, src/start_grammar.rs:170. -/
  | startProd
  /-- `assert!(!new_state.is_empty())`, src/parsers/earley.rs:45. -/
  | emptyState
  /-- `assert_eq!(existing_nodes.len(), new_nodes.len())`, src/parsers/earley/state.rs:300. -/
  | lenMismatch
  /-- `assert_eq!(v.len(), 1)`, src/parsers/earley/state.rs:325. -/
  | finalLen
  /-- `as_base().unwrap()` on the start action key, src/parsers/earley/state.rs:202. -/
  | startActionKey
  /-- `prev_states[self.key.origin_index]` out of bounds, src/parsers/earley/state.rs:182. -/
  | badOrigin
  /-- `Inner::get_node`/`get_node_mut` on an invalid index, src/parsers/tree.rs:129-147. -/
  | badNode
  /-- `AltSet::get` on an invalid index, src/parsers/tree.rs:76-84. -/
  | badAlt
  /-- `assert!(..is_same(..))`, src/parsers/tree.rs:335,380,403. -/
  | otherTree
  /-- `.expect("Found branch where leaf expected.")` and its mirror, src/parsers/tree.rs:496,542. -/
  | wrongKind
  /-- `assert_eq!(self.tokens.len(), self.position)`, src/parsers/mod.rs:70. -/
  | tokenStream
  /-- out-of-bounds `self.tokens[self.position]`, src/parsers/mod.rs:63. -/
  | tokenIndex
  /-- the three asserts of `remove_suffix`, src/utils/buffer.rs:147-149. -/
  | removeSuffix
  /-- string slice not on a character boundary or out of range, src/utils/buffer.rs:93,130,137,223. -/
  | slice
  /-- `assert!(byte_offset <= self.0.text.len())`, index or subtraction failure, buffer.rs:207-229. -/
  | lineIndex
  /-- `downcast_ref::<..>().unwrap()`, src/utils/type_map.rs:37,116,125. -/
  | downcast
  /-- `.expect("curr must already exist in target.")`, src/utils.rs:380-382. -/
  | noCurr
  /-- `assert!(ref_eq(self.0, other.0))`, src/grammar/base/cmp_wrappers.rs:26,42. -/
  | otherGrammar
  /-- `.unwrap()` in the example programs, src/grammar/examples.rs:48 and examples/simple_earley.rs:38. -/
  | unwrap
  /-- "attempt to add with overflow", in builds with overflow checks; src/state.rs:90,115 and
  src/parsers/mod.rs:66. -/
  | overflow
  deriving DecidableEq, Repr

inductive Res (α : Type u) where
  | ok (a : α)
  | panic (why : Panic)
  | oof
  deriving DecidableEq, Repr

namespace Res

@[inline] protected def bind {α : Type u} {β : Type v} (x : Res α) (f : α → Res β) : Res β :=
  match x with
  | .ok a => f a
  | .panic w => .panic w
  | .oof => .oof

instance : Monad Res where
  pure := .ok
  bind := Res.bind

/-- `Option::unwrap`/`expect` at a panic site. -/
def expect {α : Type u} (w : Panic) : Option α → Res α
  | some a => .ok a
  | none => .panic w

/-- `assert!` at a panic site. -/
def assert (w : Panic) (b : Bool) : Res Unit := if b then .ok () else .panic w

@[simp] theorem pure_eq {α : Type u} (a : α) : (pure a : Res α) = .ok a := rfl
@[simp] theorem bind_ok {α β : Type u} (a : α) (f : α → Res β) : (Res.ok a >>= f) = f a := rfl
@[simp] theorem bind_panic {α β : Type u} (w) (f : α → Res β) :
    ((Res.panic w : Res α) >>= f) = .panic w := rfl
@[simp] theorem bind_oof {α β : Type u} (f : α → Res β) :
    ((Res.oof : Res α) >>= f) = .oof := rfl

theorem bind_eq_ok {α β : Type u} {x : Res α} {f : α → Res β} {b : β} :
    (x >>= f) = .ok b ↔ ∃ a, x = .ok a ∧ f a = .ok b := by
  cases x <;> simp

theorem bind_eq_panic {α β : Type u} {x : Res α} {f : α → Res β} {w} :
    (x >>= f) = .panic w ↔ x = .panic w ∨ ∃ a, x = .ok a ∧ f a = .panic w := by
  cases x <;> simp

theorem bind_eq_oof {α β : Type u} {x : Res α} {f : α → Res β} :
    (x >>= f) = .oof ↔ x = .oof ∨ ∃ a, x = .ok a ∧ f a = .oof := by
  cases x <;> simp

@[simp] theorem expect_some {α : Type u} (w) (a : α) : expect w (some a) = .ok a := rfl
@[simp] theorem expect_none {α : Type u} (w) : expect w (none : Option α) = .panic w := rfl
@[simp] theorem assert_true (w) : assert w true = .ok () := rfl
@[simp] theorem assert_false (w) : assert w false = .panic w := rfl

theorem assert_eq_ok {w} {b : Bool} {u} : assert w b = .ok u ↔ b = true := by
  cases b <;> simp [assert]

theorem expect_eq_ok {α : Type u} {w} {o : Option α} {a} : expect w o = .ok a ↔ o = some a := by
  cases o <;> simp [expect]

/-- The call panicked. -/
def Panics {α : Type u} (x : Res α) : Prop := ∃ w, x = .panic w

end Res
end Bongo
