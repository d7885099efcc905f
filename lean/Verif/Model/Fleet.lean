import Verif.Model.EarleyProg
/-!
# Any number of parses and other threads sharing trees

Each parse is the sequence of calls of `Verif.Model.EarleyProg`; a step of the whole is one call of one
of them, a call of a user thread, or the start or the end of a parse.  One thread has the lock of a tree
at a time (src/parsers/tree.rs:253-267), so calls take effect one after the other.
-/
namespace Bongo
variable {T NT AK AV V : Type}

/-- The arguments of one call of `parse` (src/parsers/earley.rs:60-64), and where the productions of
its grammar live. -/
structure ParseJob (T NT AK AV V : Type) where
  addr : StartNonTerminal NT → Nat → Nat
  grammar : StartGrammar T NT AK AV
  tree : Nat
  fuel : Nat
  toks : List (Token T V)

/-- A parse in progress: what was asked, the memory and the time (its own calls so far) since then, and
what is left to do.  `began` and `steps` are records; no step reads them. -/
structure ParseThread (T NT AK AV V : Type) where
  job : ParseJob T NT AK AV V
  began : World T AK V
  steps : Nat
  prog : TreeProg T AK V (Option Node)

/-- The memory, the handles of the user threads, and the parses in progress, by thread. -/
structure Fleet (T NT AK AV V : Type) where
  world : World T AK V
  users : List Handle
  parses : Nat → Option (ParseThread T NT AK AV V)

/-- The thread `i` is now in the state `x`. -/
def Fleet.put (c : Fleet T NT AK AV V) (i : Nat) (x : Option (ParseThread T NT AK AV V)) :
    Nat → Option (ParseThread T NT AK AV V) := fun j => if j = i then x else c.parses j

variable [Ord T] [Ord NT] [Ord AK] [Ord V] [DecidableEq T] [DecidableEq NT]

/-- src/parsers/earley.rs:60-88 `parse`, as calls. -/
def ParseJob.prog (job : ParseJob T NT AK AV V) : TreeProg T AK V (Option Node) :=
  parseProg job.addr job.grammar job.tree job.fuel job.toks

/-- src/parsers/earley.rs:60-88 `parse`, with nobody else around. -/
def ParseJob.alone (job : ParseJob T NT AK AV V) (w : World T AK V) :
    Res (World T AK V × Option Node) :=
  parse job.addr job.grammar job.fuel w job.tree job.toks

/-- One step. -/
inductive FleetStep : Fleet T NT AK AV V → Fleet T NT AK AV V → Prop where
  /-- A thread without work begins a parse in a tree the users have a handle of
  (src/parsers/earley.rs:60-64). -/
  | start {c : Fleet T NT AK AV V} (i : Nat) (job : ParseJob T NT AK AV V) : c.parses i = none →
      (∃ h ∈ c.users, h.owner = job.tree) →
      FleetStep c ⟨c.world, c.users, c.put i (some ⟨job, c.world, 0, job.prog⟩)⟩
  /-- A parse makes its next call (src/parsers/tree.rs:276-561). -/
  | call {c : Fleet T NT AK AV V} {i : Nat} {x : ParseThread T NT AK AV V} {op : TreeOp T AK V}
      {k : TreeOut T AK V → TreeProg T AK V (Option Node)} {w' : World T AK V} {o : TreeOut T AK V} :
      c.parses i = some x → x.prog = .call op k → op.exec c.world = (w', .ok o) →
      FleetStep c ⟨w', c.users, c.put i (some ⟨x.job, x.began, x.steps + 1, k o⟩)⟩
  /-- The next call of a parse panics. -/
  | panic {c : Fleet T NT AK AV V} {i : Nat} {x : ParseThread T NT AK AV V} {op : TreeOp T AK V}
      {k : TreeOut T AK V → TreeProg T AK V (Option Node)} {w' : World T AK V} {p : Panic} :
      c.parses i = some x → x.prog = .call op k → op.exec c.world = (w', .panic p) →
      FleetStep c ⟨w', c.users, c.put i (some ⟨x.job, x.began, x.steps + 1, .panic p⟩)⟩
  /-- A parse returns: its thread is free, and the users have the node (src/parsers/earley.rs:86-87). -/
  | finish {c : Fleet T NT AK AV V} {i : Nat} {x : ParseThread T NT AK AV V} {r : Option Node} :
      c.parses i = some x → x.prog = .ret r →
      FleetStep c ⟨c.world, (r.map Handle.node).toList ++ c.users, c.put i none⟩
  /-- The thread of a parse is abandoned, wherever it is (killed, or after its panic). -/
  | abandon {c : Fleet T NT AK AV V} (i : Nat) : FleetStep c ⟨c.world, c.users, c.put i none⟩
  /-- A user thread makes a call with handles the users have (src/parsers/tree.rs:276-561). -/
  | user {c : Fleet T NT AK AV V} (op : TreeOp T AK V) : op.Allowed c.users →
      FleetStep c ⟨(op.exec c.world).1, TreeOut.gives (op.exec c.world).2 ++ c.users, c.parses⟩
  /-- A user thread creates a tree owner (src/parsers/tree.rs:190-217). -/
  | newOwner {c : Fleet T NT AK AV V} (t : Nat) : (∀ h ∈ c.users, h.owner ≠ t) →
      FleetStep c ⟨c.world, .tree t :: c.users, c.parses⟩

/-- The states that can be reached: at the start nothing exists (src/parsers/tree.rs:190-217: owners
are created with `new`). -/
inductive FleetReach : Fleet T NT AK AV V → Prop where
  | start : FleetReach ⟨World.new, [], fun _ => none⟩
  | step {c d : Fleet T NT AK AV V} : FleetReach c → FleetStep c d → FleetReach d
end Bongo
