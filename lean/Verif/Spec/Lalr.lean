import Verif.Model.Lalr
import Verif.Spec.Cfg
import Verif.Spec.Api
/-!
# Specification: LALR item sets

Items are production states (a production and a position in it).  Nothing here refers to how the
code computes a state.
-/
namespace Bongo
variable {T NT AK AV : Type}

/-- What every version of the standard library guarantees of collecting pairs into a `BTreeMap`:
keys strictly increase; every value is that of the last pair with an equal key, and its key is the
key of some pair with an equal key; no key is lost. -/
structure CollectMapSpec {K V : Type} (cmp : K → K → Ordering) (collect : List (K × V) → BMap K V) :
    Prop where
  sorted : ∀ l, BMap.Sorted cmp (collect l)
  key : ∀ l, ∀ e ∈ collect l, ∃ e' ∈ l, e'.1 = e.1
  value : ∀ l, ∀ e ∈ collect l, ∃ l₁ k l₂, l = l₁ ++ (k, e.2) :: l₂ ∧ cmp k e.1 = .eq ∧
    ∀ e' ∈ l₂, cmp e'.1 e.1 ≠ .eq
  all : ∀ l, ∀ e ∈ l, ∃ e' ∈ collect l, cmp e.1 e'.1 = .eq

/-- `t` can be the first terminal of a sentential form derived from `α`. -/
def Cfg.First {N : Type} (G : Cfg T N) (α : List (Elem T N)) (t : T) : Prop :=
  ∃ γ, G.Derives α (.term t :: γ)

/-- The textbook LR(1) closure of a set `K` of items with lookaheads: if `[A → α • B β, a]` is in
it, so is `[B → • γ, b]` for every production `B → γ` and every `b ∈ FIRST(β a)`. -/
inductive Lr1Closure (g : Grammar T NT AK AV) (K : ProdState T NT AK AV → T → Prop) :
    ProdState T NT AK AV → T → Prop where
  | kernel {s t} : K s t → Lr1Closure g K s t
  | expand {s a B q b} : Lr1Closure g K s a → s.prod.elements[s.index]? = some (.nonterm B) →
      q ∈ g.prods → q.head = B →
      (g.cfg.First (s.prod.elements.drop (s.index + 1)) b ∨
        (g.cfg.Derives (s.prod.elements.drop (s.index + 1)) [] ∧ b = a)) →
      Lr1Closure g K (ProdState.fromStart q) b

/-- In a state grown from `kernel` there is one item per production: the kernel's if it has one,
otherwise the one at the start of the production. -/
def KernelItem (kernel : List (ProdState T NT AK AV × BSet T)) (q : Prod T NT AK AV)
    (s : ProdState T NT AK AV) : Prop :=
  ((∃ la, (s, la) ∈ kernel) ∧ s.prod = q) ∨
    (s = ProdState.fromStart q ∧ ∀ e ∈ kernel, e.1.prod ≠ q)

/-- Exactly what a state built from `kernel` contains.  `LalrFact g kernel s none`: it has the item
`s`; `LalrFact g kernel s (some t)`: moreover with lookahead `t`.  The three ways to pass from an
item to the productions of the nonterminal `B` after its dot look at the single element after `B`:
a terminal, a nonterminal (its FIRST set), or the end (the lookaheads of the item itself). -/
inductive LalrFact (g : Grammar T NT AK AV) (kernel : List (ProdState T NT AK AV × BSet T)) :
    ProdState T NT AK AV → Option T → Prop where
  | item {s la} : (s, la) ∈ kernel → LalrFact g kernel s none
  | lookahead {s la t} : (s, la) ∈ kernel → t ∈ la → LalrFact g kernel s (some t)
  | present {s t} : LalrFact g kernel s (some t) → LalrFact g kernel s none
  | term {s B t q s'} : LalrFact g kernel s none →
      s.prod.elements[s.index]? = some (.nonterm B) →
      s.prod.elements[s.index + 1]? = some (.term t) →
      q ∈ g.prods → q.head = B → KernelItem kernel q s' → LalrFact g kernel s' (some t)
  | first {s B C t q s'} : LalrFact g kernel s none →
      s.prod.elements[s.index]? = some (.nonterm B) →
      s.prod.elements[s.index + 1]? = some (.nonterm C) → g.cfg.First [.nonterm C] t →
      q ∈ g.prods → q.head = B → KernelItem kernel q s' → LalrFact g kernel s' (some t)
  | last {s B t q s'} : LalrFact g kernel s (some t) →
      s.prod.elements[s.index]? = some (.nonterm B) →
      s.prod.elements[s.index + 1]? = none →
      q ∈ g.prods → q.head = B → KernelItem kernel q s' → LalrFact g kernel s' (some t)

namespace ParseState
/-- The state has the item `s`, and (for `some t`) lists `t` among its lookaheads. -/
def Has (st : ParseState T NT AK AV) (s : ProdState T NT AK AV) (o : Option T) : Prop :=
  ∃ la, (s, la) ∈ st.prods ∧ ∀ t, o = some t → t ∈ la
end ParseState

/-- A kernel is a list of items of the grammar, at most one for each production, with sets of
lookaheads. -/
structure Kernel [Ord T] (g : Grammar T NT AK AV) (items : List (ProdState T NT AK AV × BSet T)) : Prop where
  prods : ∀ e ∈ items, e.1.prod ∈ g.prods
  distinct : items.Pairwise fun a b => a.1.prod ≠ b.1.prod
  sets : ∀ e ∈ items, BSet.Sorted compare e.2

/-- A context on which passes have been requested before (possibly none). -/
def UsedContext [Ord T] [Ord NT] (fuel : Nat) (addr : NT → Nat → Nat) (g : Grammar T NT AK AV)
    (passes : ParseState.Ctx T NT AK) : Prop :=
  ∃ ps, PassContext.getPasses fuel (cratePasses fuel addr g) .new ps = .ok passes

/-- The states a program can obtain: from a kernel, and from a state by shifting. -/
inductive ParseState.Obtained [Ord T] [Ord NT] (addr : NT → Nat → Nat) (g : Grammar T NT AK AV) :
    ParseState T NT AK AV → Prop where
  | new {collect fuel passes passes' items st} : CollectMapSpec (ProdState.cmp addr) collect →
      UsedContext fuel addr g passes → Kernel g items →
      ParseState.fromProdLookahead fuel collect addr g passes items = .ok (passes', .ok st) →
      Obtained addr g st
  | shift {collect fuel passes passes' st m t st'} : CollectMapSpec (ProdState.cmp addr) collect →
      UsedContext fuel addr g passes → Obtained addr g st →
      ParseState.shiftActions fuel collect addr g passes st = .ok (passes', .ok m) →
      (t, st') ∈ m → Obtained addr g st'

end Bongo
