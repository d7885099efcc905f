import Verif.Model.State
/-!
# src/grammar/base/cmp_wrappers.rs, and comparing rules and productions

References into grammars.  An object in memory has an address (a number); a reference is compared by
it.  Several grammars may be alive at once: `Placed` is one of them, with the addresses of itself, of
its rules and of its productions.
-/
namespace Bongo
set_option linter.unusedSectionVars false
variable {T NT AK AV : Type}

/-- src/grammar/base/cmp_wrappers.rs:3-5 `ref_eq`, on addresses. -/
def refEq (a b : Nat) : Bool := a == b

/-- src/grammar/base/cmp_wrappers.rs:7-9 `ref_cmp`, on addresses. -/
def refCmp (a b : Nat) : Ordering := compare a b

/-- src/grammar/base/cmp_wrappers.rs:16 `struct ParentRef`: the address it holds. -/
structure ParentRef where
  addr : Nat
  deriving DecidableEq, Repr

/-- src/grammar/base/cmp_wrappers.rs:24-29 `PartialEq for ParentRef`. -/
def ParentRef.eq (a b : ParentRef) : Res Bool :=
  if refEq a.addr b.addr then .ok true else .panic .otherGrammar

/-- src/grammar/base/cmp_wrappers.rs:39-44 `Ord for ParentRef` (and `PartialOrd`, 33-37). -/
def ParentRef.cmp (a b : ParentRef) : Res Ordering :=
  if refEq a.addr b.addr then .ok .eq else .panic .otherGrammar

/-- src/grammar/base/cmp_wrappers.rs:64 `struct NoCompare`. -/
structure NoCompare (α : Type) where
  value : α

/-- src/grammar/base/cmp_wrappers.rs:72-76 `PartialEq for NoCompare`. -/
def NoCompare.eq {α : Type} (_ _ : NoCompare α) : Bool := true

/-- src/grammar/base/cmp_wrappers.rs:86-90 `Ord for NoCompare` (and `PartialOrd`, 80-84). -/
def NoCompare.cmp {α : Type} (_ _ : NoCompare α) : Ordering := .eq

/-- src/grammar/base/cmp_wrappers.rs:102 `struct RefCompare`: the address it holds. -/
structure RefCompare where
  addr : Nat
  deriving DecidableEq, Repr

/-- src/grammar/base/cmp_wrappers.rs:110-114 `PartialEq for RefCompare`. -/
def RefCompare.eq (a b : RefCompare) : Bool := refEq a.addr b.addr

/-- src/grammar/base/cmp_wrappers.rs:124-128 `Ord for RefCompare` (and `PartialOrd`, 118-122). -/
def RefCompare.cmp (a b : RefCompare) : Ordering := refCmp a.addr b.addr

/-- A grammar in memory: its contents, its address, and the addresses of the rules and productions it
owns (src/grammar/base.rs:324-327: a `BTreeMap` of `RuleInner`s, each with a `Vec` of
`ProdInner`s). -/
structure Placed (T NT AK AV : Type) where
  grammar : Grammar T NT AK AV
  base : Nat
  ruleAddr : NT → Nat
  prodAddr : NT → Nat → Nat

/-- src/grammar/base.rs:573-576 `struct Rule`; the fields as the object it refers to. -/
structure RuleRef (T NT AK AV : Type) where
  home : Placed T NT AK AV
  rule : RuleInner T NT AK AV

namespace RuleRef
/-- The field `grammar` of src/grammar/base.rs:574. -/
def grammarRef (r : RuleRef T NT AK AV) : ParentRef := ⟨r.home.base⟩
/-- The field `rule` of src/grammar/base.rs:575. -/
def ruleRef (r : RuleRef T NT AK AV) : RefCompare := ⟨r.home.ruleAddr r.rule.head⟩

/-- src/grammar/base.rs:568 `PartialEq` derived for `Rule`: field by field. -/
def eq (a b : RuleRef T NT AK AV) : Res Bool :=
  (ParentRef.eq a.grammarRef b.grammarRef).bind fun c =>
    if c then .ok (RefCompare.eq a.ruleRef b.ruleRef) else .ok false

/-- src/grammar/base.rs:570-571 `PartialOrd`, `Ord` derived for `Rule`: field by field. -/
def cmp (a b : RuleRef T NT AK AV) : Res Ordering :=
  (ParentRef.cmp a.grammarRef b.grammarRef).bind fun c =>
    if c = .eq then .ok (RefCompare.cmp a.ruleRef b.ruleRef) else .ok c
end RuleRef

/-- src/grammar/base.rs:632-636 `struct Prod`, with the grammar it is a production of (`Prod` of
`Verif.Model.Grammar` is the same within one grammar). -/
structure ProdRef (T NT AK AV : Type) where
  home : Placed T NT AK AV
  prod : Prod T NT AK AV

namespace ProdRef
/-- The field `prod` of src/grammar/base.rs:635. -/
def prodRef (p : ProdRef T NT AK AV) : RefCompare := ⟨p.home.prodAddr p.prod.head p.prod.index⟩

/-- src/grammar/base.rs:656-663 `PartialEq for Prod`: the grammar is not looked at. -/
def eq (a b : ProdRef T NT AK AV) : Bool := RefCompare.eq a.prodRef b.prodRef

/-- src/grammar/base.rs:638-645 `Ord for Prod` (and `PartialOrd`, 647-654). -/
def cmp (a b : ProdRef T NT AK AV) : Ordering := RefCompare.cmp a.prodRef b.prodRef
end ProdRef

/-- src/grammar/base.rs:367-372 `Grammar::rules` of a placed grammar. -/
def Placed.rules (g : Placed T NT AK AV) : List (RuleRef T NT AK AV) :=
  g.grammar.rules.map fun r => ⟨g, r⟩

/-- src/grammar/base.rs:375-377 `Grammar::prods` of a placed grammar. -/
def Placed.prods (g : Placed T NT AK AV) : List (ProdRef T NT AK AV) :=
  g.grammar.prods.map fun p => ⟨g, p⟩

/-- src/grammar/base.rs:401-407 `Grammar::rule_set`: the rules by head.  (The `collect` meets the
heads in increasing order.) -/
def Placed.ruleSet (g : Placed T NT AK AV) : BMap NT (RuleRef T NT AK AV) :=
  g.grammar.ruleSet.map fun kr => (kr.1, ⟨g, kr.2⟩)

namespace ProdStateSet
/-- src/state.rs:155-162 `Ord for ProdStateSet` (and `PartialOrd`, 164-171): `BTreeSet`'s
lexicographic order of the states. -/
def cmp (addr : NT → Nat → Nat) (a b : ProdStateSet T NT AK AV) : Ordering :=
  List.compareLex (ProdState.cmp addr) a b

/-- src/state.rs:173-180 `PartialEq for ProdStateSet`: `BTreeSet`'s, which compares the lengths and
then the states with `==`. -/
def eq (addr : NT → Nat → Nat) (a b : ProdStateSet T NT AK AV) : Bool :=
  a.length == b.length && (a.zip b).all fun xy => ProdState.cmp addr xy.1 xy.2 == .eq
end ProdStateSet
end Bongo
