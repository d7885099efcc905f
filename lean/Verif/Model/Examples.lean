import Verif.Model.Pretty
import Verif.Model.Earley
/-!
# src/grammar/examples.rs and the programs in examples/

The grammars the crate ships as examples, and what the two example programs do with theirs (their
output is not modelled).
-/
namespace Bongo

/-- `build(..).unwrap()` (std `Result::unwrap` at src/grammar/examples.rs:48, 80, 114, 148 and
examples/simple_earley.rs:38, 40, examples/ambiguous_earley.rs:24, 26). -/
def unwrapBuilt {ε α : Type} : Res (Except ε α) → Res α
  | .ok (.ok g) => .ok g
  | .ok (.error _) => .panic .unwrap
  | .panic w => .panic w
  | .oof => .oof

/-- The grammars of src/grammar/examples.rs:20-149, `Grammar<Terminal, NonTerminal, Name, ()>`. -/
abbrev NamedGrammar := Grammar Terminal NonTerminal Name Unit

/-- src/grammar/examples.rs:20-49 `make_simple`. -/
def makeSimple (fuel : Nat) : Res NamedGrammar :=
  unwrapBuilt (buildGrammar fuel ⟨"start"⟩
    [⟨⟨"start"⟩, [.addProd "a_prod" () [.addNamedNonterm "value" ⟨"a"⟩],
      .addProd "b_prod" () [.addNamedNonterm "value" ⟨"b"⟩]]⟩,
     ⟨⟨"a"⟩, [.addProd "a_term_prod" () [.addTerm ⟨"A"⟩]]⟩,
     ⟨⟨"b"⟩, [.addProd "b_term_prod" () [.addTerm ⟨"B"⟩]]⟩])

/-- src/grammar/examples.rs:51-81 `make_simple_nullable`. -/
def makeSimpleNullable (fuel : Nat) : Res NamedGrammar :=
  unwrapBuilt (buildGrammar fuel ⟨"start"⟩
    [⟨⟨"start"⟩, [.addProd "start" () [.addNamedNonterm "value" ⟨"c"⟩]]⟩,
     ⟨⟨"a"⟩, [.addProd "a_value" () []]⟩,
     ⟨⟨"b"⟩, [.addProd "b_value" () []]⟩,
     ⟨⟨"c"⟩, [.addProd "c_value" () [.addNamedNonterm "left" ⟨"a"⟩, .addNamedNonterm "right" ⟨"b"⟩]]⟩])

/-- src/grammar/examples.rs:83-115 `make_paren`. -/
def makeParen (fuel : Nat) : Res NamedGrammar :=
  unwrapBuilt (buildGrammar fuel ⟨"start"⟩
    [⟨⟨"start"⟩, [.addProd "start" () [.addNamedNonterm "expr" ⟨"expr"⟩]]⟩,
     ⟨⟨"expr"⟩, [.addProd "paren_expr" () [.addTerm ⟨"LPAREN"⟩, .addNamedNonterm "contents" ⟨"expr_list"⟩,
       .addTerm ⟨"RPAREN"⟩]]⟩,
     ⟨⟨"expr_list"⟩, [.addProd "empty" () [],
       .addProd "elem" () [.addNamedNonterm "left" ⟨"expr"⟩, .addNamedNonterm "right" ⟨"expr_list"⟩]]⟩])

/-- src/grammar/examples.rs:117-149 `make_ambiguous_nullable`. -/
def makeAmbiguousNullable (fuel : Nat) : Res NamedGrammar :=
  unwrapBuilt (buildGrammar fuel ⟨"start"⟩
    [⟨⟨"start"⟩, [.addProd "start" () [.addNamedNonterm "value" ⟨"c"⟩]]⟩,
     ⟨⟨"a"⟩, [.addProd "a_value" () []]⟩,
     ⟨⟨"b"⟩, [.addProd "b_value" () []]⟩,
     ⟨⟨"c"⟩, [.addProd "c_left" () [.addNamedNonterm "value" ⟨"a"⟩],
       .addProd "c_right" () [.addNamedNonterm "value" ⟨"b"⟩]]⟩])

/-- The grammar of examples/simple_earley.rs:10-38. -/
def simpleEarleyGrammar (fuel : Nat) : Res NamedGrammar :=
  unwrapBuilt (buildGrammar fuel ⟨"a"⟩
    [⟨⟨"a"⟩, [.addProdWithElems "value" () [⟨some "val", .term ⟨"VALUE"⟩⟩],
      .addProdWithElems "parens" () [⟨none, .term ⟨"LPAREN"⟩⟩, ⟨some "contents", .nonterm ⟨"a"⟩⟩,
        ⟨none, .term ⟨"RPAREN"⟩⟩]]⟩])

/-- The grammar of examples/ambiguous_earley.rs:10-24. -/
def ambiguousEarleyGrammar (fuel : Nat) : Res NamedGrammar :=
  unwrapBuilt (buildGrammar fuel ⟨"A"⟩
    [⟨⟨"A"⟩, [.addProdWithElems "a_empty" () [],
      .addProdWithElems "a_recurse" () [⟨some "recurse", .nonterm ⟨"A"⟩⟩]]⟩])

/-- What both programs do with their grammar: wrap it, unwrap the result, parse into a new tree, and
unwrap the answer (examples/simple_earley.rs:40-55, examples/ambiguous_earley.rs:26-32). -/
def parseExample {V : Type} [Ord V] (fuel : Nat) (addr : StartNonTerminal NonTerminal → Nat → Nat)
    (grammar : Res NamedGrammar) (toks : List (Token Terminal V)) : Res (World Terminal Name V × Node) :=
  match grammar with
  | .ok g =>
    match unwrapBuilt (wrapGrammarWithStart fuel g) with
    | .ok wg =>
      match parse addr wg fuel World.new 0 toks with
      | .ok (w, some n) => .ok (w, n)
      | .ok (_, none) => .panic .unwrap
      | .panic p => .panic p
      | .oof => .oof
    | .panic p => .panic p
    | .oof => .oof
  | .panic p => .panic p
  | .oof => .oof

/-- examples/simple_earley.rs:9-58 `main`, up to the printing. -/
def simpleEarleyMain (fuel : Nat) (addr : StartNonTerminal NonTerminal → Nat → Nat) :
    Res (World Terminal Name String × Node) :=
  parseExample fuel addr (simpleEarleyGrammar fuel)
    [⟨⟨"LPAREN"⟩, "("⟩, ⟨⟨"VALUE"⟩, "Hello!"⟩, ⟨⟨"RPAREN"⟩, ")"⟩]

/-- `impl Ord for ()` (std), used at examples/ambiguous_earley.rs:30. -/
instance : Ord Unit := ⟨fun _ _ => .eq⟩

/-- examples/ambiguous_earley.rs:9-35 `main`, up to the printing. -/
def ambiguousEarleyMain (fuel : Nat) (addr : StartNonTerminal NonTerminal → Nat → Nat) :
    Res (World Terminal Name Unit × Node) := parseExample fuel addr (ambiguousEarleyGrammar fuel) []
end Bongo
