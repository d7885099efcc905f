import Verif.Props.Examples
import Verif.Props.Nullable
import Verif.Props.Buffer
import Verif.Model.Pass
/-!
# The crate's own unit tests, run on the model

Not proofs of properties, but evidence that the model says what the Rust does: each `#[test]` of the
crate is transcribed as an `example` about the model, and holds of it.  (`test_grammar_nullable`,
src/lib.rs:107-111, only prints a grammar and asserts nothing.)
-/
namespace Bongo

/-- A memory layout for the test grammars. -/
def testAddr (A : NonTerminal) (i : Nat) : Nat :=
  100 * (A.name.toList.map Char.toNat).sum + i

/-- A memory layout for the wrapped test grammars. -/
def testSAddr : StartNonTerminal NonTerminal → Nat → Nat
  | .start, i => 1000 + i
  | .nterm A, i => testAddr A i

/-- src/lib.rs:37-50 `base_grammar`. -/
def libBaseGrammar (fuel : Nat) : Res NamedGrammar :=
  unwrapBuilt (buildGrammar fuel ⟨"x"⟩
    [⟨⟨"x"⟩, [.addProd "Recursive" () [.addTerm ⟨"A"⟩, .addNonterm ⟨"x"⟩, .addTerm ⟨"A"⟩],
      .addProd "Empty" () []]⟩])

/-- src/lib.rs:76-80, the closure `add_binop`. -/
def libBinop (name : String) (op : Terminal) : RuleOp Terminal NonTerminal Name Unit :=
  .addProd name () [.addNonterm ⟨"expr"⟩, .addTerm op, .addNonterm ⟨"expr"⟩]

/-- src/lib.rs:52-87 `create_arithmetic_grammar`. -/
def libArithmeticGrammar (fuel : Nat) : Res NamedGrammar :=
  unwrapBuilt (buildGrammar fuel ⟨"expr"⟩
    [⟨⟨"expr"⟩, [.addProd "Number" () [.addTerm ⟨"num"⟩],
      .addProd "Paren" () [.addTerm ⟨"("⟩, .addNonterm ⟨"expr"⟩, .addTerm ⟨")"⟩],
      libBinop "Add" ⟨"+"⟩, libBinop "Sub" ⟨"-"⟩, libBinop "Mul" ⟨"*"⟩, libBinop "Div" ⟨"/"⟩]⟩])

/-! ## src/grammar/passes/nullable/nullables.rs -/

/-- src/grammar/passes/nullable/nullables.rs:265-269 `test_simple_grammar`. -/
example : ∃ g sg info, makeSimple 20 = .ok g ∧ unwrapBuilt (wrapGrammarWithStart 20 g) = .ok sg ∧
    calculateNullables 20 testSAddr sg = .ok (.ok info) ∧ info.getNullableSet = [] :=
  ⟨_, _, _, rfl, rfl, rfl, rfl⟩

/-- src/grammar/passes/nullable/nullables.rs:272-280 `test_simple_nullable_grammar`. -/
example : ∃ g info, makeSimpleNullable 20 = .ok g ∧ calculateNullables 20 testAddr g = .ok (.ok info) ∧
    (⟨"start"⟩ : NonTerminal) ∈ info.getNullableSet ∧ (⟨"a"⟩ : NonTerminal) ∈ info.getNullableSet ∧
    (⟨"b"⟩ : NonTerminal) ∈ info.getNullableSet ∧ (⟨"c"⟩ : NonTerminal) ∈ info.getNullableSet :=
  ⟨_, _, rfl, rfl, by decide, by decide, by decide, by decide⟩

/-- src/grammar/passes/nullable/nullables.rs:283-295 `test_paren_grammar`. -/
example : ∃ g info, makeParen 20 = .ok g ∧ calculateNullables 20 testAddr g = .ok (.ok info) ∧
    (info.getNullableAction ⟨"expr_list"⟩).isSome ∧ (info.getNullableAction ⟨"expr"⟩).isNone ∧
    (info.getNullableAction ⟨"start"⟩).isNone :=
  ⟨_, _, rfl, rfl, by decide, by decide, by decide⟩

/-- src/grammar/passes/nullable/nullables.rs:298-302 `test_ambiguous_nullable_grammar`. -/
example : ∃ g, makeAmbiguousNullable 20 = .ok g ∧
    calculateNullables 20 testAddr g = .ok (.error .ambiguity) := ⟨_, rfl, rfl⟩

/-! ## src/grammar/passes/nullable.rs: the same through `get_pass` -/

/-- src/grammar/passes/nullable.rs:55-60 `test_simple_grammar`. -/
example : ∃ g sg σ info, makeSimple 20 = .ok g ∧ unwrapBuilt (wrapGrammarWithStart 20 g) = .ok sg ∧
    PassContext.getPass 20 (cratePasses 20 testSAddr sg) .new .nullable =
      .ok (σ, .ok (.nullable info)) ∧ info.getNullableSet = [] :=
  ⟨_, _, _, _, rfl, rfl, rfl, rfl⟩

/-- src/grammar/passes/nullable.rs:63-71 `test_simple_nullable_grammar`. -/
example : ∃ g σ info, makeSimpleNullable 20 = .ok g ∧
    PassContext.getPass 20 (cratePasses 20 testAddr g) .new .nullable = .ok (σ, .ok (.nullable info)) ∧
    info.isNullable ⟨"start"⟩ ∧ info.isNullable ⟨"a"⟩ ∧ info.isNullable ⟨"b"⟩ ∧ info.isNullable ⟨"c"⟩ :=
  ⟨_, _, _, rfl, rfl, by decide, by decide, by decide, by decide⟩

/-- src/grammar/passes/nullable.rs:74-79 `test_paren_grammar`. -/
example : ∃ g σ info, makeParen 20 = .ok g ∧
    PassContext.getPass 20 (cratePasses 20 testAddr g) .new .nullable = .ok (σ, .ok (.nullable info)) ∧
    info.isNullable ⟨"expr_list"⟩ := ⟨_, _, _, rfl, rfl, by decide⟩

/-! ## src/lib.rs -/

/-- src/lib.rs:90-95 `test_arithemtic_grammar`. -/
example : ∃ g σ info, libArithmeticGrammar 20 = .ok g ∧
    PassContext.getPass 20 (cratePasses 20 testAddr g) .new .nullable = .ok (σ, .ok (.nullable info)) ∧
    info.isNullable g.startSymbol = false := ⟨_, _, _, rfl, rfl, by decide⟩

/-- src/lib.rs:98-105 `test_grammar_print`. -/
example : ∃ g σ info, libBaseGrammar 20 = .ok g ∧
    PassContext.getPass 20 (cratePasses 20 testAddr g) .new .nullable = .ok (σ, .ok (.nullable info)) ∧
    info.isNullable ⟨"x"⟩ := ⟨_, _, _, rfl, rfl, by decide⟩

/-! ## src/utils/buffer.rs -/

/-- src/utils/buffer.rs:286-291 `test_simple_read_char`. -/
example : ∃ next, (BufferRange.new 0 "Hello\nWorld!\n".toList).readChar = .ok (some ('H', next)) ∧
    next.asStr = .ok "ello\nWorld!\n".toList := ⟨_, rfl, rfl⟩

/-- src/utils/buffer.rs:294-299 `test_simple_read_char_mut`. -/
example : ∃ range, (BufferRange.new 0 "Hello\nWorld!\n".toList).readCharMut = .ok (some 'H', range) ∧
    range.asStr = .ok "ello\nWorld!\n".toList := ⟨_, rfl, rfl⟩

/-- src/utils/buffer.rs:302-315 `test_unicode_read_char` and `test_unicode_read_char_mut` (which have
the same body). -/
example : (match (BufferRange.new 0 "あいうえお".toList).readChar with
    | .ok (some (ch, next)) => ch == 'あ' && next.asStr == .ok "いうえお".toList
    | _ => false) = true := by decide +kernel

/-- src/utils/buffer.rs:318-321 `test_empty_read_char`. -/
example : (BufferRange.new 0 "".toList).readChar = .ok none := rfl

/-- src/utils/buffer.rs:324-332 `test_simple_remove_suffix`. -/
example : ∃ c₁ c₂ c₃ r₁ r₂ r₃ p, let range := BufferRange.new 0 "Hello\nWorld!\n".toList
    range.readChar = .ok (some (c₁, r₁)) ∧ r₁.readChar = .ok (some (c₂, r₂)) ∧
    r₂.readChar = .ok (some (c₃, r₃)) ∧ range.removeSuffix r₃ = .ok p ∧ p.asStr = .ok "Hel".toList :=
  ⟨_, _, _, _, _, _, _, rfl, rfl, rfl, rfl, rfl⟩

/-- src/utils/buffer.rs:335-339 `test_simple_advance_n_mut`. -/
example : ∃ range, (BufferRange.new 0 "Hello\nWorld!\n".toList).advanceNMut 3 =
    .ok (some "Hel".toList, range) := ⟨_, rfl⟩

/-- src/utils/buffer.rs:342-350 `test_unicode_remove_suffix`. -/
example : ∃ c₁ c₂ c₃ r₁ r₂ r₃ p, let range := BufferRange.new 0 "あいうえお".toList
    range.readChar = .ok (some (c₁, r₁)) ∧ r₁.readChar = .ok (some (c₂, r₂)) ∧
    r₂.readChar = .ok (some (c₃, r₃)) ∧ range.removeSuffix r₃ = .ok p ∧ p.asStr = .ok "あいう".toList :=
  ⟨_, _, _, _, _, _, _, rfl, rfl, rfl, rfl, rfl⟩

/-- The graphemes of an ASCII text without control characters: its characters. -/
def asciiGraphemes (l : List Char) : List Nat := List.range l.length

/-- src/utils/buffer.rs:353-362 `test_simple_text_pos`. -/
example : let range := BufferRange.new 0 "Hello\nWorld!\n".toList
    range.startPos linearSearch asciiGraphemes = .ok ⟨0, 0, 0⟩ ∧
    range.endPos linearSearch asciiGraphemes = .ok ⟨2, 0, 13⟩ := by decide +kernel
end Bongo
