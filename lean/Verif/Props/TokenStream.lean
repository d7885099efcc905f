import Verif.Model.TokenStream
/-!
# C53: token streams
-/
namespace Bongo
variable {K V : Type}

/-- Repeated `next` calls until `None`. -/
def VecTokenStream.drain : Nat → VecTokenStream K V → Res (List (Token K V))
  | 0, _ => .oof
  | fuel + 1, s =>
    match s.next with
    | .ok none => .ok []
    | .ok (some (t, s')) =>
      match drain fuel s' with
      | .ok l => .ok (t :: l)
      | .panic w => .panic w
      | .oof => .oof
    | .panic w => .panic w
    | .oof => .oof

/-- C53, what holds: an empty stream yields no token.  (The full statement is
`∀ l, ∃ fuel, (fromIntoIter l).drain fuel = .ok l`; it is false for every other stream, see
`token_stream_panics`.) -/
theorem token_stream_empty_partial (fuel : Nat) :
    (VecTokenStream.fromIntoIter ([] : List (Token K V))).drain (fuel + 1) = .ok [] := rfl

/-- C53 is false: the first `next` on any nonempty stream panics (the comparison on
src/parsers/mod.rs:61 is the wrong way round). -/
theorem token_stream_panics (l : List (Token K V)) (h : l ≠ []) :
    (VecTokenStream.fromIntoIter l).next = .panic .tokenStream ∧
    ∀ fuel, (VecTokenStream.fromIntoIter l).drain (fuel + 1) = .panic .tokenStream := by
  have h1 : (VecTokenStream.fromIntoIter l).next = .panic .tokenStream := by
    cases l with
    | nil => exact absurd rfl h
    | cons t l => simp [VecTokenStream.fromIntoIter, VecTokenStream.next]
  exact ⟨h1, fun fuel => by rw [VecTokenStream.drain, h1]⟩

/-- No stream a program can hold ever yields a token: the only stream value on which `next` could
return one has a position beyond the end, and then the index is out of bounds. -/
theorem token_stream_never_some (s : VecTokenStream K V) (r) : s.next ≠ .ok (some r) := by
  unfold VecTokenStream.next
  split
  · rename_i h
    rw [List.getElem?_eq_none (by omega)]
    simp
  · split <;> simp

/-- `next` with the comparison of src/parsers/mod.rs:61 the other way round (not the code in
/repo). -/
def VecTokenStream.nextRepaired (s : VecTokenStream K V) :
    Res (Option (Token K V × VecTokenStream K V)) :=
  if s.position < s.tokens.length then
    match s.tokens[s.position]? with
    | some t => .ok (some (t, ⟨s.tokens, s.position + 1⟩))
    | none => .panic .tokenIndex
  else if s.tokens.length = s.position then .ok none
  else .panic .tokenStream

/-- The streams that `n` calls to the repaired `next` lead to. -/
def VecTokenStream.takeRepaired : Nat → VecTokenStream K V →
    Res (List (Token K V) × VecTokenStream K V)
  | 0, s => .ok ([], s)
  | n + 1, s =>
    match s.nextRepaired with
    | .ok none => .ok ([], s)
    | .ok (some (t, s')) =>
      match takeRepaired n s' with
      | .ok (l, s'') => .ok (t :: l, s'')
      | .panic w => .panic w
      | .oof => .oof
    | .panic w => .panic w
    | .oof => .oof

/-- C53, what the comparison costs: it is all that is wrong.  Everything else about the stream is
right: with that one comparison turned round, `n` calls on the stream made from `l` return the first
`n` tokens of `l`, in order, and the stream they lead to returns the others. -/
theorem token_stream_repaired (l : List (Token K V)) (n m : Nat) :
    ∃ s, (VecTokenStream.fromIntoIter l).takeRepaired n = .ok (l.take n, s) ∧
      ∃ s', s.takeRepaired m = .ok ((l.drop n).take m, s') := by
  have key : ∀ (n i : Nat), i ≤ l.length →
      (⟨l, i⟩ : VecTokenStream K V).takeRepaired n =
        .ok ((l.drop i).take n, ⟨l, min l.length (i + n)⟩) := by
    intro n
    induction n with
    | zero => intro i hi; simp [VecTokenStream.takeRepaired, Nat.min_eq_right hi]
    | succ n ih =>
      intro i hi
      unfold VecTokenStream.takeRepaired VecTokenStream.nextRepaired
      by_cases h : i < l.length
      · simp only [h, ↓reduceIte, List.getElem?_eq_getElem]
        rw [ih (i + 1) (by omega), List.drop_eq_getElem_cons h]
        simp only [List.take_succ_cons]
        rw [show i + 1 + n = i + (n + 1) by omega]
      · have : l.length = i := by omega
        subst this
        simp
  refine ⟨⟨l, min l.length (0 + n)⟩, key n 0 (by omega),
    ⟨l, min l.length (min l.length (0 + n) + m)⟩, ?_⟩
  rw [key m _ (by omega)]
  by_cases h : n ≤ l.length
  · simp [Nat.min_eq_right h]
  · rw [Nat.zero_add, Nat.min_eq_left (by omega), List.drop_length,
      List.drop_eq_nil_of_le (show l.length ≤ n by omega)]

example : (VecTokenStream.fromIntoIter [(⟨1, "a"⟩ : Token Nat String), ⟨2, "b"⟩]).takeRepaired 5 =
    .ok ([⟨1, "a"⟩, ⟨2, "b"⟩], ⟨[⟨1, "a"⟩, ⟨2, "b"⟩], 2⟩) := rfl

example : (VecTokenStream.fromIntoIter [(⟨1, "a"⟩ : Token Nat String)]).next =
    .panic .tokenStream := rfl
end Bongo
