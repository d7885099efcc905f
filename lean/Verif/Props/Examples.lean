import Verif.Model.Examples
import Verif.Props.Earley
import Verif.Props.Start
import Mathlib.Logic.Encodable.Basic
import Mathlib.Data.List.Basic
import Mathlib.Logic.Equiv.List
/-!
# C94: the grammars and programs the crate ships as examples
-/
set_option linter.unusedSectionVars false
namespace Bongo
open Std

/-! ## The grammars, written out -/

def lparen : Terminal := ⟨"LPAREN"⟩
def rparen : Terminal := ⟨"RPAREN"⟩
def valueTerm : Terminal := ⟨"VALUE"⟩

/-- What `make_simple` builds. -/
def simpleGrammar : NamedGrammar :=
  ⟨⟨"start"⟩, [(⟨"a"⟩, ⟨⟨"a"⟩, [⟨"a_term_prod", (), [⟨none, .term ⟨"A"⟩⟩]⟩]⟩),
    (⟨"b"⟩, ⟨⟨"b"⟩, [⟨"b_term_prod", (), [⟨none, .term ⟨"B"⟩⟩]⟩]⟩),
    (⟨"start"⟩, ⟨⟨"start"⟩, [⟨"a_prod", (), [⟨some "value", .nonterm ⟨"a"⟩⟩]⟩,
      ⟨"b_prod", (), [⟨some "value", .nonterm ⟨"b"⟩⟩]⟩]⟩)]⟩

/-- What `make_simple_nullable` builds. -/
def simpleNullableGrammar : NamedGrammar :=
  ⟨⟨"start"⟩, [(⟨"a"⟩, ⟨⟨"a"⟩, [⟨"a_value", (), []⟩]⟩), (⟨"b"⟩, ⟨⟨"b"⟩, [⟨"b_value", (), []⟩]⟩),
    (⟨"c"⟩, ⟨⟨"c"⟩, [⟨"c_value", (), [⟨some "left", .nonterm ⟨"a"⟩⟩, ⟨some "right", .nonterm ⟨"b"⟩⟩]⟩]⟩),
    (⟨"start"⟩, ⟨⟨"start"⟩, [⟨"start", (), [⟨some "value", .nonterm ⟨"c"⟩⟩]⟩]⟩)]⟩

/-- What `make_paren` builds. -/
def parenGrammar : NamedGrammar :=
  ⟨⟨"start"⟩, [(⟨"expr"⟩, ⟨⟨"expr"⟩, [⟨"paren_expr", (), [⟨none, .term lparen⟩,
      ⟨some "contents", .nonterm ⟨"expr_list"⟩⟩, ⟨none, .term rparen⟩]⟩]⟩),
    (⟨"expr_list"⟩, ⟨⟨"expr_list"⟩, [⟨"empty", (), []⟩,
      ⟨"elem", (), [⟨some "left", .nonterm ⟨"expr"⟩⟩, ⟨some "right", .nonterm ⟨"expr_list"⟩⟩]⟩]⟩),
    (⟨"start"⟩, ⟨⟨"start"⟩, [⟨"start", (), [⟨some "expr", .nonterm ⟨"expr"⟩⟩]⟩]⟩)]⟩

/-- What `make_ambiguous_nullable` builds. -/
def ambiguousNullableGrammar : NamedGrammar :=
  ⟨⟨"start"⟩, [(⟨"a"⟩, ⟨⟨"a"⟩, [⟨"a_value", (), []⟩]⟩), (⟨"b"⟩, ⟨⟨"b"⟩, [⟨"b_value", (), []⟩]⟩),
    (⟨"c"⟩, ⟨⟨"c"⟩, [⟨"c_left", (), [⟨some "value", .nonterm ⟨"a"⟩⟩]⟩,
      ⟨"c_right", (), [⟨some "value", .nonterm ⟨"b"⟩⟩]⟩]⟩),
    (⟨"start"⟩, ⟨⟨"start"⟩, [⟨"start", (), [⟨some "value", .nonterm ⟨"c"⟩⟩]⟩]⟩)]⟩

/-- The grammar of examples/simple_earley.rs. -/
def nestedGrammar : NamedGrammar :=
  ⟨⟨"a"⟩, [(⟨"a"⟩, ⟨⟨"a"⟩, [⟨"value", (), [⟨some "val", .term valueTerm⟩]⟩,
    ⟨"parens", (), [⟨none, .term lparen⟩, ⟨some "contents", .nonterm ⟨"a"⟩⟩, ⟨none, .term rparen⟩]⟩]⟩)]⟩

/-- The grammar of examples/ambiguous_earley.rs. -/
def loopGrammar : NamedGrammar :=
  ⟨⟨"A"⟩, [(⟨"A"⟩, ⟨⟨"A"⟩, [⟨"a_empty", (), []⟩, ⟨"a_recurse", (), [⟨some "recurse", .nonterm ⟨"A"⟩⟩]⟩]⟩)]⟩

/-- C94: none of the `unwrap`s of the example grammars panics, and each builds the grammar its source
reads as. -/
theorem example_grammars_build (fuel : Nat) :
    makeSimple (fuel + 10) = .ok simpleGrammar ∧
    makeSimpleNullable (fuel + 10) = .ok simpleNullableGrammar ∧
    makeParen (fuel + 10) = .ok parenGrammar ∧
    makeAmbiguousNullable (fuel + 10) = .ok ambiguousNullableGrammar ∧
    simpleEarleyGrammar (fuel + 10) = .ok nestedGrammar ∧
    ambiguousEarleyGrammar (fuel + 10) = .ok loopGrammar := by
  refine ⟨?_, ?_, ?_, ?_, ?_, ?_⟩ <;> rfl

/-! ## Orders of the symbols -/

section
variable {α β : Type} [Ord β] [TransOrd β] [LawfulEqOrd β]
theorem transCmp_on (f : α → β) : TransCmp (fun a b : α => compare (f a) (f b)) where
  eq_swap := OrientedCmp.eq_swap (cmp := compare (α := β))
  isLE_trans := TransCmp.isLE_trans (cmp := compare (α := β))
end
instance : TransOrd Terminal := transCmp_on Terminal.name
instance : TransOrd NonTerminal := transCmp_on NonTerminal.name
instance : LawfulEqOrd Terminal where
  compare_self := compare_self (α := String)
  eq_of_compare {a b} h := by
    cases a; cases b; congr; exact LawfulEqOrd.eq_of_compare (α := String) h
instance : LawfulEqOrd NonTerminal where
  compare_self := compare_self (α := String)
  eq_of_compare {a b} h := by
    cases a; cases b; congr; exact LawfulEqOrd.eq_of_compare (α := String) h
instance : TransOrd Unit where
  eq_swap := rfl
  isLE_trans := fun _ _ => rfl
instance : LawfulEqOrd Unit where
  compare_self := rfl
  eq_of_compare _ := rfl

/-! ## Accepted -/
theorem accepted_of_unwrap {g : NamedGrammar} {fuel : Nat} {start} {calls}
    (h : unwrapBuilt (buildGrammar fuel start calls) = .ok g) : g.Accepted := by
  refine ⟨fuel, start, calls, ?_⟩
  unfold unwrapBuilt at h
  split at h
  · next heq => rw [heq]; simpa using h
  all_goals cases h

theorem simpleGrammar_accepted : simpleGrammar.Accepted :=
  accepted_of_unwrap (example_grammars_build 0).1
theorem simpleNullableGrammar_accepted : simpleNullableGrammar.Accepted :=
  accepted_of_unwrap (example_grammars_build 0).2.1
theorem parenGrammar_accepted : parenGrammar.Accepted :=
  accepted_of_unwrap (example_grammars_build 0).2.2.1
theorem ambiguousNullableGrammar_accepted : ambiguousNullableGrammar.Accepted :=
  accepted_of_unwrap (example_grammars_build 0).2.2.2.1
theorem nestedGrammar_accepted : nestedGrammar.Accepted :=
  accepted_of_unwrap (example_grammars_build 0).2.2.2.2.1
theorem loopGrammar_accepted : loopGrammar.Accepted :=
  accepted_of_unwrap (example_grammars_build 0).2.2.2.2.2

/-! ## Productions -/
theorem simple_prod {A β} : simpleGrammar.cfg.prod A β ↔
    (A = ⟨"a"⟩ ∧ β = [.term ⟨"A"⟩]) ∨ (A = ⟨"b"⟩ ∧ β = [.term ⟨"B"⟩]) ∨
    (A = ⟨"start"⟩ ∧ (β = [.nonterm ⟨"a"⟩] ∨ β = [.nonterm ⟨"b"⟩])) := by
  simp [Grammar.cfg, simpleGrammar]
  constructor
  · rintro ⟨r, ⟨rfl, rfl⟩ | ⟨rfl, rfl⟩ | ⟨rfl, rfl⟩, h⟩ <;> simpa using h
  · rintro (⟨rfl, rfl⟩ | ⟨rfl, rfl⟩ | ⟨rfl, h⟩) <;> simp [*]

theorem simpleNullable_prod {A β} : simpleNullableGrammar.cfg.prod A β ↔
    (A = ⟨"a"⟩ ∧ β = []) ∨ (A = ⟨"b"⟩ ∧ β = []) ∨ (A = ⟨"c"⟩ ∧ β = [.nonterm ⟨"a"⟩, .nonterm ⟨"b"⟩]) ∨
    (A = ⟨"start"⟩ ∧ β = [.nonterm ⟨"c"⟩]) := by
  simp [Grammar.cfg, simpleNullableGrammar]
  constructor
  · rintro ⟨r, ⟨rfl, rfl⟩ | ⟨rfl, rfl⟩ | ⟨rfl, rfl⟩ | ⟨rfl, rfl⟩, h⟩ <;> simpa using h
  · rintro (⟨rfl, rfl⟩ | ⟨rfl, rfl⟩ | ⟨rfl, rfl⟩ | ⟨rfl, rfl⟩) <;> simp

theorem ambiguousNullable_prod {A β} : ambiguousNullableGrammar.cfg.prod A β ↔
    (A = ⟨"a"⟩ ∧ β = []) ∨ (A = ⟨"b"⟩ ∧ β = []) ∨
    (A = ⟨"c"⟩ ∧ (β = [.nonterm ⟨"a"⟩] ∨ β = [.nonterm ⟨"b"⟩])) ∨
    (A = ⟨"start"⟩ ∧ β = [.nonterm ⟨"c"⟩]) := by
  simp [Grammar.cfg, ambiguousNullableGrammar]
  constructor
  · rintro ⟨r, ⟨rfl, rfl⟩ | ⟨rfl, rfl⟩ | ⟨rfl, rfl⟩ | ⟨rfl, rfl⟩, h⟩ <;> simpa using h
  · rintro (⟨rfl, rfl⟩ | ⟨rfl, rfl⟩ | ⟨rfl, h⟩ | ⟨rfl, rfl⟩) <;> simp [*]

theorem paren_prod {A β} : parenGrammar.cfg.prod A β ↔
    (A = ⟨"expr"⟩ ∧ β = [.term lparen, .nonterm ⟨"expr_list"⟩, .term rparen]) ∨
    (A = ⟨"expr_list"⟩ ∧ (β = [] ∨ β = [.nonterm ⟨"expr"⟩, .nonterm ⟨"expr_list"⟩])) ∨
    (A = ⟨"start"⟩ ∧ β = [.nonterm ⟨"expr"⟩]) := by
  simp [Grammar.cfg, parenGrammar]
  constructor
  · rintro ⟨r, ⟨rfl, rfl⟩ | ⟨rfl, rfl⟩ | ⟨rfl, rfl⟩, h⟩ <;> simpa using h
  · rintro (⟨rfl, rfl⟩ | ⟨rfl, h⟩ | ⟨rfl, rfl⟩) <;> simp [*]

theorem nested_prod {A β} : nestedGrammar.cfg.prod A β ↔
    A = ⟨"a"⟩ ∧ (β = [.term valueTerm] ∨ β = [.term lparen, .nonterm ⟨"a"⟩, .term rparen]) := by
  simp [Grammar.cfg, nestedGrammar]

theorem loop_prod {A β} : loopGrammar.cfg.prod A β ↔ A = ⟨"A"⟩ ∧ (β = [] ∨ β = [.nonterm ⟨"A"⟩]) := by
  simp [Grammar.cfg, loopGrammar]

/-! ## Languages -/

namespace Cfg
variable {T N : Type} {G : Cfg T N}
/-- Words of a sequence of elements, if the nonterminals stand for the given languages. -/
def Sat (I : N → List T → Prop) : List (Elem T N) → List T → Prop
  | [], w => w = []
  | .term t :: s, w => ∃ w', w = t :: w' ∧ Sat I s w'
  | .nonterm A :: s, w => ∃ u v, w = u ++ v ∧ I A u ∧ Sat I s v

theorem Yields.sat {I : N → List T → Prop} (hI : ∀ A β w, G.prod A β → Sat I β w → I A w)
    {s : List (Elem T N)} {w : List T} (h : G.Yields s w) : Sat I s w := by
  induction h with
  | nil => rfl
  | term t _ ih => exact ⟨_, rfl, ih⟩
  | nonterm hp _ _ ih1 ih2 => exact ⟨_, _, rfl, hI _ _ _ hp ih1, ih2⟩

theorem generates_le {I : N → List T → Prop} (hI : ∀ A β w, G.prod A β → Sat I β w → I A w)
    {A : N} {w : List T} (h : G.Generates A w) : I A w := by
  obtain ⟨β, hp, hy⟩ := generates_iff.1 h
  exact hI _ _ _ hp (hy.sat hI)
end Cfg

/-- C94: the language of `make_simple`. -/
theorem simple_language (w : List Terminal) :
    simpleGrammar.cfg.InLanguage w ↔ w = [⟨"A"⟩] ∨ w = [⟨"B"⟩] := by
  have ga : simpleGrammar.cfg.Generates ⟨"a"⟩ [⟨"A"⟩] :=
    Cfg.derives_prod (simple_prod.2 (Or.inl ⟨rfl, rfl⟩))
  have gb : simpleGrammar.cfg.Generates ⟨"b"⟩ [⟨"B"⟩] :=
    Cfg.derives_prod (simple_prod.2 (Or.inr (Or.inl ⟨rfl, rfl⟩)))
  constructor
  · intro h
    have := Cfg.generates_le (I := fun A w => (A = ⟨"a"⟩ → w = [⟨"A"⟩]) ∧ (A = ⟨"b"⟩ → w = [⟨"B"⟩]) ∧
      (A = ⟨"start"⟩ → w = [⟨"A"⟩] ∨ w = [⟨"B"⟩])) ?_ h
    · exact this.2.2 rfl
    · intro A β w hp hs
      rcases simple_prod.1 hp with ⟨rfl, rfl⟩ | ⟨rfl, rfl⟩ | ⟨rfl, rfl | rfl⟩ <;>
        simp [Cfg.Sat] at hs ⊢ <;> simp [hs]
  · rintro (rfl | rfl)
    · exact (Cfg.derives_prod (simple_prod.2 (Or.inr (Or.inr ⟨rfl, Or.inl rfl⟩)))).trans ga
    · exact (Cfg.derives_prod (simple_prod.2 (Or.inr (Or.inr ⟨rfl, Or.inr rfl⟩)))).trans gb

/-- C94: the languages of the other examples without terminals: the empty word only. -/
theorem nullable_languages (w : List Terminal) :
    (simpleNullableGrammar.cfg.InLanguage w ↔ w = []) ∧
    (ambiguousNullableGrammar.cfg.InLanguage w ↔ w = []) ∧
    (loopGrammar.cfg.InLanguage w ↔ w = []) := by
  refine ⟨⟨?_, ?_⟩, ⟨?_, ?_⟩, ⟨?_, ?_⟩⟩
  · refine Cfg.generates_le (I := fun _ w => w = []) ?_
    intro A β w hp hs
    rcases simpleNullable_prod.1 hp with ⟨rfl, rfl⟩ | ⟨rfl, rfl⟩ | ⟨rfl, rfl⟩ | ⟨rfl, rfl⟩ <;>
      simp [Cfg.Sat] at hs ⊢ <;> simp [hs]
  · rintro rfl
    have ga := Cfg.derives_prod (simpleNullable_prod.2 (Or.inl ⟨rfl, rfl⟩))
    have gb := Cfg.derives_prod (simpleNullable_prod.2 (Or.inr (Or.inl ⟨rfl, rfl⟩)))
    have gc := Cfg.derives_prod (simpleNullable_prod.2 (Or.inr (Or.inr (Or.inl ⟨rfl, rfl⟩))))
    exact (Cfg.derives_prod (simpleNullable_prod.2 (Or.inr (Or.inr (Or.inr ⟨rfl, rfl⟩))))).trans
      (gc.trans (ga.append gb))
  · refine Cfg.generates_le (I := fun _ w => w = []) ?_
    intro A β w hp hs
    rcases ambiguousNullable_prod.1 hp with ⟨rfl, rfl⟩ | ⟨rfl, rfl⟩ | ⟨rfl, rfl | rfl⟩ | ⟨rfl, rfl⟩ <;>
      simp [Cfg.Sat] at hs ⊢ <;> simp [hs]
  · rintro rfl
    have ga := Cfg.derives_prod (ambiguousNullable_prod.2 (Or.inl ⟨rfl, rfl⟩))
    have gc := Cfg.derives_prod (ambiguousNullable_prod.2 (Or.inr (Or.inr (Or.inl ⟨rfl, Or.inl rfl⟩))))
    exact (Cfg.derives_prod (ambiguousNullable_prod.2 (Or.inr (Or.inr (Or.inr ⟨rfl, rfl⟩))))).trans
      (gc.trans ga)
  · refine Cfg.generates_le (I := fun _ w => w = []) ?_
    intro A β w hp hs
    rcases loop_prod.1 hp with ⟨rfl, rfl | rfl⟩ <;> simp [Cfg.Sat] at hs ⊢ <;> simp [hs]
  · rintro rfl
    exact Cfg.derives_prod (loop_prod.2 ⟨rfl, Or.inl rfl⟩)

/-- Balanced parentheses. -/
inductive Balanced : List Terminal → Prop where
  | nil : Balanced []
  | wrap {u v} : Balanced u → Balanced v → Balanced (lparen :: u ++ rparen :: v)

/-- C94: the language of `make_paren`: one pair of parentheses around balanced parentheses. -/
theorem paren_language (w : List Terminal) :
    parenGrammar.cfg.InLanguage w ↔ ∃ u, Balanced u ∧ w = lparen :: u ++ [rparen] := by
  constructor
  · intro h
    have := Cfg.generates_le (I := fun A w =>
      (A = ⟨"expr"⟩ → ∃ u, Balanced u ∧ w = lparen :: u ++ [rparen]) ∧
      (A = ⟨"expr_list"⟩ → Balanced w) ∧
      (A = ⟨"start"⟩ → ∃ u, Balanced u ∧ w = lparen :: u ++ [rparen])) ?_ h
    · exact this.2.2 rfl
    · intro A β w hp hs
      rcases paren_prod.1 hp with ⟨rfl, rfl⟩ | ⟨rfl, rfl | rfl⟩ | ⟨rfl, rfl⟩
      · obtain ⟨_, rfl, u, v, rfl, hu, _, rfl, rfl⟩ := hs
        exact ⟨fun _ => ⟨u, hu.2.1 rfl, by simp⟩, by simp, by simp⟩
      · cases hs
        exact ⟨by simp, fun _ => .nil, by simp⟩
      · obtain ⟨x, y, rfl, hx, y, _, rfl, hy, rfl⟩ := hs
        obtain ⟨u, hu, rfl⟩ := hx.1 rfl
        refine ⟨by simp, fun _ => ?_, by simp⟩
        have := Balanced.wrap hu (hy.2.1 rfl)
        simpa using this
      · obtain ⟨x, y, rfl, hx, rfl⟩ := hs
        exact ⟨by simp, by simp, fun _ => by simpa using hx.1 rfl⟩
  · rintro ⟨u, hu, rfl⟩
    have pe := Cfg.derives_prod (paren_prod.2 (Or.inl ⟨rfl, rfl⟩))
    have wrap : ∀ {u : List Terminal}, parenGrammar.cfg.Derives [.nonterm ⟨"expr_list"⟩] (u.map .term) →
        parenGrammar.cfg.Derives [.nonterm ⟨"expr"⟩] ((lparen :: u ++ [rparen]).map .term) := by
      intro u h
      refine pe.trans ?_
      have := Cfg.Derives.append (Cfg.Derives.refl [.term lparen])
        (h.append (Cfg.Derives.refl [.term rparen]))
      simpa using this
    have list : ∀ {u : List Terminal}, Balanced u →
        parenGrammar.cfg.Derives [.nonterm ⟨"expr_list"⟩] (u.map .term) := by
      intro u hu
      induction hu with
      | nil => exact Cfg.derives_prod (paren_prod.2 (Or.inr (Or.inl ⟨rfl, Or.inl rfl⟩)))
      | wrap _ _ ih1 ih2 =>
        refine (Cfg.derives_prod (paren_prod.2 (Or.inr (Or.inl ⟨rfl, Or.inr rfl⟩)))).trans ?_
        have := (wrap ih1).append ih2
        simpa using this
    exact (Cfg.derives_prod (paren_prod.2 (Or.inr (Or.inr ⟨rfl, rfl⟩)))).trans (wrap (list hu))

/-- `n` opening parentheses, a value, `n` closing parentheses. -/
def nested (n : Nat) : List Terminal := List.replicate n lparen ++ valueTerm :: List.replicate n rparen

theorem nested_succ (n : Nat) : nested (n + 1) = lparen :: nested n ++ [rparen] := by
  simp [nested, List.replicate_succ' (n := n) (a := rparen), List.replicate_succ (n := n) (a := lparen)]

theorem nested_length (n : Nat) : (nested n).length = 2 * n + 1 := by
  simp [nested]; omega

/-- C94: the language of the grammar of examples/simple_earley.rs. -/
theorem nested_language (w : List Terminal) :
    nestedGrammar.cfg.InLanguage w ↔ ∃ n, w = nested n := by
  constructor
  · refine Cfg.generates_le (I := fun _ w => ∃ n, w = nested n) ?_
    intro A β w hp hs
    rcases nested_prod.1 hp with ⟨rfl, rfl | rfl⟩
    · obtain ⟨_, rfl, rfl⟩ := hs
      exact ⟨0, rfl⟩
    · obtain ⟨_, rfl, u, v, rfl, ⟨n, rfl⟩, _, rfl, rfl⟩ := hs
      exact ⟨n + 1, by rw [nested_succ]; simp⟩
  · rintro ⟨n, rfl⟩
    induction n with
    | zero => exact Cfg.derives_prod (nested_prod.2 ⟨rfl, Or.inl rfl⟩)
    | succ n ih =>
      refine (Cfg.derives_prod (nested_prod.2 ⟨rfl, Or.inr rfl⟩)).trans ?_
      have ih : nestedGrammar.cfg.Derives [.nonterm ⟨"a"⟩] ((nested n).map .term) := ih
      have := Cfg.Derives.append (Cfg.Derives.refl [.term lparen])
        (Cfg.Derives.append ih (Cfg.Derives.refl [.term rparen]))
      rw [nested_succ]
      simpa using this

/-! ## Outcomes of parsing -/

section
variable {T NT AK AV V : Type}
variable [Ord T] [Ord NT] [Ord AK] [Ord V] [DecidableEq T] [DecidableEq NT]
variable [TransOrd T] [TransOrd NT] [TransOrd AK] [TransOrd V]
variable [LawfulEqOrd T] [LawfulEqOrd NT] [LawfulEqOrd AK] [LawfulEqOrd V]
variable {addr : StartNonTerminal NT → Nat → Nat} {g : Grammar T NT AK AV}

theorem viable_iff_prefix (hd : g.NoDeadEnds) {u : List T} :
    g.Viable u ↔ ∃ w, u <+: w ∧ g.cfg.InLanguage w := by
  constructor
  · rintro ⟨δ, h⟩
    obtain ⟨w, hw⟩ := hd _ h
    obtain ⟨c₁, c₂, h1, h2, h3⟩ := hw.split
    have := Cfg.derives_terms h2
    subst this
    obtain ⟨u', v, rfl, h4, -⟩ := List.map_eq_append_iff.1 h1
    have : u' = u := by
      have inj : Function.Injective (Elem.term (T := T) (NT := NT)) := fun a b h => by cases h; rfl
      exact inj.list_map h4
    subst this
    exact ⟨_, ⟨v, rfl⟩, h.trans hw⟩
  · rintro ⟨w, ⟨v, rfl⟩, h⟩
    refine ⟨v.map .term, ?_⟩
    rw [← List.map_append]
    exact h

theorem noDeadEnds_of (P : NT → Prop) (h0 : P g.startSymbol)
    (h1 : ∀ A β, g.cfg.prod A β → ∀ B, Elem.nonterm B ∈ β → P B)
    (h2 : ∀ A, P A → ∃ w, g.cfg.Generates A w) : g.NoDeadEnds := by
  intro γ h
  have hP : ∀ B, Elem.nonterm B ∈ γ → P B := by
    unfold Cfg.Derives at h
    induction h with
    | refl => intro B hB; simp at hB; rw [hB]; exact h0
    | tail _ hs ih =>
      cases hs with
      | mk u v A β hp =>
        intro B hB
        simp only [List.mem_append] at hB
        rcases hB with (hB | hB) | hB
        · exact ih B (by simp [hB])
        · exact h1 _ _ hp B hB
        · exact ih B (by simp [hB])
  clear h
  induction γ with
  | nil => exact ⟨[], Cfg.Derives.refl _⟩
  | cons e γ ih =>
    obtain ⟨w, hw⟩ := ih fun B hB => hP B (List.mem_cons_of_mem _ hB)
    cases e with
    | term t => exact ⟨t :: w, Cfg.Derives.append (a := [.term t]) (b := [.term t]) (.refl _) hw⟩
    | nonterm A =>
      obtain ⟨u, hu⟩ := h2 A (hP A List.mem_cons_self)
      refine ⟨u ++ w, ?_⟩
      rw [List.map_append]
      exact Cfg.Derives.append (a := [.nonterm A]) hu hw

theorem kinds_take (toks : List (Token T V)) (j : Nat) : kinds (toks.take j) = (kinds toks).take j := by
  simp [kinds, List.map_take]

/-- C96: for a grammar in which no production can be at two positions, and without dead ends, `parse`
returns a node on the words of the language, `None` on other prefixes of them, and panics (with the
assertion that a state is not empty) on everything else. -/
theorem parse_outcome_noClash (hg : g.Accepted) (ha : AddrInj g.wrapped addr) {log : TreeLog T AK V}
    {w : World T AK V} {held : List Handle} (hist : History log w held) (t : Nat)
    (hd : g.NoDeadEnds) (hc : ∀ u, ¬ g.Clash u) (toks : List (Token T V)) :
    ∃ N, (g.cfg.InLanguage (kinds toks) →
        ∃ w' n, ∀ fuel, N ≤ fuel → parse addr g.wrapped fuel w t toks = .ok (w', some n)) ∧
      (¬ g.cfg.InLanguage (kinds toks) → (∃ z, kinds toks <+: z ∧ g.cfg.InLanguage z) →
        ∃ w', ∀ fuel, N ≤ fuel → parse addr g.wrapped fuel w t toks = .ok (w', none)) ∧
      ((¬ ∃ z, kinds toks <+: z ∧ g.cfg.InLanguage z) →
        ∀ fuel, N ≤ fuel → parse addr g.wrapped fuel w t toks = .panic .emptyState) := by
  have hpre : ∀ j, g.Viable (kinds toks) → g.Viable (kinds (toks.take j)) := by
    intro j h
    rw [viable_iff_prefix hd] at h ⊢
    obtain ⟨z, h1, h2⟩ := h
    exact ⟨z, (by rw [kinds_take]; exact (List.take_prefix j _).trans h1), h2⟩
  have hself : g.cfg.InLanguage (kinds toks) → g.Viable (kinds toks) :=
    fun h => (viable_iff_prefix hd).2 ⟨_, List.prefix_rfl, h⟩
  obtain ⟨N, ⟨h1, w', r, h2, h3⟩ | ⟨b, hb, -, ⟨hv, h2⟩ | ⟨-, h, -⟩⟩⟩ := parse_exact hg ha hist t toks
  · have hv := (h1 toks.length (Nat.le_refl _)).1
    rw [List.take_length] at hv
    refine ⟨N, fun hl => ?_, fun hl _ => ?_, fun hn => absurd ((viable_iff_prefix hd).1 hv) hn⟩
    · obtain ⟨n, rfl⟩ := Option.isSome_iff_exists.1 (h3.2 hl)
      exact ⟨w', n, h2⟩
    · cases r with
      | none => exact ⟨w', h2⟩
      | some n => exact absurd (h3.1 rfl) hl
  · refine ⟨N, fun hl => absurd (hpre b (hself hl)) hv, fun _ hp => ?_, fun _ => h2⟩
    exact absurd (hpre b ((viable_iff_prefix hd).2 hp)) hv
  · exact absurd h (hc _)

/-- C97: if the start symbol derives the empty word, every call of `parse` panics, with the assertion
that merged values have equal length. -/
theorem parse_nullable_start_exact (hg : g.Accepted) (ha : AddrInj g.wrapped addr)
    {log : TreeLog T AK V} {w : World T AK V} {held : List Handle} (hist : History log w held)
    (t : Nat) (hn : g.cfg.InLanguage []) (toks : List (Token T V)) :
    ∃ N, ∀ fuel, N ≤ fuel → parse addr g.wrapped fuel w t toks = .panic .lenMismatch := by
  have hc : g.Clash (kinds (toks.take 0)) := Or.inl ⟨by simp [kinds], hn⟩
  obtain ⟨N, ⟨h1, -⟩ | ⟨b, hb, h1, ⟨hv, h2⟩ | ⟨-, h, h2⟩⟩⟩ := parse_exact hg ha hist t toks
  · exact absurd hc (h1 0 (Nat.zero_le _)).2
  · rcases Nat.eq_zero_or_pos b with rfl | hb
    · have hn' : g.cfg.Derives [.nonterm g.startSymbol] [] := hn
      exact absurd ⟨[], hn'⟩ hv
    · exact absurd hc (h1 0 hb).2
  · exact ⟨N, h2⟩
end

section
variable {V : Type} [Ord V] [TransOrd V] [LawfulEqOrd V]
variable {addr : StartNonTerminal NonTerminal → Nat → Nat}

theorem simple_noDeadEnds : simpleGrammar.NoDeadEnds := by
  have l := simple_language
  have ga : simpleGrammar.cfg.Generates ⟨"a"⟩ [⟨"A"⟩] :=
    Cfg.derives_prod (simple_prod.2 (Or.inl ⟨rfl, rfl⟩))
  have gb : simpleGrammar.cfg.Generates ⟨"b"⟩ [⟨"B"⟩] :=
    Cfg.derives_prod (simple_prod.2 (Or.inr (Or.inl ⟨rfl, rfl⟩)))
  refine noDeadEnds_of (fun A => A = ⟨"a"⟩ ∨ A = ⟨"b"⟩ ∨ A = ⟨"start"⟩) (Or.inr (Or.inr rfl)) ?_ ?_
  · intro A β hp B hB
    rcases simple_prod.1 hp with ⟨rfl, rfl⟩ | ⟨rfl, rfl⟩ | ⟨rfl, rfl | rfl⟩ <;> simp at hB <;> simp [hB]
  · rintro A (rfl | rfl | rfl)
    · exact ⟨_, ga⟩
    · exact ⟨_, gb⟩
    · exact ⟨_, (simple_language _).2 (Or.inl rfl)⟩

theorem simple_noClash (u : List Terminal) : ¬ simpleGrammar.Clash u := by
  have hne : ∀ A w, simpleGrammar.cfg.Generates A w → w ≠ [] := by
    intro A w
    refine Cfg.generates_le (I := fun _ w => w ≠ []) ?_
    intro A β w hp hs
    rcases simple_prod.1 hp with ⟨rfl, rfl⟩ | ⟨rfl, rfl⟩ | ⟨rfl, rfl | rfl⟩ <;>
      simp [Cfg.Sat] at hs ⊢ <;> simp [hs]
  rintro (⟨-, h⟩ | ⟨u, v, A, β, δ, d₁, d₂, -, -, hp, hlt, hle, h1, h2⟩)
  · exact hne _ _ h rfl
  · have hlen : β.length = 1 := by
      rcases simple_prod.1 hp with ⟨rfl, rfl⟩ | ⟨rfl, rfl⟩ | ⟨rfl, rfl | rfl⟩ <;> rfl
    obtain rfl : d₁ = 0 := by omega
    obtain rfl : d₂ = 1 := by omega
    have hv := Cfg.derives_nil h1
    have hv : v = [] := by simpa using hv
    subst hv
    rcases simple_prod.1 hp with ⟨rfl, rfl⟩ | ⟨rfl, rfl⟩ | ⟨rfl, rfl | rfl⟩
    · have := Cfg.derives_term h2; simp at this
    · have := Cfg.derives_term h2; simp at this
    · exact hne _ _ h2 rfl
    · exact hne _ _ h2 rfl

/-- C94: what parsing with `make_simple` does, for every input: a node for `A` and `B`, `None` for the
empty input, a panic for everything else. -/
theorem simple_outcome (ha : AddrInj simpleGrammar.wrapped addr) {log : TreeLog Terminal Name V}
    {w : World Terminal Name V} {held : List Handle} (hist : History log w held) (t : Nat)
    (toks : List (Token Terminal V)) :
    ∃ N, (kinds toks = [⟨"A"⟩] ∨ kinds toks = [⟨"B"⟩] →
        ∃ w' n, ∀ fuel, N ≤ fuel → parse addr simpleGrammar.wrapped fuel w t toks = .ok (w', some n)) ∧
      (toks = [] → ∃ w', ∀ fuel, N ≤ fuel → parse addr simpleGrammar.wrapped fuel w t toks = .ok (w', none)) ∧
      (¬ (toks = [] ∨ kinds toks = [⟨"A"⟩] ∨ kinds toks = [⟨"B"⟩]) →
        ∀ fuel, N ≤ fuel → parse addr simpleGrammar.wrapped fuel w t toks = .panic .emptyState) := by
  obtain ⟨N, h1, h2, h3⟩ := parse_outcome_noClash simpleGrammar_accepted ha hist t simple_noDeadEnds
    simple_noClash toks
  refine ⟨N, fun h => h1 ((simple_language _).2 h), fun h => h2 ?_ ?_, fun h => h3 ?_⟩
  · subst h; rw [simple_language]; simp [kinds]
  · subst h; exact ⟨_, List.nil_prefix, (simple_language _).2 (Or.inl rfl)⟩
  · rintro ⟨z, hp, hz⟩
    apply h
    rw [simple_language] at hz
    have : kinds toks = [] → toks = [] := by simp [kinds]
    rcases hz with rfl | rfl
    · rcases List.prefix_cons_iff.1 hp with h | ⟨l, h, hl⟩
      · exact Or.inl (this h)
      · rw [List.prefix_nil.1 hl] at h; exact Or.inr (Or.inl h)
    · rcases List.prefix_cons_iff.1 hp with h | ⟨l, h, hl⟩
      · exact Or.inl (this h)
      · rw [List.prefix_nil.1 hl] at h; exact Or.inr (Or.inr h)

theorem nested_noDeadEnds : nestedGrammar.NoDeadEnds := by
  refine noDeadEnds_of (fun A => A = ⟨"a"⟩) rfl ?_ ?_
  · intro A β hp B hB
    rcases nested_prod.1 hp with ⟨rfl, rfl | rfl⟩ <;> simp at hB <;> simp [hB]
  · rintro A rfl
    exact ⟨_, (nested_language _).2 ⟨0, rfl⟩⟩

theorem nested_noClash (u : List Terminal) : ¬ nestedGrammar.Clash u := by
  rintro (⟨-, h⟩ | ⟨u, v, A, β, δ, d₁, d₂, -, -, hp, hlt, hle, h1, h2⟩)
  · obtain ⟨n, hn⟩ := (nested_language _).1 h
    have := congrArg List.length hn
    rw [nested_length] at this
    simp at this
  · have hI : ∀ A β w, nestedGrammar.cfg.prod A β →
        Cfg.Sat (fun _ w => ∃ n, w.length = 2 * n + 1) β w → ∃ n, w.length = 2 * n + 1 := by
      intro A β w hp hs
      rcases nested_prod.1 hp with ⟨rfl, rfl | rfl⟩
      · obtain ⟨_, rfl, rfl⟩ := hs
        exact ⟨0, rfl⟩
      · obtain ⟨_, rfl, u, v, rfl, ⟨n, hn⟩, _, rfl, rfl⟩ := hs
        refine ⟨n + 1, ?_⟩
        simp; omega
    have y1 := (Cfg.yields_iff.2 h1).sat hI
    have y2 := (Cfg.yields_iff.2 h2).sat hI
    rcases nested_prod.1 hp with ⟨rfl, rfl | rfl⟩
    · simp only [List.length_cons, List.length_nil] at hle
      obtain rfl : d₁ = 0 := by omega
      obtain rfl : d₂ = 1 := by omega
      cases y1
      obtain ⟨_, h, -⟩ := y2
      cases h
    · simp only [List.length_cons, List.length_nil] at hle
      have c : ∀ d, d ≤ 3 → Cfg.Sat (fun _ w => ∃ n, w.length = 2 * n + 1)
          ([Elem.term lparen, .nonterm (⟨"a"⟩ : NonTerminal), .term rparen].take d) v →
          (d = 0 ∧ v.length = 0) ∨ (d = 1 ∧ v.length = 1) ∨ (d = 2 ∧ ∃ n, v.length = 2 * n + 2) ∨
            (d = 3 ∧ ∃ n, v.length = 2 * n + 3) := by
        intro d hd hs
        obtain rfl | rfl | rfl | rfl : d = 0 ∨ d = 1 ∨ d = 2 ∨ d = 3 := by omega
        · cases hs; simp
        · obtain ⟨_, rfl, rfl⟩ := hs; simp
        · obtain ⟨_, rfl, u, v, rfl, ⟨n, hn⟩, rfl⟩ := hs
          refine Or.inr (Or.inr (Or.inl ⟨rfl, n, ?_⟩)); simp; omega
        · obtain ⟨_, rfl, u, v, rfl, ⟨n, hn⟩, _, rfl, rfl⟩ := hs
          refine Or.inr (Or.inr (Or.inr ⟨rfl, n, ?_⟩)); simp; omega
      rcases c _ (by omega) y1 with ⟨e1, l1⟩ | ⟨e1, l1⟩ | ⟨e1, n, l1⟩ | ⟨e1, n, l1⟩ <;>
        rcases c _ hle y2 with ⟨e2, l2⟩ | ⟨e2, l2⟩ | ⟨e2, m, l2⟩ | ⟨e2, m, l2⟩ <;> omega

/-- C94: what parsing with the grammar of examples/simple_earley.rs does, for every input. -/
theorem nested_outcome (ha : AddrInj nestedGrammar.wrapped addr) {log : TreeLog Terminal Name V}
    {w : World Terminal Name V} {held : List Handle} (hist : History log w held) (t : Nat)
    (toks : List (Token Terminal V)) :
    ∃ N, ((∃ n, kinds toks = nested n) →
        ∃ w' n, ∀ fuel, N ≤ fuel → parse addr nestedGrammar.wrapped fuel w t toks = .ok (w', some n)) ∧
      ((¬ ∃ n, kinds toks = nested n) → (∃ n, kinds toks <+: nested n) →
        ∃ w', ∀ fuel, N ≤ fuel → parse addr nestedGrammar.wrapped fuel w t toks = .ok (w', none)) ∧
      ((¬ ∃ n, kinds toks <+: nested n) →
        ∀ fuel, N ≤ fuel → parse addr nestedGrammar.wrapped fuel w t toks = .panic .emptyState) := by
  obtain ⟨N, h1, h2, h3⟩ := parse_outcome_noClash nestedGrammar_accepted ha hist t nested_noDeadEnds
    nested_noClash toks
  simp only [nested_language] at h1 h2 h3
  refine ⟨N, h1, fun h hp => h2 h ?_, fun h => h3 ?_⟩
  · obtain ⟨n, hn⟩ := hp
    exact ⟨_, hn, n, rfl⟩
  · rintro ⟨_, hp, n, rfl⟩
    exact h ⟨n, hp⟩

/-- C94: parsing with `make_paren` never returns a node.  It returns `None` for the empty input and
panics on every other one, in particular on every word of its language. -/
theorem paren_outcome (ha : AddrInj parenGrammar.wrapped addr) {log : TreeLog Terminal Name V}
    {w : World Terminal Name V} {held : List Handle} (hist : History log w held) (t : Nat)
    (toks : List (Token Terminal V)) :
    ∃ N, (toks = [] → ∃ w', ∀ fuel, N ≤ fuel → parse addr parenGrammar.wrapped fuel w t toks = .ok (w', none)) ∧
      ((kinds toks).head? = some lparen →
        ∀ fuel, N ≤ fuel → parse addr parenGrammar.wrapped fuel w t toks = .panic .lenMismatch) ∧
      (toks ≠ [] → (kinds toks).head? ≠ some lparen →
        ∀ fuel, N ≤ fuel → parse addr parenGrammar.wrapped fuel w t toks = .panic .emptyState) := by
  have hI : ∀ A β w, parenGrammar.cfg.prod A β → Cfg.Sat (fun A w => A ≠ ⟨"expr_list"⟩ → w.head? = some lparen) β w →
      A ≠ ⟨"expr_list"⟩ → w.head? = some lparen := by
    intro A β w hp hs hA
    rcases paren_prod.1 hp with ⟨rfl, rfl⟩ | ⟨rfl, rfl | rfl⟩ | ⟨rfl, rfl⟩
    · obtain ⟨_, rfl, -⟩ := hs; rfl
    · exact absurd rfl hA
    · exact absurd rfl hA
    · obtain ⟨x, y, rfl, hx, rfl⟩ := hs
      rw [List.append_nil]
      exact hx (by simp)
  have ps := Cfg.derives_prod (paren_prod.2 (Or.inr (Or.inr ⟨rfl, rfl⟩)))
  have pe := Cfg.derives_prod (paren_prod.2 (Or.inl ⟨rfl, rfl⟩))
  have p0 := Cfg.derives_prod (paren_prod.2 (Or.inr (Or.inl ⟨rfl, Or.inl rfl⟩)))
  have hdead : parenGrammar.NoDeadEnds := by
    have gs : parenGrammar.cfg.InLanguage [lparen, rparen] := (paren_language _).2 ⟨[], .nil, rfl⟩
    have ge : parenGrammar.cfg.Generates ⟨"expr"⟩ [lparen, rparen] := by
      refine pe.trans ?_
      have := Cfg.Derives.append (Cfg.Derives.refl [.term lparen])
        (p0.append (Cfg.Derives.refl [.term rparen]))
      simpa using this
    refine noDeadEnds_of (fun A => A = ⟨"expr"⟩ ∨ A = ⟨"expr_list"⟩ ∨ A = ⟨"start"⟩) (Or.inr (Or.inr rfl)) ?_ ?_
    · intro A β hp B hB
      rcases paren_prod.1 hp with ⟨rfl, rfl⟩ | ⟨rfl, rfl | rfl⟩ | ⟨rfl, rfl⟩ <;> simp at hB <;>
        rcases hB with rfl | rfl <;> simp
    · rintro A (rfl | rfl | rfl)
      · exact ⟨_, ge⟩
      · exact ⟨[], p0⟩
      · exact ⟨_, gs⟩
  have viable : ∀ u, parenGrammar.Viable u → u = [] ∨ u.head? = some lparen := by
    intro u hu
    obtain ⟨z, hp, hz⟩ := (viable_iff_prefix hdead).1 hu
    have := Cfg.generates_le hI hz (by simp [Grammar.cfg, parenGrammar])
    cases u with
    | nil => exact Or.inl rfl
    | cons a u =>
      obtain ⟨v, rfl⟩ := hp
      exact Or.inr (by simpa using this)
  have hs0 : ¬ parenGrammar.cfg.InLanguage [] := by
    intro h
    obtain ⟨u, -, h⟩ := (paren_language _).1 h
    simp at h
  have clash0 : ¬ parenGrammar.Clash [] := by
    rintro (⟨-, h⟩ | ⟨u, v, A, β, δ, d₁, d₂, h0, -, hp, hlt, hle, h1, h2⟩)
    · exact hs0 h
    · obtain ⟨rfl, rfl⟩ : u = [] ∧ v = [] := by simpa using h0
      have y2 := (Cfg.yields_iff.2 h2).sat hI
      obtain ⟨d, rfl⟩ : ∃ d, d₂ = d + 1 := ⟨d₂ - 1, by omega⟩
      rcases paren_prod.1 hp with ⟨rfl, rfl⟩ | ⟨rfl, rfl | rfl⟩ | ⟨rfl, rfl⟩
      · obtain ⟨_, h, -⟩ := y2; cases h
      · simp at hle
      · obtain ⟨x, y, hxy, hx, -⟩ := y2
        have := hx (by simp)
        simp at hxy; simp [hxy.1] at this
      · obtain ⟨x, y, hxy, hx, -⟩ := y2
        have := hx (by simp)
        simp at hxy; simp [hxy.1] at this
  have clash1 : parenGrammar.Clash [lparen] := by
    refine Or.inr ⟨[], [lparen], ⟨"expr"⟩, [.term lparen, .nonterm ⟨"expr_list"⟩, .term rparen], [], 1, 2,
      rfl, ps, paren_prod.2 (Or.inl ⟨rfl, rfl⟩), by omega, by simp, .refl _, ?_⟩
    exact Cfg.Derives.append (Cfg.Derives.refl [.term lparen]) p0
  have viable0 : parenGrammar.Viable [] := ⟨_, .refl _⟩
  have viable1 : parenGrammar.Viable [lparen] :=
    (viable_iff_prefix hdead).2 ⟨[lparen, rparen], ⟨[rparen], rfl⟩, (paren_language _).2 ⟨[], .nil, rfl⟩⟩
  obtain ⟨N, hN⟩ := parse_exact parenGrammar_accepted ha hist t toks
  refine ⟨N, ?_⟩
  cases toks with
  | nil =>
    refine ⟨fun _ => ?_, fun h => by simp [kinds] at h, fun h => absurd rfl h⟩
    rcases hN with ⟨-, w', r, h2, h3⟩ | ⟨b, -, -, ⟨h, -⟩ | ⟨-, h, -⟩⟩
    · cases r with
      | none => exact ⟨w', h2⟩
      | some n => exact absurd (h3.1 rfl) hs0
    · exact absurd viable0 (by simpa [kinds] using h)
    · exact absurd (by simpa [kinds] using h) clash0
  | cons x toks =>
    have e1 : kinds ((x :: toks).take 1) = [x.kind] := by simp [kinds]
    have e0 : kinds ((x :: toks).take 0) = [] := rfl
    refine ⟨fun h => by simp at h, fun h => ?_, fun _ h => ?_⟩
    · have hx : x.kind = lparen := by simpa [kinds] using h
      rw [hx] at e1
      rcases hN with ⟨h1, -⟩ | ⟨b, hb, h1, hor⟩
      · exact absurd (e1 ▸ clash1) (h1 1 (by simp)).2
      · have hb1 : ¬ 1 < b := fun hlt => (h1 1 hlt).2 (e1 ▸ clash1)
        have hb0 : b ≠ 0 := by
          rintro rfl
          rcases hor with ⟨h, -⟩ | ⟨-, h, -⟩
          · exact h viable0
          · exact clash0 h
        obtain rfl : b = 1 := by omega
        rcases hor with ⟨h, -⟩ | ⟨-, -, h⟩
        · exact absurd (e1 ▸ viable1) h
        · exact h
    · have hx : x.kind ≠ lparen := by simpa [kinds] using h
      have nv : ¬ parenGrammar.Viable (kinds ((x :: toks).take 1)) := by
        rw [e1]; intro hv
        rcases viable _ hv with h | h <;> simp at h
        exact hx h
      rcases hN with ⟨h1, -⟩ | ⟨b, hb, h1, hor⟩
      · exact absurd (h1 1 (by simp)).1 nv
      · have hb1 : ¬ 1 < b := fun hlt => nv (h1 1 hlt).1
        have hb0 : b ≠ 0 := by
          rintro rfl
          rcases hor with ⟨h, -⟩ | ⟨-, h, -⟩
          · exact h viable0
          · exact clash0 h
        obtain rfl : b = 1 := by omega
        rcases hor with ⟨-, h⟩ | ⟨h, -⟩
        · exact h
        · exact absurd h nv

/-- C94: parsing with `make_simple_nullable`, `make_ambiguous_nullable` or the grammar of
examples/ambiguous_earley.rs panics on every input, also on the one word of their language. -/
theorem nullable_outcome {g : NamedGrammar}
    (hg : g = simpleNullableGrammar ∨ g = ambiguousNullableGrammar ∨ g = loopGrammar)
    (ha : AddrInj g.wrapped addr) {log : TreeLog Terminal Name V} {w : World Terminal Name V}
    {held : List Handle} (hist : History log w held) (t : Nat) (toks : List (Token Terminal V)) :
    ∃ N, ∀ fuel, N ≤ fuel → parse addr g.wrapped fuel w t toks = .panic .lenMismatch := by
  obtain ⟨l1, l2, l3⟩ := nullable_languages []
  rcases hg with rfl | rfl | rfl
  · exact parse_nullable_start_exact simpleNullableGrammar_accepted ha hist t (l1.2 rfl) toks
  · exact parse_nullable_start_exact ambiguousNullableGrammar_accepted ha hist t (l2.2 rfl) toks
  · exact parse_nullable_start_exact loopGrammar_accepted ha hist t (l3.2 rfl) toks
end

/-- C94: examples/simple_earley.rs parses its input. -/
theorem simple_earley_main {addr : StartNonTerminal NonTerminal → Nat → Nat}
    (ha : AddrInj nestedGrammar.wrapped addr) :
    ∃ N w n, ∀ fuel, N ≤ fuel → simpleEarleyMain fuel addr = .ok (w, n) := by
  obtain ⟨⟨N1, hN1⟩, -⟩ := wrap_exact nestedGrammar nestedGrammar_accepted
  obtain ⟨N2, h, -⟩ := nested_outcome (addr := addr) (V := String) ha History.start 0
    [⟨⟨"LPAREN"⟩, "("⟩, ⟨⟨"VALUE"⟩, "Hello!"⟩, ⟨⟨"RPAREN"⟩, ")"⟩]
  obtain ⟨w', n, h⟩ := h ⟨1, rfl⟩
  refine ⟨10 + N1 + N2, w', n, fun fuel hf => ?_⟩
  obtain ⟨k, rfl⟩ : ∃ k, fuel = k + 10 := ⟨fuel - 10, by omega⟩
  have hb := (example_grammars_build k).2.2.2.2.1
  have hw := hN1 (k + 10) (by omega)
  have hp := h (k + 10) (by omega)
  unfold simpleEarleyMain parseExample
  rw [hb]
  simp only [hw, unwrapBuilt, hp]

/-- C94: the program of examples/simple_earley.rs with any other input in place of its own: it
returns a node for the words of the language and panics on all other inputs, at the `unwrap` of the
answer for the prefixes of words and inside `parse` for the rest. -/
theorem simple_earley_program {V : Type} [Ord V] [TransOrd V] [LawfulEqOrd V]
    {addr : StartNonTerminal NonTerminal → Nat → Nat}
    (ha : AddrInj nestedGrammar.wrapped addr) (toks : List (Token Terminal V)) :
    ∃ N, ((∃ n, kinds toks = nested n) → ∃ w n, ∀ fuel, N ≤ fuel →
        parseExample fuel addr (simpleEarleyGrammar fuel) toks = .ok (w, n)) ∧
      ((¬ ∃ n, kinds toks = nested n) → (∃ n, kinds toks <+: nested n) → ∀ fuel, N ≤ fuel →
        parseExample fuel addr (simpleEarleyGrammar fuel) toks = .panic .unwrap) ∧
      ((¬ ∃ n, kinds toks <+: nested n) → ∀ fuel, N ≤ fuel →
        parseExample fuel addr (simpleEarleyGrammar fuel) toks = .panic .emptyState) := by
  obtain ⟨⟨N1, hN1⟩, -⟩ := wrap_exact nestedGrammar nestedGrammar_accepted
  obtain ⟨N2, h1, h2, h3⟩ := nested_outcome (addr := addr) ha History.start 0 toks
  have key : ∀ fuel, 10 + N1 + N2 ≤ fuel → ∃ f, simpleEarleyGrammar fuel = .ok nestedGrammar ∧
      unwrapBuilt (wrapGrammarWithStart fuel nestedGrammar) = .ok nestedGrammar.wrapped ∧
      f = fuel ∧ N2 ≤ f := by
    intro fuel hf
    obtain ⟨k, rfl⟩ : ∃ k, fuel = k + 10 := ⟨fuel - 10, by omega⟩
    exact ⟨_, (example_grammars_build k).2.2.2.2.1, by rw [hN1 _ (by omega)]; rfl, rfl, by omega⟩
  refine ⟨10 + N1 + N2, fun h => ?_, fun h hp fuel hf => ?_, fun h fuel hf => ?_⟩
  · obtain ⟨w', n, h⟩ := h1 h
    refine ⟨w', n, fun fuel hf => ?_⟩
    obtain ⟨_, hb, hw, rfl, hk⟩ := key fuel hf
    simp only [parseExample, hb, hw, h _ hk]
  · obtain ⟨w', h⟩ := h2 h hp
    obtain ⟨_, hb, hw, rfl, hk⟩ := key fuel hf
    simp only [parseExample, hb, hw, h _ hk]
  · obtain ⟨_, hb, hw, rfl, hk⟩ := key fuel hf
    simp only [parseExample, hb, hw, h3 h _ hk]

/-- C94: unwrapping the result of a build that reports an error panics. -/
theorem unwrap_failed_build {fuel : Nat} {start : NonTerminal}
    {calls : List (GrammarOp Terminal NonTerminal Name Unit)} {e}
    (h : buildGrammar fuel start calls = .ok (.error e)) :
    unwrapBuilt (buildGrammar fuel start calls) = .panic .unwrap := by
  rw [h]; rfl

-- A grammar that fails to build: its only rule has no production.
example : ∃ e, buildGrammar (T := Terminal) (AK := Name) (AV := Unit) 10 (⟨"a"⟩ : NonTerminal)
    [⟨⟨"a"⟩, []⟩] = .ok (.error e) := ⟨_, rfl⟩

/-- C94: examples/ambiguous_earley.rs panics. -/
theorem ambiguous_earley_main {addr : StartNonTerminal NonTerminal → Nat → Nat}
    (ha : AddrInj loopGrammar.wrapped addr) :
    ∃ N, ∀ fuel, N ≤ fuel → ambiguousEarleyMain fuel addr = .panic .lenMismatch := by
  obtain ⟨⟨N1, hN1⟩, -⟩ := wrap_exact loopGrammar loopGrammar_accepted
  obtain ⟨N2, h⟩ := nullable_outcome (addr := addr) (V := Unit) (Or.inr (Or.inr rfl)) ha History.start 0 []
  refine ⟨10 + N1 + N2, fun fuel hf => ?_⟩
  obtain ⟨k, rfl⟩ : ∃ k, fuel = k + 10 := ⟨fuel - 10, by omega⟩
  have hb := (example_grammars_build k).2.2.2.2.2
  have hw := hN1 (k + 10) (by omega)
  have hp := h (k + 10) (by omega)
  unfold ambiguousEarleyMain parseExample
  rw [hb]
  simp only [hw, unwrapBuilt, hp]

/-- There are layouts in which all productions have different addresses. -/
theorem exists_layout : ∃ addr : StartNonTerminal NonTerminal → Nat → Nat,
    ∀ A i B j, addr A i = addr B j → A = B ∧ i = j := by
  let code : StartNonTerminal NonTerminal → Nat → List Nat := fun A i =>
    match A with
    | .start => [i]
    | .nterm n => i :: 0 :: n.name.toList.map Char.toNat
  refine ⟨fun A i => Encodable.encode (code A i), fun A i B j h => ?_⟩
  have h := Encodable.encode_injective h
  have inj : Function.Injective Char.toNat := fun a b h => Char.ext (UInt32.toNat_inj.1 h)
  rcases A with _ | ⟨a⟩ <;> rcases B with _ | ⟨b⟩ <;> simp only [code] at h
  · simp at h; exact ⟨rfl, h⟩
  · simp at h
  · simp at h
  · simp only [List.cons.injEq, true_and] at h
    have := String.toList_inj.1 (inj.list_map h.2)
    exact ⟨by cases a; cases b; cases this; rfl, h.1⟩

/-- The hypotheses of C94 are met, by every example grammar. -/
example : ∃ addr, AddrInj simpleGrammar.wrapped addr ∧ AddrInj parenGrammar.wrapped addr ∧
    AddrInj nestedGrammar.wrapped addr ∧ AddrInj simpleNullableGrammar.wrapped addr ∧
    AddrInj ambiguousNullableGrammar.wrapped addr ∧ AddrInj loopGrammar.wrapped addr ∧
    History [] (World.new : World Terminal Name String) [] := by
  obtain ⟨addr, h⟩ := exists_layout
  exact ⟨addr, fun _ _ _ _ => h _ _ _ _, fun _ _ _ _ => h _ _ _ _, fun _ _ _ _ => h _ _ _ _,
    fun _ _ _ _ => h _ _ _ _, fun _ _ _ _ => h _ _ _ _, fun _ _ _ _ => h _ _ _ _, .start⟩

/-- Hypotheses of C96: `nestedGrammar` has no clashes, and its words, their prefixes and other inputs
all exist. -/
example : nestedGrammar.Accepted ∧ nestedGrammar.NoDeadEnds ∧ (∀ u, ¬ nestedGrammar.Clash u) ∧
    nestedGrammar.cfg.InLanguage [lparen, valueTerm, rparen] ∧
    (¬ nestedGrammar.cfg.InLanguage [lparen] ∧ ∃ z, [lparen] <+: z ∧ nestedGrammar.cfg.InLanguage z) ∧
    ¬ ∃ z, [rparen] <+: z ∧ nestedGrammar.cfg.InLanguage z := by
  refine ⟨nestedGrammar_accepted, nested_noDeadEnds, nested_noClash, (nested_language _).2 ⟨1, rfl⟩,
    ⟨?_, _, ⟨[valueTerm, rparen], rfl⟩, (nested_language _).2 ⟨1, rfl⟩⟩, ?_⟩
  · rw [nested_language]
    rintro ⟨_ | n, h⟩
    · exact absurd h (by decide)
    · have := congrArg List.length h
      rw [nested_length] at this
      simp at this
  · rintro ⟨_, ⟨x, rfl⟩, h⟩
    rw [nested_language] at h
    obtain ⟨_ | n, h⟩ := h
    · have := (List.cons.inj h).1; exact absurd this (by decide)
    · rw [nested_succ] at h
      have := (List.cons.inj h).1; exact absurd this (by decide)

/-- Hypotheses of C97. -/
example : loopGrammar.Accepted ∧ loopGrammar.cfg.InLanguage [] :=
  ⟨loopGrammar_accepted, (nullable_languages []).2.2.2 rfl⟩
end Bongo
