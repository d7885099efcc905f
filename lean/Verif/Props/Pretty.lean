import Verif.Proof.Pretty
import Verif.Proof.GrammarBuild
import Verif.Proof.Start
/-!
# C92, C93: printing a grammar

`Doc.Layout d s`: the printer may print `d` as `s` (it chooses the line breaks).
-/
set_option linter.unusedSectionVars false
namespace Bongo
open PrintsWord (word)
variable {T NT AK AV AK' AV' : Type} [ToDoc T] [ToDoc NT]

section
variable [PrintsWord T] [PrintsWord NT]

/-! ## C92 -/

/-- The text without line breaks. -/
def Doc.one : Doc → List Char
  | .nil => []
  | .text s => s.toList
  | .line => [' ']
  | .lineOrNothing => []
  | .append a b => a.one ++ b.one
  | .nest _ d => d.one
  | .group d => d.one

/-- All lines are in groups. -/
def Doc.Grouped : Doc → Prop
  | .line => False
  | .lineOrNothing => False
  | .append a b => a.Grouped ∧ b.Grouped
  | .nest _ d => d.Grouped
  | _ => True

theorem Doc.prints_one (d : Doc) : ∀ i, d.Prints true i d.one := by
  induction d with
  | nil => intro i; exact .nil
  | text s => intro i; exact .text
  | line => intro i; exact .lineFlat
  | lineOrNothing => intro i; exact .nothingFlat
  | append a b ha hb => intro i; exact .append (ha i) (hb i)
  | nest n d h => intro i; exact .nest (h _)
  | group d h => intro i; exact .groupFlat (h i)

theorem Doc.Grouped.prints {d : Doc} (h : d.Grouped) : ∀ i, d.Prints false i d.one := by
  induction d with
  | nil => intro i; exact .nil
  | text s => intro i; exact .text
  | line => exact h.elim
  | lineOrNothing => exact h.elim
  | append a b ha hb => intro i; exact .append (ha h.1 i) (hb h.2 i)
  | nest n d h' => intro i; exact .nest (h' h _)
  | group d _ => intro i; exact .groupFlat (d.prints_one i)

theorem Doc.grouped_concat {l : List Doc} (h : ∀ d ∈ l, d.Grouped) : (Doc.concat l).Grouped := by
  induction l with
  | nil => trivial
  | cons d l ih =>
    exact ⟨h d List.mem_cons_self, ih fun e he => h e (List.mem_cons_of_mem _ he)⟩

theorem Doc.grouped_intersperse {sep : Doc} (hs : sep.Grouped) {l : List Doc} (h : ∀ d ∈ l, d.Grouped) :
    (Doc.intersperse sep l).Grouped := by
  induction l with
  | nil => trivial
  | cons d l ih =>
    cases l with
    | nil => exact h d List.mem_cons_self
    | cons e l =>
      exact ⟨h d List.mem_cons_self, hs, ih fun e he => h e (List.mem_cons_of_mem _ he)⟩

theorem Doc.one_concat (l : List Doc) : (Doc.concat l).one = l.flatMap (·.one) := by
  induction l with
  | nil => rfl
  | cons d l ih => simp [Doc.concat, Doc.one, ih]

theorem Doc.one_intersperse (sep : Doc) (l : List Doc) :
    (Doc.intersperse sep l).one = joinWith sep.one (l.map (·.one)) := by
  induction l with
  | nil => rfl
  | cons d l ih =>
    cases l with
    | nil => rfl
    | cons e l =>
      simp only [Doc.intersperse, Doc.one, List.map_cons, joinWith, List.append_assoc] at *
      rw [ih]

theorem word_one {α : Type} [ToDoc α] [PrintsWord α] (a : α) :
    (toDoc a).one = (word a).toList ∧ (toDoc a).Grouped := by
  rw [PrintsWord.prints]; exact ⟨rfl, trivial⟩

theorem elem_one (e : Elem T NT) : (toDoc e).one = (match e with
    | .term t => (word t).toList
    | .nonterm A => ['<'] ++ (word A).toList ++ ['>']) ∧ (toDoc e).Grouped := by
  cases e with
  | term t => exact word_one t
  | nonterm A =>
    show (Doc.append (Doc.append (.text "<") (toDoc A)) (.text ">")).one = _ ∧
      (Doc.append (Doc.append (.text "<") (toDoc A)) (.text ">")).Grouped
    obtain ⟨h1, h2⟩ := word_one A
    simp only [Doc.one, h1]
    exact ⟨rfl, ⟨trivial, h2⟩, trivial⟩

theorem prodElem_one (e : ProdElement T NT) : (toDoc e).one = e.listing ∧ (toDoc e).Grouped := by
  obtain ⟨id, el⟩ := e
  obtain ⟨h1, h2⟩ := elem_one el
  cases id with
  | none =>
    show (Doc.append .nil (toDoc el)).one = _ ∧ (Doc.append .nil (toDoc el)).Grouped
    exact ⟨by simp only [Doc.one, h1]; rfl, trivial, h2⟩
  | some n =>
    show (Doc.append (.append (.text n) (.append (.text ":") .softlineOrNothing)) (toDoc el)).one = _ ∧
      (Doc.append (.append (.text n) (.append (.text ":") .softlineOrNothing)) (toDoc el)).Grouped
    refine ⟨?_, ⟨trivial, trivial, trivial⟩, h2⟩
    simp only [Doc.one, Doc.softlineOrNothing, h1]
    rfl

theorem prod_one (p : ProdInner T NT AK AV) : (toDoc p).one = p.listing ∧ (toDoc p).Grouped := by
  show (if p.elements.isEmpty then Doc.text "ε" else .intersperse .softline (p.elements.map toDoc)).one = _ ∧
    (if p.elements.isEmpty then Doc.text "ε" else .intersperse .softline (p.elements.map toDoc)).Grouped
  unfold ProdInner.listing
  by_cases he : p.elements = []
  · rw [if_pos (by simp [he]), if_pos he]
    exact ⟨rfl, trivial⟩
  · rw [if_neg (by simpa using he), if_neg he]
    refine ⟨?_, Doc.grouped_intersperse (sep := .softline) trivial ?_⟩
    · rw [Doc.one_intersperse, List.map_map]
      congr 1
      exact List.map_congr_left fun e _ => (prodElem_one e).1
    · intro d hd
      obtain ⟨e, -, rfl⟩ := List.mem_map.1 hd
      exact (prodElem_one e).2

theorem rule_one (r : RuleInner T NT AK AV) : (toDoc r).one = r.listing ∧ (toDoc r).Grouped := by
  show (Doc.append (.append (.append (toDoc r.head) (.text " =>")) .softline)
    (.intersperse (.append (.text " |") .softline) (r.prods.map toDoc))).one = _ ∧
    (Doc.append (.append (.append (toDoc r.head) (.text " =>")) .softline)
    (.intersperse (.append (.text " |") .softline) (r.prods.map toDoc))).Grouped
  refine ⟨?_, ⟨⟨(word_one _).2, trivial⟩, trivial⟩, Doc.grouped_intersperse (sep := .append (.text " |") .softline) ⟨trivial, trivial⟩ ?_⟩
  · simp only [Doc.one, (word_one _).1, Doc.one_intersperse, List.map_map, Doc.softline]
    unfold RuleInner.listing
    have : r.prods.map (Doc.one ∘ toDoc) = r.prods.map (·.listing) :=
      List.map_congr_left fun p _ => (prod_one p).1
    rw [this]
    show (word r.head).toList ++ [' ', '=', '>'] ++ [' '] ++ _ = _
    rw [List.append_assoc _ [' ', '=', '>'] [' ']]
    rfl
  · intro d hd
    obtain ⟨p, -, rfl⟩ := List.mem_map.1 hd
    exact (prod_one p).2

theorem grammar_one (g : Grammar T NT AK AV) : (toDoc g).one = g.listing ∧ (toDoc g).Grouped := by
  constructor
  · show (Doc.append (.append (.append (.append (.append (.group (.text "Start =")) .softline)
      (toDoc g.startSymbol)) (.text ",")) .softline) (.append (.append (.append (.append (.text "Rules ")
      (.append (.text "{") (.append (.append .softline (.nest 2 (.concat
      (g.ruleSet.map fun rule => .append (.append (toDoc rule.2) (.text ";")) .softline)))) (.text "}"))))
      (.text ",")) .softline) .nil)).one = _
    simp only [Doc.one, (word_one _).1, Doc.softline, Doc.one_concat, List.flatMap_map, (rule_one _).1]
    unfold Grammar.listing Grammar.rules BMap.values
    have e1 : "Start = ".toList = "Start =".toList ++ [' '] := rfl
    have e2 : ", Rules { ".toList = ",".toList ++ ([' '] ++ ("Rules ".toList ++ ("{".toList ++ [' ']))) := rfl
    have e3 : "}, ".toList = "}".toList ++ (",".toList ++ [' ']) := rfl
    have e4 : [';', ' '] = ";".toList ++ [' '] := rfl
    rw [e1, e2, e3, e4, List.flatMap_map]
    simp only [List.append_assoc, List.append_nil]
  · refine ⟨⟨⟨⟨⟨trivial, trivial⟩, (word_one _).2⟩, trivial⟩, trivial⟩, ⟨⟨⟨trivial, trivial, ⟨trivial,
      Doc.grouped_concat ?_⟩, trivial⟩, trivial⟩, trivial⟩, trivial⟩
    intro d hd
    obtain ⟨kr, -, rfl⟩ := List.mem_map.1 hd
    exact ⟨⟨(rule_one _).2, trivial⟩, trivial⟩

theorem ink_append (s t : List Char) : ink (s ++ t) = ink s ++ ink t := List.filter_append ..

theorem ink_line (i : Nat) : ink ('\n' :: List.replicate i ' ') = [] := by
  unfold ink
  rw [List.filter_eq_nil_iff]
  intro c hc
  rcases List.mem_cons.1 hc with rfl | hc
  · decide
  · rw [List.eq_of_mem_replicate hc]; decide

theorem Doc.Prints.ink {f : Bool} {i : Nat} {d : Doc} {s : List Char} (h : d.Prints f i s) :
    ink s = ink d.one := by
  induction h with
  | nil => rfl
  | text => rfl
  | lineFlat => rfl
  | lineBreak => rw [ink_line]; rfl
  | nothingFlat => rfl
  | nothingBreak => rw [ink_line]; rfl
  | append _ _ h1 h2 => rw [ink_append, h1, h2, Doc.one, ink_append]
  | nest _ h => exact h
  | groupFlat _ h => exact h
  | groupBreak _ h => exact h

/-- C92: what is printed is the listing of the grammar — the start symbol, then every rule in the order
of the heads with all its productions and elements —, up to blanks and line breaks; and the listing on
one line is a possible text. -/
theorem printed_is_listing (g : Grammar T NT AK AV) :
    (toDoc g).Layout g.listing ∧ ∀ s, (toDoc g).Layout s → ink s = ink g.listing := by
  obtain ⟨h1, h2⟩ := grammar_one g
  refine ⟨?_, fun s hs => ?_⟩
  · rw [← h1]; exact h2.prints 0
  · rw [← h1]; exact Doc.Prints.ink hs

/-- C92: the wrapped grammar is printed like the grammar, with the start rule in front. -/
theorem printed_wrapped (g : Grammar T NT AK AV) : ∃ rest,
    g.listing = "Start = ".toList ++ (word g.startSymbol).toList ++ ", Rules { ".toList ++ rest ∧
    g.wrapped.listing = "Start = <START>, Rules { <START> => start:<".toList ++
      (word g.startSymbol).toList ++ "> <EOS>; ".toList ++ rest := by
  refine Exists.intro (g.rules.flatMap (fun r => r.listing ++ [';', ' ']) ++ "}, ".toList) ⟨?_, ?_⟩
  · exact List.append_assoc _ _ _
  · have he : ∀ e : ProdElement T NT, ProdElement.listing (⟨e.identifier, match e.element with
        | .term t => .term (.term t)
        | .nonterm nt => .nonterm (.nterm nt)⟩ : ProdElement (StreamTerminal T) (StartNonTerminal NT)) =
        e.listing := by
      intro e
      obtain ⟨id, el⟩ := e
      cases el <;> cases id <;> exact rfl
    have hp : ∀ p : ProdInner T NT AK AV, p.lifted.listing = p.listing := by
      intro p
      have h1 : p.lifted.elements.map (·.listing) = p.elements.map (·.listing) := by
        simp only [ProdInner.lifted, List.map_map]
        exact List.map_congr_left fun e _ => he e
      unfold ProdInner.listing
      rw [h1]
      simp only [ProdInner.lifted, List.map_eq_nil_iff]
    have hr : ∀ r : RuleInner T NT AK AV, r.lifted.listing = r.listing := by
      intro r
      have h1 : r.lifted.prods.map (·.listing) = r.prods.map (·.listing) := by
        simp only [RuleInner.lifted, List.map_map]
        exact List.map_congr_left fun p _ => hp p
      have h2 : word r.lifted.head = word r.head := rfl
      unfold RuleInner.listing
      rw [h1, h2]
    have hl : g.wrapped.rules = ⟨.start, [startProduction g.startSymbol]⟩ :: g.rules.map RuleInner.lifted := by
      simp only [Grammar.rules, BMap.values, Grammar.wrapped, List.map_cons, List.map_map,
        Function.comp_def]
    have hs : RuleInner.listing (T := StreamTerminal T) (⟨.start, [startProduction g.startSymbol]⟩ :
        RuleInner (StreamTerminal T) (StartNonTerminal NT) (StartActionKey AK) (StartActionValue AV)) =
        "<START> => start:<".toList ++ (word g.startSymbol).toList ++ "> <EOS>".toList := by
      have w1 : word (StartNonTerminal.start : StartNonTerminal NT) = "<START>" := rfl
      have w2 : ∀ A : NT, word (StartNonTerminal.nterm A) = word A := fun _ => rfl
      have w3 : word (StreamTerminal.endOfStream : StreamTerminal T) = "<EOS>" := rfl
      have e1 : "<START> => start:<".toList = "<START>".toList ++ ([' ', '=', '>', ' '] ++ ("start".toList ++
        ([':'] ++ ['<']))) := rfl
      have e2 : "> <EOS>".toList = ['>'] ++ ([' '] ++ "<EOS>".toList) := rfl
      rw [e1, e2]
      simp only [RuleInner.listing, ProdInner.listing, ProdElement.listing, startProduction, joinWith,
        List.map_cons, List.map_nil, reduceCtorEq, if_false, w1, w2, w3, List.append_assoc, List.nil_append]
    have w1 : word g.wrapped.startSymbol = "<START>" := rfl
    have e1 : "Start = <START>, Rules { <START> => start:<".toList = "Start = ".toList ++ ("<START>".toList ++
      (", Rules { ".toList ++ "<START> => start:<".toList)) := by decide
    have e2 : "> <EOS>; ".toList = "> <EOS>".toList ++ [';', ' '] := rfl
    unfold Grammar.listing
    rw [e1, e2, w1, hl, List.flatMap_cons, hs, List.flatMap_map]
    simp only [hr]
    generalize "Start = ".toList = x1, "<START>".toList = x2, ", Rules { ".toList = x3,
      "<START> => start:<".toList = x4, "> <EOS>".toList = x5, "}, ".toList = x6
    simp only [List.append_assoc]
end

section
variable [Word T] [Word NT]

/-! ## C93 -/

/-- C93: however the lines are broken, the printed text determines everything but the actions: two
grammars of plain names with a text in common have the same start symbol and the same rules. -/
theorem printed_determines {g : Grammar T NT AK AV} {g' : Grammar T NT AK' AV'} (h : g.PlainNames)
    (h' : g'.PlainNames) {s : List Char} (hs : (toDoc g).Layout s) (hs' : (toDoc g').Layout s) :
    g.shape = g'.shape := by
  have e1 := grammar_toks h _ _ _ [] hs
  have e2 := grammar_toks h' _ _ _ [] hs'
  rw [e1] at e2
  simp only [List.append_cancel_right_eq] at e2
  simp only [grammarToks, List.cons.injEq, PTok.word.injEq, true_and] at e2
  obtain ⟨h1, h2⟩ := e2
  exact _root_.Prod.ext (word_toList_inj h1) (rulesToks_inj h.elems h'.elems h2)

end

/-- The document of a rule, from what is printed of it. -/
theorem rule_doc_eq (r : RuleInner T NT AK AV) (r' : RuleInner T NT AK' AV') (h1 : r.head = r'.head)
    (h2 : r.prods.map (·.elements) = r'.prods.map (·.elements)) : toDoc r = toDoc r' := by
  have hp : ∀ {AK AV : Type} (l : List (ProdInner T NT AK AV)), l.map toDoc =
      (l.map (·.elements)).map fun es : List (ProdElement T NT) =>
        if es.isEmpty then Doc.text "ε" else .intersperse .softline (es.map toDoc) := by
    intro AK AV l
    rw [List.map_map]
    rfl
  show Doc.append (.append (.append (toDoc r.head) (.text " =>")) .softline)
    (.intersperse (.append (.text " |") .softline) (r.prods.map toDoc)) =
    Doc.append (.append (.append (toDoc r'.head) (.text " =>")) .softline)
    (.intersperse (.append (.text " |") .softline) (r'.prods.map toDoc))
  rw [h1, hp r.prods, hp r'.prods, h2]

/-- C93: and nothing else: the actions are not printed. -/
theorem printed_ignores_actions {g : Grammar T NT AK AV} {g' : Grammar T NT AK' AV'}
    (h : g.shape = g'.shape) (s : List Char) : (toDoc g).Layout s ↔ (toDoc g').Layout s := by
  obtain ⟨h1, h2⟩ := _root_.Prod.mk.inj h
  have h3 : (g.ruleSet.map fun rule => Doc.append (.append (toDoc rule.2) (.text ";")) .softline) =
      (g'.ruleSet.map fun rule => Doc.append (.append (toDoc rule.2) (.text ";")) .softline) := by
    unfold Grammar.rules BMap.values at h2
    rw [List.map_map, List.map_map] at h2
    generalize g.ruleSet = l at *
    generalize g'.ruleSet = l' at *
    induction l generalizing l' with
    | nil =>
      cases l' with
      | nil => rfl
      | cons x l' => cases h2
    | cons x l ih =>
      cases l' with
      | nil => cases h2
      | cons x' l' =>
        simp only [List.map_cons, List.cons.injEq, Function.comp, _root_.Prod.mk.injEq] at h2 ⊢
        exact ⟨by rw [rule_doc_eq x.2 x'.2 h2.1.1 h2.1.2], ih l' h2.2⟩
  have : toDoc g = toDoc g' := by
    simp only [toDoc]
    simp only [toDoc] at h3
    rw [h1, h3]
  rw [this]

/-- A grammar: `S` is `x:<A> b` or empty, `A` is `a`. -/
def printExample : Grammar Terminal NonTerminal Nat Unit :=
  ⟨⟨"S"⟩, [(⟨"A"⟩, ⟨⟨"A"⟩, [⟨3, (), [⟨none, .term ⟨"a"⟩⟩]⟩]⟩),
    (⟨"S"⟩, ⟨⟨"S"⟩, [⟨1, (), [⟨some "x", .nonterm ⟨"A"⟩⟩, ⟨none, .term ⟨"b"⟩⟩]⟩, ⟨2, (), []⟩]⟩)]⟩

instance (n : Name) : Decidable (PlainName n) := inferInstanceAs (Decidable (_ ∧ _ ∧ _))

example : printExample.Accepted ∧ printExample.PlainNames ∧
    printExample.listing = "Start = S, Rules { A => a; S => x:<A> b | ε; }, ".toList := by
  refine ⟨⟨20, ⟨"S"⟩, [⟨⟨"S"⟩, [.addProd 1 () [.addNamedNonterm "x" ⟨"A"⟩, .addTerm ⟨"b"⟩], .addProd 2 () []]⟩,
    ⟨⟨"A"⟩, [.addProd 3 () [.addTerm ⟨"a"⟩]]⟩], by decide⟩, ⟨by decide, by decide, ?_, ?_, by decide⟩, by decide⟩
  · intro r hr p hp e he t ht
    simp [Grammar.rules, BMap.values, printExample] at hr
    rcases hr with rfl | rfl <;> simp at hp <;> (try rcases hp with rfl | rfl) <;> (try subst hp) <;> simp at he <;>
      (try rcases he with rfl | rfl) <;> (try subst he) <;> simp at ht <;> (try subst ht) <;> decide
  · intro r hr p hp e he t ht
    simp [Grammar.rules, BMap.values, printExample] at hr
    rcases hr with rfl | rfl <;> simp at hp <;> (try rcases hp with rfl | rfl) <;> (try subst hp) <;> simp at he <;>
      (try rcases he with rfl | rfl) <;> (try subst he) <;> simp at ht <;> (try subst ht) <;> decide

/-- C93 needs the plain names: a terminal named `<A>` prints like the nonterminal `A`. -/
theorem printed_ambiguous : ∃ g g' : Grammar Terminal NonTerminal Nat Unit,
    g.Accepted ∧ g'.Accepted ∧ g.shape ≠ g'.shape ∧ ∃ s, (toDoc g).Layout s ∧ (toDoc g').Layout s := by
  let g : Grammar Terminal NonTerminal Nat Unit :=
    ⟨⟨"A"⟩, [(⟨"A"⟩, ⟨⟨"A"⟩, [⟨1, (), [⟨none, .nonterm ⟨"A"⟩⟩]⟩]⟩)]⟩
  let g' : Grammar Terminal NonTerminal Nat Unit :=
    ⟨⟨"A"⟩, [(⟨"A"⟩, ⟨⟨"A"⟩, [⟨1, (), [⟨none, .term ⟨"<A>"⟩⟩]⟩]⟩)]⟩
  refine ⟨g, g', ⟨20, ⟨"A"⟩, [⟨⟨"A"⟩, [.addProd 1 () [.addNonterm ⟨"A"⟩]]⟩], by decide⟩,
    ⟨20, ⟨"A"⟩, [⟨⟨"A"⟩, [.addProd 1 () [.addTerm ⟨"<A>"⟩]]⟩], by decide⟩, by decide, ?_⟩
  have e : g.listing = g'.listing := by decide
  exact ⟨_, (printed_is_listing g).1, e ▸ (printed_is_listing g').1⟩
end Bongo
