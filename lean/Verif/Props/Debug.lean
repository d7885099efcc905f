import Verif.Proof.Debug
import Verif.Proof.DotText
import Verif.Props.Pretty
/-!
# C103, C104: `Debug`

`Dbg.fmt false x` is the text of `{:?}`, `Dbg.fmt true x` the text of `{:#?}`.
-/
set_option linter.unusedSectionVars false
namespace Bongo
open Fmt
variable {T NT AK AV AK' AV' : Type}

/-! ## Symbols -/

theorem debugTuple_layout (name x y : List Char) (hn : name ≠ []) (h : ∀ r, tidyOn x r = tidyOn y r)
    (r : List Char) : tidyOn (debugTuple true name [x]) r = tidyOn (debugTuple false name [y]) r := by
  have hc : ∀ r, tidyStep ')' r = ')' :: r := tidyStep_char (by decide) (by decide) (by decide)
  simp [debugTuple, tupleFields, tupleFinish, tupleField, tidyOn_append, tidyOn_cons, tidyOn_pad,
    tidyStep_newline, hc, tidyStep_comma_close (c := ')') (by decide), h, hn]

theorem debugTuple_one {name : List Char} (hn : name ≠ []) (x : List Char) :
    debugTuple false name [x] = name ++ '(' :: (x ++ [')']) := by
  simp [debugTuple, tupleFields, tupleFinish, tupleField, hn]

theorem debugTuple_inj {name x y : List Char} (hn : name ≠ [])
    (h : debugTuple false name [x] = debugTuple false name [y]) : x = y := by
  rw [debugTuple_one hn, debugTuple_one hn] at h
  exact List.append_cancel_right (List.cons.inj (List.append_cancel_left h)).2

theorem debugTuple_chars {name x : List Char} (hn0 : name ≠ []) (hn : ∀ c ∈ name, c ∉ debugReserved)
    (hx : ∀ c ∈ x, c ∉ debugReserved) : ∀ c ∈ debugTuple false name [x], c ∉ debugReserved := by
  rw [debugTuple_one hn0]
  intro c hc
  simp only [List.mem_append, List.mem_cons, List.not_mem_nil, or_false] at hc
  rcases hc with hc | rfl | hc | rfl
  · exact hn c hc
  · decide
  · exact hx c hc
  · decide

/-- `Terminal`s with plain names. -/
instance : PlainDbg Terminal where
  Plain t := ∀ c ∈ t.name.toList, c ∉ debugReserved
  chars t h := debugTuple_chars (by decide) (by decide) h
  first t _ := ⟨'T', _, rfl, by decide⟩
  inj a b _ _ h := by
    have := debugTuple_inj (by decide) h
    cases a; cases b
    exact congrArg _ (String.ext this)
  layout t _ r := debugTuple_layout _ _ _ (by decide) (fun _ => rfl) r

/-- `NonTerminal`s with plain names. -/
instance : PlainDbg NonTerminal where
  Plain t := ∀ c ∈ t.name.toList, c ∉ debugReserved
  chars t h := debugTuple_chars (by decide) (by decide) h
  first t _ := ⟨'N', _, rfl, by decide⟩
  inj a b _ _ h := by
    have := debugTuple_inj (by decide) h
    cases a; cases b
    exact congrArg _ (String.ext this)
  layout t _ r := debugTuple_layout _ _ _ (by decide) (fun _ => rfl) r

/-- Numbers. -/
instance : PlainDbg Nat where
  Plain _ := True
  chars n _ c hc hr := by
    have h := Nat.isDigit_of_mem_toDigits (by omega) (by omega) hc
    revert h
    simp only [debugReserved, List.mem_cons, List.not_mem_nil, or_false] at hr
    rcases hr with rfl | rfl | rfl | rfl | rfl | rfl | rfl | rfl | rfl | rfl <;> decide
  first n _ := by
    have h1 : Nat.toDigits 10 n ≠ [] := Nat.toDigits_ne_nil
    obtain ⟨c, l, h⟩ := List.exists_cons_of_ne_nil h1
    refine ⟨c, l, h, ?_⟩
    rintro rfl
    have h2 : (')' : Char) ∈ Nat.toDigits 10 n := by rw [h]; exact List.mem_cons_self
    exact absurd (Nat.isDigit_of_mem_toDigits (by omega) (by omega) h2) (by decide)
  inj a b _ _ h := toDigits_inj h
  layout _ _ _ := rfl

/-- The terminals of wrapped grammars. -/
instance [Dbg T] [PlainDbg T] : PlainDbg (StreamTerminal T) where
  Plain t := ∀ t', t = .term t' → PlainDbg.Plain t'
  chars t h := match t with
    | .endOfStream => by show ∀ c ∈ "EndOfStream".toList, _; decide
    | .term t => debugTuple_chars (by decide) (by decide) (PlainDbg.chars t (h t rfl))
  first t _ := match t with
    | .endOfStream => ⟨'E', _, rfl, by decide⟩
    | .term t => ⟨'T', _, rfl, by decide⟩
  inj a b ha hb h := match a, b, ha, hb, h with
    | .endOfStream, .endOfStream, _, _, _ => rfl
    | .endOfStream, .term _, _, _, h => absurd (List.cons.inj h).1 (by decide)
    | .term _, .endOfStream, _, _, h => absurd (List.cons.inj h).1 (by decide)
    | .term a, .term b, ha, hb, h => congrArg _ (PlainDbg.inj a b (ha a rfl) (hb b rfl) (debugTuple_inj (by decide) h))
  layout t h r := match t with
    | .endOfStream => rfl
    | .term t => debugTuple_layout _ _ _ (by decide) (PlainDbg.layout t (h t rfl)) r

/-- The nonterminals of wrapped grammars. -/
instance [Dbg NT] [PlainDbg NT] : PlainDbg (StartNonTerminal NT) where
  Plain t := ∀ t', t = .nterm t' → PlainDbg.Plain t'
  chars t h := match t with
    | .start => by show ∀ c ∈ "Start".toList, _; decide
    | .nterm t => debugTuple_chars (by decide) (by decide) (PlainDbg.chars t (h t rfl))
  first t _ := match t with
    | .start => ⟨'S', _, rfl, by decide⟩
    | .nterm t => ⟨'N', _, rfl, by decide⟩
  inj a b ha hb h := match a, b, ha, hb, h with
    | .start, .start, _, _, _ => rfl
    | .start, .nterm _, _, _, h => absurd (List.cons.inj h).1 (by decide)
    | .nterm _, .start, _, _, h => absurd (List.cons.inj h).1 (by decide)
    | .nterm a, .nterm b, ha, hb, h => congrArg _ (PlainDbg.inj a b (ha a rfl) (hb b rfl) (debugTuple_inj (by decide) h))
  layout t h r := match t with
    | .start => rfl
    | .nterm t => debugTuple_layout _ _ _ (by decide) (PlainDbg.layout t (h t rfl)) r

/-! ## The text in terms of the rules without actions -/
section
variable [Dbg T] [Dbg NT]

/-- The text of a production with this head and these elements. -/
def prodFmt (alt : Bool) (p : NT × List (ProdElement T NT)) : List Char := debugStruct alt "Prod".toList
  [("head".toList, Dbg.fmt alt p.1), ("elems".toList, debugList alt (p.2.map (Dbg.fmt alt)))]

/-- The text of a rule. -/
def ruleFmt (alt : Bool) (r : NT × List (NT × List (ProdElement T NT))) : List Char :=
  debugStruct alt "Rule".toList [("head".toList, Dbg.fmt alt r.1), ("prods".toList, debugList alt (r.2.map (prodFmt alt)))]

/-- The text of a grammar. -/
def grammarFmt (alt : Bool) (x : List T × List NT × List (NT × List (NT × List (ProdElement T NT)))) :
    List Char := debugStruct alt "Grammar".toList
  [("Terms".toList, debugList alt (x.1.map (Dbg.fmt alt))), ("NonTerms".toList, debugList alt (x.2.1.map (Dbg.fmt alt))),
    ("Rules".toList, debugList alt (x.2.2.map (ruleFmt alt)))]

/-- The parts of the text of a rule. -/
def ruleParts (s : NT × List (List (ProdElement T NT))) : NT × List (NT × List (ProdElement T NT)) :=
  (s.1, s.2.map fun es => (s.1, es))

/-- The parts of the text of a grammar with these rules. -/
def debugParts (s : List (NT × List (List (ProdElement T NT)))) :
    List T × List NT × List (NT × List (NT × List (ProdElement T NT))) :=
  ((s.flatMap fun r => r.2.flatten.map (·.element)).filterMap Elem.asTerm,
    (s.flatMap fun r => r.2.flatten.map (·.element)).filterMap Elem.asNonterm, s.map ruleParts)

theorem prod_fmt (alt : Bool) (p : Prod T NT AK AV) : Dbg.fmt alt p = prodFmt alt (p.head, p.prodElements) := rfl

theorem rule_fmt (alt : Bool) (r : RuleInner T NT AK AV) :
    Dbg.fmt alt r = ruleFmt alt (ruleParts (r.head, r.prods.map (·.elements))) := by
  show debugStruct _ _ _ = debugStruct _ _ _
  have : r.prodRefs.map (Dbg.fmt alt) =
      ((r.prods.map (·.elements)).map fun es => (r.head, es)).map (prodFmt alt) := by
    unfold RuleInner.prodRefs
    rw [List.map_map, List.map_map, List.map_map]
    conv_rhs => rw [← List.zipIdx_map_fst 0 r.prods, List.map_map]
    rfl
  unfold listFmt
  rw [this]
  rfl

theorem getElements_shape (g : Grammar T NT AK AV) :
    g.getElements = g.shape.2.flatMap fun r => r.2.flatten.map (·.element) := by
  show ((BMap.values g.ruleSet).flatMap (·.prods)).flatMap (·.elems) =
    ((BMap.values g.ruleSet).map fun r => (r.head, r.prods.map (·.elements))).flatMap _
  generalize BMap.values g.ruleSet = l
  induction l with
  | nil => rfl
  | cons r l ih =>
    rw [List.flatMap_cons, List.flatMap_append, ih, List.map_cons, List.flatMap_cons]
    congr 1
    show r.prods.flatMap (·.elems) = ((r.prods.map (·.elements)).flatten).map (·.element)
    induction r.prods with
    | nil => rfl
    | cons p ps ih' => rw [List.flatMap_cons, ih', List.map_cons, List.flatten_cons, List.map_append]; rfl

theorem grammar_fmt (alt : Bool) (g : Grammar T NT AK AV) :
    Dbg.fmt alt g = grammarFmt alt (debugParts g.shape.2) := by
  show debugStruct _ _ _ = debugStruct _ _ _
  have h1 : g.rules.map (Dbg.fmt alt) = (g.shape.2.map ruleParts).map (ruleFmt alt) := by
    show _ = (((g.rules).map fun r => (r.head, r.prods.map (·.elements))).map ruleParts).map (ruleFmt alt)
    rw [List.map_map, List.map_map]
    exact List.map_congr_left fun r _ => rule_fmt alt r
  unfold listFmt Grammar.getTerminals Grammar.getNonterminals
  rw [h1, getElements_shape]
  rfl

/-- C103: the text shows the rules with the names in them, and nothing else: not the actions, and not
the start symbol. -/
theorem debug_shows_rules {g : Grammar T NT AK AV} {g' : Grammar T NT AK' AV'}
    (h : g.shape.2 = g'.shape.2) (alt : Bool) : Dbg.fmt alt g = Dbg.fmt alt g' := by
  rw [grammar_fmt, grammar_fmt, h]
end

/-! ## Reading it back -/
section
variable [Dbg T] [Dbg NT] [PlainDbg T] [PlainDbg NT]

/-- A production of plain names. -/
def PlainProd (p : NT × List (ProdElement T NT)) : Prop :=
  PlainDbg.Plain p.1 ∧ ∀ e ∈ p.2, PlainElement e

theorem prod_reads : ∃ n, ReadsBack (PlainProd (T := T) (NT := NT)) prodFmt n :=
  ⟨_, (sym_reads NT).struct2 element_reads.list ⟨by decide, 'P', _, rfl, by decide⟩
    ⟨by decide, 'h', _, rfl, by decide⟩ ⟨by decide, 'e', _, rfl, by decide⟩⟩

theorem rule_reads : ∃ n, ReadsBack (fun r : NT × List (NT × List (ProdElement T NT)) =>
    PlainDbg.Plain r.1 ∧ ∀ p ∈ r.2, PlainProd p) ruleFmt n := by
  obtain ⟨n, h⟩ := prod_reads (T := T) (NT := NT)
  exact ⟨_, (sym_reads NT).struct2 h.list ⟨by decide, 'R', _, rfl, by decide⟩
    ⟨by decide, 'h', _, rfl, by decide⟩ ⟨by decide, 'p', _, rfl, by decide⟩⟩

theorem grammar_reads : ∃ n, ReadsBack (fun x : List T × List NT × List (NT × List (NT × List (ProdElement T NT))) =>
    (∀ t ∈ x.1, PlainDbg.Plain t) ∧ (∀ A ∈ x.2.1, PlainDbg.Plain A) ∧
    ∀ r ∈ x.2.2, PlainDbg.Plain r.1 ∧ ∀ p ∈ r.2, PlainProd p) grammarFmt n := by
  obtain ⟨n, h⟩ := rule_reads (T := T) (NT := NT)
  exact ⟨_, (sym_reads T).list.struct3 (sym_reads NT).list h.list ⟨by decide, 'G', _, rfl, by decide⟩
    ⟨by decide, 'T', _, rfl, by decide⟩ ⟨by decide, 'N', _, rfl, by decide⟩ ⟨by decide, 'R', _, rfl, by decide⟩⟩

theorem Grammar.PlainDebug.parts {g : Grammar T NT AK AV} (h : g.PlainDebug) :
    (∀ t ∈ (debugParts g.shape.2).1, PlainDbg.Plain t) ∧
    (∀ A ∈ (debugParts g.shape.2).2.1, PlainDbg.Plain A) ∧
    ∀ r ∈ (debugParts g.shape.2).2.2, PlainDbg.Plain r.1 ∧ ∀ p ∈ r.2, PlainProd p := by
  have hel : ∀ e ∈ g.shape.2.flatMap (fun r => r.2.flatten.map (·.element)),
      ∃ r ∈ g.rules, ∃ p ∈ r.prods, ∃ pe ∈ p.elements, pe.element = e := by
    intro e he
    rw [← getElements_shape] at he
    unfold Grammar.getElements at he
    simp only [List.mem_flatMap, ProdInner.elems, List.mem_map] at he
    obtain ⟨p, ⟨r, hr, hp⟩, pe, hpe, rfl⟩ := he
    exact ⟨r, hr, p, hp, pe, hpe, rfl⟩
  refine ⟨fun t ht => ?_, fun A hA => ?_, fun x hx => ?_⟩
  · obtain ⟨e, he, h1⟩ := List.mem_filterMap.1 ht
    obtain ⟨r, hr, p, hp, pe, hpe, rfl⟩ := hel e he
    refine h.terms r hr p hp pe hpe t ?_
    cases hh : pe.element with
    | term t' => rw [hh] at h1; exact congrArg _ (Option.some.inj h1)
    | nonterm A => rw [hh] at h1; cases h1
  · obtain ⟨e, he, h1⟩ := List.mem_filterMap.1 hA
    obtain ⟨r, hr, p, hp, pe, hpe, rfl⟩ := hel e he
    refine h.nonterms r hr p hp pe hpe A ?_
    cases hh : pe.element with
    | term t' => rw [hh] at h1; cases h1
    | nonterm A => rw [hh] at h1; exact congrArg _ (Option.some.inj h1)
  · obtain ⟨s, hs, rfl⟩ := List.mem_map.1 hx
    obtain ⟨r, hr, rfl⟩ := List.mem_map.1 hs
    refine ⟨h.heads r hr, fun p hp => ?_⟩
    obtain ⟨es, hes, rfl⟩ := List.mem_map.1 hp
    obtain ⟨q, hq, rfl⟩ := List.mem_map.1 hes
    exact ⟨h.heads r hr, fun e he => ⟨h.terms r hr q hq e he, h.nonterms r hr q hq e he,
      h.identifiers r hr q hq e he⟩⟩

theorem ruleParts_inj {a b : NT × List (List (ProdElement T NT))} (h : ruleParts a = ruleParts b) : a = b := by
  obtain ⟨h1, h2⟩ := _root_.Prod.mk.inj h
  refine _root_.Prod.ext h1 ?_
  have := congrArg (List.map fun p : NT × List (ProdElement T NT) => p.2) h2
  have e : ∀ (x : NT) (l : List (List (ProdElement T NT))),
      (l.map fun es => (x, es)).map (fun p : NT × List (ProdElement T NT) => p.2) = l := by
    intro x l
    rw [List.map_map]
    exact List.map_id l
  exact (e _ _).symm.trans (this.trans (e _ _))

theorem map_inj_list {α β : Type} {f : α → β} (hf : ∀ a b, f a = f b → a = b) {l l' : List α}
    (h : l.map f = l'.map f) : l = l' := by
  induction l generalizing l' with
  | nil => cases l' with
    | nil => rfl
    | cons a l' => cases h
  | cons a l ih => cases l' with
    | nil => cases h
    | cons b l' =>
      obtain ⟨h1, h2⟩ := List.cons.inj h
      rw [hf _ _ h1, ih h2]

/-- C103: both texts, of `{:?}` and of `{:#?}`, determine the rules of a grammar of plain names; even
when blanks, line breaks and commas before closing brackets are ignored. -/
theorem debug_determines {g : Grammar T NT AK AV} {g' : Grammar T NT AK' AV'} (h : g.PlainDebug)
    (h' : g'.PlainDebug) {alt alt' : Bool} (e : tidy (Dbg.fmt alt g) = tidy (Dbg.fmt alt' g')) :
    g.shape.2 = g'.shape.2 := by
  obtain ⟨n, hn⟩ := grammar_reads (T := T) (NT := NT)
  rw [grammar_fmt, grammar_fmt] at e
  have := hn.det h.parts h'.parts e
  exact map_inj_list (fun _ _ => ruleParts_inj) (_root_.Prod.mk.inj (_root_.Prod.mk.inj this).2).2

/-- C103: two grammars of plain names have the same `Debug` text exactly if they have the same rules, up
to actions. -/
theorem debug_eq_iff {g : Grammar T NT AK AV} {g' : Grammar T NT AK' AV'} (h : g.PlainDebug)
    (h' : g'.PlainDebug) (alt : Bool) : Dbg.fmt alt g = Dbg.fmt alt g' ↔ g.shape.2 = g'.shape.2 :=
  ⟨fun e => debug_determines h h' (alt := alt) (alt' := alt) (by rw [e]), fun e => debug_shows_rules e alt⟩

/-- C103: `{:#?}` shows the same as `{:?}`, up to blanks, line breaks and commas before closing
brackets. -/
theorem debug_layout {g : Grammar T NT AK AV} (h : g.PlainDebug) :
    tidy (Dbg.fmt true g) = tidy (Dbg.fmt false g) := by
  obtain ⟨n, hn⟩ := grammar_reads (T := T) (NT := NT)
  rw [grammar_fmt, grammar_fmt]
  exact hn.modes h.parts true false

/-! ## C104: states -/

/-- The text of a position in a production. -/
def prodStateFmt (alt : Bool) (s : (NT × List (ProdElement T NT)) × Nat) : List Char :=
  debugStruct alt "ProdState".toList [("prod".toList, prodFmt alt s.1), ("index".toList, Dbg.fmt alt s.2)]

theorem prodState_reads : ∃ n, ReadsBack (fun s : (NT × List (ProdElement T NT)) × Nat => PlainProd s.1 ∧ True)
    prodStateFmt n := by
  obtain ⟨n, h⟩ := prod_reads (T := T) (NT := NT)
  exact ⟨_, h.struct2 (sym_reads Nat) ⟨by decide, 'P', _, rfl, by decide⟩ ⟨by decide, 'p', _, rfl, by decide⟩
    ⟨by decide, 'i', _, rfl, by decide⟩⟩

/-- C104: the text of a production state of plain names determines the head, the elements and the
position, and shows nothing else. -/
theorem prodState_debug (s : ProdState T NT AK AV) (s' : ProdState T NT AK' AV')
    (h : PlainProd (s.prod.head, s.prod.prodElements)) (h' : PlainProd (s'.prod.head, s'.prod.prodElements))
    (alt : Bool) : Dbg.fmt alt s = Dbg.fmt alt s' ↔
      s.prod.head = s'.prod.head ∧ s.prod.prodElements = s'.prod.prodElements ∧ s.index = s'.index := by
  obtain ⟨n, hn⟩ := prodState_reads (T := T) (NT := NT)
  have e : ∀ {AK AV : Type} (s : ProdState T NT AK AV),
      Dbg.fmt alt s = prodStateFmt alt ((s.prod.head, s.prod.prodElements), s.index) := fun _ => rfl
  rw [e, e]
  constructor
  · intro h1
    have := hn.det (a := ((s.prod.head, s.prod.prodElements), s.index))
      (b := ((s'.prod.head, s'.prod.prodElements), s'.index)) ⟨h, trivial⟩ ⟨h', trivial⟩ (alt := alt) (alt' := alt) (by rw [h1])
    simp only [_root_.Prod.mk.injEq] at this
    exact ⟨this.1.1, this.1.2, this.2⟩
  · rintro ⟨h1, h2, h3⟩
    rw [h1, h2, h3]

/-- C104: the text of an Earley state of plain names determines the production state as above, the
origin and the number of nodes, and shows nothing else. -/
theorem earleyState_debug (s s' : EarleyState T NT AK AV)
    (h : PlainProd (s.prodState.prod.head, s.prodState.prod.prodElements))
    (h' : PlainProd (s'.prodState.prod.head, s'.prodState.prod.prodElements)) (alt : Bool) :
    Dbg.fmt alt s = Dbg.fmt alt s' ↔ Dbg.fmt alt s.prodState = Dbg.fmt alt s'.prodState ∧
      s.key.originIndex = s'.key.originIndex ∧ s.value.length = s'.value.length := by
  obtain ⟨n, hn⟩ := prodState_reads (T := StreamTerminal T) (NT := StartNonTerminal NT)
  have hr := hn.struct3 (sym_reads Nat) (sym_reads Nat) (name := "EarleyState".toList)
    (w1 := "prod_state".toList) (w2 := "origin_index".toList) (w3 := "value_len".toList)
    ⟨by decide, 'E', _, rfl, by decide⟩ ⟨by decide, 'p', _, rfl, by decide⟩
    ⟨by decide, 'o', _, rfl, by decide⟩ ⟨by decide, 'v', _, rfl, by decide⟩
  constructor
  · intro h1
    have := hr.det (a := (((s.prodState.prod.head, s.prodState.prod.prodElements), s.prodState.index),
      s.key.originIndex, s.value.length)) (b := (((s'.prodState.prod.head, s'.prodState.prod.prodElements),
      s'.prodState.index), s'.key.originIndex, s'.value.length)) ⟨⟨h, trivial⟩, trivial, trivial⟩
      ⟨⟨h', trivial⟩, trivial, trivial⟩ (alt := alt) (alt' := alt) (congrArg tidy h1)
    simp only [_root_.Prod.mk.injEq] at this
    refine ⟨?_, this.2⟩
    rw [prodState_debug _ _ h h']
    exact ⟨this.1.1.1, this.1.1.2, this.1.2⟩
  · rintro ⟨h1, h2, h3⟩
    show debugStruct _ _ [(_, Dbg.fmt alt s.prodState), (_, Dbg.fmt alt s.key.originIndex), (_, Dbg.fmt alt s.value.length)] =
      debugStruct _ _ [(_, Dbg.fmt alt s'.prodState), (_, Dbg.fmt alt s'.key.originIndex), (_, Dbg.fmt alt s'.value.length)]
    rw [h1, h2, h3]

/-- C104: the text of the errors of `build` determines the three sets of errors. -/
theorem grammarErrors_debug {x y : GrammarErrors NT} {alt : Bool}
    (hx : ∀ A, A ∈ x.unreachableNonterms ∨ A ∈ x.nontermsWithoutRules ∨ A ∈ x.rulesWithoutProds → PlainDbg.Plain A)
    (hy : ∀ A, A ∈ y.unreachableNonterms ∨ A ∈ y.nontermsWithoutRules ∨ A ∈ y.rulesWithoutProds → PlainDbg.Plain A)
    (h : Dbg.fmt alt x = Dbg.fmt alt y) : x = y := by
  have hs := (sym_reads NT).set
  have hr := hs.struct3 hs hs (name := "GrammarErrors".toList) (w1 := "unreachable_nonterms".toList)
    (w2 := "nonterms_without_rules".toList) (w3 := "rules_without_prods".toList)
    ⟨by decide, 'G', _, rfl, by decide⟩ ⟨by decide, 'u', _, rfl, by decide⟩
    ⟨by decide, 'n', _, rfl, by decide⟩ ⟨by decide, 'r', _, rfl, by decide⟩
  have := hr.det (a := (x.unreachableNonterms, x.nontermsWithoutRules, x.rulesWithoutProds))
    (b := (y.unreachableNonterms, y.nontermsWithoutRules, y.rulesWithoutProds))
    ⟨fun A h => hx A (.inl h), fun A h => hx A (.inr (.inl h)), fun A h => hx A (.inr (.inr h))⟩
    ⟨fun A h => hy A (.inl h), fun A h => hy A (.inr (.inl h)), fun A h => hy A (.inr (.inr h))⟩
    (alt := alt) (alt' := alt) (congrArg tidy h)
  simp only [_root_.Prod.mk.injEq] at this
  cases x; cases y
  simp only at this
  rw [this.1, this.2.1, this.2.2]
end

/-! ## Examples -/

instance (n : Name) : Decidable (PlainIdent n) := inferInstanceAs (Decidable (∀ c ∈ n.toList, c ∉ ')' :: debugReserved))

theorem printExample_plainDebug : printExample.PlainDebug := by
  refine ⟨?_, ?_, ?_, by decide⟩
  · intro r hr
    simp [Grammar.rules, BMap.values, printExample] at hr
    rcases hr with rfl | rfl <;> (show ∀ c ∈ _, _) <;> decide
  · intro r hr p hp e he t ht
    simp [Grammar.rules, BMap.values, printExample] at hr
    rcases hr with rfl | rfl <;> simp at hp <;> (try rcases hp with rfl | rfl) <;> (try subst hp) <;> simp at he <;>
      (try rcases he with rfl | rfl) <;> (try subst he) <;> simp at ht <;> (try subst ht) <;> (show ∀ c ∈ _, _) <;> decide
  · intro r hr p hp e he t ht
    simp [Grammar.rules, BMap.values, printExample] at hr
    rcases hr with rfl | rfl <;> simp at hp <;> (try rcases hp with rfl | rfl) <;> (try subst hp) <;> simp at he <;>
      (try rcases he with rfl | rfl) <;> (try subst he) <;> simp at ht <;> (try subst ht) <;> (show ∀ c ∈ _, _) <;> decide

/-- The grammar `S => x:<A> b | ε; A => a`. -/
example : printExample.PlainDebug ∧ Dbg.fmt false printExample =
    ("Grammar { Terms: [Terminal(a), Terminal(b)], NonTerms: [NonTerminal(A)], Rules: [" ++
    "Rule { head: NonTerminal(A), prods: [Prod { head: NonTerminal(A), elems: [Terminal(a)] }] }, " ++
    "Rule { head: NonTerminal(S), prods: [Prod { head: NonTerminal(S), elems: [x:<NonTerminal(A)>, " ++
    "Terminal(b)] }, Prod { head: NonTerminal(S), elems: [] }] }] }").toList :=
  ⟨printExample_plainDebug, by decide +kernel⟩

/-- One of its productions with `{:#?}`, and at position 1 with `{:?}`. -/
example : Dbg.fmt true (⟨⟨"S"⟩, 0, ⟨1, (), [⟨some "x", .nonterm ⟨"A"⟩⟩, ⟨none, .term ⟨"b"⟩⟩]⟩⟩ :
      Prod Terminal NonTerminal Nat Unit) =
    ("Prod {\n    head: NonTerminal(\n        S,\n    ),\n    elems: [\n        x:<NonTerminal(A)>,\n" ++
    "        Terminal(b),\n    ],\n}").toList ∧
    Dbg.fmt false (⟨⟨⟨"S"⟩, 0, ⟨1, (), [⟨none, .term ⟨"b"⟩⟩]⟩⟩, 1⟩ : ProdState Terminal NonTerminal Nat Unit) =
    "ProdState { prod: Prod { head: NonTerminal(S), elems: [Terminal(b)] }, index: 1 }".toList :=
  ⟨by decide +kernel, by decide +kernel⟩

/-- A state of the wrapped grammar, and the errors of a grammar with an undefined nonterminal. -/
example : PlainProd (T := StreamTerminal Terminal) (NT := StartNonTerminal NonTerminal)
      (.nterm ⟨"S"⟩, [⟨none, .term (.term ⟨"b"⟩)⟩]) ∧
    Dbg.fmt false (⟨⟨⟨⟨.nterm ⟨"S"⟩, 0, ⟨.actionKey 1, .actionValue (), [⟨none, .term (.term ⟨"b"⟩)⟩]⟩⟩, 1⟩, 2⟩, [7]⟩ :
      EarleyState Terminal NonTerminal Nat Unit) =
    ("EarleyState { prod_state: ProdState { prod: Prod { head: NTerm(NonTerminal(S)), " ++
    "elems: [Term(Terminal(b))] }, index: 1 }, origin_index: 2, value_len: 1 }").toList ∧
    Dbg.fmt false (⟨[], [⟨"X"⟩, ⟨"Y"⟩], []⟩ : GrammarErrors NonTerminal) =
    ("GrammarErrors { unreachable_nonterms: {}, nonterms_without_rules: {NonTerminal(X), NonTerminal(Y)}, " ++
    "rules_without_prods: {} }").toList := by
  refine ⟨⟨?_, ?_⟩, by decide +kernel, by decide +kernel⟩
  · intro t h; cases h; show ∀ c ∈ _, _; decide
  · intro e he
    rw [List.mem_singleton.1 he]
    refine ⟨?_, fun A h => (by cases h), fun n h => (by cases h)⟩
    intro t h; cases h
    intro t h; cases h; show ∀ c ∈ _, _; decide

/-- C103: the start symbol is not shown: two accepted grammars of plain names that differ in the start
symbol and have the same text. -/
theorem debug_hides_start : ∃ g g' : Grammar Terminal NonTerminal Nat Unit, g.Accepted ∧ g'.Accepted ∧
    g.startSymbol ≠ g'.startSymbol ∧ ∀ alt, Dbg.fmt alt g = Dbg.fmt alt g' := by
  let rs : BMap NonTerminal (RuleInner Terminal NonTerminal Nat Unit) :=
    [(⟨"A"⟩, ⟨⟨"A"⟩, [⟨1, (), [⟨none, .nonterm ⟨"B"⟩⟩]⟩, ⟨2, (), [⟨none, .term ⟨"a"⟩⟩]⟩]⟩),
      (⟨"B"⟩, ⟨⟨"B"⟩, [⟨3, (), [⟨none, .nonterm ⟨"A"⟩⟩, ⟨none, .term ⟨"b"⟩⟩]⟩]⟩)]
  let calls : List (GrammarOp Terminal NonTerminal Nat Unit) :=
    [⟨⟨"A"⟩, [.addProd 1 () [.addNonterm ⟨"B"⟩], .addProd 2 () [.addTerm ⟨"a"⟩]]⟩,
      ⟨⟨"B"⟩, [.addProd 3 () [.addNonterm ⟨"A"⟩, .addTerm ⟨"b"⟩]]⟩]
  exact ⟨⟨⟨"A"⟩, rs⟩, ⟨⟨"B"⟩, rs⟩, ⟨20, ⟨"A"⟩, calls, by decide⟩, ⟨20, ⟨"B"⟩, calls, by decide⟩, by decide,
    fun alt => debug_shows_rules rfl alt⟩

/-- C103 needs the plain names: a terminal named `a), Terminal(b` looks like two terminals. -/
theorem debug_ambiguous : ∃ g g' : Grammar Terminal NonTerminal Nat Unit, g.Accepted ∧ g'.Accepted ∧
    g.shape.2 ≠ g'.shape.2 ∧ Dbg.fmt false g = Dbg.fmt false g' := by
  let g : Grammar Terminal NonTerminal Nat Unit :=
    ⟨⟨"S"⟩, [(⟨"S"⟩, ⟨⟨"S"⟩, [⟨1, (), [⟨none, .term ⟨"a), Terminal(b"⟩⟩]⟩]⟩)]⟩
  let g' : Grammar Terminal NonTerminal Nat Unit :=
    ⟨⟨"S"⟩, [(⟨"S"⟩, ⟨⟨"S"⟩, [⟨1, (), [⟨none, .term ⟨"a"⟩⟩, ⟨none, .term ⟨"b"⟩⟩]⟩]⟩)]⟩
  exact ⟨g, g', ⟨20, ⟨"S"⟩, [⟨⟨"S"⟩, [.addProd 1 () [.addTerm ⟨"a), Terminal(b"⟩]]⟩], by decide⟩,
    ⟨20, ⟨"S"⟩, [⟨⟨"S"⟩, [.addProd 1 () [.addTerm ⟨"a"⟩, .addTerm ⟨"b"⟩]]⟩], by decide⟩, by decide,
    by decide +kernel⟩
end Bongo
