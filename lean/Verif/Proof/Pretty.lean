import Verif.Spec.Pretty
/-!
# Printed grammars: tokens
-/
namespace Bongo
set_option linter.unusedSectionVars false

/-- Tokens of the printed form. -/
inductive PTok where
  | word (w : List Char)
  | sym (c : Char)
  deriving DecidableEq

def isPlain (c : Char) : Bool := c ∉ reservedChars
def isBlank (c : Char) : Bool := c = ' ' ∨ c = '\n'

def lexCons (c : Char) (glue : Bool) : List PTok → List PTok
  | .word w :: ts => if glue then .word (c :: w) :: ts else .word [c] :: .word w :: ts
  | ts => .word [c] :: ts

def lex : List Char → List PTok
  | [] => []
  | c :: cs =>
    if isBlank c then lex cs
    else if isPlain c then lexCons c (cs.head?.any isPlain) (lex cs)
    else .sym c :: lex cs

def Stop (r : List Char) : Prop := ∀ c ∈ r.head?, isPlain c = false

theorem blank_not_plain {c : Char} (h : isBlank c = true) : isPlain c = false := by
  simp only [isBlank, decide_eq_true_eq] at h
  rcases h with rfl | rfl <;> decide

theorem lex_blank {c : Char} (h : isBlank c = true) (r : List Char) : lex (c :: r) = lex r := by
  simp [lex, h]

theorem lex_sym {c : Char} (h1 : isBlank c = false) (h : isPlain c = false) (r : List Char) :
    lex (c :: r) = .sym c :: lex r := by
  simp [lex, h, h1]

theorem plain_not_blank {c : Char} (h : isPlain c = true) : isBlank c = false := by
  cases hb : isBlank c with
  | false => rfl
  | true => rw [blank_not_plain hb] at h; cases h

theorem lex_word : ∀ (w r : List Char), w ≠ [] → (∀ c ∈ w, isPlain c = true) → Stop r →
    lex (w ++ r) = .word w :: lex r := by
  intro w
  induction w with
  | nil => intro r h; exact absurd rfl h
  | cons c w ih =>
    intro r _ hp hs
    have hc := hp c List.mem_cons_self
    simp only [List.cons_append, lex, plain_not_blank hc, hc, if_true, Bool.false_eq_true, if_false]
    cases w with
    | nil =>
      have : r.head?.any isPlain = false := by
        cases r with
        | nil => rfl
        | cons d r => exact hs d rfl
      simp only [List.nil_append, this]
      cases lex r with
      | nil => rfl
      | cons t ts => cases t <;> rfl
    | cons d w =>
      rw [ih r (by simp) (fun c hc => hp c (List.mem_cons_of_mem _ hc)) hs]
      have hd := hp d (by simp)
      simp [lexCons, hd]

theorem lex_blanks {w : List Char} (h : ∀ c ∈ w, isBlank c = true) (r : List Char) :
    lex (w ++ r) = lex r := by
  induction w with
  | nil => rfl
  | cons c w ih =>
    rw [List.cons_append, lex_blank (h c List.mem_cons_self)]
    exact ih fun c hc => h c (List.mem_cons_of_mem _ hc)

/-! ## Documents -/

/-- Every text of `d` has the tokens `ts`, whatever follows. -/
def Doc.TA (d : Doc) (ts : List PTok) : Prop :=
  ∀ f i s r, d.Prints f i s → lex (s ++ r) = ts ++ lex r
/-- Every text of `d` has the tokens `ts`, if no word follows immediately. -/
def Doc.TS (d : Doc) (ts : List PTok) : Prop :=
  ∀ f i s r, d.Prints f i s → Stop r → lex (s ++ r) = ts ++ lex r
/-- No text of `d` begins with a word. -/
def Doc.SB (d : Doc) : Prop := ∀ f i s r, d.Prints f i s → Stop (s ++ r)

theorem Doc.TA.ts {d : Doc} {ts} (h : d.TA ts) : d.TS ts := fun f i s r hp _ => h f i s r hp


namespace Doc
theorem prints_append {f i} {a b : Doc} {s} (h : (Doc.append a b).Prints f i s) :
    ∃ x y, s = x ++ y ∧ a.Prints f i x ∧ b.Prints f i y := by
  cases h with
  | append h1 h2 => exact ⟨_, _, rfl, h1, h2⟩

theorem TA.append {a b : Doc} {ts us} (h1 : a.TA ts) (h2 : b.TA us) : (Doc.append a b).TA (ts ++ us) := by
  intro f i s r h
  obtain ⟨x, y, rfl, ha, hb⟩ := prints_append h
  rw [List.append_assoc, h1 _ _ _ _ ha, h2 _ _ _ _ hb, List.append_assoc]

theorem TA.append_ts {a b : Doc} {ts us} (h1 : a.TA ts) (h2 : b.TS us) :
    (Doc.append a b).TS (ts ++ us) := by
  intro f i s r h hr
  obtain ⟨x, y, rfl, ha, hb⟩ := prints_append h
  rw [List.append_assoc, h1 _ _ _ _ ha, h2 _ _ _ _ hb hr, List.append_assoc]

theorem TS.append {a b : Doc} {ts us} (h1 : a.TS ts) (hb' : b.SB) (h2 : b.TA us) :
    (Doc.append a b).TA (ts ++ us) := by
  intro f i s r h
  obtain ⟨x, y, rfl, ha, hb⟩ := prints_append h
  rw [List.append_assoc, h1 _ _ _ _ ha (hb' _ _ _ _ hb), h2 _ _ _ _ hb, List.append_assoc]

theorem SB.append {a b : Doc} (h : a.SB) : (Doc.append a b).SB := by
  intro f i s r h'
  obtain ⟨x, y, rfl, ha, hb⟩ := prints_append h'
  rw [List.append_assoc]
  exact h _ _ _ _ ha

theorem TA.nil : Doc.nil.TA [] := by
  intro f i s r h; cases h; rfl

theorem TA.nest {d : Doc} {n ts} (h : d.TA ts) : (Doc.nest n d).TA ts := by
  intro f i s r h'; cases h' with
  | nest h' => exact h _ _ _ _ h'

theorem TA.group {d : Doc} {ts} (h : d.TA ts) : (Doc.group d).TA ts := by
  intro f i s r h'; cases h' with
  | groupFlat h' => exact h _ _ _ _ h'
  | groupBreak h' => exact h _ _ _ _ h'

theorem SB.group {d : Doc} (h : d.SB) : (Doc.group d).SB := by
  intro f i s r h'; cases h' with
  | groupFlat h' => exact h _ _ _ _ h'
  | groupBreak h' => exact h _ _ _ _ h'

theorem blank_line {i : Nat} : ∀ c ∈ '\n' :: List.replicate i ' ', isBlank c = true := by
  intro c hc
  rcases List.mem_cons.1 hc with rfl | hc
  · decide
  · rw [List.eq_of_mem_replicate hc]; decide

theorem TA.line : Doc.line.TA [] := by
  intro f i s r h
  cases h with
  | lineFlat => exact lex_blank (by decide) r
  | lineBreak => exact lex_blanks blank_line r

theorem TA.lineOrNothing : Doc.lineOrNothing.TA [] := by
  intro f i s r h
  cases h with
  | nothingFlat => rfl
  | nothingBreak => exact lex_blanks blank_line r

theorem SB.line : Doc.line.SB := by
  intro f i s r h
  cases h with
  | lineFlat => intro c hc; cases hc; decide
  | lineBreak => intro c hc; cases hc; decide

theorem TA.softline : Doc.softline.TA [] := TA.line.group
theorem TA.softlineOrNothing : Doc.softlineOrNothing.TA [] := TA.lineOrNothing.group
theorem SB.softline : Doc.softline.SB := SB.line.group

theorem TA.concat {α : Type} {f : α → Doc} {t : α → List PTok} :
    ∀ {l : List α}, (∀ a ∈ l, (f a).TA (t a)) → (Doc.concat (l.map f)).TA (l.flatMap t) := by
  intro l
  induction l with
  | nil => intro _; exact TA.nil
  | cons a l ih =>
    intro h
    exact (h a List.mem_cons_self).append (ih fun b hb => h b (List.mem_cons_of_mem _ hb))

/-- Put `sep` between. -/
def joinToks (sep : List PTok) : List (List PTok) → List PTok
  | [] => []
  | [a] => a
  | a :: l => a ++ (sep ++ joinToks sep l)

theorem TS.intersperse {α : Type} {f : α → Doc} {t : α → List PTok} {sep : Doc} {seps : List PTok}
    (h1 : sep.TA seps) (h2 : sep.SB) : ∀ {l : List α}, (∀ a ∈ l, (f a).TS (t a)) →
    (Doc.intersperse sep (l.map f)).TS (joinToks seps (l.map t)) := by
  intro l
  induction l with
  | nil => intro _; exact TA.nil.ts
  | cons a l ih =>
    intro h
    cases l with
    | nil => exact h a List.mem_cons_self
    | cons b l =>
      have ih' := ih fun b hb => h b (List.mem_cons_of_mem _ hb)
      have := h a List.mem_cons_self
      intro f' i s r hp hr
      obtain ⟨x, y, rfl, ha, hb⟩ := prints_append (show (Doc.append (f a) (Doc.append sep
        (Doc.intersperse sep ((b :: l).map f)))).Prints f' i s from hp)
      rw [List.append_assoc, this _ _ _ _ ha ((h2.append) _ _ _ _ hb), (h1.append_ts ih') _ _ _ _ hb hr]
      simp [joinToks]

theorem TA.sym {s : String} {c : Char} (h : s.toList = [c]) (h1 : isBlank c = false)
    (h2 : isPlain c = false) : (Doc.text s).TA [.sym c] := by
  intro f i x r hp
  cases hp
  rw [h]
  exact lex_sym h1 h2 r

theorem SB.text {s : String} {c : Char} {l : List Char} (h : s.toList = c :: l) (h2 : isPlain c = false) :
    (Doc.text s).SB := by
  intro f i x r hp
  cases hp
  rw [h]
  intro d hd
  cases hd
  exact h2

theorem TS.text {s : String} (hne : s.toList ≠ []) (hp : ∀ c ∈ s.toList, isPlain c = true) :
    (Doc.text s).TS [.word s.toList] := by
  intro f i x r h hr
  cases h
  exact lex_word _ _ hne hp hr
end Doc

theorem PlainName.toks {n : Name} (h : PlainName n) : (Doc.text n).TS [.word n.toList] := by
  refine Doc.TS.text ?_ ?_
  · intro e
    exact h.1 (String.toList_inj.1 e)
  · intro c hc
    have := h.2.2 c hc
    simpa [isPlain] using this

/-! ## Tokens of a grammar -/
open PrintsWord (word)
section
variable {T NT AK AV : Type} [ToDoc T] [ToDoc NT] [Word T] [Word NT]

def elemToks : Elem T NT → List PTok
  | .term t => [.word (word t).toList]
  | .nonterm A => [.sym '<', .word (word A).toList, .sym '>']

def prodElemToks (e : ProdElement T NT) : List PTok :=
  match e.identifier with
  | some n => .word n.toList :: .sym ':' :: elemToks e.element
  | none => elemToks e.element

def prodToks (es : List (ProdElement T NT)) : List PTok :=
  if es = [] then [.word ['ε']] else es.flatMap prodElemToks

def ruleToks (r : NT × List (List (ProdElement T NT))) : List PTok :=
  .word (word r.1).toList :: .sym '=' :: .sym '>' :: (Doc.joinToks [.sym '|'] (r.2.map prodToks) ++ [.sym ';'])

def grammarToks (g : NT × List (NT × List (List (ProdElement T NT)))) : List PTok :=
  .word "Start".toList :: .sym '=' :: .word (word g.1).toList :: .sym ',' :: .word "Rules".toList :: .sym '{' ::
    (g.2.flatMap ruleToks ++ [.sym '}', .sym ','])

def PlainElem (e : ProdElement T NT) : Prop :=
  (∀ t, e.element = .term t → PlainName (word t)) ∧ (∀ A, e.element = .nonterm A → PlainName (word A)) ∧
    ∀ n, e.identifier = some n → PlainName n

theorem elem_toks {e : Elem T NT} (h1 : ∀ t, e = .term t → PlainName (word t))
    (h2 : ∀ A, e = .nonterm A → PlainName (word A)) : (toDoc e).TS (elemToks e) := by
  cases e with
  | term t =>
    show (toDoc t).TS _
    rw [PrintsWord.prints]
    exact (h1 t rfl).toks
  | nonterm A =>
    show (Doc.append (Doc.append (.text "<") (toDoc A)) (.text ">")).TS _
    rw [PrintsWord.prints]
    have a1 : (Doc.text "<").TA [.sym '<'] := Doc.TA.sym rfl (by decide) (by decide)
    have a2 : (Doc.text ">").TA [.sym '>'] := Doc.TA.sym rfl (by decide) (by decide)
    exact ((a1.append_ts (h2 A rfl).toks).append (Doc.SB.text rfl (by decide)) a2).ts

theorem prodElem_toks {e : ProdElement T NT} (h : PlainElem e) : (toDoc e).TS (prodElemToks e) := by
  obtain ⟨id, el⟩ := e
  have he := elem_toks h.1 h.2.1
  cases id with
  | none => exact Doc.TA.nil.append_ts he
  | some n =>
    have a2 : (Doc.text ":").TA [.sym ':'] := Doc.TA.sym rfl (by decide) (by decide)
    have a3 := a2.append Doc.TA.softlineOrNothing
    exact ((h.2.2 n rfl).toks.append (Doc.SB.append (Doc.SB.text rfl (by decide))) a3).append_ts he

theorem joinToks_nil (l : List (List PTok)) : Doc.joinToks [] l = l.flatten := by
  induction l with
  | nil => rfl
  | cons a l ih =>
    cases l with
    | nil => simp [Doc.joinToks]
    | cons b l => simp only [Doc.joinToks, List.flatten_cons, List.nil_append] at *; rw [ih]

theorem prod_toks {p : ProdInner T NT AK AV} (h : ∀ e ∈ p.elements, PlainElem e) :
    (toDoc p).TS (prodToks p.elements) := by
  show (if p.elements.isEmpty then Doc.text "ε" else .intersperse .softline (p.elements.map toDoc)).TS _
  unfold prodToks
  by_cases he : p.elements = []
  · rw [if_pos (by simp [he]), if_pos he]
    exact Doc.TS.text (s := "ε") (by decide) (by decide)
  · rw [if_neg (by simpa using he), if_neg he]
    have := Doc.TS.intersperse (f := toDoc) (t := prodElemToks) Doc.TA.softline Doc.SB.softline
      (l := p.elements) (fun e he => prodElem_toks (h e he))
    rw [joinToks_nil] at this
    exact this

theorem rule_toks {r : RuleInner T NT AK AV} (h0 : PlainName (word r.head))
    (h : ∀ p ∈ r.prods, ∀ e ∈ p.elements, PlainElem e) :
    (Doc.append (toDoc r) (.text ";")).TA (ruleToks (r.head, r.prods.map (·.elements))) := by
  show (Doc.append (.append (.append (.append (toDoc r.head) (.text " =>")) .softline)
    (.intersperse (.append (.text " |") .softline) (r.prods.map toDoc))) (.text ";")).TA _
  rw [PrintsWord.prints]
  have a1 : (Doc.text " =>").TA [.sym '=', .sym '>'] := by
    intro f i x r hp
    cases hp
    show lex (' ' :: '=' :: '>' :: r) = _
    rw [lex_blank (by decide), lex_sym (by decide) (by decide), lex_sym (by decide) (by decide)]
    rfl
  have a2 : (Doc.text " |").TA [.sym '|'] := by
    intro f i x r hp
    cases hp
    show lex (' ' :: '|' :: r) = _
    rw [lex_blank (by decide), lex_sym (by decide) (by decide)]
    rfl
  have a3 : (Doc.text ";").TA [.sym ';'] := Doc.TA.sym rfl (by decide) (by decide)
  have b1 := (h0.toks.append (Doc.SB.text (s := " =>") rfl (by decide)) a1).append Doc.TA.softline
  have b2 := Doc.TS.intersperse (f := toDoc) (t := fun p : ProdInner T NT AK AV => prodToks p.elements)
    (a2.append Doc.TA.softline) (Doc.SB.append (Doc.SB.text (s := " |") rfl (by decide)))
    (l := r.prods) (fun p hp => prod_toks (h p hp))
  have := (b1.append_ts b2).append (Doc.SB.text (s := ";") rfl (by decide)) a3
  simpa [ruleToks, List.map_map, Function.comp_def] using this

theorem grammar_toks {g : Grammar T NT AK AV} (h : g.PlainNames) :
    (toDoc g).TA (grammarToks g.shape) := by
  have c1 : (Doc.text ",").TA [.sym ','] := Doc.TA.sym rfl (by decide) (by decide)
  have hsb : (Doc.text ",").SB := Doc.SB.text rfl (by decide)
  have s1 : (Doc.group (.text "Start =")).TA [.word "Start".toList, .sym '='] := by
    refine Doc.TA.group ?_
    intro f i x r hp
    cases hp
    show lex ("Start".toList ++ (' ' :: '=' :: r)) = _
    rw [lex_word _ _ (by decide) (by decide) (by intro c hc; cases hc; decide), lex_blank (by decide),
      lex_sym (by decide) (by decide)]
    rfl
  have s2 : (toDoc g.startSymbol).TS [.word (word g.startSymbol).toList] := by rw [PrintsWord.prints]; exact h.start.toks
  have s3 := ((s1.append Doc.TA.softline).append_ts s2).append hsb c1 |>.append Doc.TA.softline
  have r1 : (Doc.text "Rules ").TA [.word "Rules".toList] := by
    intro f i x r hp
    cases hp
    show lex ("Rules".toList ++ (' ' :: r)) = _
    rw [lex_word _ _ (by decide) (by decide) (by intro c hc; cases hc; decide), lex_blank (by decide)]
    rfl
  have b1 : (Doc.text "{").TA [.sym '{'] := Doc.TA.sym rfl (by decide) (by decide)
  have b2 : (Doc.text "}").TA [.sym '}'] := Doc.TA.sym rfl (by decide) (by decide)
  have r2 := Doc.TA.concat (f := fun rule : NT × RuleInner T NT AK AV =>
      .append (.append (toDoc rule.2) (.text ";")) .softline)
    (t := fun rule => ruleToks (rule.2.head, rule.2.prods.map (·.elements)) ++ []) (l := g.ruleSet) (by
      intro kr hkr
      have hm : kr.2 ∈ g.rules := List.mem_map_of_mem hkr
      refine (rule_toks (h.heads _ hm) fun p hp e he => ⟨?_, ?_, ?_⟩).append Doc.TA.softline
      · exact h.terms _ hm p hp e he
      · exact h.nonterms _ hm p hp e he
      · exact h.identifiers _ hm p hp e he)
  have r3 := (r1.append (b1.append ((Doc.TA.softline.append (r2.nest (n := 2))).append b2))).append c1
    |>.append Doc.TA.softline
  have := s3.append (r3.append Doc.TA.nil)
  refine Eq.mp (congrArg _ ?_) this
  · simp [grammarToks, Grammar.shape, Grammar.rules, BMap.values, List.flatMap_map]

/-! ## The tokens determine the grammar -/

theorem PlainName.ne_eps {n : Name} (h : PlainName n) : n.toList ≠ ['ε'] := by
  intro e
  exact h.2.1 (String.toList_inj.1 e)

theorem word_toList_inj {α : Type} [ToDoc α] [Word α] {a b : α} (h : (word a).toList = (word b).toList) :
    a = b := Word.inj a b (String.toList_inj.1 h)

theorem elemToks_inj {e e' : Elem T NT} {r r' : List PTok} (h : elemToks e ++ r = elemToks e' ++ r') :
    e = e' ∧ r = r' := by
  cases e <;> cases e' <;> simp only [elemToks, List.cons_append, List.nil_append, List.cons.injEq,
    PTok.word.injEq, reduceCtorEq, false_and, true_and] at h
  · obtain ⟨h1, h2⟩ := h
    rw [word_toList_inj h1]; exact ⟨rfl, h2⟩
  · obtain ⟨h1, h2⟩ := h
    rw [word_toList_inj h1]; exact ⟨rfl, h2⟩

/-- Not the colon after an identifier. -/
def NoColon (r : List PTok) : Prop := ∀ t ∈ r.head?, t ≠ .sym ':'

theorem elemToks_colon {e : Elem T NT} {n : List Char} {r r' : List PTok} (hr : NoColon r)
    (h : elemToks e ++ r = .word n :: .sym ':' :: r') : False := by
  cases e with
  | nonterm A => simp [elemToks] at h
  | term t =>
    simp only [elemToks, List.cons_append, List.nil_append, List.cons.injEq] at h
    rw [h.2] at hr
    exact hr _ rfl rfl

theorem prodElemToks_inj {e e' : ProdElement T NT} {r r' : List PTok} (hr : NoColon r) (hr' : NoColon r')
    (h : prodElemToks e ++ r = prodElemToks e' ++ r') : e = e' ∧ r = r' := by
  obtain ⟨id, el⟩ := e
  obtain ⟨id', el'⟩ := e'
  cases id <;> cases id' <;> simp only [prodElemToks, List.cons_append] at h
  · obtain ⟨rfl, h2⟩ := elemToks_inj h
    exact ⟨rfl, h2⟩
  · exact (elemToks_colon hr h).elim
  · exact (elemToks_colon hr' h.symm).elim
  · simp only [List.cons.injEq, PTok.word.injEq, true_and] at h
    obtain ⟨h1, h2⟩ := h
    obtain ⟨rfl, h3⟩ := elemToks_inj h2
    rw [String.toList_inj.1 h1]
    exact ⟨rfl, h3⟩

/-- A token that ends a production. -/
def Ender (c : Char) : Prop := c = '|' ∨ c = ';'

theorem prodElemToks_head (e : ProdElement T NT) (r : List PTok) :
    (∃ w l, prodElemToks e ++ r = .word w :: l) ∨ ∃ l, prodElemToks e ++ r = .sym '<' :: l := by
  obtain ⟨id, el⟩ := e
  cases id with
  | some n => exact Or.inl ⟨_, _, rfl⟩
  | none =>
    cases el with
    | term t => exact Or.inl ⟨_, _, rfl⟩
    | nonterm A => exact Or.inr ⟨_, rfl⟩

theorem noColon_ender {c : Char} (h : Ender c) (r : List PTok) : NoColon (.sym c :: r) := by
  intro t ht
  cases ht
  rcases h with rfl | rfl <;> decide

theorem elems_noColon (es : List (ProdElement T NT)) {c : Char} (h : Ender c) (r : List PTok) :
    NoColon (es.flatMap prodElemToks ++ .sym c :: r) := by
  cases es with
  | nil => exact noColon_ender h r
  | cons e es =>
    rw [List.flatMap_cons, List.append_assoc]
    rcases prodElemToks_head e (es.flatMap prodElemToks ++ .sym c :: r) with ⟨w, l, h⟩ | ⟨l, h⟩ <;>
      (rw [h]; intro t ht; cases ht; simp)

theorem elems_inj : ∀ {es es' : List (ProdElement T NT)} {c c' : Char} {r r' : List PTok}, Ender c → Ender c' →
    es.flatMap prodElemToks ++ .sym c :: r = es'.flatMap prodElemToks ++ .sym c' :: r' →
    es = es' ∧ c = c' ∧ r = r' := by
  intro es
  induction es with
  | nil =>
    intro es' c c' r r' hc hc' h
    cases es' with
    | nil => simp at h; exact ⟨rfl, h.1, h.2⟩
    | cons e es' =>
      rw [List.flatMap_cons, List.append_assoc] at h
      rcases prodElemToks_head e (es'.flatMap prodElemToks ++ .sym c' :: r') with ⟨w, l, h1⟩ | ⟨l, h1⟩
      · rw [h1] at h; simp at h
      · rw [h1] at h
        simp only [List.flatMap_nil, List.nil_append, List.cons.injEq, PTok.sym.injEq] at h
        rcases hc with rfl | rfl <;> exact absurd h.1 (by decide)
  | cons e es ih =>
    intro es' c c' r r' hc hc' h
    cases es' with
    | nil =>
      rw [List.flatMap_cons, List.append_assoc] at h
      rcases prodElemToks_head e (es.flatMap prodElemToks ++ .sym c :: r) with ⟨w, l, h1⟩ | ⟨l, h1⟩
      · rw [h1] at h; simp at h
      · rw [h1] at h
        simp only [List.flatMap_nil, List.nil_append, List.cons.injEq, PTok.sym.injEq] at h
        rcases hc' with rfl | rfl <;> exact absurd h.1 (by decide)
    | cons e' es' =>
      rw [List.flatMap_cons, List.append_assoc, List.flatMap_cons, List.append_assoc] at h
      obtain ⟨rfl, h2⟩ := prodElemToks_inj (elems_noColon es hc r) (elems_noColon es' hc' r') h
      obtain ⟨rfl, h3⟩ := ih hc hc' h2
      exact ⟨rfl, h3⟩

/-- One element that is the word `ε` is none of a plain grammar. -/
theorem eps_not_elems {es : List (ProdElement T NT)} (hes : ∀ e ∈ es, PlainElem e) (hne : es ≠ [])
    {c : Char} {r r' : List PTok}
    (h : .word ['ε'] :: r' = es.flatMap prodElemToks ++ .sym c :: r) : False := by
  cases es with
  | nil => exact hne rfl
  | cons e es =>
    obtain ⟨id, el⟩ := e
    have hp := hes _ List.mem_cons_self
    rw [List.flatMap_cons] at h
    cases id with
    | some n =>
      simp only [prodElemToks, List.cons_append, List.cons.injEq, PTok.word.injEq] at h
      exact (hp.2.2 n rfl).ne_eps h.1.symm
    | none =>
      cases el with
      | term t =>
        simp only [prodElemToks, elemToks, List.cons_append, List.cons.injEq, PTok.word.injEq] at h
        exact (hp.1 t rfl).ne_eps h.1.symm
      | nonterm A => simp [prodElemToks, elemToks] at h

theorem prodToks_inj {es es' : List (ProdElement T NT)} (hes : ∀ e ∈ es, PlainElem e)
    (hes' : ∀ e ∈ es', PlainElem e) {c c' : Char} {r r' : List PTok} (hc : Ender c) (hc' : Ender c')
    (h : prodToks es ++ .sym c :: r = prodToks es' ++ .sym c' :: r') : es = es' ∧ c = c' ∧ r = r' := by
  unfold prodToks at h
  by_cases h1 : es = [] <;> by_cases h2 : es' = []
  · rw [if_pos h1, if_pos h2] at h
    simp at h
    exact ⟨by rw [h1, h2], h⟩
  · rw [if_pos h1, if_neg h2] at h
    exact (eps_not_elems hes' h2 h).elim
  · rw [if_neg h1, if_pos h2] at h
    exact (eps_not_elems hes h1 h.symm).elim
  · rw [if_neg h1, if_neg h2] at h
    exact elems_inj hc hc' h

theorem prodsToks_inj : ∀ {ps ps' : List (List (ProdElement T NT))},
    (∀ p ∈ ps, ∀ e ∈ p, PlainElem e) → (∀ p ∈ ps', ∀ e ∈ p, PlainElem e) → ∀ {r r' : List PTok},
    Doc.joinToks [.sym '|'] (ps.map prodToks) ++ .sym ';' :: r =
      Doc.joinToks [.sym '|'] (ps'.map prodToks) ++ .sym ';' :: r' → ps = ps' ∧ r = r' := by
  have head : ∀ (p : List (ProdElement T NT)) (ps : List (List (ProdElement T NT))) (r : List PTok),
      ∃ c l, Ender c ∧ Doc.joinToks [.sym '|'] ((p :: ps).map prodToks) ++ .sym ';' :: r =
        prodToks p ++ .sym c :: l ∧
        ((ps = [] ∧ c = ';' ∧ l = r) ∨ (ps ≠ [] ∧ c = '|' ∧
          l = Doc.joinToks [.sym '|'] (ps.map prodToks) ++ .sym ';' :: r)) := by
    intro p ps r
    cases ps with
    | nil => exact ⟨';', r, Or.inr rfl, rfl, Or.inl ⟨rfl, rfl, rfl⟩⟩
    | cons q ps =>
      refine ⟨'|', _, Or.inl rfl, ?_, Or.inr ⟨by simp, rfl, rfl⟩⟩
      simp [Doc.joinToks]
  have empty : ∀ (p : List (ProdElement T NT)) (c : Char) (l r : List PTok),
      .sym ';' :: r = prodToks p ++ .sym c :: l → False := by
    intro p c l r h
    unfold prodToks at h
    split at h
    · simp at h
    · next hp =>
      cases p with
      | nil => exact hp rfl
      | cons e p =>
        rw [List.flatMap_cons, List.append_assoc] at h
        rcases prodElemToks_head e (p.flatMap prodElemToks ++ .sym c :: l) with ⟨w, l', h1⟩ | ⟨l', h1⟩ <;>
          · rw [h1] at h
            simp at h
  intro ps
  induction ps with
  | nil =>
    intro ps' _ hp' r r' h
    cases ps' with
    | nil => simp [Doc.joinToks] at h; exact ⟨rfl, h⟩
    | cons p' ps' =>
      obtain ⟨c, l, -, h1, -⟩ := head p' ps' r'
      rw [h1] at h
      exact (empty _ _ _ _ h).elim
  | cons p ps ih =>
    intro ps' hp hp' r r' h
    cases ps' with
    | nil =>
      obtain ⟨c, l, -, h1, -⟩ := head p ps r
      rw [h1] at h
      exact (empty _ _ _ _ h.symm).elim
    | cons p' ps' =>
      obtain ⟨c, l, hc, h1, h2⟩ := head p ps r
      obtain ⟨c', l', hc', h1', h2'⟩ := head p' ps' r'
      rw [h1, h1'] at h
      obtain ⟨rfl, rfl, rfl⟩ := prodToks_inj (hp _ List.mem_cons_self) (hp' _ List.mem_cons_self) hc hc' h
      rcases h2 with ⟨rfl, rfl, rfl⟩ | ⟨-, rfl, rfl⟩
      · rcases h2' with ⟨rfl, -, rfl⟩ | ⟨-, h3, -⟩
        · exact ⟨rfl, rfl⟩
        · exact absurd h3 (by decide)
      · rcases h2' with ⟨-, h3, -⟩ | ⟨-, -, h3⟩
        · exact absurd h3 (by decide)
        · obtain ⟨rfl, rfl⟩ := ih (fun p h => hp p (List.mem_cons_of_mem _ h))
            (fun p h => hp' p (List.mem_cons_of_mem _ h)) h3
          exact ⟨rfl, rfl⟩

theorem rulesToks_inj : ∀ {l l' : List (NT × List (List (ProdElement T NT)))},
    (∀ x ∈ l, ∀ p ∈ x.2, ∀ e ∈ p, PlainElem e) → (∀ x ∈ l', ∀ p ∈ x.2, ∀ e ∈ p, PlainElem e) →
    ∀ {r r' : List PTok}, l.flatMap ruleToks ++ .sym '}' :: r = l'.flatMap ruleToks ++ .sym '}' :: r' →
    l = l' := by
  intro l
  induction l with
  | nil =>
    intro l' _ _ r r' h
    cases l' with
    | nil => rfl
    | cons x l' => simp [ruleToks] at h
  | cons x l ih =>
    intro l' hl hl' r r' h
    cases l' with
    | nil => simp [ruleToks] at h
    | cons x' l' =>
      simp only [List.flatMap_cons, List.append_assoc, ruleToks, List.cons_append, List.nil_append,
        List.cons.injEq, PTok.word.injEq, true_and] at h
      obtain ⟨h1, h2⟩ := h
      obtain ⟨h3, h4⟩ := prodsToks_inj (hl _ List.mem_cons_self) (hl' _ List.mem_cons_self) h2
      rw [ih (fun x h => hl x (List.mem_cons_of_mem _ h)) (fun x h => hl' x (List.mem_cons_of_mem _ h)) h4]
      obtain ⟨a, b⟩ := x
      obtain ⟨a', b'⟩ := x'
      simp only at h1 h3
      rw [word_toList_inj h1, h3]

theorem Grammar.PlainNames.elems {g : Grammar T NT AK AV} (h : g.PlainNames) :
    ∀ x ∈ g.shape.2, ∀ p ∈ x.2, ∀ e ∈ p, PlainElem e := by
  intro x hx p hp e he
  obtain ⟨r, hr, rfl⟩ := List.mem_map.1 hx
  obtain ⟨p, hp', rfl⟩ := List.mem_map.1 hp
  clear hp
  have hp := hp'
  exact ⟨h.terms r hr p hp e he, h.nonterms r hr p hp e he, h.identifiers r hr p hp e he⟩
end
end Bongo
