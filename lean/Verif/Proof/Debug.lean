import Verif.Spec.Debug
/-! # Lemmas about `Debug` texts -/
set_option linter.unusedSectionVars false
namespace Bongo
open Fmt

/-- `tidy`, with what follows. -/
def tidyOn (x r : List Char) : List Char := x.foldr tidyStep r

theorem tidyOn_append (x y r : List Char) : tidyOn (x ++ y) r = tidyOn x (tidyOn y r) :=
  List.foldr_append ..

@[simp] theorem tidyOn_nil (r : List Char) : tidyOn [] r = r := rfl
theorem tidyOn_cons (c : Char) (x r : List Char) : tidyOn (c :: x) r = tidyStep c (tidyOn x r) := rfl

theorem tidyStep_blank (r : List Char) : tidyStep ' ' r = r := rfl
theorem tidyStep_newline (r : List Char) : tidyStep '\n' r = r := rfl

theorem tidyStep_char {c : Char} (h : c ≠ ' ') (h' : c ≠ '\n') (h'' : c ≠ ',') (r : List Char) :
    tidyStep c r = c :: r := by
  unfold tidyStep
  rw [if_neg (by simp [h, h']), if_neg (by simp [h''])]

theorem tidyStep_comma_close {c : Char} (h : c ∈ closers) (r : List Char) : tidyStep ',' (c :: r) = c :: r := by
  unfold tidyStep
  rw [if_neg (by decide), if_pos ⟨rfl, c, h, rfl⟩]

theorem tidyStep_comma {c : Char} (h : c ∉ closers) (r : List Char) :
    tidyStep ',' (c :: r) = ',' :: c :: r := by
  unfold tidyStep
  rw [if_neg (by decide), if_neg]
  rintro ⟨-, d, hd, h'⟩
  cases h'
  exact h hd

theorem tidyOn_pad (b : Bool) (x r : List Char) : tidyOn (pad b x) r = tidyOn x r := by
  induction x generalizing b with
  | nil => rfl
  | cons c x ih =>
    cases b with
    | true =>
      show tidyStep ' ' (tidyStep ' ' (tidyStep ' ' (tidyStep ' ' (tidyStep c (tidyOn (pad _ x) r))))) = _
      rw [ih]; rfl
    | false =>
      show tidyStep c (tidyOn (pad _ x) r) = _
      rw [ih]; rfl

theorem tidyOn_plain {x : List Char} (h : ∀ c ∈ x, c ∉ debugReserved) (r : List Char) :
    tidyOn x r = x ++ r := by
  induction x with
  | nil => rfl
  | cons c x ih =>
    have hc := h c List.mem_cons_self
    rw [tidyOn_cons, ih fun d hd => h d (List.mem_cons_of_mem _ hd), tidyStep_char]
    · rfl
    all_goals exact fun e => hc (by subst e; decide)

/-- The tidied text of something that begins like a value. -/
def Opens (n : List Char → List Char) : Prop := ∀ r, ∃ c l, n r = c :: l ∧ c ∉ closers

/-- A text and its tidied form. -/
def Tidies (x : List Char) (n : List Char → List Char) : Prop := (∀ r, tidyOn x r = n r) ∧ Opens n

theorem tidyStep_opens {n : List Char → List Char} (h : Opens n) (r : List Char) :
    tidyStep ',' (n r) = ',' :: n r := by
  obtain ⟨c, l, h1, h2⟩ := h r
  rw [h1, tidyStep_comma h2]

/-- Entries after the first. -/
def nTail : List (List Char → List Char) → List Char → List Char
  | [], r => r
  | n :: ns, r => ',' :: n (nTail ns r)

/-- Entries, separated by commas. -/
def nEnts : List (List Char → List Char) → List Char → List Char
  | [], r => r
  | n :: ns, r => n (nTail ns r)

inductive AllTidy : List (List Char) → List (List Char → List Char) → Prop
  | nil : AllTidy [] []
  | cons {x n xs ns} : Tidies x n → AllTidy xs ns → AllTidy (x :: xs) (n :: ns)

theorem entries_false {xs ns} (h : AllTidy xs ns) {c : Char} (r : List Char) :
    tidyOn (entries false true xs) (c :: r) = nTail ns (c :: r) := by
  induction h with
  | nil => rfl
  | @cons x n xs ns hx _ ih =>
    show tidyOn ((',' :: ' ' :: x) ++ entries false true xs) _ = _
    rw [tidyOn_append, ih, tidyOn_cons, tidyOn_cons, tidyStep_blank, hx.1, tidyStep_opens hx.2]
    rfl

theorem entries_true {xs ns} (h : AllTidy xs ns) {c : Char} (hc : c ∈ closers) (r : List Char) :
    tidyStep ',' (tidyOn (entries true true xs) (c :: r)) = nTail ns (c :: r) := by
  induction h with
  | nil => exact tidyStep_comma_close hc r
  | @cons x n xs ns hx _ ih =>
    have : tidyOn (entries true true (x :: xs)) (c :: r) = n (nTail ns (c :: r)) := by
      show tidyOn (([] ++ pad true (x ++ [',', '\n'])) ++ entries true true xs) _ = _
      rw [tidyOn_append, List.nil_append, tidyOn_pad, tidyOn_append]
      show tidyOn x (tidyStep ',' (tidyStep '\n' _)) = _
      rw [tidyStep_newline]
      show tidyOn x (tidyStep ',' (tidyOn (entries true true xs) (c :: r))) = _
      rw [ih, hx.1]
    rw [this, tidyStep_opens hx.2]
    rfl

theorem entries_tidy {xs ns} (h : AllTidy xs ns) (alt : Bool) {c : Char} (hc : c ∈ closers)
    (r : List Char) : tidyOn (entries alt false xs) (c :: r) = nEnts ns (c :: r) := by
  cases h with
  | nil => rfl
  | @cons x n xs ns hx h =>
    cases alt with
    | false =>
      show tidyOn (([] ++ x) ++ entries false true xs) _ = _
      rw [tidyOn_append, entries_false h, List.nil_append, hx.1]
      rfl
    | true =>
      show tidyOn ((['\n'] ++ pad true (x ++ [',', '\n'])) ++ entries true true xs) _ = _
      rw [tidyOn_append, tidyOn_append, tidyOn_pad, tidyOn_append]
      show tidyStep '\n' (tidyOn x (tidyStep ',' (tidyStep '\n' _))) = _
      rw [tidyStep_newline, tidyStep_newline]
      show tidyOn x (tidyStep ',' (tidyOn (entries true true xs) (c :: r))) = _
      rw [entries_true h hc, hx.1]
      rfl

theorem debugList_tidies {xs ns} (h : AllTidy xs ns) (alt : Bool) :
    Tidies (debugList alt xs) fun r => '[' :: nEnts ns (']' :: r) := by
  refine ⟨fun r => ?_, fun r => ⟨_, _, rfl, by decide⟩⟩
  unfold debugList
  rw [tidyOn_append, tidyOn_append]
  show tidyStep '[' (tidyOn _ (tidyStep ']' r)) = _
  rw [tidyStep_char (c := ']') (by decide) (by decide) (by decide), entries_tidy h alt (by decide),
    tidyStep_char (by decide) (by decide) (by decide)]

/-! ### Structs -/

theorem structFields_entries (alt : Bool) (fs : List (List Char × List Char)) (r : List Char) :
    tidyOn (structFields alt true fs) r =
      tidyOn (entries alt true (fs.map fun f => f.1 ++ [':', ' '] ++ f.2)) ('}' :: r) := by
  induction fs with
  | nil => cases alt <;> rfl
  | cons f fs ih =>
    show tidyOn (structField alt true f.1 f.2 ++ structFields alt true fs) r =
      tidyOn (entry alt true _ ++ entries alt true _) _
    rw [tidyOn_append, ih, tidyOn_append]
    cases alt <;> simp [structField, entry, tidyOn_append, tidyOn_cons, tidyOn_pad, tidyStep_blank, tidyStep_newline]

theorem debugStruct_tidies {name : List Char} (hn : ∀ c ∈ name, c ∉ debugReserved)
    (hf : ∃ c l, name = c :: l ∧ c ≠ ')') {f : List Char × List Char} {fs ns}
    (h : AllTidy ((f :: fs).map fun f => f.1 ++ [':', ' '] ++ f.2) ns) (alt : Bool) :
    Tidies (debugStruct alt name (f :: fs)) fun r => name ++ '{' :: nEnts ns ('}' :: r) := by
  refine ⟨fun r => ?_, fun r => ?_⟩
  · unfold debugStruct
    rw [tidyOn_append, tidyOn_plain hn]
    congr 1
    rw [← entries_tidy h alt (by decide)]
    show tidyOn (structField alt false f.1 f.2 ++ structFields alt true fs) r = _ :: tidyOn (entry alt false _ ++ entries alt true _) _
    rw [tidyOn_append, tidyOn_append, structFields_entries]
    have hb : ∀ r, tidyStep '{' r = '{' :: r := tidyStep_char (by decide) (by decide) (by decide)
    cases alt <;> simp [structField, entry, tidyOn_append, tidyOn_cons, tidyOn_pad, tidyStep_blank,
      tidyStep_newline, hb]
  · obtain ⟨c, l, rfl, hc⟩ := hf
    refine ⟨c, _, rfl, ?_⟩
    have := hn c List.mem_cons_self
    simp only [closers, List.mem_cons, List.not_mem_nil, or_false, not_or]
    exact ⟨hc, fun e => this (e ▸ by decide), fun e => this (e ▸ by decide)⟩

/-- One field. -/
theorem field_tidies {name x : List Char} {n : List Char → List Char}
    (hn : ∀ c ∈ name, c ∉ debugReserved) (hf : ∃ c l, name = c :: l ∧ c ≠ ')') (hx : ∀ r, tidyOn x r = n r) :
    Tidies (name ++ [':', ' '] ++ x) fun r => name ++ ':' :: n r := by
  refine ⟨fun r => ?_, fun r => ?_⟩
  · rw [tidyOn_append, tidyOn_append, hx, tidyOn_plain hn]
    show name ++ tidyStep ':' (tidyStep ' ' _) = _
    rw [tidyStep_blank, tidyStep_char (by decide) (by decide) (by decide)]
    rfl
  · obtain ⟨c, l, rfl, hc⟩ := hf
    refine ⟨c, _, rfl, ?_⟩
    have := hn c List.mem_cons_self
    simp only [closers, List.mem_cons, List.not_mem_nil, or_false, not_or]
    exact ⟨hc, fun e => this (e ▸ by decide), fun e => this (e ▸ by decide)⟩

/-! ### Reading back -/

/-- What may follow a value. -/
def Stops (s : List Char) : Prop := ∀ c l, s = c :: l → c = ',' ∨ c = ']' ∨ c = '}' ∨ c = '>'

theorem Stops.comma (l : List Char) : Stops (',' :: l) := fun _ _ h => .inl (List.cons.inj h).1.symm
theorem Stops.list (l : List Char) : Stops (']' :: l) := fun _ _ h => .inr (.inl (List.cons.inj h).1.symm)
theorem Stops.struct (l : List Char) : Stops ('}' :: l) :=
  fun _ _ h => .inr (.inr (.inl (List.cons.inj h).1.symm))
theorem Stops.angle (l : List Char) : Stops ('>' :: l) :=
  fun _ _ h => .inr (.inr (.inr (List.cons.inj h).1.symm))

/-- Nothing follows, or a reserved character. -/
def Cut (s : List Char) : Prop := ∀ c l, s = c :: l → c ∈ debugReserved

theorem Cut.cons {c : Char} (h : c ∈ debugReserved) (l : List Char) : Cut (c :: l) :=
  fun _ _ e => (List.cons.inj e).1 ▸ h

theorem Stops.reserved {s : List Char} (h : Stops s) : Cut s := by
  intro c l e
  rcases h c l e with rfl | rfl | rfl | rfl <;> decide

/-- Up to the first reserved character. -/
theorem split_reserved {x y s t : List Char} (hx : ∀ c ∈ x, c ∉ debugReserved)
    (hy : ∀ c ∈ y, c ∉ debugReserved) (hs : Cut s) (ht : Cut t) (h : x ++ s = y ++ t) : x = y ∧ s = t := by
  induction x generalizing y with
  | nil =>
    cases y with
    | nil => exact ⟨rfl, h⟩
    | cons d y => exact absurd (hs d _ h) (hy d List.mem_cons_self)
  | cons c x ih =>
    cases y with
    | nil => exact absurd (ht c _ h.symm) (hx c List.mem_cons_self)
    | cons d y =>
      simp only [List.cons_append, List.cons.injEq] at h
      obtain ⟨h1, h2⟩ := ih (fun c hc => hx c (List.mem_cons_of_mem _ hc))
        (fun c hc => hy c (List.mem_cons_of_mem _ hc)) h.2
      exact ⟨by rw [h.1, h1], h2⟩

/-- Values whose text can be read back. -/
structure ReadsBack {α : Type} (P : α → Prop) (f : Bool → α → List Char) (n : α → List Char → List Char) : Prop where
  tidies : ∀ a, P a → ∀ alt, Tidies (f alt a) (n a)
  uniq : ∀ a b, P a → P b → ∀ s t, Stops s → Stops t → n a s = n b t → a = b ∧ s = t

theorem nTail_stops {ns : List (List Char → List Char)} {c : Char} (r : List Char)
    (hc : c = ']' ∨ c = '}') : Stops (nTail ns (c :: r)) := by
  cases ns with
  | nil =>
    rcases hc with rfl | rfl
    · exact .list r
    · exact .struct r
  | cons n ns => exact .comma _

variable {α : Type} {P : α → Prop} {f : Bool → α → List Char} {n : α → List Char → List Char}

theorem nTail_uniq (h : ReadsBack P f n) (xs ys : List α) (hx : ∀ x ∈ xs, P x) (hy : ∀ y ∈ ys, P y)
    {c : Char} (hc : c = ']' ∨ c = '}') (s t : List Char)
    (e : nTail (xs.map n) (c :: s) = nTail (ys.map n) (c :: t)) : xs = ys ∧ s = t := by
  have hne : c ≠ ',' := by rcases hc with rfl | rfl <;> decide
  induction xs generalizing ys with
  | nil =>
    cases ys with
    | nil => exact ⟨rfl, (List.cons.inj e).2⟩
    | cons y ys => exact absurd (List.cons.inj e).1 hne
  | cons x xs ih =>
    cases ys with
    | nil => exact absurd (List.cons.inj e).1.symm hne
    | cons y ys =>
      obtain ⟨h1, h2⟩ := h.uniq x y (hx x List.mem_cons_self) (hy y List.mem_cons_self) _ _
        (nTail_stops s hc) (nTail_stops t hc) (List.cons.inj e).2
      obtain ⟨h3, h4⟩ := ih ys (fun z hz => hx z (List.mem_cons_of_mem _ hz))
        (fun z hz => hy z (List.mem_cons_of_mem _ hz)) h2
      exact ⟨by rw [h1, h3], h4⟩

theorem nEnts_uniq (h : ReadsBack P f n) (xs ys : List α) (hx : ∀ x ∈ xs, P x) (hy : ∀ y ∈ ys, P y)
    {c : Char} (hc : c = ']' ∨ c = '}') (s t : List Char)
    (e : nEnts (xs.map n) (c :: s) = nEnts (ys.map n) (c :: t)) : xs = ys ∧ s = t := by
  have hcl : c ∈ closers := by rcases hc with rfl | rfl <;> decide
  cases xs with
  | nil =>
    cases ys with
    | nil => exact ⟨rfl, (List.cons.inj e).2⟩
    | cons y ys =>
      obtain ⟨d, l, h1, h2⟩ := (h.tidies y (hy y List.mem_cons_self) false).2 (nTail (ys.map n) (c :: t))
      have e' : (c :: s : List Char) = d :: l := e.trans h1
      exact absurd ((List.cons.inj e').1 ▸ hcl) h2
  | cons x xs =>
    cases ys with
    | nil =>
      obtain ⟨d, l, h1, h2⟩ := (h.tidies x (hx x List.mem_cons_self) false).2 (nTail (xs.map n) (c :: s))
      have e' : (c :: t : List Char) = d :: l := e.symm.trans h1
      exact absurd ((List.cons.inj e').1 ▸ hcl) h2
    | cons y ys =>
      obtain ⟨h1, h2⟩ := h.uniq x y (hx x List.mem_cons_self) (hy y List.mem_cons_self) _ _
        (nTail_stops s hc) (nTail_stops t hc) e
      obtain ⟨h3, h4⟩ := nTail_uniq h xs ys (fun z hz => hx z (List.mem_cons_of_mem _ hz))
        (fun z hz => hy z (List.mem_cons_of_mem _ hz)) hc _ _ h2
      exact ⟨by rw [h1, h3], h4⟩

theorem allTidy_map (h : ReadsBack P f n) (alt : Bool) (xs : List α) (hx : ∀ x ∈ xs, P x) :
    AllTidy (xs.map (f alt)) (xs.map n) := by
  induction xs with
  | nil => exact .nil
  | cons x xs ih =>
    exact .cons (h.tidies x (hx x List.mem_cons_self) alt) (ih fun y hy => hx y (List.mem_cons_of_mem _ hy))

/-- The tidied text of a list. -/
def nList (n : α → List Char → List Char) (xs : List α) (r : List Char) : List Char :=
  '[' :: nEnts (xs.map n) (']' :: r)

theorem ReadsBack.list (h : ReadsBack P f n) :
    ReadsBack (fun xs => ∀ x ∈ xs, P x) (fun alt xs => debugList alt (xs.map (f alt))) (nList n) :=
  ⟨fun xs hx alt => debugList_tidies (allTidy_map h alt xs hx) alt,
    fun xs ys hx hy s t _ _ e => nEnts_uniq h xs ys hx hy (.inl rfl) s t (List.cons.inj e).2⟩

/-- The tidied text of a set. -/
def nSet (n : α → List Char → List Char) (xs : List α) (r : List Char) : List Char :=
  '{' :: nEnts (xs.map n) ('}' :: r)

theorem ReadsBack.set (h : ReadsBack P f n) :
    ReadsBack (fun xs => ∀ x ∈ xs, P x) (fun alt xs => debugSet alt (xs.map (f alt))) (nSet n) := by
  refine ⟨fun xs hx alt => ⟨fun r => ?_, fun r => ⟨_, _, rfl, by decide⟩⟩,
    fun xs ys hx hy s t _ _ e => nEnts_uniq h xs ys hx hy (.inr rfl) s t (List.cons.inj e).2⟩
  unfold debugSet
  rw [tidyOn_append, tidyOn_append]
  show tidyStep '{' (tidyOn _ (tidyStep '}' r)) = _
  rw [tidyStep_char (c := '}') (by decide) (by decide) (by decide),
    entries_tidy (allTidy_map h alt xs hx) alt (by decide), tidyStep_char (by decide) (by decide) (by decide)]
  rfl

/-! ### Symbols, elements, productions, rules -/
section
variable {T NT AK AV : Type} [Dbg T] [Dbg NT] [PlainDbg T] [PlainDbg NT]

/-- The tidied text of a symbol. -/
def nSym {α : Type} [Dbg α] (a : α) (r : List Char) : List Char := Dbg.fmt false a ++ r

theorem sym_reads (α : Type) [Dbg α] [PlainDbg α] : ReadsBack (PlainDbg.Plain (α := α)) Dbg.fmt nSym := by
  refine ⟨fun a ha alt => ⟨fun r => ?_, fun r => ?_⟩, ?_⟩
  · cases alt with
    | false => exact tidyOn_plain (PlainDbg.chars a ha) r
    | true => exact (PlainDbg.layout a ha r).trans (tidyOn_plain (PlainDbg.chars a ha) r)
  · obtain ⟨c, l, h1, h2⟩ := PlainDbg.first a ha
    refine ⟨c, l ++ r, by rw [nSym, h1]; rfl, ?_⟩
    have := PlainDbg.chars a ha c (by rw [h1]; exact List.mem_cons_self)
    simp only [closers, List.mem_cons, List.not_mem_nil, or_false, not_or]
    exact ⟨h2, fun e => this (e ▸ by decide), fun e => this (e ▸ by decide)⟩
  · intro a b ha hb s t hs ht e
    obtain ⟨h1, h2⟩ := split_reserved (PlainDbg.chars a ha) (PlainDbg.chars b hb) hs.reserved ht.reserved e
    exact ⟨PlainDbg.inj a b ha hb h1, h2⟩

/-- An element of plain names. -/
def PlainElement (e : ProdElement T NT) : Prop :=
  (∀ t, e.element = .term t → PlainDbg.Plain t) ∧ (∀ A, e.element = .nonterm A → PlainDbg.Plain A) ∧
  ∀ n, e.identifier = some n → PlainIdent n

/-- The tidied text of an element without its name. -/
def nElem : Elem T NT → List Char → List Char
  | .term t, r => Dbg.fmt false t ++ r
  | .nonterm A, r => '<' :: (Dbg.fmt false A ++ '>' :: r)

/-- The tidied text of an element. -/
def nElement (e : ProdElement T NT) (r : List Char) : List Char :=
  match e.identifier with
  | some n => n.toList ++ ':' :: nElem e.element r
  | none => nElem e.element r

/-- An element of plain symbols. -/
def PlainSymbol (e : Elem T NT) : Prop :=
  (∀ t, e = .term t → PlainDbg.Plain t) ∧ ∀ A, e = .nonterm A → PlainDbg.Plain A

theorem elem_reads : ReadsBack (PlainSymbol (T := T) (NT := NT)) Dbg.fmt nElem := by
  refine ⟨?_, ?_⟩
  · intro e he alt
    cases e with
    | term t => exact ((sym_reads T).tidies t (he.1 t rfl) false)
    | nonterm A =>
      refine ⟨fun r => ?_, fun r => ⟨_, _, rfl, by decide⟩⟩
      show tidyOn (['<'] ++ Dbg.fmt false A ++ ['>']) r = _
      rw [tidyOn_append, tidyOn_append, ((sym_reads NT).tidies A (he.2 A rfl) false).1]
      show tidyStep '<' (nSym A (tidyStep '>' r)) = _
      rw [tidyStep_char (by decide) (by decide) (by decide), tidyStep_char (by decide) (by decide) (by decide)]
      rfl
  · have hne : ∀ (t : T) (A : NT), PlainDbg.Plain t → ∀ s s', nElem (.term t : Elem T NT) s ≠ nElem (.nonterm A : Elem T NT) s' := by
      intro t A ht s s' e
      obtain ⟨c, l, h1, -⟩ := PlainDbg.first t ht
      change Dbg.fmt false t ++ s = '<' :: _ at e
      rw [h1] at e
      have h2 := (List.cons.inj e).1
      exact PlainDbg.chars t ht c (by rw [h1]; exact List.mem_cons_self) (h2 ▸ by decide)
    intro a b ha hb s t hs ht e
    cases a with
    | term x =>
      cases b with
      | term y =>
        obtain ⟨h1, h2⟩ := (sym_reads T).uniq x y (ha.1 x rfl) (hb.1 y rfl) s t hs ht e
        exact ⟨by rw [h1], h2⟩
      | nonterm B => exact absurd e (hne x B (ha.1 x rfl) s t)
    | nonterm A =>
      cases b with
      | term y => exact absurd e.symm (hne y A (hb.1 y rfl) t s)
      | nonterm B =>
        obtain ⟨h1, h2⟩ := (sym_reads NT).uniq A B (ha.2 A rfl) (hb.2 B rfl) _ _ (.angle s) (.angle t)
          (List.cons.inj e).2
        exact ⟨by rw [h1], (List.cons.inj h2).2⟩

theorem ident_chars {n : Name} (h : PlainIdent n) : ∀ c ∈ n.toList, c ∉ debugReserved :=
  fun c hc hr => h c hc (List.mem_cons_of_mem _ hr)

/-- A name and a colon cannot be read as an element without a name. -/
theorem nElem_no_name {e e' : Elem T NT} (he : PlainSymbol e) {n : Name} (hn : PlainIdent n) {s t : List Char}
    (hs : Stops s) (h : nElem e s = n.toList ++ ':' :: nElem e' t) : False := by
  cases e with
  | term x =>
    obtain ⟨-, h2⟩ := split_reserved (PlainDbg.chars x (he.1 x rfl)) (ident_chars hn) hs.reserved
      (.cons (by decide) _) h
    rcases hs _ _ h2 with h | h | h | h <;> exact absurd h (by decide)
  | nonterm A =>
    obtain ⟨-, h2⟩ := split_reserved (x := []) (by simp) (ident_chars hn) (.cons (by decide) _)
      (.cons (by decide) _) h
    exact absurd (List.cons.inj h2).1 (by decide)

theorem element_reads : ReadsBack (PlainElement (T := T) (NT := NT)) Dbg.fmt nElement := by
  have hp : ∀ e : ProdElement T NT, PlainElement e → PlainSymbol e.element := fun e h => ⟨h.1, h.2.1⟩
  refine ⟨?_, ?_⟩
  · rintro ⟨id, e⟩ he alt
    have h1 := elem_reads.tidies e (hp _ he) alt
    cases id with
    | none => exact h1
    | some n =>
      have hn := he.2.2 n rfl
      refine ⟨fun r => ?_, fun r => ?_⟩
      · show tidyOn ((n.toList ++ [':']) ++ Dbg.fmt alt e) r = _
        rw [tidyOn_append, tidyOn_append, h1.1, tidyOn_plain (ident_chars hn)]
        show _ ++ tidyStep ':' _ = _
        rw [tidyStep_char (by decide) (by decide) (by decide)]
        rfl
      · show ∃ c l, n.toList ++ ':' :: nElem e r = c :: l ∧ _
        rcases hl : n.toList with _ | ⟨c, l⟩
        · exact ⟨_, _, rfl, by decide⟩
        · refine ⟨c, _, rfl, ?_⟩
          have := hn c (by rw [hl]; exact List.mem_cons_self)
          simp only [closers, List.mem_cons, List.not_mem_nil, or_false, not_or]
          exact ⟨by rintro rfl; exact this (by decide), by rintro rfl; exact this (by decide),
            by rintro rfl; exact this (by decide)⟩
  · rintro ⟨id, e⟩ ⟨id', e'⟩ he he' s t hs ht h
    cases id with
    | none =>
      cases id' with
      | none =>
        obtain ⟨h1, h2⟩ := elem_reads.uniq e e' (hp _ he) (hp _ he') s t hs ht h
        exact ⟨by rw [h1], h2⟩
      | some n' => exact (nElem_no_name (hp _ he) (he'.2.2 n' rfl) hs h).elim
    | some n =>
      cases id' with
      | none => exact (nElem_no_name (hp _ he') (he.2.2 n rfl) ht h.symm).elim
      | some n' =>
        obtain ⟨h1, h2⟩ := split_reserved (ident_chars (he.2.2 n rfl)) (ident_chars (he'.2.2 n' rfl))
          (.cons (by decide) _) (.cons (by decide) _) h
        obtain ⟨h3, h4⟩ := elem_reads.uniq e e' (hp _ he) (hp _ he') s t hs ht (List.cons.inj h2).2
        exact ⟨by rw [String.ext h1, h3], h4⟩
end

/-! ### Structs of two and three fields -/

/-- Field names and struct names. -/
def PlainWord (w : List Char) : Prop := (∀ c ∈ w, c ∉ debugReserved) ∧ ∃ c l, w = c :: l ∧ c ≠ ')'

/-- The tidied text of a struct with two fields. -/
def nStruct2 {β : Type} (name f1 f2 : List Char) (n1 : α → List Char → List Char)
    (n2 : β → List Char → List Char) (p : α × β) (r : List Char) : List Char :=
  name ++ '{' :: (f1 ++ ':' :: n1 p.1 (',' :: (f2 ++ ':' :: n2 p.2 ('}' :: r))))

theorem ReadsBack.struct2 {β : Type} {Q : β → Prop} {f' : Bool → β → List Char}
    {n' : β → List Char → List Char} (h1 : ReadsBack P f n) (h2 : ReadsBack Q f' n') {name w1 w2 : List Char}
    (hn : PlainWord name) (hw1 : PlainWord w1) (hw2 : PlainWord w2) :
    ReadsBack (fun p : α × β => P p.1 ∧ Q p.2)
      (fun alt p => debugStruct alt name [(w1, f alt p.1), (w2, f' alt p.2)]) (nStruct2 name w1 w2 n n') := by
  refine ⟨fun p hp alt => ?_, ?_⟩
  · exact debugStruct_tidies (f := (w1, f alt p.1)) (fs := [(w2, f' alt p.2)]) hn.1 hn.2 (.cons (field_tidies hw1.1 hw1.2 (h1.tidies p.1 hp.1 alt).1)
      (.cons (field_tidies hw2.1 hw2.2 (h2.tidies p.2 hp.2 alt).1) .nil)) alt
  · intro p q hp hq s t _ _ e
    have e := (List.cons.inj (List.append_cancel_left e)).2
    obtain ⟨e1, e2⟩ := h1.uniq _ _ hp.1 hq.1 _ _ (.comma _) (.comma _)
      (List.cons.inj (List.append_cancel_left e)).2
    have e2 := (List.cons.inj e2).2
    obtain ⟨e3, e4⟩ := h2.uniq _ _ hp.2 hq.2 _ _ (.struct _) (.struct _)
      (List.cons.inj (List.append_cancel_left e2)).2
    exact ⟨_root_.Prod.ext e1 e3, (List.cons.inj e4).2⟩

/-- The tidied text of a struct with three fields. -/
def nStruct3 {β γ : Type} (name f1 f2 f3 : List Char) (n1 : α → List Char → List Char)
    (n2 : β → List Char → List Char) (n3 : γ → List Char → List Char) (p : α × β × γ) (r : List Char) :
    List Char :=
  name ++ '{' :: (f1 ++ ':' :: n1 p.1 (',' :: (f2 ++ ':' :: n2 p.2.1 (',' ::
    (f3 ++ ':' :: n3 p.2.2 ('}' :: r))))))

theorem ReadsBack.struct3 {β γ : Type} {Q : β → Prop} {f' : Bool → β → List Char}
    {n' : β → List Char → List Char} {R : γ → Prop} {f'' : Bool → γ → List Char}
    {n'' : γ → List Char → List Char} (h1 : ReadsBack P f n) (h2 : ReadsBack Q f' n') (h3 : ReadsBack R f'' n'')
    {name w1 w2 w3 : List Char} (hn : PlainWord name) (hw1 : PlainWord w1) (hw2 : PlainWord w2)
    (hw3 : PlainWord w3) :
    ReadsBack (fun p : α × β × γ => P p.1 ∧ Q p.2.1 ∧ R p.2.2)
      (fun alt p => debugStruct alt name [(w1, f alt p.1), (w2, f' alt p.2.1), (w3, f'' alt p.2.2)])
      (nStruct3 name w1 w2 w3 n n' n'') := by
  refine ⟨fun p hp alt => ?_, ?_⟩
  · exact debugStruct_tidies (f := (w1, f alt p.1)) (fs := [(w2, f' alt p.2.1), (w3, f'' alt p.2.2)]) hn.1 hn.2
      (.cons (field_tidies hw1.1 hw1.2 (h1.tidies _ hp.1 alt).1)
      (.cons (field_tidies hw2.1 hw2.2 (h2.tidies _ hp.2.1 alt).1)
      (.cons (field_tidies hw3.1 hw3.2 (h3.tidies _ hp.2.2 alt).1) .nil))) alt
  · intro p q hp hq s t _ _ e
    have e := (List.cons.inj (List.append_cancel_left e)).2
    obtain ⟨e1, e2⟩ := h1.uniq _ _ hp.1 hq.1 _ _ (.comma _) (.comma _)
      (List.cons.inj (List.append_cancel_left e)).2
    have e2 := (List.cons.inj e2).2
    obtain ⟨e3, e4⟩ := h2.uniq _ _ hp.2.1 hq.2.1 _ _ (.comma _) (.comma _)
      (List.cons.inj (List.append_cancel_left e2)).2
    have e4 := (List.cons.inj e4).2
    obtain ⟨e5, e6⟩ := h3.uniq _ _ hp.2.2 hq.2.2 _ _ (.struct _) (.struct _)
      (List.cons.inj (List.append_cancel_left e4)).2
    exact ⟨_root_.Prod.ext e1 (_root_.Prod.ext e3 e5), (List.cons.inj e6).2⟩

/-- Along an injective function. -/
theorem ReadsBack.comap {β : Type} {Q : β → Prop} (h : ReadsBack P f n) (φ : β → α) (hφ : ∀ a b, φ a = φ b → a = b)
    (hQ : ∀ b, Q b → P (φ b)) : ReadsBack Q (fun alt b => f alt (φ b)) fun b => n (φ b) :=
  ⟨fun b hb alt => h.tidies _ (hQ b hb) alt, fun a b ha hb s t hs ht e => by
    obtain ⟨e1, e2⟩ := h.uniq _ _ (hQ a ha) (hQ b hb) s t hs ht e
    exact ⟨hφ _ _ e1, e2⟩⟩

/-- The tidied text says what it is the text of. -/
theorem ReadsBack.det (h : ReadsBack P f n) {a b : α} (ha : P a) (hb : P b) {alt alt' : Bool}
    (e : tidy (f alt a) = tidy (f alt' b)) : a = b := by
  have e : tidyOn (f alt a) [] = tidyOn (f alt' b) [] := e
  rw [(h.tidies a ha alt).1, (h.tidies b hb alt').1] at e
  exact (h.uniq a b ha hb [] [] (fun _ _ h => by cases h) (fun _ _ h => by cases h) e).1

theorem ReadsBack.modes (h : ReadsBack P f n) {a : α} (ha : P a) (alt alt' : Bool) :
    tidy (f alt a) = tidy (f alt' a) := by
  show tidyOn (f alt a) [] = tidyOn (f alt' a) []
  rw [(h.tidies a ha alt).1, (h.tidies a ha alt').1]
end Bongo
