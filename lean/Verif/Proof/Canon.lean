import Verif.Proof.EarleyTree
/-! What the sets and the forest of the Earley parser are, without reference to memory: every node is
named by the position and the item it was made for. -/
set_option linter.unusedSectionVars false
namespace Bongo
open Std
variable {T NT AK AV V : Type}

/-- The name of a node: the last node of the value of this item at this position. -/
abbrev NName (T NT AK AV : Type) := Nat × EarleyStateKey T NT AK AV

/-- A set of items with the names of the nodes of their values. -/
abbrev KSet (T NT AK AV : Type) := EarleyStateKey T NT AK AV → List (NName T NT AK AV) → Prop

/-- The content of an alternative, with names for nodes. -/
inductive CC (T NT AK AV V : Type) where
  | leaf (kind : T) (value : V)
  | branch (action : AK) (nodes : List (NName T NT AK AV))

/-- The completed production `q`, started at `k`, with value `u`, moves the item `e` with value
`v`. -/
def Moves (prev : List (KSet T NT AK AV)) (cur : KSet T NT AK AV) (e : EarleyStateKey T NT AK AV)
    (q : SProd T NT AK AV) (k : Nat) (u v : List (NName T NT AK AV)) : Prop :=
  cur ⟨⟨q, q.numElements⟩, k⟩ u ∧ e.after = some (.nonterm q.head) ∧
    ∃ S, (prev ++ [cur])[k]? = some S ∧ S e v

/-- One pass: new items get the value of the first completed production that leads to them. -/
def KNext (sg : StartGrammar T NT AK AV) (prev : List (KSet T NT AK AV)) (cur : KSet T NT AK AV) :
    KSet T NT AK AV := fun K v =>
  cur K v ∨ (∀ u, ¬ cur K u) ∧
    ((∃ q ∈ sg.prods, K = ⟨⟨q, 0⟩, prev.length⟩ ∧ v = [] ∧
        ∃ e u, cur e u ∧ e.after = some (.nonterm q.head)) ∨
      ∃ e q k u v0, Moves prev cur e q k u v0 ∧ K = e.next ∧ v = v0 ++ [(prev.length, K)] ∧
        ∀ q' k' u' v', Moves prev cur e q' k' u' v' →
          q.index < q'.index ∨ (q.index = q'.index ∧ k ≤ k'))

/-- Several passes. -/
def KIter (sg : StartGrammar T NT AK AV) (prev : List (KSet T NT AK AV)) (init : KSet T NT AK AV) :
    Nat → KSet T NT AK AV
  | 0 => init
  | m + 1 => KNext sg prev (KIter sg prev init m)

/-- All passes. -/
def KClose (sg : StartGrammar T NT AK AV) (prev : List (KSet T NT AK AV)) (init : KSet T NT AK AV) :
    KSet T NT AK AV := fun K v => ∃ m, KIter sg prev init m K v

/-- What a set starts with. -/
def KInit (sg : StartGrammar T NT AK AV) (toks : List (Token T V)) :
    Nat → List (KSet T NT AK AV) → KSet T NT AK AV
  | 0, _ => fun K v => ∃ p ∈ sg.prods, p.head = sg.startSymbol ∧ K = ⟨⟨p, 0⟩, 0⟩ ∧ v = []
  | j + 1, prev => fun K v => ∃ S tok e v0, prev[j]? = some S ∧ toks[j]? = some tok ∧ S e v0 ∧
      e.after = some (.term (.term tok.kind)) ∧ K = e.next ∧ v = v0 ++ [(j + 1, K)]

/-- The sets before position `j`. -/
def KPrev (sg : StartGrammar T NT AK AV) (toks : List (Token T V)) : Nat → List (KSet T NT AK AV)
  | 0 => []
  | j + 1 => KPrev sg toks j ++ [KClose sg (KPrev sg toks j) (KInit sg toks j (KPrev sg toks j))]

/-- The set at position `j`. -/
def KAt (sg : StartGrammar T NT AK AV) (toks : List (Token T V)) (j : Nat) : KSet T NT AK AV :=
  KClose sg (KPrev sg toks j) (KInit sg toks j (KPrev sg toks j))

/-- The contents of the named nodes after position `j`. -/
inductive CAlt (sg : StartGrammar T NT AK AV) (toks : List (Token T V)) :
    Nat → NName T NT AK AV → CC T NT AK AV V → Prop where
  | old {j ν c} : CAlt sg toks j ν c → CAlt sg toks (j + 1) ν c
  | scan {j tok e v} : toks[j]? = some tok → KAt sg toks j e v →
      e.after = some (.term (.term tok.kind)) →
      CAlt sg toks (j + 1) (j + 1, e.next) (.leaf tok.kind tok.value)
  | branch {j e q k u v ak} : Moves (KPrev sg toks j) (KAt sg toks j) e q k u v →
      q.actionKey.asBase = some ak → CAlt sg toks j (j, e.next) (.branch ak u)
  | merge {j e q k u v v'} {x : Nat} {ν ν' c} : Moves (KPrev sg toks j) (KAt sg toks j) e q k u v →
      KAt sg toks j e.next v' → v[x]? = some ν → v'[x]? = some ν' → CAlt sg toks j ν c →
      CAlt sg toks j ν' c

section
variable {sg : StartGrammar T NT AK AV} {toks : List (Token T V)}

theorem KPrev_length (j : Nat) : (KPrev sg toks j).length = j := by
  induction j with
  | zero => rfl
  | succ j ih => simp [KPrev, ih]

theorem KPrev_succ (j : Nat) : KPrev sg toks (j + 1) = KPrev sg toks j ++ [KAt sg toks j] := rfl

theorem KPrev_get {j k : Nat} (h : k < j) : (KPrev sg toks j)[k]? = some (KAt sg toks k) := by
  induction j with
  | zero => omega
  | succ j ih =>
    rw [KPrev_succ]
    rcases Nat.lt_or_ge k j with hk | hk
    · rw [List.getElem?_append_left (by rw [KPrev_length]; exact hk)]; exact ih hk
    · have : k = j := by omega
      subst this
      rw [List.getElem?_append_right (by rw [KPrev_length]; exact Nat.le_refl _), KPrev_length]; simp

theorem KPrev_get' {j k : Nat} {S} (h : (KPrev sg toks j)[k]? = some S) : S = KAt sg toks k := by
  have hk : k < j := by
    have := (List.getElem?_eq_some_iff.1 h).1; rwa [KPrev_length] at this
  rw [KPrev_get hk] at h; cases h; rfl

theorem EarleyStateKey.next_inj {e e' : EarleyStateKey T NT AK AV} (h : e.next = e'.next) : e = e' := by
  obtain ⟨⟨p, d⟩, o⟩ := e
  obtain ⟨⟨p', d'⟩, o'⟩ := e'
  simp only [EarleyStateKey.next, EarleyStateKey.mk.injEq, ProdState.mk.injEq] at h ⊢
  obtain ⟨⟨rfl, h⟩, rfl⟩ := h
  exact ⟨⟨rfl, by omega⟩, rfl⟩

theorem KNext.le {prev : List (KSet T NT AK AV)} {cur : KSet T NT AK AV} {K v} (h : cur K v) :
    KNext sg prev cur K v := Or.inl h

theorem Moves.mono {prev : List (KSet T NT AK AV)} {cur cur' : KSet T NT AK AV}
    (hc : ∀ K v, cur K v → cur' K v) {e q k u v} (h : Moves prev cur e q k u v) :
    Moves prev cur' e q k u v := by
  obtain ⟨h1, h2, S, h3, h4⟩ := h
  rcases getElem?_concat h3 with ⟨hk, h5⟩ | ⟨rfl, rfl⟩
  · exact ⟨hc _ _ h1, h2, S, by rw [List.getElem?_append_left hk]; exact h5, h4⟩
  · exact ⟨hc _ _ h1, h2, cur', by simp, hc _ _ h4⟩

/-- What the last name of a value is. -/
def LastOk (j : Nat) (S : KSet T NT AK AV) : Prop :=
  ∀ K v, S K v → (K.prodState.index = 0 ∧ v = []) ∨ ∃ v0, v = v0 ++ [(j, K)]

theorem KNext.lastOk {prev : List (KSet T NT AK AV)} {cur : KSet T NT AK AV}
    (h : LastOk prev.length cur) : LastOk prev.length (KNext sg prev cur) := by
  rintro K v (hk | ⟨-, ⟨q, -, rfl, rfl, -⟩ | ⟨e, q, k, u, v0, -, -, rfl, -⟩⟩)
  · exact h K v hk
  · exact Or.inl ⟨rfl, rfl⟩
  · exact Or.inr ⟨v0, rfl⟩

theorem KIter.lastOk {prev : List (KSet T NT AK AV)} {init : KSet T NT AK AV}
    (h : LastOk prev.length init) : ∀ m, LastOk prev.length (KIter sg prev init m)
  | 0 => h
  | m + 1 => KNext.lastOk (KIter.lastOk h m)

theorem KInit.lastOk (j : Nat) (prev : List (KSet T NT AK AV)) :
    LastOk j (KInit sg toks j prev) := by
  cases j with
  | zero => rintro K v ⟨p, -, -, rfl, rfl⟩; exact Or.inl ⟨rfl, rfl⟩
  | succ j => rintro K v ⟨S, tok, e, v0, -, -, -, -, rfl, rfl⟩; exact Or.inr ⟨v0, rfl⟩

theorem KAt.lastOk (j : Nat) : LastOk j (KAt sg toks j) := by
  rintro K v ⟨m, hm⟩
  have h := KIter.lastOk (sg := sg) (prev := KPrev sg toks j)
    (init := KInit sg toks j (KPrev sg toks j)) (by rw [KPrev_length]; exact KInit.lastOk j _) m
  rw [KPrev_length] at h
  exact h K v hm
end

/-! ### Reading trees off named nodes -/
section
variable (sg : StartGrammar T NT AK AV) (toks : List (Token T V))
mutual
/-- The tree can be read off the named node after position `j`. -/
def CReads (j : Nat) : DTree (Token T V) AK → NName T NT AK AV → Prop
  | .leaf tok, ν => CAlt sg toks j ν (.leaf tok.kind tok.value)
  | .node ak cs, ν => ∃ νs, CAlt sg toks j ν (.branch ak νs) ∧ CReadsAll j cs νs
def CReadsAll (j : Nat) : List (DTree (Token T V) AK) → List (NName T NT AK AV) → Prop
  | [], [] => True
  | c :: cs, ν :: νs => CReads j c ν ∧ CReadsAll j cs νs
  | _, _ => False
end
end
end Bongo
