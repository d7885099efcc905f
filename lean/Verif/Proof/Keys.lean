import Verif.Proof.CanonReads
import Verif.Proof.RenameGrammar
/-!
# Lemmas: the parser only carries the action keys
-/
set_option linter.unusedSectionVars false
namespace Bongo
open Std
variable {T NT AK AV V T' NT' AK' AV' V' : Type}
variable [Ord NT] [TransOrd NT] [LawfulEqOrd NT]

namespace Renaming
variable (ρ : Renaming T NT AK AV T' NT' AK' AV')

/-- The name of a node, with the other names. -/
def nname (ν : NName T NT AK AV) : NName T' NT' AK' AV' := (ν.1, ρ.ekey ν.2)

/-- The content with the other names. -/
def cc (fV : V → V') : CC T NT AK AV V → CC T' NT' AK' AV' V'
  | .leaf k v => .leaf (ρ.term k) (fV v)
  | .branch a ns => .branch (ρ.key a) (ns.map ρ.nname)

/-- The set with the other names. -/
def kset (S : KSet T NT AK AV) : KSet T' NT' AK' AV' := fun K' v' =>
  ∃ K v, K' = ρ.ekey K ∧ v' = v.map ρ.nname ∧ S K v

omit [Ord NT] [TransOrd NT] [LawfulEqOrd NT]

theorem ekey_after (e : EarleyStateKey T NT AK AV) : (ρ.ekey e).after = e.after.map ρ.start.elem := by
  have h : (ρ.ekey e).prodState.prod.elements = e.prodState.prod.elements.map ρ.start.elem := by
    simp only [Prod.elements, ProdInner.elems, ekey, state, prod, prodInner, List.map_map]
    rfl
  rw [EarleyStateKey.after, EarleyStateKey.after, h, List.getElem?_map]
  rfl

theorem ekey_next (e : EarleyStateKey T NT AK AV) : (ρ.ekey e).next = ρ.ekey e.next := rfl

theorem start_numElements (q : SProd T NT AK AV) : (ρ.start.prod q).numElements = q.numElements := by
  simp [Prod.numElements, prod, prodInner]

theorem start_nonterm_inj' {ρ : Renaming T NT AK AV T' NT' AK' AV'}
    (hn : ∀ a b, ρ.nonterm a = ρ.nonterm b → a = b) {a b : StartNonTerminal NT}
    (h : ρ.start.nonterm a = ρ.start.nonterm b) : a = b := by
  cases a <;> cases b <;> simp only [start, StartNonTerminal.nterm.injEq, reduceCtorEq] at h ⊢
  exact hn _ _ h

theorem after_nonterm {ρ : Renaming T NT AK AV T' NT' AK' AV'}
    (hn : ∀ a b, ρ.nonterm a = ρ.nonterm b → a = b) {e : EarleyStateKey T NT AK AV}
    {A : StartNonTerminal NT} :
    (ρ.ekey e).after = some (.nonterm (ρ.start.nonterm A)) ↔ e.after = some (.nonterm A) := by
  rw [ekey_after, Option.map_eq_some_iff]
  constructor
  · rintro ⟨x, hx, h⟩
    cases x with
    | term t => cases h
    | nonterm B =>
      simp only [elem, Elem.nonterm.injEq] at h
      rw [hx, start_nonterm_inj' hn h]
  · intro h; exact ⟨_, h, rfl⟩

theorem after_term {ρ : Renaming T NT AK AV T' NT' AK' AV'}
    (ht : ∀ a b, ρ.term a = ρ.term b → a = b) {e : EarleyStateKey T NT AK AV} {t : T} :
    (ρ.ekey e).after = some (.term (.term (ρ.term t))) ↔ e.after = some (.term (.term t)) := by
  rw [ekey_after, Option.map_eq_some_iff]
  constructor
  · rintro ⟨x, hx, h⟩
    cases x with
    | nonterm B => cases h
    | term s =>
      cases s with
      | endOfStream => cases h
      | term s =>
        simp only [elem, start, Elem.term.injEq, StreamTerminal.term.injEq] at h
        rw [hx, ht _ _ h]
  · intro h; exact ⟨_, h, rfl⟩
end Renaming

/-- The item is one of the grammar. -/
def EarleyStateKey.In (sg : StartGrammar T NT AK AV) (K : EarleyStateKey T NT AK AV) : Prop :=
  K.prodState.prod ∈ sg.prods

/-- The items and the items in the names of the values are of the grammar. -/
def KSet.In (sg : StartGrammar T NT AK AV) (S : KSet T NT AK AV) : Prop :=
  ∀ K v, S K v → K.In sg ∧ ∀ ν ∈ v, ν.2.In sg

section
variable {sg : StartGrammar T NT AK AV} {toks : List (Token T V)} {prev : List (KSet T NT AK AV)}
  {cur : KSet T NT AK AV}

theorem Moves.in (hp : ∀ S ∈ prev, KSet.In sg S) (hc : KSet.In sg cur) {e q k u v}
    (h : Moves prev cur e q k u v) : q ∈ sg.prods ∧ (∀ ν ∈ u, ν.2.In sg) ∧ e.In sg ∧ ∀ ν ∈ v, ν.2.In sg := by
  obtain ⟨h1, h2, S, h3, h4⟩ := h
  have hS : KSet.In sg S := by
    rcases List.mem_append.1 (List.mem_of_getElem? h3) with h | h
    · exact hp S h
    · rw [List.mem_singleton.1 h]; exact hc
  exact ⟨(hc _ _ h1).1, (hc _ _ h1).2, (hS _ _ h4).1, (hS _ _ h4).2⟩

theorem KNext.in (hp : ∀ S ∈ prev, KSet.In sg S) (hc : KSet.In sg cur) : KSet.In sg (KNext sg prev cur) := by
  rintro K v (h | ⟨-, ⟨q, hq, rfl, rfl, -⟩ | ⟨e, q, k, u, v0, hm, rfl, rfl, -⟩⟩)
  · exact hc _ _ h
  · exact ⟨hq, by simp⟩
  · obtain ⟨-, -, h1, h2⟩ := hm.in hp hc
    refine ⟨h1, fun ν hν => ?_⟩
    rcases List.mem_append.1 hν with h | h
    · exact h2 ν h
    · rw [List.mem_singleton.1 h]; exact h1

theorem KIter.in (hp : ∀ S ∈ prev, KSet.In sg S) (hc : KSet.In sg cur) : ∀ m, KSet.In sg (KIter sg prev cur m)
  | 0 => hc
  | m + 1 => KNext.in hp (KIter.in hp hc m)

theorem KClose.in (hp : ∀ S ∈ prev, KSet.In sg S) (hc : KSet.In sg cur) : KSet.In sg (KClose sg prev cur) := by
  rintro K v ⟨m, hm⟩
  exact KIter.in hp hc m K v hm

theorem KInit.in (hp : ∀ S ∈ prev, KSet.In sg S) (j : Nat) : KSet.In sg (KInit sg toks j prev) := by
  cases j with
  | zero => rintro K v ⟨p, h, -, rfl, rfl⟩; exact ⟨h, by simp⟩
  | succ j =>
    rintro K v ⟨S, tok, e, v0, h1, -, h3, -, rfl, rfl⟩
    obtain ⟨k1, k2⟩ := hp S (List.mem_of_getElem? h1) _ _ h3
    refine ⟨k1, fun ν hν => ?_⟩
    rcases List.mem_append.1 hν with h | h
    · exact k2 ν h
    · rw [List.mem_singleton.1 h]; exact k1

theorem KPrev.in : ∀ j, ∀ S ∈ KPrev sg toks j, KSet.In sg S
  | 0 => by simp [KPrev]
  | j + 1 => by
    intro S hS
    rw [KPrev] at hS
    rcases List.mem_append.1 hS with h | h
    · exact KPrev.in j S h
    · rw [List.mem_singleton.1 h]
      exact KClose.in (KPrev.in j) (KInit.in (KPrev.in j) j)

theorem KAt.in (j : Nat) : KSet.In sg (KAt sg toks j) := KClose.in (KPrev.in j) (KInit.in (KPrev.in j) j)
end

section
variable {ρ : Renaming T NT AK AV T' NT' AK' AV'} {sg : StartGrammar T NT AK AV}
  {sg' : StartGrammar T' NT' AK' AV'} {toks : List (Token T V)} {fV : V → V'}
  {prev : List (KSet T NT AK AV)} {cur : KSet T NT AK AV}
variable [Ord T] [Ord AK] [Ord V] [DecidableEq T] [DecidableEq NT] [TransOrd T] [TransOrd AK] [TransOrd V]
  [LawfulEqOrd T] [LawfulEqOrd AK] [LawfulEqOrd V]
variable (hw : sg.WF) (hn : ∀ a b, ρ.nonterm a = ρ.nonterm b → a = b)
  (ht : ∀ a b, ρ.term a = ρ.term b → a = b)
  (hP : ∀ p', p' ∈ sg'.prods ↔ ∃ p ∈ sg.prods, p' = ρ.start.prod p)
  (hS : sg'.startSymbol = ρ.start.nonterm sg.startSymbol)

include hw hn in
theorem ekey_inj {K L : EarleyStateKey T NT AK AV} (hK : K.In sg) (hL : L.In sg)
    (h : ρ.ekey K = ρ.ekey L) : K = L := by
  obtain ⟨⟨p, d⟩, o⟩ := K
  obtain ⟨⟨q, d'⟩, o'⟩ := L
  simp only [Renaming.ekey, Renaming.state, EarleyStateKey.mk.injEq, ProdState.mk.injEq] at h
  obtain ⟨⟨h1, rfl⟩, rfl⟩ := h
  have : p = q := prod_ext_of_mem hw hK hL
    (Renaming.start_nonterm_inj' hn (congrArg (fun x => x.head) h1)) (congrArg (fun x => x.index) h1)
  subst this; rfl

include hw hn in
theorem nname_inj {ν μ : NName T NT AK AV} (hK : ν.2.In sg) (hL : μ.2.In sg)
    (h : ρ.nname ν = ρ.nname μ) : ν = μ := by
  obtain ⟨j, K⟩ := ν
  obtain ⟨j', L⟩ := μ
  simp only [Renaming.nname, _root_.Prod.mk.injEq] at h
  obtain ⟨rfl, h⟩ := h
  cases ekey_inj hw hn hK hL h
  rfl

include hn in
theorem Moves.renamed {e q k u v} (h : Moves prev cur e q k u v) :
    Moves (prev.map ρ.kset) (ρ.kset cur) (ρ.ekey e) (ρ.start.prod q) k (u.map ρ.nname) (v.map ρ.nname) := by
  obtain ⟨h1, h2, S, h3, h4⟩ := h
  refine ⟨⟨_, u, ?_, rfl, h1⟩, (Renaming.after_nonterm hn).2 h2, ρ.kset S, ?_, ⟨e, v, rfl, rfl, h4⟩⟩
  · rw [ρ.start_numElements]; rfl
  · have : List.map ρ.kset prev ++ [ρ.kset cur] = (prev ++ [cur]).map ρ.kset := by simp
    rw [this, List.getElem?_map, h3]; rfl

include hn in
theorem Moves.renamed' {e' q' k u' v'}
    (h : Moves (prev.map ρ.kset) (ρ.kset cur) e' q' k u' v') :
    ∃ e q u v, e' = ρ.ekey e ∧ q' = ρ.start.prod q ∧ u' = u.map ρ.nname ∧ v' = v.map ρ.nname ∧
      Moves prev cur e q k u v := by
  obtain ⟨⟨⟨⟨q, d⟩, o⟩, u, hK, rfl, h1⟩, h2, S', h3, h4⟩ := h
  simp only [Renaming.ekey, Renaming.state, EarleyStateKey.mk.injEq, ProdState.mk.injEq] at hK
  obtain ⟨⟨rfl, hd⟩, rfl⟩ := hK
  rw [ρ.start_numElements] at hd
  subst hd
  have : List.map ρ.kset prev ++ [ρ.kset cur] = (prev ++ [cur]).map ρ.kset := by simp
  rw [this, List.getElem?_map, Option.map_eq_some_iff] at h3
  obtain ⟨S, h3, rfl⟩ := h3
  obtain ⟨e, v, rfl, rfl, h4⟩ := h4
  exact ⟨e, q, u, v, rfl, rfl, rfl, rfl, h1, (Renaming.after_nonterm hn).1 h2, S, h3, h4⟩

include hw hn in
theorem kset_no {S : KSet T NT AK AV} (hS : KSet.In sg S) {K : EarleyStateKey T NT AK AV} (hK : K.In sg) :
    (∀ u, ¬ ρ.kset S (ρ.ekey K) u) ↔ ∀ u, ¬ S K u := by
  constructor
  · intro h u hu
    exact h _ ⟨K, u, rfl, rfl, hu⟩
  · rintro h u' ⟨L, u, h1, -, hu⟩
    rw [ekey_inj hw hn hK (hS _ _ hu).1 h1] at h
    exact h u hu

include hw hn hP in
theorem KNext.renamed (hp : ∀ S ∈ prev, KSet.In sg S) (hc : KSet.In sg cur) :
    KNext sg' (prev.map ρ.kset) (ρ.kset cur) = ρ.kset (KNext sg prev cur) := by
  funext K' v'
  simp only [eq_iff_iff]
  constructor
  · rintro (⟨K, v, rfl, rfl, h⟩ | ⟨h0, ⟨q', hq', rfl, rfl, e', u', ⟨e, u, rfl, rfl, h1⟩, h2⟩ |
      ⟨e', q', k, u', v0', hm, rfl, rfl, hmin⟩⟩)
    · exact ⟨K, v, rfl, rfl, .inl h⟩
    · obtain ⟨q, hq, rfl⟩ := (hP q').1 hq'
      rw [List.length_map] at h0 ⊢
      have h0' := (kset_no hw hn hc (K := ⟨⟨q, 0⟩, prev.length⟩) hq).1 h0
      exact ⟨⟨⟨q, 0⟩, prev.length⟩, [], rfl, rfl, .inr ⟨h0', .inl ⟨q, hq, rfl, rfl, e, u, h1,
        (Renaming.after_nonterm hn).1 h2⟩⟩⟩
    · obtain ⟨e, q, u, v, rfl, rfl, rfl, rfl, hm0⟩ := Moves.renamed' hn hm
      obtain ⟨i1, i2, i3, i4⟩ := hm0.in hp hc
      rw [ρ.ekey_next] at h0
      refine ⟨e.next, v ++ [(prev.length, e.next)], rfl, ?_, .inr ⟨(kset_no hw hn hc (K := e.next) i3).1 h0,
        .inr ⟨e, q, k, u, v, hm0, rfl, rfl, ?_⟩⟩⟩
      · rw [List.map_append, List.length_map]; rfl
      · intro q2 k2 u2 v2 h2
        exact hmin _ _ _ _ (h2.renamed hn)
  · rintro ⟨K, v, rfl, rfl, (h | ⟨h0, ⟨q, hq, rfl, rfl, e, u, h1, h2⟩ | ⟨e, q, k, u, v0, hm, rfl, rfl, hmin⟩⟩)⟩
    · exact .inl ⟨K, v, rfl, rfl, h⟩
    · refine .inr ⟨(kset_no hw hn hc (K := ⟨⟨q, 0⟩, prev.length⟩) hq).2 h0, .inl ⟨ρ.start.prod q, (hP _).2 ⟨q, hq, rfl⟩, ?_, rfl,
        ρ.ekey e, _, ⟨e, u, rfl, rfl, h1⟩, (Renaming.after_nonterm hn).2 h2⟩⟩
      rw [List.length_map]; rfl
    · obtain ⟨i1, i2, i3, i4⟩ := hm.in hp hc
      refine .inr ⟨(kset_no hw hn hc (K := e.next) i3).2 h0, .inr ⟨ρ.ekey e, _, k, _, _, hm.renamed hn, rfl, ?_, ?_⟩⟩
      · rw [List.map_append, List.length_map]; rfl
      · intro q2' k2 u2' v2' h2'
        obtain ⟨e2, q2, u2, v2, he, rfl, rfl, rfl, h2⟩ := Moves.renamed' hn h2'
        obtain ⟨-, -, j3, -⟩ := h2.in hp hc
        cases ekey_inj hw hn i3 j3 he
        exact hmin _ _ _ _ h2

include hw hn hP in
theorem KIter.renamed (hp : ∀ S ∈ prev, KSet.In sg S) (hc : KSet.In sg cur) :
    ∀ m, KIter sg' (prev.map ρ.kset) (ρ.kset cur) m = ρ.kset (KIter sg prev cur m)
  | 0 => rfl
  | m + 1 => by rw [KIter, KIter, KIter.renamed hp hc m, KNext.renamed hw hn hP hp (KIter.in hp hc m)]

include hw hn hP in
theorem KClose.renamed (hp : ∀ S ∈ prev, KSet.In sg S) (hc : KSet.In sg cur) :
    KClose sg' (prev.map ρ.kset) (ρ.kset cur) = ρ.kset (KClose sg prev cur) := by
  funext K' v'
  simp only [KClose, KIter.renamed hw hn hP hp hc, eq_iff_iff]
  constructor
  · rintro ⟨m, K, v, h1, h2, h3⟩; exact ⟨K, v, h1, h2, m, h3⟩
  · rintro ⟨K, v, h1, h2, m, h3⟩; exact ⟨m, K, v, h1, h2, h3⟩

local notation "toks'" => List.map (Token.renamed ρ.term fV) toks

include hn ht hP hS in
theorem KInit.renamed (j : Nat) :
    KInit sg' toks' j (prev.map ρ.kset) = ρ.kset (KInit sg toks j prev) := by
  cases j with
  | zero =>
    funext K' v'
    simp only [eq_iff_iff]
    constructor
    · rintro ⟨p', hp', h1, rfl, rfl⟩
      obtain ⟨p, hp, rfl⟩ := (hP p').1 hp'
      rw [hS] at h1
      exact ⟨⟨⟨p, 0⟩, 0⟩, [], rfl, rfl, p, hp, Renaming.start_nonterm_inj' hn h1, rfl, rfl⟩
    · rintro ⟨K, v, rfl, rfl, p, hp, h1, rfl, rfl⟩
      exact ⟨ρ.start.prod p, (hP _).2 ⟨p, hp, rfl⟩, by rw [hS, ← h1]; rfl, rfl, rfl⟩
  | succ j =>
    funext K' v'
    simp only [eq_iff_iff]
    constructor
    · rintro ⟨S', tok', e', v0', h1, h2, h3, h4, rfl, rfl⟩
      rw [List.getElem?_map, Option.map_eq_some_iff] at h1 h2
      obtain ⟨S, h1, rfl⟩ := h1
      obtain ⟨tok, h2, rfl⟩ := h2
      obtain ⟨e, v, rfl, rfl, h3⟩ := h3
      exact ⟨e.next, v ++ [(j + 1, e.next)], rfl, by rw [List.map_append]; rfl, S, tok, e, v, h1, h2, h3,
        (Renaming.after_term ht).1 h4, rfl, rfl⟩
    · rintro ⟨K, v, rfl, rfl, S, tok, e, v0, h1, h2, h3, h4, rfl, rfl⟩
      exact ⟨ρ.kset S, _, ρ.ekey e, _, by rw [List.getElem?_map, h1]; rfl,
        by rw [List.getElem?_map, h2]; rfl, ⟨e, v0, rfl, rfl, h3⟩, (Renaming.after_term ht).2 h4, rfl,
        by rw [List.map_append]; rfl⟩

include hw hn ht hP hS in
theorem KPrev.renamed (j : Nat) : KPrev sg' toks' j = (KPrev sg toks j).map ρ.kset := by
  induction j with
  | zero => rfl
  | succ j ih =>
    rw [KPrev, KPrev, ih, KInit.renamed hn ht hP hS,
      KClose.renamed hw hn hP (KPrev.in j) (KInit.in (KPrev.in j) j), List.map_append]
    rfl

include hw hn ht hP hS in
theorem KAt.renamed (j : Nat) : KAt sg' toks' j = ρ.kset (KAt sg toks j) := by
  unfold KAt
  rw [KPrev.renamed hw hn ht hP hS, KInit.renamed hn ht hP hS,
    KClose.renamed hw hn hP (KPrev.in j) (KInit.in (KPrev.in j) j)]

theorem start_asBase (k : StartActionKey AK) : (ρ.start.key k).asBase = k.asBase.map ρ.key := by
  cases k <;> rfl

include hw hn ht hP hS in
theorem CAlt.renamed {j : Nat} {ν : NName T NT AK AV} {c : CC T NT AK AV V} (h : CAlt sg toks j ν c) :
    CAlt sg' toks' j (ρ.nname ν) (ρ.cc fV c) := by
  induction h with
  | old _ ih => exact .old ih
  | @scan j tok e v h1 h2 h3 =>
    exact .scan (tok := tok.renamed ρ.term fV) (e := ρ.ekey e) (v := v.map ρ.nname)
      (by rw [List.getElem?_map, h1]; rfl)
      (by rw [KAt.renamed hw hn ht hP hS]; exact ⟨e, v, rfl, rfl, h2⟩) ((Renaming.after_term ht).2 h3)
  | @branch j e q k u v ak h1 h2 =>
    refine .branch (q := ρ.start.prod q) (k := k) (v := v.map ρ.nname) (e := ρ.ekey e) ?_ ?_
    · rw [KPrev.renamed hw hn ht hP hS, KAt.renamed hw hn ht hP hS]
      exact h1.renamed hn
    · have : (ρ.start.prod q).actionKey = ρ.start.key q.actionKey := rfl
      rw [this, start_asBase, h2]; rfl
  | @merge j e q k u v v' x ν ν' c h1 h2 h3 h4 _ ih =>
    refine .merge (q := ρ.start.prod q) (k := k) (e := ρ.ekey e) (u := u.map ρ.nname)
      (v := v.map ρ.nname) (v' := v'.map ρ.nname) (x := x) ?_ ?_ ?_ ?_ ih
    · rw [KPrev.renamed hw hn ht hP hS, KAt.renamed hw hn ht hP hS]
      exact h1.renamed hn
    · rw [KAt.renamed hw hn ht hP hS]; exact ⟨_, _, rfl, rfl, h2⟩
    · rw [List.getElem?_map, h3]; rfl
    · rw [List.getElem?_map, h4]; rfl

/-- The items in the names in a content are of the grammar. -/
def CC.In (sg : StartGrammar T NT AK AV) : CC T NT AK AV V → Prop
  | .leaf _ _ => True
  | .branch _ ns => ∀ ν ∈ ns, ν.2.In sg

include hw hn ht hP hS in
theorem CAlt.renamed' {j : Nat} {ν' : NName T' NT' AK' AV'} {c' : CC T' NT' AK' AV' V'}
    (h : CAlt sg' toks' j ν' c') :
    ∃ ν c, ν' = ρ.nname ν ∧ ν.2.In sg ∧ c' = ρ.cc fV c ∧ c.In sg ∧ CAlt sg toks j ν c := by
  generalize hts : List.map (Token.renamed ρ.term fV) toks = ts at h
  induction h with
  | old _ ih =>
    obtain ⟨ν, c, rfl, h1, rfl, h2, h3⟩ := ih
    exact ⟨ν, c, rfl, h1, rfl, h2, .old h3⟩
  | @scan j tok' e' v' h1 h2 h3 =>
    subst hts
    rw [List.getElem?_map, Option.map_eq_some_iff] at h1
    obtain ⟨tok, h1, rfl⟩ := h1
    rw [KAt.renamed hw hn ht hP hS] at h2
    obtain ⟨e, v, rfl, rfl, h2⟩ := h2
    exact ⟨(j + 1, e.next), .leaf tok.kind tok.value, rfl, (KAt.in j _ _ h2).1, rfl, trivial,
      .scan h1 h2 ((Renaming.after_term ht).1 h3)⟩
  | @branch j e' q' k u' v' ak' h1 h2 =>
    subst hts
    rw [KPrev.renamed hw hn ht hP hS, KAt.renamed hw hn ht hP hS] at h1
    obtain ⟨e, q, u, v, rfl, rfl, rfl, rfl, hm⟩ := Moves.renamed' hn h1
    obtain ⟨i1, i2, i3, i4⟩ := hm.in (KPrev.in j) (KAt.in j)
    have : (ρ.start.prod q).actionKey = ρ.start.key q.actionKey := rfl
    rw [this, start_asBase, Option.map_eq_some_iff] at h2
    obtain ⟨ak, h2, rfl⟩ := h2
    exact ⟨(j, e.next), .branch ak u, rfl, i3, rfl, i2, .branch hm h2⟩
  | @merge j e' q' k u' v' w' x ν1' ν2' c' h1 h2 h3 h4 _ ih =>
    obtain ⟨ν0, c, hν, k1, rfl, k2, k3⟩ := ih
    subst hts
    rw [KPrev.renamed hw hn ht hP hS, KAt.renamed hw hn ht hP hS] at h1
    rw [KAt.renamed hw hn ht hP hS] at h2
    obtain ⟨e, q, u, v, rfl, rfl, rfl, rfl, hm⟩ := Moves.renamed' hn h1
    obtain ⟨i1, i2, i3, i4⟩ := hm.in (KPrev.in j) (KAt.in j)
    obtain ⟨K, w, hK, rfl, h2⟩ := h2
    have hin := KAt.in j _ _ h2
    have : e.next = K := ekey_inj hw hn i3 hin.1 hK
    subst this
    rw [List.getElem?_map, Option.map_eq_some_iff] at h3 h4
    obtain ⟨ν1, h3, rfl⟩ := h3
    obtain ⟨ν2, h4, rfl⟩ := h4
    have : ν1 = ν0 := nname_inj hw hn (i4 _ (List.mem_of_getElem? h3)) k1 hν
    subst this
    exact ⟨ν2, c, rfl, hin.2 _ (List.mem_of_getElem? h4), rfl, k2, .merge hm h2 h3 h4 k3⟩

include hw hn ht hP hS in
theorem CAlt.renamed'' {j : Nat} {ν : NName T NT AK AV} (hν : ν.2.In sg) {c' : CC T' NT' AK' AV' V'}
    (h : CAlt sg' toks' j (ρ.nname ν) c') : ∃ c, c' = ρ.cc fV c ∧ c.In sg ∧ CAlt sg toks j ν c := by
  obtain ⟨ν0, c, h1, h2, h3, h4, h5⟩ := h.renamed' hw hn ht hP hS
  cases nname_inj hw hn hν h2 h1
  exact ⟨c, h3, h4, h5⟩

include hw hn ht hP hS in
theorem CReads.renamed (j : Nat) (s : DTree (Token T V) AK) : ∀ ν, CReads sg toks j s ν →
    CReads sg' toks' j (s.renamed ρ.term ρ.key fV) (ρ.nname ν) := by
  refine DTree.rec (motive_1 := fun s => ∀ ν, CReads sg toks j s ν →
      CReads sg' toks' j (s.renamed ρ.term ρ.key fV) (ρ.nname ν))
    (motive_2 := fun cs => ∀ νs, CReadsAll sg toks j cs νs →
      CReadsAll sg' toks' j (DTree.renameds ρ.term ρ.key fV cs) (νs.map ρ.nname)) ?_ ?_ ?_ ?_ s
  · intro tok ν h
    rw [CReads] at h
    rw [DTree.renamed, CReads]
    exact h.renamed hw hn ht hP hS
  · intro ak cs ih ν h
    rw [CReads] at h
    rw [DTree.renamed, CReads]
    obtain ⟨νs, h1, h2⟩ := h
    exact ⟨_, h1.renamed hw hn ht hP hS, ih νs h2⟩
  · intro νs h
    cases νs <;> simpa [CReadsAll, DTree.renameds] using h
  · intro c cs ih1 ih2 νs h
    cases νs with
    | nil => simp [CReadsAll] at h
    | cons ν νs =>
      rw [CReadsAll] at h
      rw [DTree.renameds, List.map_cons, CReadsAll]
      exact ⟨ih1 _ h.1, ih2 _ h.2⟩

include hw hn ht hP hS in
theorem CReads.renamed' (j : Nat) (s' : DTree (Token T' V') AK') : ∀ ν : NName T NT AK AV, ν.2.In sg →
    CReads sg' toks' j s' (ρ.nname ν) →
    ∃ s, s' = s.renamed ρ.term ρ.key fV ∧ CReads sg toks j s ν := by
  refine DTree.rec (motive_1 := fun s' => ∀ ν : NName T NT AK AV, ν.2.In sg →
      CReads sg' toks' j s' (ρ.nname ν) → ∃ s, s' = s.renamed ρ.term ρ.key fV ∧ CReads sg toks j s ν)
    (motive_2 := fun cs' => ∀ νs : List (NName T NT AK AV), (∀ ν ∈ νs, ν.2.In sg) →
      CReadsAll sg' toks' j cs' (νs.map ρ.nname) →
      ∃ cs, cs' = DTree.renameds ρ.term ρ.key fV cs ∧ CReadsAll sg toks j cs νs) ?_ ?_ ?_ ?_ s'
  · intro tok' ν hν h
    rw [CReads] at h
    obtain ⟨c, hc, -, h1⟩ := h.renamed'' hw hn ht hP hS hν
    cases c with
    | branch a ns => cases hc
    | leaf k v =>
      obtain ⟨k', v'⟩ := tok'
      simp only [Renaming.cc, CC.leaf.injEq] at hc
      obtain ⟨rfl, rfl⟩ := hc
      exact ⟨.leaf ⟨k, v⟩, rfl, by rw [CReads]; exact h1⟩
  · intro ak' cs' ih ν hν h
    rw [CReads] at h
    obtain ⟨νs', h1, h2⟩ := h
    obtain ⟨c, hc, hin, h0⟩ := h1.renamed'' hw hn ht hP hS hν
    cases c with
    | leaf k v => cases hc
    | branch a ns =>
      simp only [Renaming.cc, CC.branch.injEq] at hc
      obtain ⟨rfl, rfl⟩ := hc
      obtain ⟨cs, rfl, h3⟩ := ih _ hin h2
      exact ⟨.node a cs, rfl, by rw [CReads]; exact ⟨_, h0, h3⟩⟩
  · intro νs _ h
    cases νs with
    | nil => exact ⟨[], rfl, by simp [CReadsAll]⟩
    | cons ν νs => simp [CReadsAll] at h
  · intro c' cs' ih1 ih2 νs hνs h
    cases νs with
    | nil => simp [CReadsAll] at h
    | cons ν νs =>
      rw [List.map_cons, CReadsAll] at h
      obtain ⟨c, rfl, h1⟩ := ih1 _ (hνs _ (by simp)) h.1
      obtain ⟨cs, rfl, h2⟩ := ih2 _ (fun μ hμ => hνs μ (by simp [hμ])) h.2
      exact ⟨c :: cs, rfl, by rw [CReadsAll]; exact ⟨h1, h2⟩⟩
end
end Bongo
