import Verif.Proof.Rename
import Verif.Model.Earley
/-!
# Lemmas: a parse with other names
-/
set_option linter.unusedSectionVars false
set_option linter.unusedSimpArgs false
namespace Bongo
open Std
variable {T NT AK AV V T' NT' AK' AV' V' : Type}

namespace Renaming
section
variable (ρ : Renaming T NT AK AV T' NT' AK' AV')

def state (s : ProdState T NT AK AV) : ProdState T' NT' AK' AV' := ⟨ρ.prod s.prod, s.index⟩

theorem prodRefs (r : RuleInner T NT AK AV) : (ρ.rule r).prodRefs = r.prodRefs.map ρ.prod := by
  simp only [RuleInner.prodRefs, rule, List.zipIdx_map, List.map_map]
  rfl

theorem state_nextElemState (s : ProdState T NT AK AV) : (ρ.state s).nextElemState =
    s.nextElemState.map fun x => (ρ.prodElement x.1, ρ.state x.2) := by
  simp only [ProdState.nextElemState, ProdState.nextProdElem, ProdState.offsetProdElem, state, prod,
    Prod.prodElements, prodInner, List.getElem?_map, Option.map_map]
  rfl

theorem state_nextElem (s : ProdState T NT AK AV) : (ρ.state s).nextElem = s.nextElem.map ρ.elem := by
  simp only [ProdState.nextElem, ProdState.offsetElem, ProdState.offsetProdElem, state, prod,
    Prod.prodElements, prodInner, List.getElem?_map, Option.map_map]
  rfl

theorem state_isComplete (s : ProdState T NT AK AV) : (ρ.state s).isComplete = s.isComplete := by
  simp [ProdState.isComplete, state, prod, Prod.numElements, prodInner]

theorem elem_asTerm (e : Elem T NT) : (ρ.elem e).asTerm = e.asTerm.map ρ.term := by cases e <;> rfl
theorem elem_asNonterm (e : Elem T NT) : (ρ.elem e).asNonterm = e.asNonterm.map ρ.nonterm := by
  cases e <;> rfl
end

variable (ρ : Renaming T NT AK AV T' NT' AK' AV')

def ekey (k : EarleyStateKey T NT AK AV) : EarleyStateKey T' NT' AK' AV' :=
  ⟨ρ.start.state k.prodState, k.originIndex⟩
def estate (s : EarleyState T NT AK AV) : EarleyState T' NT' AK' AV' := ⟨ρ.ekey s.key, s.value⟩
def eset (s : EarleyStateSet T NT AK AV) : EarleyStateSet T' NT' AK' AV' :=
  s.map fun kv => (ρ.ekey kv.1, kv.2)

theorem eset_states (s : EarleyStateSet T NT AK AV) :
    EarleyStateSet.states (ρ.eset s) = (EarleyStateSet.states s).map ρ.estate := by
  simp only [EarleyStateSet.states, eset, List.map_map]
  rfl

theorem isFinalKey (k : EarleyStateKey T NT AK AV) : (ρ.ekey k).isFinalKey = k.isFinalKey := by
  simp only [EarleyStateKey.isFinalKey, ekey, state_nextElem]
  cases k.prodState.nextElem with
  | none => rfl
  | some e =>
    cases e with
    | term t => cases t <;> rfl
    | nonterm nt => rfl

theorem getFinal (s : EarleyStateSet T NT AK AV) :
    EarleyStateSet.getFinal (ρ.eset s) = EarleyStateSet.getFinal s := by
  induction s with
  | nil => rfl
  | cons x s ih =>
    obtain ⟨k, v⟩ := x
    have ih' : EarleyStateSet.getFinal (List.map (fun kv => (ρ.ekey kv.1, kv.2)) s) = _ := ih
    simp only [eset, List.map_cons, EarleyStateSet.getFinal, isFinalKey, ih']

variable {addr : StartNonTerminal NT → Nat → Nat} {addr' : StartNonTerminal NT' → Nat → Nat}

theorem ekey_cmp (ha : ∀ A i, addr' (ρ.start.nonterm A) i = addr A i) (a b : EarleyStateKey T NT AK AV) :
    EarleyStateKey.cmp addr' (ρ.ekey a) (ρ.ekey b) = EarleyStateKey.cmp addr a b := by
  simp only [EarleyStateKey.cmp, ekey, ProdState.cmp, prodCmp, state, prod, ha]

section
variable [Ord T] [Ord NT] [Ord AK] [Ord V] [Ord T'] [Ord NT'] [Ord AK'] [Ord V'] [TransOrd T]
  [TransOrd AK] [TransOrd V] [TransOrd T'] [TransOrd AK'] [TransOrd V'] [DecidableEq T] [DecidableEq NT] [DecidableEq T']
  [DecidableEq NT']
variable {ρ} {fV : V → V'} {i : Inner T AK V} {i' : Inner T' AK' V'}

local notation "IR" => InnerRen ρ.term ρ.key fV

theorem start_nonterm_inj (hρ : ρ.SymInjective) {a b : StartNonTerminal NT}
    (h : ρ.start.nonterm a = ρ.start.nonterm b) : a = b := by
  cases a <;> cases b <;> simp only [start, StartNonTerminal.nterm.injEq, reduceCtorEq] at h ⊢
  exact hρ.nonterm _ _ h

theorem scan (hρ : ρ.SymInjective) (hi : RenInj ρ.term ρ.key fV) (s : EarleyState T NT AK AV) (h : IR i i')
    (tok : Token T V) :
    Res.Both (fun x y => IR x.1 y.1 ∧ y.2 = x.2.map ρ.estate) (s.scan i tok)
      ((ρ.estate s).scan i' (tok.renamed ρ.term fV)) := by
  simp only [EarleyState.scan, EarleyState.prodState, estate, ekey, state_nextElemState]
  cases s.key.prodState.nextElemState with
  | none => exact ⟨h, rfl⟩
  | some eps =>
    obtain ⟨e, ps⟩ := eps
    simp only [Option.map_some, prodElement, elem_asTerm]
    cases e.element.asTerm with
    | none => exact ⟨h, rfl⟩
    | some t =>
      have hk : (ρ.start.term t).hasKind (tok.renamed ρ.term fV).kind = t.hasKind tok.kind := by
        cases t with
        | endOfStream => rfl
        | term t =>
          simp only [start, StreamTerminal.hasKind, Token.renamed, beq_eq_beq]
          exact ⟨hρ.term _ _, fun e => by rw [e]⟩
      simp only [Option.map_some, hk]
      split
      · have := h.makeLeafNode hi tok.kind tok.value
        simp only [Token.renamed]
        rcases this.out with ⟨a, b, e1, e2, r1, r2⟩ | ⟨p, e1, e2⟩ | ⟨e1, e2⟩ <;> simp only [e1, e2]
        · refine ⟨r1, ?_⟩
          simp only [Option.map_some, r2, EarleyState.createNextValue, estate, ekey]
        · rfl
        · trivial
      · exact ⟨h, rfl⟩

theorem completeLoop (hρ : ρ.SymInjective) (hi : RenInj ρ.term ρ.key fV) (s : EarleyState T NT AK AV)
    (l : List (EarleyState T NT AK AV)) : ∀ {i i'}, IR i i' →
    Res.Both (fun x y => IR x.1 y.1 ∧ y.2 = x.2.map ρ.estate) (s.completeLoop l i)
      ((ρ.estate s).completeLoop (l.map ρ.estate) i') := by
  induction l with
  | nil => intro i i' h; exact ⟨h, rfl⟩
  | cons st l ih =>
    intro i i' h
    rw [List.map_cons, EarleyState.completeLoop, EarleyState.completeLoop]
    have hst : (ρ.estate st).prodState.nextElemState =
        st.prodState.nextElemState.map fun x => (ρ.start.prodElement x.1, ρ.start.state x.2) :=
      ρ.start.state_nextElemState _
    rw [hst]
    cases st.prodState.nextElemState with
    | none => exact ih h
    | some eps =>
      obtain ⟨e, ps⟩ := eps
      simp only [Option.map_some, prodElement, elem_asNonterm]
      cases e.element.asNonterm with
      | none => exact ih h
      | some nt =>
        simp only [Option.map_some]
        by_cases hn : nt = s.prodState.prod.head
        · have hn' : ρ.start.nonterm nt = (ρ.estate s).prodState.prod.head := by rw [hn]; rfl
          rw [if_pos hn, if_pos hn']
          have hk : (ρ.estate s).prodState.actionKey.asBase =
              s.prodState.actionKey.asBase.map ρ.key := by
            show (ρ.start.key s.prodState.actionKey).asBase = _
            cases s.prodState.actionKey <;> rfl
          rw [hk]
          cases s.prodState.actionKey.asBase with
          | none => rfl
          | some ak =>
            have hv : (ρ.estate s).value = s.value := rfl
            simp only [Option.map_some, hv]
            rcases (h.makeBranchNode hi ak s.value).out with
              ⟨a, b, e1, e2, r1, r2⟩ | ⟨p, e1, e2⟩ | ⟨e1, e2⟩ <;> simp only [e1, e2]
            · rcases (ih r1).out with ⟨c, d, e3, e4, r3, r4⟩ | ⟨p, e3, e4⟩ | ⟨e3, e4⟩ <;> simp only [e3, e4]
              · refine ⟨r3, ?_⟩
                simp only [List.map_cons, r4, r2, EarleyState.createNextValue, estate, ekey]
              · rfl
              · trivial
            · rfl
            · trivial
        · have hn' : ¬ ρ.start.nonterm nt = (ρ.estate s).prodState.prod.head :=
            fun e => hn (start_nonterm_inj hρ e)
          rw [if_neg hn, if_neg hn']
          exact ih h

theorem complete (hρ : ρ.SymInjective) (hi : RenInj ρ.term ρ.key fV) (s : EarleyState T NT AK AV)
    (prev : List (EarleyStateSet T NT AK AV)) (curr : EarleyStateSet T NT AK AV) (h : IR i i') :
    Res.Both (fun x y => IR x.1 y.1 ∧ y.2 = x.2.map ρ.estate) (s.complete prev curr i)
      ((ρ.estate s).complete (prev.map ρ.eset) (ρ.eset curr) i') := by
  simp only [EarleyState.complete, eset_states, List.length_map, List.getElem?_map]
  have h1 : (ρ.estate s).prodState.isComplete = s.prodState.isComplete := ρ.start.state_isComplete _
  have h2 : (ρ.estate s).key.originIndex = s.key.originIndex := rfl
  rw [h1, h2]
  split
  · split
    · exact completeLoop hρ hi s _ h
    · cases prev[s.key.originIndex]? with
      | none => rfl
      | some o =>
        simp only [Option.map_some, eset_states]
        exact completeLoop hρ hi s _ h
  · exact ⟨h, rfl⟩

/-- The states of a parse correspond. -/
def StRen (ρ : Renaming T NT AK AV T' NT' AK' AV') (fV : V → V')
    (st : Inner T AK V × EarleyStateSet T NT AK AV) (st' : Inner T' AK' V' × EarleyStateSet T' NT' AK' AV') :
    Prop := InnerRen ρ.term ρ.key fV st.1 st'.1 ∧ st'.2 = ρ.eset st.2

theorem insert (ha : ∀ A i, addr' (ρ.start.nonterm A) i = addr A i)
    {st : Inner T AK V × EarleyStateSet T NT AK AV} {st' : Inner T' AK' V' × EarleyStateSet T' NT' AK' AV'}
    (h : StRen ρ fV st st') (s : EarleyState T NT AK AV) :
    Res.Both (fun x y => StRen ρ fV x.1 y.1 ∧ x.2 = y.2) (EarleyStateSet.insert addr st s)
      (EarleyStateSet.insert addr' st' (ρ.estate s)) := by
  obtain ⟨h1, h2⟩ := h
  simp only [EarleyStateSet.insert, h2]
  have hg : BMap.get? (EarleyStateKey.cmp addr') (ρ.eset st.2) (ρ.estate s).key =
      BMap.get? (EarleyStateKey.cmp addr) st.2 s.key := BMap.get?_mapKeys (ρ.ekey_cmp ha) _ _
  rw [hg]
  cases BMap.get? (EarleyStateKey.cmp addr) st.2 s.key with
  | none => exact ⟨⟨h1, BMap.insert_mapKeys (ρ.ekey_cmp ha) _ _ _⟩, rfl⟩
  | some ex =>
    have hv : (ρ.estate s).value = s.value := rfl
    simp only [hv]
    split
    · have := changeIterM_both (R := InnerRen ρ.term ρ.key fV) (m := id)
        (f := fun (i : Inner T AK V) (en : Nat × Nat) => i.addAll en.1 en.2)
        (f' := fun (i : Inner T' AK' V') (en : Nat × Nat) => i.addAll en.1 en.2)
        (fun s s' x hr => hr.addAll x.1 x.2) (ex.zip s.value) st.1 st'.1 .unchanged h1
      rw [List.map_id] at this
      rcases this.out with ⟨a, b, e1, e2, r1, r2⟩ | ⟨p, e1, e2⟩ | ⟨e1, e2⟩ <;> simp only [e1, e2]
      · exact ⟨⟨r1, rfl⟩, r2⟩
      · rfl
      · trivial
    · rfl

theorem fromStates (ha : ∀ A i, addr' (ρ.start.nonterm A) i = addr A i)
    (l : List (EarleyState T NT AK AV)) :
    ∀ {st : Inner T AK V × EarleyStateSet T NT AK AV}
      {st' : Inner T' AK' V' × EarleyStateSet T' NT' AK' AV'}, StRen ρ fV st st' →
    Res.Both (StRen ρ fV) (EarleyStateSet.fromStates addr l st)
      (EarleyStateSet.fromStates addr' (l.map ρ.estate) st') := by
  induction l with
  | nil => intro st st' h; exact h
  | cons s l ih =>
    intro st st' h
    simp only [List.map_cons, EarleyStateSet.fromStates]
    rcases (insert ha h s).out with ⟨a, b, e1, e2, r1, r2⟩ | ⟨p, e1, e2⟩ | ⟨e1, e2⟩ <;> simp only [e1, e2]
    · exact ih r1
    · rfl
    · trivial

theorem shift (ha : ∀ A i, addr' (ρ.start.nonterm A) i = addr A i) (hρ : ρ.SymInjective)
    (hi : RenInj ρ.term ρ.key fV) (tok : Token T V) (l : List (EarleyState T NT AK AV)) :
    ∀ {st : Inner T AK V × EarleyStateSet T NT AK AV}
      {st' : Inner T' AK' V' × EarleyStateSet T' NT' AK' AV'}, StRen ρ fV st st' →
    Res.Both (StRen ρ fV) (EarleyStateSet.shift addr tok l st)
      (EarleyStateSet.shift addr' (tok.renamed ρ.term fV) (l.map ρ.estate) st') := by
  induction l with
  | nil => intro st st' h; exact h
  | cons s l ih =>
    intro st st' h
    simp only [List.map_cons, EarleyStateSet.shift]
    rcases (scan hρ hi s h.1 tok).out with ⟨⟨a1, a2⟩, ⟨b1, b2⟩, e1, e2, r1, r2⟩ | ⟨p, e1, e2⟩ | ⟨e1, e2⟩ <;>
      simp only [e1, e2]
    · simp only at r2
      subst r2
      cases a2 with
      | none => exact ih ⟨r1, h.2⟩
      | some s' =>
        simp only [Option.map_some]
        have hst : StRen ρ fV (a1, st.2) (b1, st'.2) := ⟨r1, h.2⟩
        rcases (insert ha hst s').out with ⟨a, b, e1, e2, r1, r2⟩ | ⟨p, e1, e2⟩ | ⟨e1, e2⟩ <;>
          simp only [e1, e2]
        · exact ih r1
        · rfl
        · trivial
    · rfl
    · trivial

variable {g : StartGrammar T NT AK AV} {g' : StartGrammar T' NT' AK' AV'}

theorem predict (hg : ∀ nt, g'.tryGetRule (ρ.start.nonterm nt) = (g.tryGetRule nt).map ρ.start.rule)
    (s : EarleyState T NT AK AV) (n : Nat) :
    (ρ.estate s).predict g' n = (s.predict g n).map ρ.estate := by
  have h1 : (ρ.estate s).prodState.nextElem = s.prodState.nextElem.map ρ.start.elem :=
    ρ.start.state_nextElem _
  simp only [EarleyState.predict, h1]
  cases s.prodState.nextElem with
  | none => rfl
  | some e =>
    simp only [Option.map_some, Option.bind_some, elem_asNonterm]
    cases e.asNonterm with
    | none => rfl
    | some nt =>
      simp only [Option.map_some, hg]
      cases g.tryGetRule nt with
      | none => rfl
      | some r =>
        simp only [Option.map_some, prodRefs, List.map_map]
        rfl

theorem closureStates (hg : ∀ nt, g'.tryGetRule (ρ.start.nonterm nt) = (g.tryGetRule nt).map ρ.start.rule)
    (hρ : ρ.SymInjective) (hi : RenInj ρ.term ρ.key fV) (prev : List (EarleyStateSet T NT AK AV))
    (curr : EarleyStateSet T NT AK AV) (l : List (EarleyState T NT AK AV)) : ∀ {i i'}, IR i i' →
    Res.Both (fun x y => IR x.1 y.1 ∧ y.2 = x.2.map ρ.estate) (Bongo.closureStates g prev curr l i)
      (Bongo.closureStates g' (prev.map ρ.eset) (ρ.eset curr) (l.map ρ.estate) i') := by
  induction l with
  | nil => intro i i' h; exact ⟨h, rfl⟩
  | cons s l ih =>
    intro i i' h
    simp only [List.map_cons, Bongo.closureStates]
    rcases (complete hρ hi s prev curr h).out with ⟨a, b, e1, e2, r1, r2⟩ | ⟨p, e1, e2⟩ | ⟨e1, e2⟩ <;>
      simp only [e1, e2]
    · rcases (ih r1).out with ⟨c, d, e3, e4, r3, r4⟩ | ⟨p, e3, e4⟩ | ⟨e3, e4⟩ <;> simp only [e3, e4]
      · refine ⟨r3, ?_⟩
        simp only [List.map_append, r2, r4, predict hg, List.length_map]
      · rfl
      · trivial
    · rfl
    · trivial

theorem closeState (ha : ∀ A i, addr' (ρ.start.nonterm A) i = addr A i)
    (hg : ∀ nt, g'.tryGetRule (ρ.start.nonterm nt) = (g.tryGetRule nt).map ρ.start.rule)
    (hρ : ρ.SymInjective) (hi : RenInj ρ.term ρ.key fV) (fuel : Nat) (prev : List (EarleyStateSet T NT AK AV))
    {st : Inner T AK V × EarleyStateSet T NT AK AV} {st' : Inner T' AK' V' × EarleyStateSet T' NT' AK' AV'}
    (h : StRen ρ fV st st') :
    Res.Both (StRen ρ fV) (Bongo.closeState addr g fuel prev st)
      (Bongo.closeState addr' g' fuel (prev.map ρ.eset) st') := by
  unfold Bongo.closeState
  have he : st'.2.isEmpty = st.2.isEmpty := by rw [h.2]; simp [eset]
  rw [he]
  split
  · rfl
  · refine changeLoop_both (fun s s' hs => ?_) fuel st st' h
    unfold Bongo.closePass
    rw [hs.2, eset_states]
    rcases (closureStates hg hρ hi prev s.2 (EarleyStateSet.states s.2) hs.1).out with
      ⟨a, b, e1, e2, r1, r2⟩ | ⟨p, e1, e2⟩ | ⟨e1, e2⟩ <;> simp only [e1, e2]
    · rw [r2]
      exact changeIterM_both (fun x y z hr => insert ha hr z) a.2 _ _ _ ⟨r1, rfl⟩
    · rfl
    · trivial

theorem parseLoop (ha : ∀ A i, addr' (ρ.start.nonterm A) i = addr A i)
    (hg : ∀ nt, g'.tryGetRule (ρ.start.nonterm nt) = (g.tryGetRule nt).map ρ.start.rule)
    (hρ : ρ.SymInjective) (hi : RenInj ρ.term ρ.key fV) (fuel : Nat) (toks : List (Token T V)) :
    ∀ (before : List (EarleyStateSet T NT AK AV)) (last : EarleyStateSet T NT AK AV) {i i'}, IR i i' →
    Res.Both (StRen ρ fV) (Bongo.parseLoop addr g fuel before last i toks)
      (Bongo.parseLoop addr' g' fuel (before.map ρ.eset) (ρ.eset last) i'
        (toks.map (Token.renamed ρ.term fV))) := by
  induction toks with
  | nil => intro before last i i' h; exact ⟨h, rfl⟩
  | cons tok toks ih =>
    intro before last i i' h
    simp only [List.map_cons, Bongo.parseLoop, eset_states]
    have h0 : StRen ρ fV (i, ([] : EarleyStateSet T NT AK AV)) (i', []) := ⟨h, rfl⟩
    rcases (shift ha hρ hi tok (EarleyStateSet.states last) h0).out with
      ⟨a, b, e1, e2, r1⟩ | ⟨p, e1, e2⟩ | ⟨e1, e2⟩ <;> simp only [e1, e2]
    · have hb : before.map ρ.eset ++ [ρ.eset last] = (before ++ [last]).map ρ.eset := by simp
      rw [hb]
      rcases (closeState ha hg hρ hi fuel (before ++ [last]) r1).out with
        ⟨c, d, e3, e4, r3⟩ | ⟨p, e3, e4⟩ | ⟨e3, e4⟩ <;> simp only [e3, e4]
      · rw [r3.2]
        exact ih _ _ r3.1
      · rfl
      · trivial
    · rfl
    · trivial

theorem newStart (ha : ∀ A i, addr' (ρ.start.nonterm A) i = addr A i)
    (hs : g'.startSymbol = ρ.start.nonterm g.startSymbol)
    (hg : ∀ nt, g'.tryGetRule (ρ.start.nonterm nt) = (g.tryGetRule nt).map ρ.start.rule) (h : IR i i') :
    Res.Both (StRen ρ fV) (EarleyStateSet.newStart addr g i) (EarleyStateSet.newStart addr' g' i') := by
  simp only [EarleyStateSet.newStart, Grammar.getRule, hs, hg]
  cases g.tryGetRule g.startSymbol with
  | none => rfl
  | some r =>
    have h0 : StRen ρ fV (i, ([] : EarleyStateSet T NT AK AV)) (i', []) := ⟨h, rfl⟩
    have := fromStates ha (r.prodRefs.map fun p => EarleyState.fromProdStart p 0) h0
    simp only [Option.map_some, Res.expect, prodRefs, List.map_map] at this ⊢
    exact this

theorem parseInner (ha : ∀ A i, addr' (ρ.start.nonterm A) i = addr A i)
    (hs : g'.startSymbol = ρ.start.nonterm g.startSymbol)
    (hg : ∀ nt, g'.tryGetRule (ρ.start.nonterm nt) = (g.tryGetRule nt).map ρ.start.rule)
    (hρ : ρ.SymInjective) (hi : RenInj ρ.term ρ.key fV) (fuel : Nat) (toks : List (Token T V)) (h : IR i i') :
    Res.Both (fun x y => IR x.1 y.1 ∧ x.2 = y.2) (Bongo.parseInner addr g fuel i toks)
      (Bongo.parseInner addr' g' fuel i' (toks.map (Token.renamed ρ.term fV))) := by
  unfold Bongo.parseInner
  rcases (newStart ha hs hg h).out with ⟨a, b, e1, e2, r1⟩ | ⟨p, e1, e2⟩ | ⟨e1, e2⟩ <;> simp only [e1, e2]
  · rcases (closeState ha hg hρ hi fuel [] r1).out with ⟨c, d, e3, e4, r3⟩ | ⟨p, e3, e4⟩ | ⟨e3, e4⟩ <;>
      simp only [e3, e4, List.map_nil] at e4 ⊢
    · simp only [e4]
      rw [r3.2]
      rcases (parseLoop ha hg hρ hi fuel toks [] c.2 r3.1).out with
        ⟨x, y, e5, e6, r5⟩ | ⟨p, e5, e6⟩ | ⟨e5, e6⟩ <;> simp only [e5, e6, List.map_nil] at e6 ⊢
      · simp only [e6]
        rw [r5.2, getFinal]
        cases EarleyStateSet.getFinal x.2 with
        | ok n => exact ⟨r5.1, rfl⟩
        | panic p => rfl
        | oof => trivial
      · simp only [e6]; rfl
      · simp only [e6]; trivial
    · simp only [e4]; rfl
    · simp only [e4]; trivial
  · rfl
  · trivial
end
end Renaming
end Bongo
