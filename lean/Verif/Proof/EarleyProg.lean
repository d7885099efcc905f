import Verif.Model.EarleyProg
import Verif.Proof.EarleyTree
/-!
# Lemmas: the parser as a sequence of calls, run alone
-/
set_option linter.unusedSectionVars false
namespace Bongo
open Std
variable {T NT AK AV V : Type}
variable [Ord T] [Ord NT] [Ord AK] [Ord V] [DecidableEq T] [DecidableEq NT]
variable [TransOrd T] [TransOrd AK] [TransOrd V] [LawfulEqOrd T] [LawfulEqOrd AK] [LawfulEqOrd V]

namespace TreeProg
variable {α β : Type}

theorem bind_def (p : TreeProg T AK V α) (f : α → TreeProg T AK V β) : p >>= f = p.bind f := rfl

theorem pure_def (a : α) : (pure a : TreeProg T AK V α) = .ret a := rfl

theorem run_bind (p : TreeProg T AK V α) (f : α → TreeProg T AK V β) (w : World T AK V) :
    (p.bind f).run w = match p.run w with
      | (w', .ok a) => (f a).run w'
      | (w', .panic s) => (w', .panic s)
      | (w', .oof) => (w', .oof) := by
  induction p generalizing w with
  | ret a => rfl
  | panic s => rfl
  | oof => rfl
  | call op k ih =>
    simp only [TreeProg.bind, run]
    rcases op.exec w with ⟨w', r⟩
    cases r with
    | ok o => exact ih o w'
    | panic s => rfl
    | oof => rfl
end TreeProg

/-- Running `p` alone in tree `t` with contents `i` does what `r` says. -/
def Agree {α β : Type} (w : World T AK V) (t : Nat) (p : TreeProg T AK V α) (i : Inner T AK V)
    (sel : β → Inner T AK V × α) (r : Res β) : Prop :=
  match r with
  | .ok b => p.run (w.set t i) = (w.set t (sel b).1, .ok (sel b).2)
  | .panic s => (p.run (w.set t i)).2 = .panic s
  | .oof => (p.run (w.set t i)).2 = .oof

section
variable {α β γ δ : Type} {w : World T AK V} {t : Nat}

theorem Agree.bind {p : TreeProg T AK V α} {f : α → TreeProg T AK V γ} {i : Inner T AK V}
    {sel : β → Inner T AK V × α} {r : Res β} {sel' : δ → Inner T AK V × γ} {F : β → Res δ}
    (h : Agree w t p i sel r) (hf : ∀ b, r = .ok b → Agree w t (f (sel b).2) (sel b).1 sel' (F b)) :
    Agree w t (p.bind f) i sel' (r.bind F) := by
  cases r with
  | ok b =>
    have hf := hf b rfl
    simp only [Agree] at h
    show Agree w t (p.bind f) i sel' (F b)
    revert hf
    simp only [Agree]
    cases F b <;> simp only [TreeProg.run_bind, h] <;> exact id
  | panic s =>
    simp only [Agree] at h ⊢
    show ((p.bind f).run (w.set t i)).2 = _
    rw [TreeProg.run_bind]
    rcases hp : p.run (w.set t i) with ⟨w', r⟩
    rw [hp] at h
    simp only at h
    subst h
    rfl
  | oof =>
    simp only [Agree] at h ⊢
    show ((p.bind f).run (w.set t i)).2 = _
    rw [TreeProg.run_bind]
    rcases hp : p.run (w.set t i) with ⟨w', r⟩
    rw [hp] at h
    simp only at h
    subst h
    rfl

theorem Agree.ret {i : Inner T AK V} {a : α} {sel : β → Inner T AK V × α} {b : β} (h : sel b = (i, a)) :
    Agree w t (.ret a) i sel (.ok b) := by
  simp [Agree, TreeProg.run, h]

theorem Agree.panic {i : Inner T AK V} {s : Panic} {sel : β → Inner T AK V × α} :
    Agree w t (.panic s) i sel (.panic s) := by
  simp [Agree, TreeProg.run]

theorem Agree.oof {i : Inner T AK V} {sel : β → Inner T AK V × α} :
    Agree w t .oof i sel .oof := by
  simp [Agree, TreeProg.run]

theorem Agree.congr {p : TreeProg T AK V α} {i : Inner T AK V} {sel : β → Inner T AK V × α}
    {r r' : Res β} (h : Agree w t p i sel r) (hr : r' = r) : Agree w t p i sel r' := hr ▸ h

/-! ### The tree operations -/

theorem agree_leaf (i : Inner T AK V) (k : T) (v : V) :
    Agree w t (TreeProg.makeLeafNode t k v) i id (i.makeLeafNode k v) := by
  obtain ⟨⟨j, c⟩, h⟩ := Inner.addNodeAlt_new i (.leaf k v)
  have h1 : i.makeLeafNode k v = .ok (j, i.nodes.length) := by
    unfold Inner.makeLeafNode
    simp only [Inner.makeNode_snd, h]
  rw [h1]
  simp only [Agree, TreeProg.makeLeafNode, TreeProg.bind_def, TreeProg.callNode, TreeProg.callAlt,
    TreeProg.callChanged, TreeProg.bind, TreeProg.run, TreeOp.exec, World.makeNode, World.makeLeafAlt,
    World.makeAlt, World.set_self, World.set_set, Inner.makeNode_snd, World.addAlt, World.isSame,
    beq_self_eq_true, if_true, World.update, h, Res.mapOut, TreeProg.pure_def, id]

theorem agree_branch (i : Inner T AK V) (a : AK) (ns : List Nat) :
    Agree w t (TreeProg.makeBranchNode t a ns) i id (i.makeBranchNode a ns) := by
  obtain ⟨⟨j, c⟩, h⟩ := Inner.addNodeAlt_new i (.branch a ns)
  have h1 : i.makeBranchNode a ns = .ok (j, i.nodes.length) := by
    unfold Inner.makeBranchNode
    simp only [Inner.makeNode_snd, h]
  rw [h1]
  have h2 : (ns.map (fun x : Nat => (⟨x, t⟩ : Node))).map (·.index) = ns := by simp [Function.comp_def]
  have h3 : (ns.map (fun x : Nat => (⟨x, t⟩ : Node))).all (fun n => t == n.tree) = true := by simp
  simp only [Agree, TreeProg.makeBranchNode, TreeProg.bind_def, TreeProg.callNode, TreeProg.callAlt,
    TreeProg.callChanged, TreeProg.bind, TreeProg.run, TreeOp.exec, World.makeNode, World.makeBranchAlt,
    World.makeAlt, World.set_self, World.set_set, Inner.makeNode_snd, World.addAlt, World.isSame,
    beq_self_eq_true, if_true, World.update, h, h2, h3, Res.mapOut, TreeProg.pure_def, id]

theorem agree_addAll (i : Inner T AK V) (n m : Nat) :
    Agree w t (TreeProg.addAll t n m) i id (i.addAll n m) := by
  cases h : i.addAll n m with
  | ok r =>
    simp only [Agree, TreeProg.addAll, TreeProg.callChanged, TreeProg.run, TreeOp.exec,
      World.addAll_eq, World.set_self, h, World.update, World.set_set, Res.mapOut, id]
  | panic s =>
    simp only [Agree, TreeProg.addAll, TreeProg.callChanged, TreeProg.run, TreeOp.exec,
      World.addAll_eq, World.set_self, h, World.update, World.set_set, Res.mapOut]
  | oof =>
    simp only [Agree, TreeProg.addAll, TreeProg.callChanged, TreeProg.run, TreeOp.exec,
      World.addAll_eq, World.set_self, h, World.update, World.set_set, Res.mapOut]

/-! ### Loops -/

theorem agree_changeIter {ι S S' : Type} {l : List ι} {f : S → ι → TreeProg T AK V (S × WasChanged)}
    {f' : S' → ι → Res (S' × WasChanged)} {st : S' → Inner T AK V × S}
    (h : ∀ s e, Agree w t (f (st s).2 e) (st s).1 (fun r => ((st r.1).1, ((st r.1).2, r.2))) (f' s e)) :
    ∀ (s : S') (acc : WasChanged), Agree w t (TreeProg.changeIter l f (st s).2 acc) (st s).1
      (fun r => ((st r.1).1, ((st r.1).2, r.2))) (changeIterM l f' s acc) := by
  induction l with
  | nil => intro s acc; exact Agree.ret rfl
  | cons e l ih =>
    intro s acc
    have := (h s e).bind (f := fun r => TreeProg.changeIter l f r.1 (acc.join r.2))
      (F := fun r => changeIterM l f' r.1 (acc.join r.2))
      (sel' := fun r => ((st r.1).1, ((st r.1).2, r.2))) (fun b _ => ih b.1 (acc.join b.2))
    unfold TreeProg.changeIter changeIterM
    rw [TreeProg.bind_def]
    refine Agree.congr this ?_
    cases f' s e <;> rfl

theorem agree_changeLoop {S S' : Type} {f : S → TreeProg T AK V (S × WasChanged)}
    {f' : S' → Res (S' × WasChanged)} {st : S' → Inner T AK V × S}
    (h : ∀ s, Agree w t (f (st s).2) (st s).1 (fun r => ((st r.1).1, ((st r.1).2, r.2))) (f' s))
    (fuel : Nat) : ∀ s : S', Agree w t (TreeProg.changeLoop fuel f (st s).2) (st s).1 st
      (changeLoop fuel f' s) := by
  induction fuel with
  | zero => intro s; exact Agree.oof
  | succ fuel ih =>
    intro s
    have := (h s).bind (f := fun r => match r.2 with
        | .changed => TreeProg.changeLoop fuel f r.1
        | .unchanged => .ret r.1)
      (F := fun r => match r.2 with
        | .changed => changeLoop fuel f' r.1
        | .unchanged => .ok r.1) (sel' := st) (by
        intro b _
        obtain ⟨b, c⟩ := b
        cases c with
        | changed => exact ih b
        | unchanged => exact Agree.ret rfl)
    unfold TreeProg.changeLoop changeLoop
    rw [TreeProg.bind_def]
    refine Agree.congr this ?_
    cases f' s with
    | ok r => obtain ⟨b, c⟩ := r; cases c <;> rfl
    | panic s => rfl
    | oof => rfl

/-! ### The parser -/
variable {addr : StartNonTerminal NT → Nat → Nat} {g : StartGrammar T NT AK AV}

theorem agree_scan (s : EarleyState T NT AK AV) (tok : Token T V) (i : Inner T AK V) :
    Agree w t (s.scanProg t tok) i id (s.scan i tok) := by
  unfold EarleyState.scanProg EarleyState.scan
  cases s.prodState.nextElemState with
  | none => exact Agree.ret rfl
  | some eps =>
    obtain ⟨e, ps⟩ := eps
    simp only
    cases e.element.asTerm with
    | none => exact Agree.ret rfl
    | some tm =>
      simp only
      split
      · have := (agree_leaf (w := w) (t := t) i tok.kind tok.value).bind
          (f := fun node => TreeProg.ret (some (⟨⟨ps, s.key.originIndex⟩, s.createNextValue node⟩ :
            EarleyState T NT AK AV)))
          (F := fun r => .ok (r.1, some (⟨⟨ps, s.key.originIndex⟩, s.createNextValue r.2⟩ :
            EarleyState T NT AK AV))) (sel' := id) (fun b _ => Agree.ret rfl)
        refine Agree.congr this ?_
        cases i.makeLeafNode tok.kind tok.value <;> rfl
      · exact Agree.ret rfl

theorem agree_completeLoop (s : EarleyState T NT AK AV) (l : List (EarleyState T NT AK AV)) :
    ∀ i : Inner T AK V, Agree w t (s.completeLoopProg t l) i id (s.completeLoop l i) := by
  induction l with
  | nil => intro i; exact Agree.ret rfl
  | cons st l ih =>
    intro i
    unfold EarleyState.completeLoopProg EarleyState.completeLoop
    cases st.prodState.nextElemState with
    | none => exact ih i
    | some eps =>
      obtain ⟨e, ps⟩ := eps
      simp only
      cases e.element.asNonterm with
      | none => exact ih i
      | some nt =>
        simp only
        split
        · cases s.prodState.actionKey.asBase with
          | none => exact Agree.panic
          | some ak =>
            have := (agree_branch (w := w) (t := t) i ak s.value).bind
              (f := fun node => (s.completeLoopProg t l).bind fun rest => TreeProg.ret
                ((⟨⟨ps, st.key.originIndex⟩, st.createNextValue node⟩ : EarleyState T NT AK AV) :: rest))
              (F := fun (r : Inner T AK V × Nat) => (s.completeLoop l r.1).bind fun r' => .ok
                (r'.1, (⟨⟨ps, st.key.originIndex⟩, st.createNextValue r.2⟩ : EarleyState T NT AK AV) :: r'.2))
              (sel' := id) (fun b _ => (ih b.1).bind
                (f := fun rest => TreeProg.ret
                  ((⟨⟨ps, st.key.originIndex⟩, st.createNextValue b.2⟩ : EarleyState T NT AK AV) :: rest))
                (F := fun (r' : Inner T AK V × List (EarleyState T NT AK AV)) => .ok
                  (r'.1, (⟨⟨ps, st.key.originIndex⟩, st.createNextValue b.2⟩ : EarleyState T NT AK AV) :: r'.2))
                (sel' := id) (fun b' _ => Agree.ret rfl))
            simp only
            refine Agree.congr this ?_
            cases i.makeBranchNode ak s.value with
            | ok r =>
              simp only [Res.bind]
              cases s.completeLoop l r.1 <;> rfl
            | panic s => rfl
            | oof => rfl
        · exact ih i

theorem agree_complete (s : EarleyState T NT AK AV) (prev : List (EarleyStateSet T NT AK AV))
    (curr : EarleyStateSet T NT AK AV) (i : Inner T AK V) :
    Agree w t (s.completeProg t prev curr) i id (s.complete prev curr i) := by
  unfold EarleyState.completeProg EarleyState.complete
  split
  · split
    · exact agree_completeLoop s _ i
    · cases prev[s.key.originIndex]? with
      | some o => exact agree_completeLoop s _ i
      | none => exact Agree.panic
  · exact Agree.ret rfl

theorem agree_insert (st : Inner T AK V × EarleyStateSet T NT AK AV) (s : EarleyState T NT AK AV) :
    Agree w t (EarleyStateSet.insertProg addr t st.2 s) st.1 (fun r => (r.1.1, (r.1.2, r.2)))
      (EarleyStateSet.insert addr st s) := by
  unfold EarleyStateSet.insertProg EarleyStateSet.insert
  cases BMap.get? (EarleyStateKey.cmp addr) st.2 s.key with
  | none => exact Agree.ret rfl
  | some existing =>
    simp only
    split
    · have h1 : ∀ (i : Inner T AK V) (en : Nat × Nat), Agree w t
          ((TreeProg.addAll t en.1 en.2).bind fun c => TreeProg.ret ((), c)) i
          (fun r => (r.1, ((), r.2))) (i.addAll en.1 en.2) := by
        intro i en
        have := (agree_addAll (w := w) (t := t) i en.1 en.2).bind (f := fun c => TreeProg.ret ((), c))
          (F := fun r => .ok r) (sel' := fun r => (r.1, ((), r.2))) (fun b _ => Agree.ret rfl)
        refine Agree.congr this ?_
        cases i.addAll en.1 en.2 <;> rfl
      have h2 := agree_changeIter (l := existing.zip s.value) (S := Unit) (S' := Inner T AK V)
        (f := fun _ en => (TreeProg.addAll t en.1 en.2).bind fun c => TreeProg.ret ((), c))
        (f' := fun i en => i.addAll en.1 en.2) (st := fun i => (i, ())) h1 st.1 .unchanged
      have h3 := h2.bind (f := fun r => TreeProg.ret (st.2, r.2)) (F := fun r => .ok ((r.1, st.2), r.2))
        (sel' := fun r => (r.1.1, (r.1.2, r.2))) (fun b _ => Agree.ret rfl)
      refine Agree.congr h3 ?_
      cases changeIterM (existing.zip s.value) (fun (i : Inner T AK V) en => i.addAll en.1 en.2) st.1 <;> rfl
    · exact Agree.panic

theorem agree_fromStates (l : List (EarleyState T NT AK AV)) :
    ∀ st : Inner T AK V × EarleyStateSet T NT AK AV,
    Agree w t (EarleyStateSet.fromStatesProg addr t l st.2) st.1 id (EarleyStateSet.fromStates addr l st) := by
  induction l with
  | nil => intro st; exact Agree.ret rfl
  | cons s l ih =>
    intro st
    have := (agree_insert (addr := addr) (w := w) (t := t) st s).bind
      (f := fun r => EarleyStateSet.fromStatesProg addr t l r.1)
      (F := fun r => EarleyStateSet.fromStates addr l r.1) (sel' := id) (fun b _ => ih b.1)
    unfold EarleyStateSet.fromStatesProg EarleyStateSet.fromStates
    refine Agree.congr this ?_
    cases EarleyStateSet.insert addr st s <;> rfl

theorem agree_newStart (i : Inner T AK V) :
    Agree w t (EarleyStateSet.newStartProg addr t g) i id (EarleyStateSet.newStart addr g i) := by
  unfold EarleyStateSet.newStartProg EarleyStateSet.newStart
  cases Grammar.getRule g g.startSymbol with
  | ok r => exact agree_fromStates _ (i, [])
  | panic s => exact Agree.panic
  | oof => exact Agree.oof

theorem agree_shift (tok : Token T V) (l : List (EarleyState T NT AK AV)) :
    ∀ st : Inner T AK V × EarleyStateSet T NT AK AV,
    Agree w t (EarleyStateSet.shiftProg addr t tok l st.2) st.1 id (EarleyStateSet.shift addr tok l st) := by
  induction l with
  | nil => intro st; exact Agree.ret rfl
  | cons s l ih =>
    intro st
    have := (agree_scan (w := w) (t := t) s tok st.1).bind
      (f := fun r => match r with
        | none => EarleyStateSet.shiftProg addr t tok l st.2
        | some s' => (EarleyStateSet.insertProg addr t st.2 s').bind fun r =>
            EarleyStateSet.shiftProg addr t tok l r.1)
      (F := fun r => match r.2 with
        | none => EarleyStateSet.shift addr tok l (r.1, st.2)
        | some s' => (EarleyStateSet.insert addr (r.1, st.2) s').bind fun r =>
            EarleyStateSet.shift addr tok l r.1) (sel' := id) (by
        intro b _
        obtain ⟨j, r⟩ := b
        cases r with
        | none => exact ih (j, st.2)
        | some s' => exact (agree_insert (j, st.2) s').bind (fun b _ => ih b.1))
    unfold EarleyStateSet.shiftProg EarleyStateSet.shift
    refine Agree.congr this ?_
    cases s.scan st.1 tok with
    | ok jr =>
      obtain ⟨j, r⟩ := jr
      cases r with
      | none => rfl
      | some s' =>
        simp only [Res.bind]
        cases EarleyStateSet.insert addr (j, st.2) s' <;> rfl
    | panic s => rfl
    | oof => rfl

theorem agree_closureStates (prev : List (EarleyStateSet T NT AK AV)) (curr : EarleyStateSet T NT AK AV)
    (l : List (EarleyState T NT AK AV)) :
    ∀ i : Inner T AK V, Agree w t (closureStatesProg g t prev curr l) i id
      (closureStates g prev curr l i) := by
  induction l with
  | nil => intro i; exact Agree.ret rfl
  | cons s l ih =>
    intro i
    have := (agree_complete (w := w) (t := t) s prev curr i).bind
      (f := fun c => (closureStatesProg g t prev curr l).bind fun rest =>
        TreeProg.ret (s.predict g prev.length ++ c ++ rest))
      (F := fun r => (closureStates g prev curr l r.1).bind fun r' =>
        .ok (r'.1, s.predict g prev.length ++ r.2 ++ r'.2)) (sel' := id)
      (fun b _ => (ih b.1).bind
        (f := fun rest => TreeProg.ret (s.predict g prev.length ++ b.2 ++ rest))
        (F := fun (r' : Inner T AK V × List (EarleyState T NT AK AV)) =>
          .ok (r'.1, s.predict g prev.length ++ b.2 ++ r'.2))
        (sel' := id) (fun b' _ => Agree.ret rfl))
    unfold closureStatesProg closureStates
    refine Agree.congr this ?_
    cases s.complete prev curr i with
    | ok r =>
      simp only [Res.bind]
      cases closureStates g prev curr l r.1 <;> rfl
    | panic s => rfl
    | oof => rfl

theorem agree_closePass (prev : List (EarleyStateSet T NT AK AV))
    (st : Inner T AK V × EarleyStateSet T NT AK AV) :
    Agree w t (closePassProg addr g t prev st.2) st.1 (fun r => (r.1.1, (r.1.2, r.2)))
      (closePass addr g prev st) := by
  have := (agree_closureStates (g := g) (w := w) (t := t) prev st.2 (EarleyStateSet.states st.2) st.1).bind
    (f := fun c => TreeProg.changeIter c (EarleyStateSet.insertProg addr t) st.2)
    (F := fun r => changeIterM r.2 (EarleyStateSet.insert addr) (r.1, st.2))
    (sel' := fun r => (r.1.1, (r.1.2, r.2)))
    (fun b _ => agree_changeIter (st := id) (fun s e => agree_insert s e) (b.1, st.2) .unchanged)
  unfold closePassProg closePass
  refine Agree.congr this ?_
  cases closureStates g prev st.2 (EarleyStateSet.states st.2) st.1 <;> rfl

theorem agree_closeState (fuel : Nat) (prev : List (EarleyStateSet T NT AK AV))
    (st : Inner T AK V × EarleyStateSet T NT AK AV) :
    Agree w t (closeStateProg addr g t fuel prev st.2) st.1 id (closeState addr g fuel prev st) := by
  unfold closeStateProg closeState
  split
  · exact Agree.panic
  · exact agree_changeLoop (st := id) (fun s => agree_closePass prev s) fuel st

theorem agree_parseLoop (fuel : Nat) (toks : List (Token T V)) :
    ∀ (before : List (EarleyStateSet T NT AK AV)) (last : EarleyStateSet T NT AK AV)
    (i : Inner T AK V), Agree w t (parseLoopProg addr g t fuel before last toks) i id
      (parseLoop addr g fuel before last i toks) := by
  induction toks with
  | nil => intro before last i; exact Agree.ret rfl
  | cons tok toks ih =>
    intro before last i
    have := (agree_shift (addr := addr) (w := w) (t := t) tok (EarleyStateSet.states last) (i, [])).bind
      (f := fun s => (closeStateProg addr g t fuel (before ++ [last]) s).bind fun new =>
        parseLoopProg addr g t fuel (before ++ [last]) new toks)
      (F := fun st => (closeState addr g fuel (before ++ [last]) st).bind fun r =>
        parseLoop addr g fuel (before ++ [last]) r.2 r.1 toks) (sel' := id)
      (fun b _ => (agree_closeState fuel (before ++ [last]) b).bind (fun b' _ => ih _ _ _))
    unfold parseLoopProg parseLoop
    refine Agree.congr this ?_
    cases EarleyStateSet.shift addr tok (EarleyStateSet.states last) (i, []) with
    | ok st =>
      simp only [Res.bind]
      cases closeState addr g fuel (before ++ [last]) st <;> rfl
    | panic s => rfl
    | oof => rfl

theorem agree_parse (fuel : Nat) (toks : List (Token T V)) (i : Inner T AK V) :
    Agree w t (parseProg addr g t fuel toks) i (fun r => (r.1, r.2.map (⟨·, t⟩)))
      (parseInner addr g fuel i toks) := by
  have := (agree_newStart (addr := addr) (g := g) (w := w) (t := t) i).bind
    (f := fun s => (closeStateProg addr g t fuel [] s).bind fun init =>
      (parseLoopProg addr g t fuel [] init toks).bind fun last =>
        match EarleyStateSet.getFinal last with
        | .ok n => .ret (n.map (fun n => (⟨n, t⟩ : Node)))
        | .panic w => .panic w
        | .oof => .oof)
    (F := fun st => (closeState addr g fuel [] st).bind fun r =>
      (parseLoop addr g fuel [] r.2 r.1 toks).bind fun r' =>
        match EarleyStateSet.getFinal r'.2 with
        | .ok n => .ok (r'.1, n)
        | .panic w => .panic w
        | .oof => .oof) (sel' := fun r => (r.1, r.2.map (⟨·, t⟩)))
    (fun b _ => (agree_closeState fuel [] b).bind (fun b' _ => (agree_parseLoop fuel toks _ _ _).bind (by
      intro r _
      simp only [id]
      cases EarleyStateSet.getFinal r.2 with
      | ok n => exact Agree.ret rfl
      | panic s => exact Agree.panic
      | oof => exact Agree.oof)))
  unfold parseProg parseInner
  refine Agree.congr this ?_
  cases EarleyStateSet.newStart addr g i with
  | ok st =>
    simp only [Res.bind]
    cases closeState addr g fuel [] st with
    | ok r =>
      simp only
      cases parseLoop addr g fuel [] r.2 r.1 toks with
      | ok r' =>
        simp only
        cases EarleyStateSet.getFinal r'.2 <;> rfl
      | panic s => rfl
      | oof => rfl
    | panic s => rfl
    | oof => rfl
  | panic s => rfl
  | oof => rfl
end
end Bongo
