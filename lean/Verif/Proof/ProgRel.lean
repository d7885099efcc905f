import Verif.Proof.Sim
/-!
# Lemmas: the parser makes the same calls whatever the indices it is given
-/
set_option linter.unusedSectionVars false
namespace Bongo
open Std
variable {T NT AK AV V : Type}

/-- Two programs make the same calls on tree `t`, up to the indices they are given. -/
inductive PRel {α β : Type} (t : Nat) (R : Own → α → β → Prop) :
    Own → TreeProg T AK V α → TreeProg T AK V β → Prop where
  | ret {o a b} : R o a b → PRel t R o (.ret a) (.ret b)
  | panic {o} (p : Panic) : PRel t R o (.panic p) (.panic p)
  | oof {o} : PRel t R o .oof .oof
  | makeNode {o k k'} : (∀ n m, PRel t R (o.addNode n m) (k (.node ⟨n, t⟩)) (k' (.node ⟨m, t⟩))) →
      PRel t R o (.call (.makeNode t) k) (.call (.makeNode t) k')
  | leafAlt {o k k'} (kd : T) (v : V) :
      (∀ a b, PRel t R (o.addAlt a b) (k (.alt ⟨a, t⟩)) (k' (.alt ⟨b, t⟩))) →
      PRel t R o (.call (.makeLeafAlt t kd v) k) (.call (.makeLeafAlt t kd v) k')
  | branchAlt {o k k'} (ak : AK) {l l' : List Nat} : o.Vals l l' →
      (∀ a b, PRel t R (o.addAlt a b) (k (.alt ⟨a, t⟩)) (k' (.alt ⟨b, t⟩))) →
      PRel t R o (.call (.makeBranchAlt t ak (l.map (⟨·, t⟩))) k)
        (.call (.makeBranchAlt t ak (l'.map (⟨·, t⟩))) k')
  | addAlt {o k k'} {n m a b : Nat} : (n, m) ∈ o.nodes → (a, b) ∈ o.alts →
      (∀ c, PRel t R o (k (.changed c)) (k' (.changed c))) →
      PRel t R o (.call (.addAlt ⟨n, t⟩ ⟨a, t⟩) k) (.call (.addAlt ⟨m, t⟩ ⟨b, t⟩) k')
  | addAll {o k k'} {n m n' m' : Nat} : (n, m) ∈ o.nodes → (n', m') ∈ o.nodes →
      (∀ c, PRel t R o (k (.changed c)) (k' (.changed c))) →
      PRel t R o (.call (.addAll ⟨n, t⟩ ⟨n', t⟩) k) (.call (.addAll ⟨m, t⟩ ⟨m', t⟩) k')

section
variable {α β γ δ : Type} {t : Nat} {R : Own → α → β → Prop} {S : Own → γ → δ → Prop}

theorem PRel.bind {o : Own} {p : TreeProg T AK V α} {q : TreeProg T AK V β}
    {f : α → TreeProg T AK V γ} {f' : β → TreeProg T AK V δ} (h : PRel t R o p q)
    (hf : ∀ o' a b, o.Le o' → R o' a b → PRel t S o' (f a) (f' b)) :
    PRel t S o (p.bind f) (q.bind f') := by
  induction h with
  | ret hr => exact hf _ _ _ (Own.Le.refl _) hr
  | panic p => exact .panic p
  | oof => exact .oof
  | makeNode _ ih =>
    exact .makeNode fun n m => ih n m fun o' a b hle hr => hf o' a b ((Own.le_addNode _ _ _).trans hle) hr
  | leafAlt kd v _ ih =>
    exact .leafAlt kd v fun n m => ih n m fun o' a b hle hr => hf o' a b ((Own.le_addAlt _ _ _).trans hle) hr
  | branchAlt ak hv _ ih =>
    exact .branchAlt ak hv fun n m => ih n m fun o' a b hle hr =>
      hf o' a b ((Own.le_addAlt _ _ _).trans hle) hr
  | addAlt h1 h2 _ ih => exact .addAlt h1 h2 fun c => ih c hf
  | addAll h1 h2 _ ih => exact .addAll h1 h2 fun c => ih c hf

/-- The returned nodes correspond. -/
def NodeRel (o : Own) (n m : Nat) : Prop := (n, m) ∈ o.nodes

theorem rel_leaf (o : Own) (kd : T) (v : V) :
    PRel (AK := AK) t NodeRel o (TreeProg.makeLeafNode t kd v) (TreeProg.makeLeafNode t kd v) := by
  refine .makeNode fun n m => .leafAlt kd v fun a b => .addAlt ?_ ?_ fun c => .ret ?_
  · exact List.mem_cons_self ..
  · exact List.mem_cons_self ..
  · exact List.mem_cons_self ..

theorem rel_branch {o : Own} (ak : AK) {l l' : List Nat} (hv : o.Vals l l') :
    PRel (T := T) (V := V) t NodeRel o (TreeProg.makeBranchNode t ak l) (TreeProg.makeBranchNode t ak l') := by
  refine .makeNode fun n m => .branchAlt ak (hv.mono (Own.le_addNode _ _ _)) fun a b =>
    .addAlt ?_ ?_ fun c => .ret ?_
  · exact List.mem_cons_self ..
  · exact List.mem_cons_self ..
  · exact List.mem_cons_self ..

theorem rel_addAll {o : Own} {n m n' m' : Nat} (h : (n, m) ∈ o.nodes) (h' : (n', m') ∈ o.nodes) :
    PRel (T := T) (AK := AK) (V := V) t (fun _ c c' => c = c') o (TreeProg.addAll t n n')
      (TreeProg.addAll t m m') :=
  .addAll h h' fun c => .ret rfl

theorem rel_changeIter {ι ι' S S' : Type} {RS : Own → S → S' → Prop} {RI : Own → ι → ι' → Prop}
    (mS : ∀ o o' s s', o.Le o' → RS o s s' → RS o' s s')
    (mI : ∀ o o' s s', o.Le o' → RI o s s' → RI o' s s')
    {f : S → ι → TreeProg T AK V (S × WasChanged)} {f' : S' → ι' → TreeProg T AK V (S' × WasChanged)}
    (hf : ∀ o s s' e e', RS o s s' → RI o e e' →
      PRel t (fun o r r' => RS o r.1 r'.1 ∧ r.2 = r'.2) o (f s e) (f' s' e')) :
    ∀ (l : List ι) (l' : List ι') (o : Own) (s : S) (s' : S') (acc : WasChanged),
      List.Forall₂ (RI o) l l' → RS o s s' →
      PRel t (fun o r r' => RS o r.1 r'.1 ∧ r.2 = r'.2) o (TreeProg.changeIter l f s acc)
        (TreeProg.changeIter l' f' s' acc) := by
  intro l
  induction l with
  | nil =>
    intro l' o s s' acc hl hs
    cases hl
    exact .ret ⟨hs, rfl⟩
  | cons e l ih =>
    intro l' o s s' acc hl hs
    cases hl with
    | cons he hl =>
      refine (hf o s s' _ _ hs he).bind fun o' r r' hle hr => ?_
      rw [hr.2]
      exact ih _ o' _ _ _ (hl.imp fun _ _ => mI _ _ _ _ hle) hr.1

theorem rel_changeLoop {S S' : Type} {RS : Own → S → S' → Prop}
    {f : S → TreeProg T AK V (S × WasChanged)} {f' : S' → TreeProg T AK V (S' × WasChanged)} {P : Own → Prop}
    (mP : ∀ o o', o.Le o' → P o → P o')
    (hf : ∀ o s s', P o → RS o s s' → PRel t (fun o r r' => RS o r.1 r'.1 ∧ r.2 = r'.2) o (f s) (f' s'))
    (fuel : Nat) : ∀ (o : Own) (s : S) (s' : S'), P o → RS o s s' →
      PRel t RS o (TreeProg.changeLoop fuel f s) (TreeProg.changeLoop fuel f' s') := by
  induction fuel with
  | zero => intro o s s' _ _; exact .oof
  | succ fuel ih =>
    intro o s s' hP hs
    refine (hf o s s' hP hs).bind fun o' r r' hle hr => ?_
    obtain ⟨r, c⟩ := r
    obtain ⟨r', c'⟩ := r'
    obtain ⟨hr, rfl⟩ := hr
    cases c with
    | changed => exact ih o' _ _ (mP _ _ hle hP) hr
    | unchanged => exact .ret hr
end

/-! ### State sets -/
section
variable {t : Nat} {addr : StartNonTerminal NT → Nat → Nat} {g : StartGrammar T NT AK AV}

def StateRel (o : Own) (s s' : EarleyState T NT AK AV) : Prop := s.key = s'.key ∧ o.Vals s.value s'.value
def SetRel (o : Own) (s s' : EarleyStateSet T NT AK AV) : Prop :=
  List.Forall₂ (fun e e' => e.1 = e'.1 ∧ o.Vals e.2 e'.2) s s'

theorem StateRel.mono {o o' : Own} (h : o.Le o') {s s' : EarleyState T NT AK AV} (hs : StateRel o s s') :
    StateRel o' s s' := ⟨hs.1, hs.2.mono h⟩
theorem SetRel.mono {o o' : Own} (h : o.Le o') {s s' : EarleyStateSet T NT AK AV} (hs : SetRel o s s') :
    SetRel o' s s' := List.Forall₂.imp (fun _ _ he => ⟨he.1, he.2.mono h⟩) hs

theorem SetRel.states {o : Own} {s s' : EarleyStateSet T NT AK AV} (h : SetRel o s s') :
    List.Forall₂ (StateRel o) (EarleyStateSet.states s) (EarleyStateSet.states s') := by
  unfold SetRel at h
  unfold EarleyStateSet.states
  induction h with
  | nil => exact .nil
  | cons he _ ih => exact .cons he ih

theorem SetRel.get? {o : Own} {s s' : EarleyStateSet T NT AK AV} (h : SetRel o s s')
    (k : EarleyStateKey T NT AK AV) :
    (BMap.get? (EarleyStateKey.cmp addr) s k = none ∧ BMap.get? (EarleyStateKey.cmp addr) s' k = none) ∨
    ∃ v v', BMap.get? (EarleyStateKey.cmp addr) s k = some v ∧
      BMap.get? (EarleyStateKey.cmp addr) s' k = some v' ∧ o.Vals v v' := by
  unfold SetRel at h
  unfold BMap.get?
  induction h with
  | nil => left; exact ⟨rfl, rfl⟩
  | @cons e e' l l' he _ ih =>
    obtain ⟨k1, v1⟩ := e
    obtain ⟨k2, v2⟩ := e'
    obtain ⟨h1, h2⟩ := he
    simp only at h1 h2
    subst h1
    simp only [BMap.entry?]
    cases EarleyStateKey.cmp addr k k1 with
    | lt => exact ih
    | eq => exact Or.inr ⟨v1, v2, rfl, rfl, h2⟩
    | gt => exact ih

theorem SetRel.insert {o : Own} {s s' : EarleyStateSet T NT AK AV} (h : SetRel o s s')
    (k : EarleyStateKey T NT AK AV) {v v' : List Nat} (hv : o.Vals v v') :
    SetRel o (BMap.insert (EarleyStateKey.cmp addr) s k v) (BMap.insert (EarleyStateKey.cmp addr) s' k v') := by
  unfold SetRel at h ⊢
  induction h with
  | nil => exact .cons ⟨rfl, hv⟩ .nil
  | @cons e e' l l' he hl ih =>
    obtain ⟨k1, v1⟩ := e
    obtain ⟨k2, v2⟩ := e'
    obtain ⟨h1, h2⟩ := he
    simp only at h1 h2
    subst h1
    simp only [BMap.insert]
    cases EarleyStateKey.cmp addr k k1 with
    | lt => exact .cons ⟨rfl, hv⟩ (.cons ⟨rfl, h2⟩ hl)
    | eq => exact .cons ⟨rfl, hv⟩ hl
    | gt => exact .cons ⟨rfl, h2⟩ ih

theorem Own.Vals.append {o : Own} {a b a' b' : List Nat} (h : o.Vals a b) (h' : o.Vals a' b') :
    o.Vals (a ++ a') (b ++ b') := List.rel_append h h'

theorem Own.Vals.length {o : Own} {a b : List Nat} (h : o.Vals a b) : a.length = b.length :=
  List.Forall₂.length_eq h

def OptRel (o : Own) : Option (EarleyState T NT AK AV) → Option (EarleyState T NT AK AV) → Prop
  | none, none => True
  | some s, some s' => StateRel o s s'
  | _, _ => False

theorem rel_scan [DecidableEq T] {o : Own} {s s' : EarleyState T NT AK AV} (h : StateRel o s s')
    (tok : Token T V) : PRel t OptRel o (s.scanProg t tok) (s'.scanProg t tok) := by
  obtain ⟨k, v⟩ := s
  obtain ⟨k', v'⟩ := s'
  obtain ⟨h1, h2⟩ := h
  simp only at h1 h2
  subst h1
  unfold EarleyState.scanProg EarleyState.prodState
  simp only
  cases k.prodState.nextElemState with
  | none => exact .ret trivial
  | some eps =>
    obtain ⟨e, ps⟩ := eps
    simp only
    cases e.element.asTerm with
    | none => exact .ret trivial
    | some tm =>
      simp only
      split
      · refine (rel_leaf o tok.kind tok.value).bind fun o' n m hle hr => .ret ?_
        exact ⟨rfl, (h2.mono hle).append (.cons hr .nil)⟩
      · exact .ret trivial

theorem rel_completeLoop [DecidableEq NT] {s s' : EarleyState T NT AK AV} :
    ∀ (l l' : List (EarleyState T NT AK AV)) (o : Own), StateRel o s s' →
    List.Forall₂ (StateRel o) l l' →
    PRel (V := V) t (fun o => List.Forall₂ (StateRel o)) o (s.completeLoopProg t l) (s'.completeLoopProg t l') := by
  intro l
  induction l with
  | nil => intro l' o _ hl; cases hl; exact .ret .nil
  | cons st l ih =>
    intro l' o h hl
    cases hl with
    | @cons _ st' _ l' hst hl =>
    have ih' := ih l' o h hl
    obtain ⟨k, v⟩ := st
    obtain ⟨k', v'⟩ := st'
    obtain ⟨h1, h2⟩ := hst
    simp only at h1 h2
    subst h1
    unfold EarleyState.completeLoopProg
    delta EarleyState.prodState
    rw [← h.1]
    cases k.prodState.nextElemState with
    | none => exact ih'
    | some eps =>
      obtain ⟨e, ps⟩ := eps
      simp only
      cases e.element.asNonterm with
      | none => exact ih'
      | some nt =>
        simp only
        by_cases hnt : nt = s.key.prodState.prod.head
        · rw [if_pos hnt, if_pos hnt]
          cases s.key.prodState.actionKey.asBase with
          | none => exact .panic _
          | some ak =>
            refine (rel_branch ak h.2).bind fun o' n m hle hr => ?_
            refine (ih l' o' (h.mono hle) (hl.imp fun _ _ => StateRel.mono hle)).bind fun o'' r r' hle' hrr => ?_
            exact .ret (.cons ⟨rfl, (h2.mono (hle.trans hle')).append (.cons (hle'.nodes _ hr) .nil)⟩ hrr)
        · rw [if_neg hnt, if_neg hnt]
          exact ih'

theorem forall₂_getElem? {A B : Type} {P : A → B → Prop} {l : List A} {l' : List B}
    (h : List.Forall₂ P l l') (k : Nat) :
    (l[k]? = none ∧ l'[k]? = none) ∨ ∃ a b, l[k]? = some a ∧ l'[k]? = some b ∧ P a b := by
  induction h generalizing k with
  | nil => left; simp
  | cons hp _ ih =>
    cases k with
    | zero => right; exact ⟨_, _, rfl, rfl, hp⟩
    | succ k => simpa using ih k

theorem rel_complete [DecidableEq NT] {o : Own} {s s' : EarleyState T NT AK AV} (h : StateRel o s s')
    {prev prev' : List (EarleyStateSet T NT AK AV)} (hp : List.Forall₂ (SetRel o) prev prev')
    {curr curr' : EarleyStateSet T NT AK AV} (hc : SetRel o curr curr') :
    PRel (V := V) t (fun o => List.Forall₂ (StateRel o)) o (s.completeProg t prev curr)
      (s'.completeProg t prev' curr') := by
  unfold EarleyState.completeProg
  delta EarleyState.prodState
  rw [← h.1, ← hp.length_eq]
  by_cases h1 : ProdState.isComplete s.key.prodState = true
  · rw [if_pos h1, if_pos h1]
    by_cases h2 : s.key.originIndex = prev.length
    · rw [if_pos h2, if_pos h2]
      exact rel_completeLoop _ _ _ h hc.states
    · rw [if_neg h2, if_neg h2]
      rcases forall₂_getElem? hp s.key.originIndex with ⟨h1, h2⟩ | ⟨a, b, h1, h2, h3⟩
      · rw [h1, h2]; exact .panic _
      · rw [h1, h2]; exact rel_completeLoop _ _ _ h (SetRel.states h3)
  · rw [if_neg h1, if_neg h1]
    exact .ret .nil

theorem Own.Vals.zip {o : Own} : ∀ {a b a' b' : List Nat}, o.Vals a b → o.Vals a' b' →
    List.Forall₂ (fun (x y : Nat × Nat) => (x.1, y.1) ∈ o.nodes ∧ (x.2, y.2) ∈ o.nodes)
      (a.zip a') (b.zip b') := by
  intro a b a' b' h
  unfold Own.Vals at h
  induction h generalizing a' b' with
  | nil => intro _; exact .nil
  | cons hm _ ih =>
    intro h'
    unfold Own.Vals at h'
    cases h' with
    | nil => exact .nil
    | cons hm' h' => exact .cons ⟨hm, hm'⟩ (ih h')

theorem rel_insert {o : Own} {s s' : EarleyStateSet T NT AK AV} (hs : SetRel o s s')
    {e e' : EarleyState T NT AK AV} (he : StateRel o e e') :
    PRel (V := V) t (fun o r r' => SetRel o r.1 r'.1 ∧ r.2 = r'.2) o
      (EarleyStateSet.insertProg addr t s e) (EarleyStateSet.insertProg addr t s' e') := by
  unfold EarleyStateSet.insertProg
  rw [← he.1]
  rcases hs.get? (addr := addr) e.key with ⟨h1, h2⟩ | ⟨v, v', h1, h2, h3⟩
  · rw [h1, h2]
    exact .ret ⟨hs.insert _ he.2, rfl⟩
  · rw [h1, h2]
    simp only [h3.length, he.2.length]
    split
    · refine (rel_changeIter (RS := fun _ (_ _ : Unit) => True)
        (RI := fun o (x y : Nat × Nat) => (x.1, y.1) ∈ o.nodes ∧ (x.2, y.2) ∈ o.nodes)
        (fun _ _ _ _ _ _ => trivial) (fun _ _ _ _ hle h => ⟨hle.nodes _ h.1, hle.nodes _ h.2⟩)
        ?_ _ _ o () () .unchanged (h3.zip he.2) trivial).bind ?_
      · intro o s s' e e' _ h
        exact (rel_addAll h.1 h.2).bind fun o' c c' _ hc => .ret ⟨trivial, hc⟩
      · intro o' r r' hle hr
        exact .ret ⟨hs.mono hle, hr.2⟩
    · exact .panic _

theorem rel_fromStates : ∀ (l l' : List (EarleyState T NT AK AV)) (o : Own)
    (s s' : EarleyStateSet T NT AK AV), List.Forall₂ (StateRel o) l l' → SetRel o s s' →
    PRel (V := V) t SetRel o (EarleyStateSet.fromStatesProg addr t l s)
      (EarleyStateSet.fromStatesProg addr t l' s') := by
  intro l
  induction l with
  | nil => intro l' o s s' hl hs; cases hl; exact .ret hs
  | cons e l ih =>
    intro l' o s s' hl hs
    cases hl with
    | cons he hl =>
      exact (rel_insert hs he).bind fun o' r r' hle hr =>
        ih _ o' _ _ (hl.imp fun _ _ => StateRel.mono hle) hr.1

theorem fresh_rel (o : Own) (ks : List (EarleyStateKey T NT AK AV)) :
    List.Forall₂ (StateRel o) (ks.map fun k => (⟨k, []⟩ : EarleyState T NT AK AV))
      (ks.map fun k => (⟨k, []⟩ : EarleyState T NT AK AV)) := by
  induction ks with
  | nil => exact .nil
  | cons k ks ih => exact .cons ⟨rfl, .nil⟩ ih

theorem rel_newStart [Ord NT] (o : Own) :
    PRel (V := V) t SetRel o (EarleyStateSet.newStartProg addr t g) (EarleyStateSet.newStartProg addr t g) := by
  unfold EarleyStateSet.newStartProg
  cases Grammar.getRule g g.startSymbol with
  | ok r =>
    refine rel_fromStates _ _ o _ _ ?_ .nil
    have := fresh_rel o (r.prodRefs.map fun p => (⟨ProdState.fromStart p, 0⟩ : EarleyStateKey T NT AK AV))
    simpa [List.map_map, Function.comp_def, EarleyState.fromProdStart] using this
  | panic p => exact .panic p
  | oof => exact .oof

theorem rel_shift [DecidableEq T] (tok : Token T V) : ∀ (l l' : List (EarleyState T NT AK AV)) (o : Own)
    (s s' : EarleyStateSet T NT AK AV), List.Forall₂ (StateRel o) l l' → SetRel o s s' →
    PRel t SetRel o (EarleyStateSet.shiftProg addr t tok l s) (EarleyStateSet.shiftProg addr t tok l' s') := by
  intro l
  induction l with
  | nil => intro l' o s s' hl hs; cases hl; exact .ret hs
  | cons e l ih =>
    intro l' o s s' hl hs
    cases hl with
    | @cons _ _ _ l' he hl =>
      refine (rel_scan he tok).bind fun o' r r' hle hr => ?_
      cases r <;> cases r'
      · exact ih l' o' _ _ (hl.imp fun _ _ => StateRel.mono hle) (hs.mono hle)
      · exact hr.elim
      · exact hr.elim
      · refine (rel_insert (hs.mono hle) hr).bind fun o'' q q' hle' hq => ?_
        exact ih l' o'' _ _ (hl.imp fun _ _ => StateRel.mono (hle.trans hle')) hq.1

theorem predict_rel [Ord NT] {o : Own} {s s' : EarleyState T NT AK AV} (h : StateRel o s s') (n : Nat) :
    List.Forall₂ (StateRel o) (s.predict g n) (s'.predict g n) := by
  unfold EarleyState.predict EarleyState.prodState
  rw [← h.1]
  cases (s.key.prodState.nextElem.bind Elem.asNonterm) with
  | none => exact .nil
  | some nt =>
    simp only
    cases g.tryGetRule nt with
    | none => exact .nil
    | some r =>
      simp only
      have := fresh_rel o (r.prodRefs.map fun p => (⟨ProdState.fromStart p, n⟩ : EarleyStateKey T NT AK AV))
      simpa [List.map_map, Function.comp_def] using this

theorem rel_closureStates [Ord NT] [DecidableEq NT] : ∀ (l l' : List (EarleyState T NT AK AV)) (o : Own)
    (prev prev' : List (EarleyStateSet T NT AK AV)) (curr curr' : EarleyStateSet T NT AK AV),
    List.Forall₂ (SetRel o) prev prev' → SetRel o curr curr' → List.Forall₂ (StateRel o) l l' →
    PRel (V := V) t (fun o => List.Forall₂ (StateRel o)) o (closureStatesProg g t prev curr l)
      (closureStatesProg g t prev' curr' l') := by
  intro l
  induction l with
  | nil => intro l' o _ _ _ _ _ _ hl; cases hl; exact .ret .nil
  | cons e l ih =>
    intro l' o prev prev' curr curr' hp hc hl
    cases hl with
    | @cons _ _ _ l' he hl =>
      refine (rel_complete he hp hc).bind fun o' c c' hle hcc => ?_
      refine (ih l' o' prev prev' curr curr' (hp.imp fun _ _ => SetRel.mono hle) (hc.mono hle)
        (hl.imp fun _ _ => StateRel.mono hle)).bind fun o'' r r' hle' hr => .ret ?_
      rw [← hp.length_eq]
      exact List.rel_append (List.rel_append (predict_rel (he.mono (hle.trans hle')) _)
        (hcc.imp fun _ _ => StateRel.mono hle')) hr

theorem rel_closePass [Ord NT] [DecidableEq NT] {o : Own}
    {prev prev' : List (EarleyStateSet T NT AK AV)} (hp : List.Forall₂ (SetRel o) prev prev')
    {s s' : EarleyStateSet T NT AK AV} (hs : SetRel o s s') :
    PRel (V := V) t (fun o r r' => SetRel o r.1 r'.1 ∧ r.2 = r'.2) o (closePassProg addr g t prev s)
      (closePassProg addr g t prev' s') := by
  refine (rel_closureStates _ _ o _ _ _ _ hp hs hs.states).bind fun o' c c' hle hc => ?_
  exact rel_changeIter (RS := SetRel) (RI := StateRel) (fun _ _ _ _ h => SetRel.mono h)
    (fun _ _ _ _ h => StateRel.mono h) (fun o s s' e e' h1 h2 => rel_insert h1 h2) _ _ o' _ _ _ hc
    (hs.mono hle)

theorem rel_closeState [Ord NT] [DecidableEq NT] (fuel : Nat) {o : Own}
    {prev prev' : List (EarleyStateSet T NT AK AV)} (hp : List.Forall₂ (SetRel o) prev prev')
    {s s' : EarleyStateSet T NT AK AV} (hs : SetRel o s s') :
    PRel (V := V) t SetRel o (closeStateProg addr g t fuel prev s) (closeStateProg addr g t fuel prev' s') := by
  unfold closeStateProg
  have he : s.isEmpty = s'.isEmpty := by
    unfold SetRel at hs
    cases hs <;> rfl
  rw [← he]
  split
  · exact .panic _
  · exact rel_changeLoop (P := fun o => List.Forall₂ (SetRel o) prev prev')
      (fun _ _ hle h => h.imp fun _ _ => SetRel.mono hle)
      (fun o s s' hp hs => rel_closePass hp hs) fuel o _ _ hp hs

theorem rel_parseLoop [Ord NT] [DecidableEq NT] [DecidableEq T] (fuel : Nat) (toks : List (Token T V)) :
    ∀ (o : Own) (before before' : List (EarleyStateSet T NT AK AV)) (last last' : EarleyStateSet T NT AK AV),
    List.Forall₂ (SetRel o) before before' → SetRel o last last' →
    PRel t SetRel o (parseLoopProg addr g t fuel before last toks)
      (parseLoopProg addr g t fuel before' last' toks) := by
  induction toks with
  | nil => intro o _ _ _ _ _ h; exact .ret h
  | cons tok toks ih =>
    intro o before before' last last' hb hl
    refine (rel_shift tok _ _ o _ _ hl.states .nil).bind fun o' s s' hle hs => ?_
    have hbl : List.Forall₂ (SetRel o) (before ++ [last]) (before' ++ [last']) :=
      List.rel_append hb (.cons hl .nil)
    have hbl' := hbl.imp (fun _ _ => SetRel.mono hle)
    refine (rel_closeState fuel hbl' hs).bind fun o'' n n' hle' hn => ?_
    exact ih o'' _ _ _ _ (hbl'.imp fun _ _ => SetRel.mono hle') hn

/-- The results of two parses correspond. -/
def ResRel (t : Nat) (o : Own) : Option Node → Option Node → Prop
  | none, none => True
  | some n, some m => n.tree = t ∧ m.tree = t ∧ (n.index, m.index) ∈ o.nodes
  | _, _ => False

theorem getFinal_rel {o : Own} {s s' : EarleyStateSet T NT AK AV} (h : SetRel o s s') :
    PRel (T := T) (AK := AK) (V := V) t (ResRel t) o
      (match EarleyStateSet.getFinal s with
        | .ok n => .ret (n.map (⟨·, t⟩))
        | .panic w => .panic w
        | .oof => .oof)
      (match EarleyStateSet.getFinal s' with
        | .ok n => .ret (n.map (⟨·, t⟩))
        | .panic w => .panic w
        | .oof => .oof) := by
  unfold SetRel at h
  induction h with
  | nil => exact .ret trivial
  | @cons e e' l l' he _ ih =>
    obtain ⟨k1, v1⟩ := e
    obtain ⟨k2, v2⟩ := e'
    obtain ⟨h1, h2⟩ := he
    simp only at h1 h2
    subst h1
    simp only [EarleyStateSet.getFinal]
    by_cases hk : k1.isFinalKey = true
    · rw [if_pos hk, if_pos hk]
      unfold Own.Vals at h2
      cases h2 with
      | nil => exact .panic _
      | cons hm h2 =>
        cases h2 with
        | nil => exact .ret ⟨rfl, rfl, hm⟩
        | cons _ _ => exact .panic _
    · rw [if_neg hk, if_neg hk]
      exact ih

theorem rel_parse [Ord NT] [DecidableEq NT] [DecidableEq T] (fuel : Nat) (toks : List (Token T V)) (o : Own) :
    PRel t (ResRel t) o (parseProg addr g t fuel toks) (parseProg addr g t fuel toks) := by
  refine (rel_newStart o).bind fun o1 s s' _ hs => ?_
  refine (rel_closeState fuel .nil hs).bind fun o2 i i' _ hi => ?_
  refine (rel_parseLoop fuel toks o2 _ _ _ _ .nil hi).bind fun o3 l l' _ hl => ?_
  exact getFinal_rel hl
end
end Bongo
