import Verif.Proof.State
import Verif.Props.Nullable
/-!
# C48–C50: production states and sets of them
-/
set_option linter.unusedSectionVars false
namespace Bongo
open Std
variable {T NT AK AV : Type}

/-! ## C49 positions -/

/-- C49.  The elements returned by successive `next_elem_state` calls are the production's elements
in order, and every prefix of them is visited. -/
theorem prodState_visits (p : Prod T NT AK AV) (es : List (ProdElement T NT)) :
    (∃ s, Visits p es s) ↔ es <+: p.prodElements := by
  have hfw : ∀ es s, Visits p es s → es <+: p.prodElements ∧ s = ⟨p, es.length⟩ := by
    intro es s h
    induction h with
    | start => exact ⟨List.nil_prefix, rfl⟩
    | @next es s e s' _ hn ih =>
      obtain ⟨⟨rest, hpre⟩, rfl⟩ := ih
      obtain ⟨h1, rfl⟩ := ProdStateSet.nextElemState_some.1 hn
      simp only [List.length_append, List.length_singleton, and_true]
      simp only at h1
      rw [← hpre] at h1 ⊢
      rw [List.getElem?_append_right (Nat.le_refl _), Nat.sub_self] at h1
      cases rest with
      | nil => simp at h1
      | cons a rest =>
        simp at h1
        subst h1
        exact ⟨rest, by simp⟩
  constructor
  · rintro ⟨s, h⟩; exact (hfw es s h).1
  · intro h
    induction es using List.reverseRecOn with
    | nil => exact ⟨_, .start⟩
    | append_singleton es e ih =>
      obtain ⟨rest, hr⟩ := h
      obtain ⟨s, hs⟩ := ih ⟨e :: rest, by rw [← hr]; simp⟩
      obtain ⟨-, rfl⟩ := hfw es s hs
      refine ⟨_, hs.next (e := e) (ProdStateSet.nextElemState_some.2 ⟨?_, rfl⟩)⟩
      simp only
      rw [← hr]
      simp

/-- C49.  The state reached after reading `es` is a function of `es`, belongs to `p`, is complete
exactly when all elements have been read, has a next element exactly when it is not complete, and
looks ahead into the unread elements. -/
theorem prodState_position (p : Prod T NT AK AV) (es : List (ProdElement T NT))
    (s : ProdState T NT AK AV) (h : Visits p es s) :
    s.prod = p ∧ (∀ s', Visits p es s' → s' = s) ∧
    (s.isComplete = true ↔ es = p.prodElements) ∧
    (s.nextElem = none ↔ es = p.prodElements) ∧
    (∀ i, s.offsetProdElem i = (p.prodElements.drop es.length)[i]?) ∧
    (∀ i, s.offsetElem i = ((p.prodElements.drop es.length)[i]?).map (·.element)) := by
  have hfw : ∀ es s, Visits p es s → s = ⟨p, es.length⟩ := by
    intro es s h
    induction h with
    | start => rfl
    | @next es s e s' _ hn ih =>
      subst ih
      obtain ⟨h1, rfl⟩ := ProdStateSet.nextElemState_some.1 hn
      simp
  obtain ⟨rest, hpre⟩ := (prodState_visits p es).1 ⟨s, h⟩
  have hs := hfw es s h
  subst hs
  have hall : es = p.prodElements ↔ rest = [] := by
    rw [← hpre]
    constructor
    · intro h; simpa using h.symm
    · rintro rfl; simp
  refine ⟨rfl, fun s' h' => hfw es s' h', ?_, ?_, ?_, ?_⟩
  · rw [hall]
    unfold ProdState.isComplete Prod.numElements
    have : p.inner.elements.length = es.length + rest.length := by
      have := congrArg List.length hpre
      simp only [List.length_append] at this
      exact this.symm
    simp only [this, beq_iff_eq]
    constructor
    · intro h; exact List.length_eq_zero_iff.1 (by omega)
    · rintro rfl; rfl
  · rw [hall]
    unfold ProdState.nextElem ProdState.offsetElem ProdState.offsetProdElem
    simp only [Nat.add_zero, Option.map_eq_none_iff]
    rw [← hpre, List.getElem?_append_right (Nat.le_refl _), Nat.sub_self]
    cases rest <;> simp
  · intro i
    unfold ProdState.offsetProdElem
    simp
  · intro i
    unfold ProdState.offsetElem ProdState.offsetProdElem
    simp

/-- C49.  `advance_if(e)` returns a state exactly when the next element is `e` (whatever its
name), and that state is the one after reading it. -/
theorem prodState_advanceIf [DecidableEq T] [DecidableEq NT] (p : Prod T NT AK AV)
    (es : List (ProdElement T NT)) (s : ProdState T NT AK AV) (h : Visits p es s) (e : Elem T NT)
    (s' : ProdState T NT AK AV) :
    s.advanceIf e = some s' ↔ ∃ pe : ProdElement T NT, pe.element = e ∧ Visits p (es ++ [pe]) s' := by
  unfold ProdState.advanceIf
  constructor
  · intro h'
    simp only [Option.map_eq_some_iff, Option.filter_eq_some_iff, beq_iff_eq] at h'
    obtain ⟨⟨pe, s''⟩, ⟨h1, h2⟩, rfl⟩ := h'
    exact ⟨pe, h2, h.next h1⟩
  · rintro ⟨pe, rfl, hv⟩
    obtain ⟨rest, hr⟩ := (prodState_visits p _).1 ⟨s', hv⟩
    obtain ⟨hp, -, -, -, ho, -⟩ := prodState_position p es s h
    have h0 : s.nextProdElem = some pe := by
      unfold ProdState.nextProdElem
      rw [ho 0, ← hr]; simp
    have h1 : s.nextElemState = some (pe, ⟨s.prod, s.index + 1⟩) := by
      unfold ProdState.nextElemState; rw [h0]; rfl
    have h2 := (prodState_position p _ _ hv).2.1 _ (h.next h1)
    rw [h1, ← h2]
    simp

/-- The walk through a production with three elements. -/
example : Visits (T := Nat) (NT := Nat) ⟨0, 0, ⟨(), (), [⟨none, .term 1⟩, ⟨some "x", .nonterm 2⟩]⟩⟩
    [⟨none, .term 1⟩, ⟨some "x", .nonterm 2⟩]
    ⟨⟨0, 0, ⟨(), (), [⟨none, .term 1⟩, ⟨some "x", .nonterm 2⟩]⟩⟩, 2⟩ :=
  (Visits.start.next (e := ⟨none, .term 1⟩) rfl).next (e := ⟨some "x", .nonterm 2⟩) rfl

/-! ## C48 sets keep their states -/
section C48
variable [Ord T] [Ord NT] [TransOrd T] [TransOrd NT] [LawfulEqOrd T] [LawfulEqOrd NT]

/-- C48 is false as stated: of two states of one production at different positions, only one is
kept, so `complete()` reports nothing although a complete state was added (and with the opposite
order `nexts()` reports nothing although the state `A → . a` was added). -/
theorem prodStateSet_loses_states :
    let p : Prod Nat Nat Unit Unit := ⟨0, 0, ⟨(), (), [⟨none, .term 1⟩]⟩⟩
    let s := ProdStateSet.add exampleAddr
      (ProdStateSet.add exampleAddr ProdStateSet.newEmpty ⟨p, 0⟩) ⟨p, 1⟩
    let s' := ProdStateSet.add exampleAddr
      (ProdStateSet.add exampleAddr ProdStateSet.newEmpty ⟨p, 1⟩) ⟨p, 0⟩
    (ProdState.mk p 1).isComplete = true ∧ ProdStateSet.complete s = [] ∧
    (ProdState.mk p 0).nextElem = some (.term 1) ∧ ProdStateSet.nexts exampleAddr s' = [] :=
  ⟨rfl, rfl, rfl, rfl⟩

/-- C48, what `add` does: the set is the same except that the state is new in it when no state of
the same production was there. -/
theorem prodStateSet_add_partial (g : Grammar T NT AK AV) (hg : g.Accepted) (addr : NT → Nat → Nat)
    (ha : AddrInj g addr) (s : ProdStateSet T NT AK AV) (hs : ProdStateSet.Obtained addr s)
    (hsg : ∀ x ∈ s, x.prod ∈ g.prods) (st : ProdState T NT AK AV) (hst : st.prod ∈ g.prods)
    (x : ProdState T NT AK AV) :
    x ∈ ProdStateSet.add addr s st ↔ x ∈ s ∨ (x = st ∧ ∀ y ∈ s, y.prod ≠ st.prod) := by
  rw [ProdStateSet.mem_add hs.sorted]
  have : (∀ y ∈ s, ProdState.cmp addr st y ≠ .eq) ↔ ∀ y ∈ s, y.prod ≠ st.prod := by
    refine forall_congr' fun y => forall_congr' fun hy => ?_
    unfold ProdState.cmp
    rw [ne_eq, prodCmp_eq hg.valid.toWF ha hst (hsg y hy), eq_comm]
  rw [this]

/-- C48, the histories for which it holds: when no two states of the collected list are of one
production at different positions, a set built by `add`ing or by collecting them contains exactly
them. -/
theorem prodStateSet_keeps_partial (g : Grammar T NT AK AV) (hg : g.Accepted)
    (addr : NT → Nat → Nat) (ha : AddrInj g addr) (l : List (ProdState T NT AK AV))
    (hl : ∀ x ∈ l, x.prod ∈ g.prods)
    (hd : ∀ x ∈ l, ∀ y ∈ l, x.prod = y.prod → x.index = y.index) :
    (∀ x, x ∈ l.foldl (ProdStateSet.add addr) ProdStateSet.newEmpty ↔ x ∈ l) ∧
    ∀ collect, CollectSpec (ProdState.cmp addr) collect → ∀ x, x ∈ collect l ↔ x ∈ l := by
  have heq : ∀ x ∈ l, ∀ y ∈ l, ProdState.cmp addr x y = .eq → x = y := by
    intro x hx y hy h
    have h1 := (prodCmp_eq hg.valid.toWF ha (hl x hx) (hl y hy)).1 h
    have h2 := hd x hx y hy h1
    cases x; cases y; simp_all
  constructor
  · intro x
    have key : ∀ (l' : List (ProdState T NT AK AV)) (s : ProdStateSet T NT AK AV), (∀ x ∈ l', x ∈ l) → (∀ x ∈ s, x ∈ l) →
        BSet.Sorted (ProdState.cmp addr) s →
        (x ∈ l'.foldl (ProdStateSet.add addr) s ↔ x ∈ s ∨ x ∈ l') := by
      intro l'
      induction l' with
      | nil => simp
      | cons a l' ih =>
        intro s h1 h2 h3
        have hadd : ∀ x, x ∈ ProdStateSet.add addr s a ↔ x ∈ s ∨ x = a := by
          intro x
          rw [ProdStateSet.mem_add h3]
          constructor
          · rintro (h | ⟨h, -⟩)
            · exact Or.inl h
            · exact Or.inr h
          · rintro (h | rfl)
            · exact Or.inl h
            · by_cases hx : x ∈ s
              · exact Or.inl hx
              · refine Or.inr ⟨rfl, fun y hy he => hx ?_⟩
                rw [heq x (h1 x (by simp)) y (h2 y hy) he]; exact hy
        rw [List.foldl_cons, ih _ (fun x hx => h1 x (by simp [hx])) (by
          intro y hy
          rcases (hadd y).1 hy with h | rfl
          · exact h2 y h
          · exact h1 y (by simp)) (ProdStateSet.sorted_add h3 a), hadd, List.mem_cons, or_assoc]
    rw [key l ProdStateSet.newEmpty (fun x h => h) (by simp [ProdStateSet.newEmpty])
      List.Pairwise.nil]
    simp [ProdStateSet.newEmpty]
  · intro collect hc x
    constructor
    · exact hc.sub l x
    · intro hx
      obtain ⟨y, hy, hxy⟩ := hc.all l x hx
      rw [heq x hx y (hc.sub l y hy) hxy]; exact hy

/-- C48, the readers: `complete()` lists exactly the complete states of the set and `nexts()` lists,
in increasing order and each once, exactly the elements that follow a position of the set, each
with exactly the states after reading it. -/
theorem prodStateSet_readers (addr : NT → Nat → Nat) (s : ProdStateSet T NT AK AV)
    (hs : ProdStateSet.Obtained addr s) :
    (∀ x, x ∈ ProdStateSet.complete s ↔ x ∈ s ∧ x.isComplete = true) ∧
    (ProdStateSet.nexts addr s).Pairwise (fun a b => ProdElement.cmp a.1 b.1 = .lt) ∧
    (∀ e, (∃ s', (e, s') ∈ ProdStateSet.nexts addr s) ↔
      ∃ st ∈ s, st.nextProdElem = some e) ∧
    (∀ e s', (e, s') ∈ ProdStateSet.nexts addr s →
      ∀ st', st' ∈ s' ↔ ∃ st ∈ s, st.nextElemState = some (e, st')) := by
  obtain ⟨h1, -, h3, h4⟩ := ProdStateSet.nexts_spec hs.sorted
  refine ⟨fun x => by simp [ProdStateSet.complete], h1, ?_, h4⟩
  intro e
  rw [h3]
  refine exists_congr fun st => and_congr_right fun _ => ?_
  unfold ProdState.nextElemState
  cases st.nextProdElem <;> simp

/-- The hypotheses of `prodStateSet_keeps_partial` hold of the states of a grammar's productions. -/
example : nullExample.Accepted ∧ AddrInj nullExample exampleAddr ∧
    2 ≤ (nullExample.prods.map ProdState.fromStart).length ∧
    ∀ x ∈ nullExample.prods.map ProdState.fromStart,
      ∀ y ∈ nullExample.prods.map ProdState.fromStart, x.prod = y.prod → x.index = y.index := by
  refine ⟨nullExample_accepted, exampleAddr_addrInj _, by decide, ?_⟩
  simp only [List.mem_map]
  rintro x ⟨p, -, rfl⟩ y ⟨q, -, rfl⟩ -
  rfl
end C48

/-! ## C50 take_closure -/
section C50
variable [Ord T] [Ord NT] [TransOrd T] [TransOrd NT] [LawfulEqOrd T] [LawfulEqOrd NT]
variable (g : Grammar T NT AK AV) (addr : NT → Nat → Nat)

/-- C50, for every closure function that stays in the grammar: `take_closure` terminates; every
state of the result is an original one or reached from one through `f`; the original ones are all
there; and the result is closed up to positions (for each state `f` gives for a state of the
result, some state of the same production is in the result). -/
theorem takeClosure_closed (hg : g.Accepted) (ha : AddrInj g addr) (s : ProdStateSet T NT AK AV)
    (hs : ProdStateSet.Obtained addr s) (hsg : ∀ x ∈ s, x.prod ∈ g.prods)
    (f : ProdState T NT AK AV → List (ProdState T NT AK AV))
    (hf : ∀ x, ∀ y ∈ f x, y.prod ∈ g.prods) :
    ∃ r, (∀ fuel, g.prods.length < fuel → ProdStateSet.takeClosure addr fuel f s = .ok r) ∧
      (∀ x ∈ s, x ∈ r) ∧
      (∀ x ∈ r, ∃ x₀ ∈ s, Relation.ReflTransGen (fun a b => b ∈ f a) x₀ x) ∧
      (∀ x ∈ r, ∀ y ∈ f x, ∃ z ∈ r, z.prod = y.prod) ∧
      (∀ x ∈ r, ∀ y ∈ r, x.prod = y.prod → x = y) := by
  have hmono : ∀ n m curr seen r, n ≤ m → ProdStateSet.closureLoop addr n f curr seen = .ok r →
      ProdStateSet.closureLoop addr m f curr seen = .ok r := by
    intro n
    induction n with
    | zero => intro m curr seen r _ h; simp [ProdStateSet.closureLoop] at h
    | succ n ih =>
      intro m curr seen r hm h
      obtain ⟨m, rfl⟩ : ∃ k, m = k + 1 := ⟨m - 1, by omega⟩
      rw [ProdStateSet.closureLoop] at h ⊢
      generalize (curr.flatMap f).foldl (ProdStateSet.closureVisit addr) ([], seen) = st at *
      obtain ⟨nx, sn⟩ := st
      cases nx with
      | nil => exact h
      | cons c cs => exact ih m _ _ _ (by omega) h
  have hU : ∀ x : ProdState T NT AK AV, x.prod ∈ g.prods →
      addr x.prod.head x.prod.index ∈ g.prods.map (fun p => addr p.head p.index) :=
    fun x hx => List.mem_map.2 ⟨x.prod, hx, rfl⟩
  obtain ⟨r, hr⟩ := ProdStateSet.closureLoop_terminates (fuel := g.prods.length + 1) (curr := s) (f := f)
    (g.prods.map (fun p => addr p.head p.index)) hs.sorted (fun x hx => hU x (hsg x hx))
    (fun x y hy => hU y (hf x y hy)) (by simp; omega) (by omega)
  obtain ⟨h1, h2, h3, h4⟩ := ProdStateSet.closureLoop_ok hr
    (fun x => x.prod ∈ g.prods ∧ ∃ x₀ ∈ s, Relation.ReflTransGen (fun a b => b ∈ f a) x₀ x)
    (fun a ⟨_, x₀, hx₀, h⟩ b hb => ⟨hf a b hb, x₀, hx₀, h.tail hb⟩) hs.sorted
    (fun x hx => ⟨hsg x hx, x, hx, .refl⟩) (fun x hx => hx) (fun x hx => Or.inl hx)
  refine ⟨r, fun fuel hfu => hmono _ _ _ _ _ hfu hr, h2, fun x hx => (h3 x hx).2, ?_, ?_⟩
  · intro x hx y hy
    obtain ⟨z, hz, hyz⟩ := h4 x hx y hy
    exact ⟨z, hz, ((prodCmp_eq hg.valid.toWF ha (hf x y hy) (h3 z hz).1).1 hyz).symm⟩
  · intro x hx y hy hxy
    exact ProdStateSet.sorted_unique h1 hx hy
      ((prodCmp_eq hg.valid.toWF ha (h3 x hx).1 (h3 y hy).1).2 hxy)

/-- C50, for closure functions whose answers do not depend on the position (such as "the states at
the start of ..."): the productions of the result are exactly those of the states reachable from
the original ones. -/
theorem takeClosure_exact_partial (hg : g.Accepted) (ha : AddrInj g addr)
    (s : ProdStateSet T NT AK AV) (hs : ProdStateSet.Obtained addr s)
    (hsg : ∀ x ∈ s, x.prod ∈ g.prods) (f : ProdState T NT AK AV → List (ProdState T NT AK AV))
    (hf : ∀ x, ∀ y ∈ f x, y.prod ∈ g.prods)
    (hpos : ∀ a b, a.prod = b.prod → ∀ x ∈ f a, ∃ y ∈ f b, y.prod = x.prod)
    (fuel : Nat) (r : ProdStateSet T NT AK AV)
    (h : ProdStateSet.takeClosure addr fuel f s = .ok r) (p : Prod T NT AK AV) :
    (∃ x ∈ r, x.prod = p) ↔
      ∃ x₀ ∈ s, ∃ x, Relation.ReflTransGen (fun a b => b ∈ f a) x₀ x ∧ x.prod = p := by
  obtain ⟨r', h0, h1, h2, h3, -⟩ := takeClosure_closed g addr hg ha s hs hsg f hf
  have hrr : r = r' := by
    have hmono : ∀ n m curr seen r, n ≤ m → ProdStateSet.closureLoop addr n f curr seen = .ok r →
        ProdStateSet.closureLoop addr m f curr seen = .ok r := by
      intro n
      induction n with
      | zero => intro m curr seen r _ h; simp [ProdStateSet.closureLoop] at h
      | succ n ih =>
        intro m curr seen r hm h
        obtain ⟨m, rfl⟩ : ∃ k, m = k + 1 := ⟨m - 1, by omega⟩
        rw [ProdStateSet.closureLoop] at h ⊢
        generalize (curr.flatMap f).foldl (ProdStateSet.closureVisit addr) ([], seen) = st at *
        obtain ⟨nx, sn⟩ := st
        cases nx with
        | nil => exact h
        | cons c cs => exact ih m _ _ _ (by omega) h
    have e1 := hmono fuel (max fuel (g.prods.length + 1)) s s r (Nat.le_max_left _ _) h
    have e2 := h0 (max fuel (g.prods.length + 1)) (by omega)
    unfold ProdStateSet.takeClosure at e2
    rw [e1] at e2
    injection e2
  subst hrr
  constructor
  · rintro ⟨x, hx, rfl⟩
    obtain ⟨x₀, hx₀, hr⟩ := h2 x hx
    exact ⟨x₀, hx₀, x, hr, rfl⟩
  · rintro ⟨x₀, hx₀, x, hr, rfl⟩
    induction hr with
    | refl => exact ⟨x₀, h1 x₀ hx₀, rfl⟩
    | tail _ hb ih =>
      obtain ⟨z, hz, hzp⟩ := ih
      obtain ⟨y, hy, hyp⟩ := hpos _ z hzp.symm _ hb
      obtain ⟨w, hw, hwp⟩ := h3 z hz y hy
      exact ⟨w, hw, hwp.trans hyp⟩
end C50

/-- The closure function "the productions of the nonterminal after the position" on an accepted
grammar: from one start production the closure adds both productions of the other nonterminal. -/
example :
    let f : ProdState Nat Nat Nat Unit → List (ProdState Nat Nat Nat Unit) := fun s =>
      nullExample.prods.filterMap fun p =>
        if s.nextElem = some (.nonterm p.head) then some (.fromStart p) else none
    (∀ x, ∀ y ∈ f x, y.prod ∈ nullExample.prods) ∧
    (ProdStateSet.takeClosure exampleAddr 9 f
      ((nullExample.prods.take 1).foldl (fun s p => ProdStateSet.add exampleAddr s (.fromStart p))
        ProdStateSet.newEmpty)).bind (fun r => .ok r.length) = .ok 3 := by
  refine ⟨?_, by decide⟩
  intro x y hy
  simp only [List.mem_filterMap] at hy
  obtain ⟨p, hp, h⟩ := hy
  split at h
  · cases h; exact hp
  · cases h

/-- C50 is false for closure functions whose answers depend on the position: from `A → . a`, a
function leading to `A → a .` and from there to a state of another production, the other production
is reachable but not in the result. -/
theorem takeClosure_misses :
    let p : Prod Nat Nat Unit Unit := ⟨0, 0, ⟨(), (), [⟨none, .term 1⟩]⟩⟩
    let q : Prod Nat Nat Unit Unit := ⟨1, 0, ⟨(), (), []⟩⟩
    let f : ProdState Nat Nat Unit Unit → List (ProdState Nat Nat Unit Unit) :=
      fun s => if s = ⟨p, 0⟩ then [⟨p, 1⟩] else if s = ⟨p, 1⟩ then [⟨q, 0⟩] else []
    Relation.ReflTransGen (fun a b => b ∈ f a) ⟨p, 0⟩ ⟨q, 0⟩ ∧
    ProdStateSet.takeClosure exampleAddr 5 f [⟨p, 0⟩] = .ok [⟨p, 0⟩] := by
  refine ⟨?_, by decide⟩
  refine .tail (.single (b := ⟨⟨0, 0, ⟨(), (), [⟨none, .term 1⟩]⟩⟩, 1⟩) ?_) ?_
  · simp
  · simp

end Bongo
