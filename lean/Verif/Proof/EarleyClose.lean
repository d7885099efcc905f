import Verif.Proof.EarleyStep
/-! One pass of the closing loop of the Earley parser. -/
set_option linter.unusedSectionVars false
namespace Bongo
open Std
variable {T NT AK AV V Λ : Type}

theorem Prod.elements_getElem? {T NT AK AV : Type} (p : Prod T NT AK AV) (d : Nat) :
    p.elements[d]? = (p.prodElements[d]?).map (·.element) := by
  have : p.elements = p.prodElements.map (·.element) := rfl
  rw [this, List.getElem?_map]

theorem ProdState.nextElem_eq {T NT AK AV : Type} (s : ProdState T NT AK AV) :
    s.nextElem = s.prod.elements[s.index]? := by
  rw [Prod.elements_getElem?]; rfl

theorem ProdState.nextElemState_cases {T NT AK AV : Type} (s : ProdState T NT AK AV) :
    (s.nextElemState = none ∧ s.prod.elements[s.index]? = none) ∨
    ∃ e, s.nextElemState = some (e, ⟨s.prod, s.index + 1⟩) ∧
      s.prod.elements[s.index]? = some e.element := by
  rw [Prod.elements_getElem?]
  unfold nextElemState nextProdElem offsetProdElem
  cases h : s.prod.prodElements[s.index + 0]? with
  | none => left; exact ⟨rfl, rfl⟩
  | some e => right; exact ⟨e, rfl, rfl⟩

theorem ProdState.isComplete_iff {T NT AK AV : Type} (s : ProdState T NT AK AV) :
    s.isComplete = true ↔ s.index = s.prod.numElements := by
  unfold isComplete; rw [beq_iff_eq]; exact ⟨Eq.symm, Eq.symm⟩

/-- What is used of the grammar. -/
structure SGOk [Ord NT] (addr : StartNonTerminal NT → Nat → Nat) (sg : StartGrammar T NT AK AV) :
    Prop where
  wf : sg.WF
  addr : AddrInj sg addr

/-- A production with a start action key is complete where its head is waited for. -/
def StartDone (sg : StartGrammar T NT AK AV) (toks : List (Token T V)) (j : Nat) : Prop :=
  ∃ q k p d i, EItem sg toks j q q.numElements k ∧ EItem sg toks k p d i ∧
    p.elements[d]? = some (.nonterm q.head) ∧ q.actionKey.asBase = none

/-- What makes the closing loop panic. -/
inductive Stuck (sg : StartGrammar T NT AK AV) (toks : List (Token T V)) (j : Nat) : Panic → Prop where
  | collides : Collides sg toks j → Stuck sg toks j .lenMismatch
  | startKey : StartDone sg toks j → Stuck sg toks j .startActionKey

section
variable {sg : StartGrammar T NT AK AV} {toks : List (Token T V)} {lb : Labelling sg toks Λ}
variable [Ord T] [Ord NT] [Ord AK] [Ord V] [DecidableEq T] [DecidableEq NT]
variable [TransOrd T] [TransOrd NT] [TransOrd AK] [TransOrd V]
variable [LawfulEqOrd T] [LawfulEqOrd NT] [LawfulEqOrd AK] [LawfulEqOrd V]
variable {addr : StartNonTerminal NT → Nat → Nat} {N : Nat} {I : Inner T AK V} {L : Nat → Λ → Prop}

/-- The key with the dot moved. -/
def EarleyStateKey.next (k : EarleyStateKey T NT AK AV) : EarleyStateKey T NT AK AV :=
  ⟨⟨k.prodState.prod, k.prodState.index + 1⟩, k.originIndex⟩

/-- The next element of an item. -/
def EarleyStateKey.after (k : EarleyStateKey T NT AK AV) :
    Option (Elem (StreamTerminal T) (StartNonTerminal NT)) :=
  k.prodState.prod.elements[k.prodState.index]?

theorem completeLoop_spec {s : EarleyState T NT AK AV} {j : Nat} {ak : AK}
    (hc : s.key.prodState.index = s.key.prodState.prod.numElements)
    (hak : s.key.prodState.prod.actionKey.asBase = some ak)
    (sts : List (EarleyState T NT AK AV)) (hsts : ∀ st ∈ sts, StOk lb s.key.originIndex L st.key st.value)
    (ht : Typed lb N I L) (hs : StOk lb j L s.key s.value) :
    ∃ I' L' l, s.completeLoop sts I = .ok (I', l) ∧ Typed lb N I' L' ∧ (∀ n ℓ, L n ℓ → L' n ℓ) ∧
      Inner.Ext N (· = .branch ak s.value) I I' ∧ (∀ s' ∈ l, StOk lb j L' s'.key s'.value) ∧
      (∀ st ∈ sts, st.key.after = some (.nonterm s.key.prodState.prod.head) →
        ∃ s' ∈ l, ∃ n a, s'.key = st.key.next ∧ s'.value = st.value ++ [n] ∧ I'.Has n a ∧
          I'.altAt a = some (.branch ak s.value)) := by
  induction sts generalizing I L with
  | nil => exact ⟨I, L, [], rfl, ht, fun _ _ h => h, .refl _ _ _, by simp, by simp⟩
  | cons st sts ih =>
    have hskip : st.key.after ≠ some (.nonterm s.key.prodState.prod.head) →
        s.completeLoop (st :: sts) I = s.completeLoop sts I →
        ∃ I' L' l, s.completeLoop (st :: sts) I = .ok (I', l) ∧ Typed lb N I' L' ∧
          (∀ n ℓ, L n ℓ → L' n ℓ) ∧
          Inner.Ext N (· = .branch ak s.value) I I' ∧ (∀ s' ∈ l, StOk lb j L' s'.key s'.value) ∧
          (∀ st' ∈ st :: sts, st'.key.after = some (.nonterm s.key.prodState.prod.head) →
            ∃ s' ∈ l, ∃ n a, s'.key = st'.key.next ∧ s'.value = st'.value ++ [n] ∧ I'.Has n a ∧
              I'.altAt a = some (.branch ak s.value)) := by
      intro hne heq
      obtain ⟨I', L', l, h1, h2, h3, h4, h5, h6⟩ := ih (fun st hst => hsts st (by simp [hst])) ht hs
      refine ⟨I', L', l, heq.trans h1, h2, h3, h4, h5, ?_⟩
      intro st' hst' ha
      rcases List.mem_cons.1 hst' with rfl | hst'
      · exact absurd ha hne
      · exact h6 st' hst' ha
    rcases ProdState.nextElemState_cases st.prodState with ⟨h1, h2⟩ | ⟨e, h1, h2⟩
    · refine hskip ?_ ?_
      · unfold EarleyStateKey.after
        intro h; unfold EarleyState.prodState at h2; rw [h2] at h; cases h
      · rw [EarleyState.completeLoop, h1]
    · cases hel : e.element with
      | term t =>
        refine hskip ?_ ?_
        · unfold EarleyStateKey.after
          intro h; unfold EarleyState.prodState at h2; rw [h2, hel] at h; cases h
        · rw [EarleyState.completeLoop, h1]; simp only [hel, Elem.asTerm, Elem.asNonterm]
      | nonterm nt =>
        by_cases hnt : nt = s.prodState.prod.head
        · have hafter : st.prodState.prod.elements[st.prodState.index]? =
              some (.nonterm s.key.prodState.prod.head) := by
            rw [h2, hel, hnt]; rfl
          have hstk := hsts st (by simp)
          have hs1 : EItem sg toks j s.key.prodState.prod s.key.prodState.prod.numElements
              s.key.originIndex := by
            have := hs.1; rwa [hc] at this
          have hOk : OkC lb L (lb.lab j st.prodState.prod (st.prodState.index + 1) st.key.originIndex
              st.prodState.index)
              (.branch ak s.value) := by
            refine ⟨j, s.key.prodState.prod, s.key.originIndex, hs1, hak, ?_,
              lb.compNew hstk.1 hafter hs1, ?_⟩
            · rw [hs.2.1, hc]
            · intro x n hx
              have := hs.2.2 x n hx
              rwa [hc] at this
          obtain ⟨I1, L1, n, a, k1, k2, k3, k4, k5, k6, k7⟩ := ht.mk_node hOk
          obtain ⟨I', L', l, g1, g2, g3, g4, g5, g6⟩ := ih (L := L1) (I := I1)
            (fun st hst => (hsts st (by simp [hst])).mono k3) k2 (hs.mono k3)
          refine ⟨I', L', ⟨⟨⟨st.prodState.prod, st.prodState.index + 1⟩, st.key.originIndex⟩,
            st.createNextValue n⟩ :: l, ?_, g2, fun n ℓ h => g3 n ℓ (k3 n ℓ h), k7.trans g4, ?_, ?_⟩
          · rw [EarleyState.completeLoop, h1]
            simp only [hel, Elem.asNonterm, hnt, if_true]
            have : s.prodState.actionKey.asBase = some ak := hak
            simp only [this, Inner.makeBranchNode_eq, k1, g1]
          · intro s' hs'
            rcases List.mem_cons.1 hs' with rfl | hs'
            · refine ⟨hstk.1.complete hafter hs1, ?_, ?_⟩
              · simp [EarleyState.createNextValue, hstk.2.1]; rfl
              · intro x m hx
                have hlen : st.value.length = st.prodState.index := hstk.2.1
                simp only [EarleyState.createNextValue, List.getElem?_append] at hx
                split at hx
                · next hlt =>
                  rw [hlen] at hlt
                  have := hstk.2.2 x m hx
                  rw [← lb.compOld hstk.1 hafter hs1 hlt] at this
                  exact g3 _ _ (k3 _ _ this)
                · next hge =>
                  rw [List.getElem?_singleton] at hx
                  split at hx
                  · next h0 =>
                    cases hx
                    have hx' : x = st.prodState.index := by omega
                    subst hx'
                    simp only
                    exact g3 _ _ k4
                  · cases hx
            · exact g5 s' hs'
          · intro st' hst' ha
            rcases List.mem_cons.1 hst' with rfl | hst'
            · exact ⟨_, List.mem_cons_self, n, a, rfl, rfl, g4.le.has _ _ k5, g4.le.alts _ _ k6⟩
            · obtain ⟨s', m1, m2⟩ := g6 st' hst' ha
              exact ⟨s', List.mem_cons_of_mem _ m1, m2⟩
        · refine hskip ?_ ?_
          · unfold EarleyStateKey.after
            intro h; unfold EarleyState.prodState at h2; rw [h2, hel] at h
            injection h with h; injection h with h
            exact hnt h
          · rw [EarleyState.completeLoop, h1]; simp only [hel, Elem.asNonterm, hnt, if_false]

/-- Without a base action key nothing can be completed. -/
theorem completeLoop_startKey {s : EarleyState T NT AK AV}
    (hak : s.key.prodState.prod.actionKey.asBase = none) (sts : List (EarleyState T NT AK AV)) :
    (s.completeLoop sts I = .ok (I, []) ∧
      ∀ st ∈ sts, st.key.after ≠ some (.nonterm s.key.prodState.prod.head)) ∨
    (s.completeLoop sts I = .panic .startActionKey ∧
      ∃ st ∈ sts, st.key.after = some (.nonterm s.key.prodState.prod.head)) := by
  induction sts with
  | nil => exact Or.inl ⟨rfl, by simp⟩
  | cons st sts ih =>
    have hskip : st.key.after ≠ some (.nonterm s.key.prodState.prod.head) →
        s.completeLoop (st :: sts) I = s.completeLoop sts I →
        (s.completeLoop (st :: sts) I = .ok (I, []) ∧
          ∀ st' ∈ st :: sts, st'.key.after ≠ some (.nonterm s.key.prodState.prod.head)) ∨
        (s.completeLoop (st :: sts) I = .panic .startActionKey ∧
          ∃ st' ∈ st :: sts, st'.key.after = some (.nonterm s.key.prodState.prod.head)) := by
      intro hne heq
      rcases ih with ⟨h1, h2⟩ | ⟨h1, st', h2, h3⟩
      · refine Or.inl ⟨heq.trans h1, ?_⟩
        intro st' hst'
        rcases List.mem_cons.1 hst' with rfl | hst'
        · exact hne
        · exact h2 st' hst'
      · exact Or.inr ⟨heq.trans h1, st', List.mem_cons_of_mem _ h2, h3⟩
    rcases ProdState.nextElemState_cases st.prodState with ⟨h1, h2⟩ | ⟨e, h1, h2⟩
    · refine hskip ?_ ?_
      · unfold EarleyStateKey.after
        intro h; unfold EarleyState.prodState at h2; rw [h2] at h; cases h
      · rw [EarleyState.completeLoop, h1]
    · cases hel : e.element with
      | term t =>
        refine hskip ?_ ?_
        · unfold EarleyStateKey.after
          intro h; unfold EarleyState.prodState at h2; rw [h2, hel] at h; cases h
        · rw [EarleyState.completeLoop, h1]; simp only [hel, Elem.asNonterm]
      | nonterm nt =>
        by_cases hnt : nt = s.prodState.prod.head
        · right
          have hafter : st.key.after = some (.nonterm s.key.prodState.prod.head) := by
            unfold EarleyStateKey.after
            unfold EarleyState.prodState at h2 hnt
            rw [h2, hel, hnt]
          refine ⟨?_, st, by simp, hafter⟩
          rw [EarleyState.completeLoop, h1]
          have : s.prodState.actionKey.asBase = none := hak
          simp only [hel, Elem.asNonterm, hnt, if_true, this]
        · refine hskip ?_ ?_
          · unfold EarleyStateKey.after
            intro h; unfold EarleyState.prodState at h2; rw [h2, hel] at h
            injection h with h; injection h with h
            exact hnt h
          · rw [EarleyState.completeLoop, h1]; simp only [hel, Elem.asNonterm, hnt, if_false]

theorem mem_states {Z : EarleyStateSet T NT AK AV} {s : EarleyState T NT AK AV} :
    s ∈ EarleyStateSet.states Z ↔ (s.key, s.value) ∈ Z := by
  unfold EarleyStateSet.states
  constructor
  · intro h
    obtain ⟨e, he, rfl⟩ := List.mem_map.1 h
    exact he
  · intro h; exact List.mem_map.2 ⟨_, h, rfl⟩

/-- The new contents of a pass. -/
def ContentOf (Z : EarleyStateSet T NT AK AV) (c : NodeContent T AK V) : Prop :=
  ∃ e ∈ Z, ∃ ak, e.1.prodState.prod.actionKey.asBase = some ak ∧ c = .branch ak e.2

theorem complete_eq (s : EarleyState T NT AK AV) (prev : List (EarleyStateSet T NT AK AV))
    (curr : EarleyStateSet T NT AK AV) (I : Inner T AK V) : s.complete prev curr I =
    if s.prodState.isComplete then
      match (prev ++ [curr])[s.key.originIndex]? with
      | some origin => s.completeLoop (EarleyStateSet.states origin) I
      | none => .panic .badOrigin
    else .ok (I, []) := by
  unfold EarleyState.complete
  split
  · split
    · next h => rw [h]; simp
    · next h =>
      have e : (prev ++ [curr])[s.key.originIndex]? = prev[s.key.originIndex]? := by
        rw [List.getElem?_append]
        split
        · rfl
        · next h' =>
          rw [List.getElem?_eq_none (l := prev) (by omega), List.getElem?_eq_none (by simp; omega)]
      rw [e]; cases prev[s.key.originIndex]? <;> rfl
  · rfl

/-- The prediction of an item is the start of every production of the nonterminal after the dot. -/
theorem mem_predict (hw : sg.WF) {s x : EarleyState T NT AK AV} {j : Nat} :
    x ∈ s.predict sg j ↔ ∃ q ∈ sg.prods, s.key.after = some (.nonterm q.head) ∧
      x = ⟨⟨⟨q, 0⟩, j⟩, []⟩ := by
  unfold EarleyState.predict
  rw [ProdState.nextElem_eq]
  have e : s.prodState.prod.elements[s.prodState.index]? = s.key.after := rfl
  rw [e]
  cases h : s.key.after with
  | none => simp
  | some el =>
    cases el with
    | term t => simp [Elem.asNonterm]
    | nonterm A =>
      simp only [Option.bind_some, Elem.asNonterm]
      cases hr : sg.tryGetRule A with
      | none =>
        constructor
        · intro h; cases h
        · rintro ⟨q, hq, hA, -⟩
          injection hA with hA; injection hA with hA
          obtain ⟨r, hr', -⟩ := (Grammar.mem_prods hw).1 hq
          rw [← hA, hr] at hr'; cases hr'
      | some r =>
        simp only [List.mem_map]
        constructor
        · rintro ⟨q, hq, rfl⟩
          obtain ⟨h1, h2⟩ := (Grammar.mem_prods_of_rule hw hr).1 hq
          exact ⟨q, h1, by rw [h2], rfl⟩
        · rintro ⟨q, hq, hA, rfl⟩
          injection hA with hA; injection hA with hA
          exact ⟨q, (Grammar.mem_prods_of_rule hw hr).2 ⟨hq, hA.symm⟩, rfl⟩

/-- The states one pass produces. -/
theorem closureStates_spec (hg : SGOk addr sg) {prev : List (EarleyStateSet T NT AK AV)}
    {Z : EarleyStateSet T NT AK AV} (l : List (EarleyState T NT AK AV))
    (hl : ∀ s ∈ l, (s.key, s.value) ∈ Z) (ht : Typed lb N I L)
    (hsets : ∀ k Zk, (prev ++ [Z])[k]? = some Zk → SetOk lb addr k L Zk) :
    (∃ I' L' out, closureStates sg prev Z l I = .ok (I', out) ∧ Typed lb N I' L' ∧
      (∀ n ℓ, L n ℓ → L' n ℓ) ∧ Inner.Ext N (ContentOf Z) I I' ∧
      (∀ s ∈ out, StOk lb prev.length L' s.key s.value) ∧
      (∀ s ∈ l, ∀ q ∈ sg.prods, s.key.after = some (.nonterm q.head) →
        (⟨⟨⟨q, 0⟩, prev.length⟩, []⟩ : EarleyState T NT AK AV) ∈ out) ∧
      (∀ s ∈ l, s.key.prodState.index = s.key.prodState.prod.numElements →
        ∀ Zk, (prev ++ [Z])[s.key.originIndex]? = some Zk → ∀ e ∈ Zk,
        e.1.after = some (.nonterm s.key.prodState.prod.head) →
        ∃ s' ∈ out, ∃ n a ak, s'.key = e.1.next ∧ s'.value = e.2 ++ [n] ∧ I'.Has n a ∧
          I'.altAt a = some (.branch ak s.value) ∧
          s.key.prodState.prod.actionKey.asBase = some ak)) ∨
    (closureStates sg prev Z l I = .panic .startActionKey ∧ StartDone sg toks prev.length) := by
  induction l generalizing I L with
  | nil => exact Or.inl ⟨I, L, [], rfl, ht, fun _ _ h => h, .refl _ _ _, by simp, by simp, by simp⟩
  | cons s l ih =>
    have hZ : SetOk lb addr prev.length L Z := hsets prev.length Z (by simp)
    have hsZ := hl s (by simp)
    have hs := hZ.entry _ hsZ
    -- completing `s`
    have hcomp : (∃ I1 L1 l1, s.complete prev Z I = .ok (I1, l1) ∧ Typed lb N I1 L1 ∧
        (∀ n ℓ, L n ℓ → L1 n ℓ) ∧ Inner.Ext N (ContentOf Z) I I1 ∧
        (∀ s' ∈ l1, StOk lb prev.length L1 s'.key s'.value) ∧
        (s.key.prodState.index = s.key.prodState.prod.numElements →
          ∀ Zk, (prev ++ [Z])[s.key.originIndex]? = some Zk → ∀ e ∈ Zk,
          e.1.after = some (.nonterm s.key.prodState.prod.head) →
          ∃ s' ∈ l1, ∃ n a ak, s'.key = e.1.next ∧ s'.value = e.2 ++ [n] ∧ I1.Has n a ∧
            I1.altAt a = some (.branch ak s.value) ∧
            s.key.prodState.prod.actionKey.asBase = some ak)) ∨
        (s.complete prev Z I = .panic .startActionKey ∧ StartDone sg toks prev.length) := by
      rw [complete_eq]
      split
      · next hc =>
        rw [ProdState.isComplete_iff] at hc
        have hc' : s.key.prodState.index = s.key.prodState.prod.numElements := hc
        have hit := hs.1
        have hle := hit.bounds.2.1
        have hlt : s.key.originIndex < (prev ++ [Z]).length := by simp; exact Nat.lt_succ_of_le hle
        simp only [hc'] at hit
        rw [List.getElem?_eq_getElem hlt]
        simp only
        have hgZ := hsets _ _ (List.getElem?_eq_getElem hlt)
        rcases hak : s.key.prodState.prod.actionKey.asBase with _ | ak
        · rcases completeLoop_startKey (I := I) hak
            (EarleyStateSet.states (prev ++ [Z])[s.key.originIndex]) with ⟨k1, k2⟩ | ⟨k1, st, k2, k3⟩
          · refine Or.inl ⟨I, L, [], k1, ht, fun _ _ h => h, .refl _ _ _, by simp, ?_⟩
            intro _ Zk hZk e he hafter
            cases hZk
            exact absurd hafter (k2 ⟨e.1, e.2⟩ (mem_states.2 he))
          · exact Or.inr ⟨k1, _, _, _, _, _, hit, (hgZ.entry _ (mem_states.1 k2)).1, k3, hak⟩
        left
        obtain ⟨I1, L1, l1, h1, h2, h3, h4, h5, h6⟩ := completeLoop_spec (s := s) (j := prev.length)
          hc' hak (EarleyStateSet.states (prev ++ [Z])[s.key.originIndex]) (by
            intro st hst
            exact hgZ.entry _ (mem_states.1 hst)) ht hs
        refine ⟨I1, L1, l1, h1, h2, h3, h4.mono ?_, h5, ?_⟩
        · rintro c rfl; exact ⟨_, hsZ, ak, hak, rfl⟩
        · intro _ Zk hZk e he hafter
          cases hZk
          obtain ⟨s', m1, n, a, m2, m3, m4, m5⟩ := h6 ⟨e.1, e.2⟩ (mem_states.2 he) hafter
          exact ⟨s', m1, n, a, ak, m2, m3, m4, m5, rfl⟩
      · next hc =>
        left
        refine ⟨I, L, [], rfl, ht, fun _ _ h => h, .refl _ _ _, by simp, ?_⟩
        intro h
        rw [Bool.not_eq_true, ← Bool.not_eq_true, ProdState.isComplete_iff] at hc
        exact absurd h hc
    rcases hcomp with ⟨I1, L1, l1, h1, h2, h3, h4, h5, h6⟩ | ⟨h1, h2⟩
    swap
    · right
      refine ⟨?_, h2⟩
      rw [closureStates, h1]
    rcases ih (I := I1) (L := L1)
      (fun s hs => hl s (by simp [hs])) h2 (fun k Zk hk => (hsets k Zk hk).mono h3) with
      ⟨I2, L2, out, g1, g2, g3, g4, g5, g6, g7⟩ | ⟨g1, g2⟩
    swap
    · right
      refine ⟨?_, g2⟩
      rw [closureStates, h1]; simp only [g1]
    left
    refine ⟨I2, L2, s.predict sg prev.length ++ l1 ++ out, ?_, g2, fun n ℓ h => g3 n ℓ (h3 n ℓ h),
      h4.trans g4, ?_, ?_, ?_⟩
    · rw [closureStates, h1]; simp only [g1]
    · intro s' hs'
      rcases List.mem_append.1 hs' with hs' | hs'
      · rcases List.mem_append.1 hs' with hs' | hs'
        · obtain ⟨q, hq, hafter, rfl⟩ := (mem_predict hg.wf).1 hs'
          exact ⟨hs.1.predict hafter hq, rfl, by simp⟩
        · exact (h5 s' hs').mono g3
      · exact g5 s' hs'
    · intro s' hs' q hq hafter
      rcases List.mem_cons.1 hs' with rfl | hs'
      · simp only [List.mem_append]
        exact Or.inl (Or.inl ((mem_predict hg.wf).2 ⟨q, hq, hafter, rfl⟩))
      · exact List.mem_append_right _ (g6 s' hs' q hq hafter)
    · intro s' hs' hc Zk hZk e he hafter
      rcases List.mem_cons.1 hs' with rfl | hs'
      · obtain ⟨x, m1, n, a, ak, m2, m3, m4, m5, m6⟩ := h6 hc Zk hZk e he hafter
        exact ⟨x, by simp [m1], n, a, ak, m2, m3, g4.le.has _ _ m4, g4.le.alts _ _ m5, m6⟩
      · obtain ⟨x, m1, m2⟩ := g7 s' hs' hc Zk hZk e he hafter
        exact ⟨x, List.mem_append_right _ m1, m2⟩

/-- Inserting a list of states. -/
theorem insertAll_spec (hg : SGOk addr sg) {j : Nat} (l : List (EarleyState T NT AK AV))
    (ht : Typed lb N I L) {Z : EarleyStateSet T NT AK AV} (hz : SetOk lb addr j L Z)
    (hl : ∀ s ∈ l, StOk lb j L s.key s.value) (acc : WasChanged) :
    (∃ I' Z' c, changeIterM l (EarleyStateSet.insert addr) (I, Z) acc = .ok ((I', Z'), c) ∧
      Typed lb N I' L ∧ SetOk lb addr j L Z' ∧ Inner.Ext N (fun _ => False) I I' ∧
      (∀ e ∈ Z, e ∈ Z') ∧ (∀ e ∈ Z', e ∈ Z ∨ ∃ s ∈ l, e = (s.key, s.value)) ∧
      (c = .changed → acc = .changed ∨ ∃ x, ¬ EFact (I, Z) x ∧ EFact (I', Z') x) ∧
      (c = .unchanged → acc = .unchanged ∧ I' = I ∧ Z' = Z ∧ ∀ s ∈ l, ∃ v, (s.key, v) ∈ Z ∧
        ∀ (x n m a : Nat), v[x]? = some n → s.value[x]? = some m → I.Has m a → I.Has n a)) ∨
    (changeIterM l (EarleyStateSet.insert addr) (I, Z) acc = .panic .lenMismatch ∧
      Collides sg toks j) := by
  induction l generalizing I Z acc with
  | nil =>
    left
    exact ⟨I, Z, acc, rfl, ht, hz, .refl _ _ _, fun _ h => h, fun _ h => Or.inl h, Or.inl,
      fun h => ⟨h, rfl, rfl, by simp⟩⟩
  | cons s l ih =>
    rcases insert_spec hg.wf hg.addr ht hz (hl s (by simp)) with
      ⟨I1, Z1, c1, h1, h2, h3, h4, h5, h6, h7, h8, h9⟩ | ⟨h1, h2⟩
    · rcases ih h2 h3 (fun s hs => hl s (by simp [hs])) (acc.join c1) with
        ⟨I2, Z2, c2, g1, g2, g3, g4, g5, g6, g7, g8⟩ | ⟨g1, g2⟩
      · left
        refine ⟨I2, Z2, c2, ?_, g2, g3, h4.trans g4, fun e he => g5 e (h5 e he), ?_, ?_, ?_⟩
        · rw [changeIterM, h1]; exact g1
        · intro e he
          rcases g6 e he with he | ⟨s', hs', rfl⟩
          · rcases h6 e he with he | rfl
            · exact Or.inl he
            · exact Or.inr ⟨s, by simp, rfl⟩
          · exact Or.inr ⟨s', by simp [hs'], rfl⟩
        · intro hc
          rcases g7 hc with hc | ⟨x, hx1, hx2⟩
          · rcases WasChanged.join_eq_changed.1 hc with hc | hc
            · exact Or.inl hc
            · obtain ⟨x, hx1, hx2⟩ := h8 hc
              exact Or.inr ⟨x, hx1, hx2.mono g4.le g5⟩
          · exact Or.inr ⟨x, fun h => hx1 (h.mono h4.le h5), hx2⟩
        · intro hc
          obtain ⟨k1, k2, k3, k4⟩ := g8 hc
          obtain ⟨m1, m2⟩ := WasChanged.join_eq_unchanged.1 k1
          obtain ⟨n1, n2, n3⟩ := h9 m2
          subst n1 n2
          refine ⟨m1, k2, k3, ?_⟩
          intro s' hs'
          rcases List.mem_cons.1 hs' with rfl | hs'
          · exact n3
          · exact k4 s' hs'
      · right
        exact ⟨by rw [changeIterM, h1]; exact g1, g2⟩
    · right
      exact ⟨by rw [changeIterM, h1], h2⟩

/-- Nothing is left to add to the set. -/
structure Closed (sg : StartGrammar T NT AK AV) (prev : List (EarleyStateSet T NT AK AV))
    (Z : EarleyStateSet T NT AK AV) (I : Inner T AK V) : Prop where
  predict : ∀ e ∈ Z, ∀ q ∈ sg.prods, e.1.after = some (.nonterm q.head) →
    ∃ v, ((⟨⟨q, 0⟩, prev.length⟩, v) : EarleyStateKey T NT AK AV × List Nat) ∈ Z
  complete : ∀ e ∈ Z, e.1.prodState.index = e.1.prodState.prod.numElements →
    ∀ Zk, (prev ++ [Z])[e.1.originIndex]? = some Zk → ∀ e' ∈ Zk,
    e'.1.after = some (.nonterm e.1.prodState.prod.head) →
    ∃ v n' a ak, (e'.1.next, v) ∈ Z ∧
      (∀ x n m b : Nat, v[x]? = some n → e'.2[x]? = some m → I.Has m b → I.Has n b) ∧
      v[e'.1.prodState.index]? = some n' ∧ I.Has n' a ∧ I.altAt a = some (.branch ak e.2) ∧
      e.1.prodState.prod.actionKey.asBase = some ak

/-- One pass. -/
theorem closePass_spec (hg : SGOk addr sg) {prev : List (EarleyStateSet T NT AK AV)}
    {Z : EarleyStateSet T NT AK AV} (ht : Typed lb N I L)
    (hsets : ∀ k Zk, (prev ++ [Z])[k]? = some Zk → SetOk lb addr k L Zk) :
    (∃ I' Z' c L', closePass addr sg prev (I, Z) = .ok ((I', Z'), c) ∧ Typed lb N I' L' ∧
      (∀ n ℓ, L n ℓ → L' n ℓ) ∧ SetOk lb addr prev.length L' Z' ∧ Inner.Ext N (ContentOf Z) I I' ∧
      (∀ e ∈ Z, e ∈ Z') ∧ (c = .changed → ∃ x, ¬ EFact (I, Z) x ∧ EFact (I', Z') x) ∧
      (c = .unchanged → Z' = Z ∧ Closed sg prev Z I')) ∨
    (∃ w, closePass addr sg prev (I, Z) = .panic w ∧ Stuck sg toks prev.length w) := by
  rcases closureStates_spec hg
    (EarleyStateSet.states Z) (fun s hs => mem_states.1 hs) ht hsets with
    ⟨I1, L1, out, h1, h2, h3, h4, h5, h6, h7⟩ | ⟨h1, h2⟩
  swap
  · right
    refine ⟨_, ?_, .startKey h2⟩
    unfold closePass
    simp only [h1]
  have hZ1 : SetOk lb addr prev.length L1 Z := (hsets prev.length Z (by simp)).mono h3
  unfold closePass
  simp only [h1]
  rcases insertAll_spec hg out h2 hZ1 h5 .unchanged with
    ⟨I2, Z2, c, g1, g2, g3, g4, g5, g6, g7, g8⟩ | ⟨g1, g2⟩
  · left
    refine ⟨I2, Z2, c, L1, g1, g2, h3, g3, h4.trans (g4.mono (fun _ h => h.elim)), g5, ?_, ?_⟩
    · intro hc
      rcases g7 hc with h | ⟨x, hx1, hx2⟩
      · cases h
      · exact ⟨x, fun h => hx1 (EFact.mono (st := (I, Z)) (st' := (I1, Z)) h4.le (fun _ he => he) h), hx2⟩
    · intro hc
      obtain ⟨-, rfl, rfl, k⟩ := g8 hc
      refine ⟨rfl, ?_, ?_⟩
      · intro e he q hq hafter
        obtain ⟨v, hv, -⟩ := k _ (h6 ⟨e.1, e.2⟩ (mem_states.2 he) q hq hafter)
        exact ⟨v, hv⟩
      · intro e he hc Zk hZk e' he' hafter
        obtain ⟨s', m1, n, a, ak, m2, m3, m4, m5, m6⟩ := h7 ⟨e.1, e.2⟩ (mem_states.2 he) hc Zk hZk e'
          he' hafter
        obtain ⟨v, hv, hsub⟩ := k s' m1
        rw [m2] at hv
        have hlen : e'.2.length = e'.1.prodState.index := ((hsets _ _ hZk).entry _ he').2.1
        have hvlen : v.length = e'.1.prodState.index + 1 := (hZ1.entry _ hv).2.1
        have hn' := List.getElem?_eq_getElem (show e'.1.prodState.index < v.length by omega)
        refine ⟨v, v[e'.1.prodState.index], a, ak, hv, ?_, hn', ?_, m5, m6⟩
        · intro x n₁ m b hx hy
          refine hsub x n₁ m b hx ?_
          rw [m3, List.getElem?_append_left (List.getElem?_eq_some_iff.1 hy).1]
          exact hy
        · refine hsub _ _ n a hn' ?_ m4
          rw [m3, ← hlen]; simp
  · right; exact ⟨_, g1, .collides g2⟩
end
end Bongo
