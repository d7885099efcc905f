import Verif.Proof.KeysExact
/-!
# Lemmas: a parse with keys that compare equal, and with the same keys told apart
-/
set_option linter.unusedSectionVars false
set_option linter.unusedSimpArgs false
namespace Bongo
open Std
variable {T NT AK AV V : Type}

/-- The keys are replaced. -/
def keyRen {AK' : Type} (T NT AV : Type) (f : AK → AK') : Renaming T NT AK AV T NT AK' AV := ⟨id, id, f, id⟩

theorem keyRen_start_nonterm {AK' : Type} (f : AK → AK') (A : StartNonTerminal NT) :
    (keyRen T NT AV f).start.nonterm A = A := by cases A <;> rfl

theorem keyRen_inj {AK' : Type} (f : AK → AK') : (keyRen T NT AV f).SymInjective :=
  ⟨fun _ _ h => h, fun _ _ h => h⟩

theorem keyRen_elem {AK' : Type} (f : AK → AK') (e : Elem T NT) : (keyRen T NT AV f).elem e = e := by
  cases e <;> rfl

local notation "ρx" => keyRen T NT AV (ExactKey.mk : AK → ExactKey AK)

/-- The entry has as many nodes as elements passed, made for its production. -/
structure EntryOk (O : Nat → AK → Prop) (s : EarleyState T NT AK AV) : Prop where
  len : s.value.length = s.key.prodState.index
  own : ∀ m ∈ s.value, ∀ ak, s.key.prodState.prod.actionKey.asBase = some ak → O m ak

/-- Some entry of the set asks for the nonterminal of the production of this one, if that is empty. -/
def Asked (n : Nat) (Z : EarleyStateSet T NT AK AV) (s : EarleyState T NT AK AV) : Prop :=
  s.key.prodState.prod.numElements = 0 → s.key.originIndex = n ∧
    ∃ kv ∈ Z, ∃ e ps, kv.1.prodState.nextElemState = some (e, ps) ∧
      e.element.asNonterm = some s.key.prodState.prod.head

variable {addr : StartNonTerminal NT → Nat → Nat}

theorem EntryOk.mono {O O' : Nat → AK → Prop} (h : ∀ m ak, O m ak → O' m ak) {s : EarleyState T NT AK AV}
    (hs : EntryOk O s) : EntryOk O' s := ⟨hs.len, fun m hm ak e => h _ _ (hs.own m hm ak e)⟩

theorem Asked.mono {n : Nat} {Z Z' : EarleyStateSet T NT AK AV} (h : ∀ kv ∈ Z, kv ∈ Z')
    {s : EarleyState T NT AK AV} (hs : Asked n Z s) : Asked n Z' s := by
  intro h0
  obtain ⟨h1, kv, h2, h3⟩ := hs h0
  exact ⟨h1, kv, h _ h2, h3⟩

theorem nextElemState_eq {s : SProdState T NT AK AV} {e ps} (h : s.nextElemState = some (e, ps)) :
    ps = ⟨s.prod, s.index + 1⟩ ∧ s.index < s.prod.numElements := by
  unfold ProdState.nextElemState at h
  rw [Option.map_eq_some_iff] at h
  obtain ⟨x, h1, h⟩ := h
  cases h
  simp only [ProdState.nextProdElem, ProdState.offsetProdElem, Prod.prodElements] at h1
  exact ⟨rfl, (List.getElem?_eq_some_iff.1 h1).1⟩

/-- All entries of a set. -/
structure KSetOk (O : Nat → AK → Prop) (Z : EarleyStateSet T NT AK AV) : Prop where
  entry : ∀ s ∈ EarleyStateSet.states Z, EntryOk O s

theorem KSetOk.mono {O O' : Nat → AK → Prop} (h : ∀ m ak, O m ak → O' m ak) {Z : EarleyStateSet T NT AK AV}
    (hs : KSetOk O Z) : KSetOk O' Z := ⟨fun s hm => (hs.entry s hm).mono h⟩

/-- The set being built. -/
structure KCurOk (addr : StartNonTerminal NT → Nat → Nat) (O : Nat → AK → Prop) (n : Nat)
    (Z : EarleyStateSet T NT AK AV) : Prop extends KSetOk O Z where
  sorted : BMap.Sorted (EarleyStateKey.cmp addr) Z
  asked : ∀ s ∈ EarleyStateSet.states Z, Asked n Z s

theorem KCurOk.mono {O O' : Nat → AK → Prop} {n : Nat} (h : ∀ m ak, O m ak → O' m ak)
    {Z : EarleyStateSet T NT AK AV} (hs : KCurOk addr O n Z) : KCurOk addr O' n Z :=
  ⟨hs.toKSetOk.mono h, hs.sorted, hs.asked⟩

theorem kCurOk_nil {O : Nat → AK → Prop} {n : Nat} : KCurOk addr O n ([] : EarleyStateSet T NT AK AV) :=
  ⟨⟨by simp [EarleyStateSet.states]⟩, BMap.sorted_nil, by simp [EarleyStateSet.states]⟩

section
variable [Ord T] [Ord NT] [Ord AK] [Ord V] [TransOrd T] [TransOrd AK] [TransOrd V] [LawfulEqOrd T] [LawfulEqOrd V]
  [DecidableEq T] [DecidableEq NT]
variable {O : Nat → AK → Prop} {i j : Inner T AK V} {i' : Inner T (ExactKey AK) V}

theorem XRel.addAlls (l : List (Nat × Nat)) : ∀ {i j : Inner T AK V} {i' : Inner T (ExactKey AK) V}
    {acc c : WasChanged}, XRel O i i' →
    changeIterM l (fun (i : Inner T AK V) en => i.addAll en.1 en.2) i acc = .ok (j, c) →
    ∃ j', changeIterM l (fun (i : Inner T (ExactKey AK) V) en => i.addAll en.1 en.2) i' acc = .ok (j', c) ∧
      XRel O j j' := by
  induction l with
  | nil => intro i j i' acc c h he; cases he; exact ⟨i', rfl, h⟩
  | cons a l ih =>
    intro i j i' acc c h he
    rw [changeIterM] at he
    cases hr : i.addAll a.1 a.2 with
    | panic p => rw [hr] at he; cases he
    | oof => rw [hr] at he; cases he
    | ok r =>
      rw [hr] at he
      obtain ⟨j1, e1, h1⟩ := h.addAll hr
      obtain ⟨j', e2, h2⟩ := ih h1 he
      refine ⟨j', ?_, h2⟩
      rw [changeIterM]
      simp only [e1]
      exact e2

/-- The states of the two parses correspond. -/
def StX (O : Nat → AK → Prop) (st : Inner T AK V × EarleyStateSet T NT AK AV)
    (st' : Inner T (ExactKey AK) V × EarleyStateSet T NT (ExactKey AK) AV) : Prop :=
  XRel O st.1 st'.1 ∧ st'.2 = (ρx).eset st.2

theorem keyRen_addr {AK' : Type} (f : AK → AK') :
    ∀ A i, addr ((keyRen T NT AV f).start.nonterm A) i = addr A i := by
  intro A i; rw [keyRen_start_nonterm]

theorem StX.insert {st st₁ : Inner T AK V × EarleyStateSet T NT AK AV}
    {st' : Inner T (ExactKey AK) V × EarleyStateSet T NT (ExactKey AK) AV} (h : StX O st st')
    {s : EarleyState T NT AK AV} {c : WasChanged} (he : EarleyStateSet.insert addr st s = .ok (st₁, c)) :
    ∃ st₁', EarleyStateSet.insert addr st' ((ρx).estate s) = .ok (st₁', c) ∧ StX O st₁ st₁' := by
  obtain ⟨h1, h2⟩ := h
  simp only [EarleyStateSet.insert, h2] at he ⊢
  have hg : BMap.get? (EarleyStateKey.cmp addr) ((ρx).eset st.2) ((ρx).estate s).key =
      BMap.get? (EarleyStateKey.cmp addr) st.2 s.key :=
    BMap.get?_mapKeys ((ρx).ekey_cmp (keyRen_addr _)) _ _
  rw [hg]
  cases hx : BMap.get? (EarleyStateKey.cmp addr) st.2 s.key with
  | none =>
    rw [hx] at he
    cases he
    exact ⟨_, rfl, h1, BMap.insert_mapKeys ((ρx).ekey_cmp (keyRen_addr _)) _ _ _⟩
  | some ex =>
    rw [hx] at he
    have hv : ((ρx).estate s).value = s.value := rfl
    simp only [hv] at he ⊢
    split at he
    · rename_i hl
      rw [if_pos hl]
      split at he
      · rename_i j c' hr
        cases he
        obtain ⟨j', e1, h3⟩ := h1.addAlls _ hr
        simp only [e1]
        exact ⟨_, rfl, h3, rfl⟩
      · cases he
      · cases he
    · cases he

theorem KCurOk.insert {n : Nat} {st st₁ : Inner T AK V × EarleyStateSet T NT AK AV} (h : KCurOk addr O n st.2)
    {s : EarleyState T NT AK AV} {c : WasChanged} (he : EarleyStateSet.insert addr st s = .ok (st₁, c))
    (hs : EntryOk O s) (ha : Asked n st.2 s) : KCurOk addr O n st₁.2 ∧ ∀ kv ∈ st.2, kv ∈ st₁.2 := by
  unfold EarleyStateSet.insert at he
  split at he
  · rename_i hv
    cases he
    have hsub : ∀ kv ∈ st.2, kv ∈ BMap.insert (EarleyStateKey.cmp addr) st.2 s.key s.value :=
      fun kv hkv => (BMap.mem_insert_of_vacant hv kv).2 (.inr hkv)
    have hst : ∀ x ∈ EarleyStateSet.states (BMap.insert (EarleyStateKey.cmp addr) st.2 s.key s.value),
        x = s ∨ x ∈ EarleyStateSet.states st.2 := by
      intro x hx
      obtain ⟨kv, hkv, rfl⟩ := List.mem_map.1 hx
      rcases (BMap.mem_insert_of_vacant hv kv).1 hkv with rfl | hkv
      · exact .inl rfl
      · exact .inr (List.mem_map.2 ⟨kv, hkv, rfl⟩)
    refine ⟨⟨⟨fun x hx => ?_⟩, BMap.sorted_insert h.sorted _ _, fun x hx => ?_⟩, hsub⟩
    · rcases hst x hx with rfl | hx
      · exact hs
      · exact h.entry x hx
    · rcases hst x hx with rfl | hx
      · exact ha.mono hsub
      · exact (h.asked x hx).mono hsub
  · split at he
    · split at he
      · cases he; exact ⟨h, fun _ hkv => hkv⟩
      · cases he
      · cases he
    · cases he

/-! ## Empty productions are never completed -/

/-- Inserting never changes how many nodes an entry has, and panics if asked to. -/
theorem inserts_len {l : List (EarleyState T NT AK AV)} : ∀ {st st₁ : Inner T AK V × EarleyStateSet T NT AK AV}
    {acc c : WasChanged}, changeIterM l (EarleyStateSet.insert addr) st acc = .ok (st₁, c) →
    ∀ {k : EarleyStateKey T NT AK AV} {v : List Nat}, BMap.get? (EarleyStateKey.cmp addr) st.2 k = some v →
    ∀ x ∈ l, EarleyStateKey.cmp addr x.key k = .eq → x.value.length = v.length := by
  induction l with
  | nil => intro _ _ _ _ _ _ _ _ x hx; cases hx
  | cons y l ih =>
    intro st st₁ acc c he k v hk x hx hc
    rw [changeIterM] at he
    cases hr : EarleyStateSet.insert addr st y with
    | panic p => rw [hr] at he; cases he
    | oof => rw [hr] at he; cases he
    | ok r =>
      obtain ⟨st2, c2⟩ := r
      rw [hr] at he
      unfold EarleyStateSet.insert at hr
      have hstep : BMap.get? (EarleyStateKey.cmp addr) st2.2 k = some v ∧
          (EarleyStateKey.cmp addr y.key k = .eq → y.value.length = v.length) := by
        split at hr
        · rename_i hv
          cases hr
          constructor
          · simp only
            rw [BMap.get?_insert, if_neg]
            · exact hk
            · intro e
              rw [BMap.get?_congr _ e, hv] at hk
              cases hk
          · intro e
            rw [BMap.get?_congr _ e, hk] at hv
            cases hv
        · rename_i ex hv
          split at hr
          · rename_i hl
            split at hr
            · cases hr
              refine ⟨hk, fun e => ?_⟩
              rw [BMap.get?_congr _ e, hk] at hv
              cases hv
              exact hl.symm
            · cases hr
            · cases hr
          · cases hr
      rcases List.mem_cons.1 hx with rfl | hx
      · exact hstep.2 hc
      · exact ih he hstep.1 x hx hc

theorem completeLoop_mem {s : EarleyState T NT AK AV} {l : List (EarleyState T NT AK AV)} :
    ∀ {i j : Inner T AK V} {r : List (EarleyState T NT AK AV)}, s.completeLoop l i = .ok (j, r) →
    ∀ st ∈ l, ∀ e ps, st.prodState.nextElemState = some (e, ps) → e.element.asNonterm = some s.prodState.prod.head →
      ∃ m, (⟨⟨ps, st.key.originIndex⟩, st.value ++ [m]⟩ : EarleyState T NT AK AV) ∈ r := by
  induction l with
  | nil => intro _ _ _ _ st h; cases h
  | cons x l ih =>
    intro i j r he st hst e ps h1 h2
    rw [EarleyState.completeLoop] at he
    rcases List.mem_cons.1 hst with rfl | hst
    · rw [h1] at he
      simp only [h2, if_true] at he
      split at he
      · cases he
      · split at he
        · rename_i i1 node hm
          split at he
          · cases he
            exact ⟨node, by simp [EarleyState.createNextValue]⟩
          · cases he
          · cases he
        · cases he
        · cases he
    · split at he
      · exact ih he st hst e ps h1 h2
      · split at he
        · exact ih he st hst e ps h1 h2
        · split at he
          · split at he
            · cases he
            · split at he
              · split at he
                · rename_i hc
                  cases he
                  obtain ⟨m, hm⟩ := ih hc st hst e ps h1 h2
                  exact ⟨m, List.mem_cons_of_mem _ hm⟩
                · cases he
                · cases he
              · cases he
              · cases he
          · exact ih he st hst e ps h1 h2

variable {g : StartGrammar T NT AK AV}

theorem closureStates_mem {prev : List (EarleyStateSet T NT AK AV)} {curr : EarleyStateSet T NT AK AV}
    {l : List (EarleyState T NT AK AV)} : ∀ {i j : Inner T AK V} {r : List (EarleyState T NT AK AV)},
    closureStates g prev curr l i = .ok (j, r) → ∀ s ∈ l, ∃ (i₁ j₁ : Inner T AK V) (r₁ : List (EarleyState T NT AK AV)), s.complete prev curr i₁ = .ok (j₁, r₁) ∧
      ∀ x ∈ r₁, x ∈ r := by
  induction l with
  | nil => intro _ _ _ _ s h; cases h
  | cons y l ih =>
    intro i j r he s hs
    rw [closureStates] at he
    split at he
    · rename_i i1 cs hc
      split at he
      · rename_i i2 rest hr
        cases he
        rcases List.mem_cons.1 hs with rfl | hs
        · exact ⟨_, _, _, hc, fun x hx => by simp [hx]⟩
        · obtain ⟨a, b, c, h1, h2⟩ := ih hr s hs
          exact ⟨a, b, c, h1, fun x hx => by simp [h2 x hx]⟩
      · cases he
      · cases he
    · cases he
    · cases he

/-- If a pass over a set does not panic, no empty production is complete there. -/
theorem closePass_nonempty {prev : List (EarleyStateSet T NT AK AV)}
    {st : Inner T AK V × EarleyStateSet T NT AK AV} {r} (hz : KCurOk addr O prev.length st.2)
    (he : closePass addr g prev st = .ok r) :
    ∀ s ∈ EarleyStateSet.states st.2, s.prodState.isComplete = true → s.value ≠ [] := by
  intro s hs hc hv
  rw [ProdState.isComplete_iff] at hc
  have hl := (hz.entry s hs).len
  rw [hv] at hl
  have h0 : s.key.prodState.prod.numElements = 0 := by
    rw [EarleyState.prodState] at hc
    rw [← hc, ← hl]; rfl
  obtain ⟨ho, kv, hkv, e, ps, h1, h2⟩ := hz.asked s hs h0
  unfold closePass at he
  split at he
  · rename_i i1 cl hcl
    obtain ⟨i₁, j₁, r₁, h3, h4⟩ := closureStates_mem hcl s hs
    have hc' : s.prodState.isComplete = true := (ProdState.isComplete_iff _).2 hc
    simp only [EarleyState.complete, hc', if_true, ho] at h3
    obtain ⟨m, hm⟩ := completeLoop_mem h3 ⟨kv.1, kv.2⟩ (List.mem_map.2 ⟨kv, hkv, rfl⟩) e ps h1 h2
    obtain ⟨r1, r2⟩ := r
    have hg : BMap.get? (EarleyStateKey.cmp addr) st.2 kv.1 = some kv.2 :=
      BMap.get?_of_mem hz.sorted (k' := kv.1) (v := kv.2) hkv ReflCmp.compare_self
    have hkey : EarleyStateKey.cmp addr ⟨ps, kv.1.originIndex⟩ kv.1 = .eq := by
      have := (nextElemState_eq h1).1
      rw [this]
      simp only [EarleyStateKey.cmp, ProdState.cmp]
      have e1 : prodCmp addr kv.1.prodState.prod kv.1.prodState.prod = .eq := ReflCmp.compare_self
      have e2 : compare kv.1.originIndex kv.1.originIndex = .eq := ReflCmp.compare_self
      rw [e1, e2]; rfl
    have := inserts_len he hg _ (h4 _ hm) hkey
    simp at this
  · cases he
  · cases he

/-! ## The two parses -/

/-- Nodes keep the keys they were made for. -/
def OwnLe (O O' : Nat → AK → Prop) : Prop := ∀ m ak, O m ak → O' m ak

theorem ownLe_more {n : Nat} {q : Option AK} : OwnLe O (ownMore O n q) := fun _ _ h => .inl h

theorem EntryOk.next {s : EarleyState T NT AK AV} (hs : EntryOk O s) {e ps} (n : Nat)
    (h : s.key.prodState.nextElemState = some (e, ps)) :
    EntryOk (ownMore O n s.key.prodState.prod.actionKey.asBase) ⟨⟨ps, s.key.originIndex⟩, s.value ++ [n]⟩ ∧
      ps.prod.numElements ≠ 0 := by
  obtain ⟨rfl, h2⟩ := nextElemState_eq h
  refine ⟨⟨by simp [hs.len], ?_⟩, by simp only; omega⟩
  intro m hm ak he
  rcases List.mem_append.1 hm with hm | hm
  · exact .inl (hs.own m hm ak he)
  · exact .inr ⟨List.mem_singleton.1 hm, he⟩

theorem XRel.scan (h : XRel O i i') {s : EarleyState T NT AK AV} (hs : EntryOk O s) {tok : Token T V} {r}
    (he : s.scan i tok = .ok (j, r)) :
    ∃ O' j', ((ρx).estate s).scan i' tok = .ok (j', r.map (ρx).estate) ∧ XRel O' j j' ∧ OwnLe O O' ∧
      ∀ s', r = some s' → EntryOk O' s' ∧ s'.key.prodState.prod.numElements ≠ 0 := by
  simp only [EarleyState.scan, EarleyState.prodState, Renaming.estate, Renaming.ekey,
    Renaming.state_nextElemState] at he ⊢
  cases hn : s.key.prodState.nextElemState with
  | none => rw [hn] at he; cases he; exact ⟨O, i', rfl, h, fun _ _ x => x, fun _ e => by cases e⟩
  | some eps =>
    obtain ⟨e, ps⟩ := eps
    rw [hn] at he
    simp only [Option.map_some, Renaming.prodElement, Renaming.elem_asTerm] at he ⊢
    cases ht : e.element.asTerm with
    | none =>
      rw [ht] at he
      cases he
      exact ⟨O, i', rfl, h, fun _ _ x => x, fun _ e => by cases e⟩
    | some t =>
      have hk : ((ρx).start.term t).hasKind tok.kind = t.hasKind tok.kind := by cases t <;> rfl
      rw [ht] at he
      simp only [Option.map_some, hk] at he ⊢
      split at he
      · rename_i hk
        rw [if_pos hk]
        split at he
        · rename_i j1 node hm
          cases he
          obtain ⟨j', e1, h1⟩ := h.makeLeafNode s.key.prodState.prod.actionKey.asBase hm
          simp only [e1]
          refine ⟨_, j', rfl, h1, ownLe_more, ?_⟩
          rintro _ ⟨⟩
          exact hs.next node hn
        · cases he
        · cases he
      · rename_i hk
        rw [if_neg hk]
        cases he
        exact ⟨O, i', rfl, h, fun _ _ x => x, fun _ e => by cases e⟩

theorem XRel.completeLoop {s : EarleyState T NT AK AV} (l : List (EarleyState T NT AK AV)) :
    ∀ {O : Nat → AK → Prop} {i j : Inner T AK V} {i' : Inner T (ExactKey AK) V} {r}, XRel O i i' →
    EntryOk O s → s.value ≠ [] → (∀ st ∈ l, EntryOk O st) → s.completeLoop l i = .ok (j, r) →
    ∃ O' j', ((ρx).estate s).completeLoop (l.map (ρx).estate) i' = .ok (j', r.map (ρx).estate) ∧
      XRel O' j j' ∧ OwnLe O O' ∧ ∀ s' ∈ r, EntryOk O' s' ∧ s'.key.prodState.prod.numElements ≠ 0 := by
  induction l with
  | nil =>
    intro O i j i' r h _ _ _ he
    cases he
    exact ⟨O, i', rfl, h, fun _ _ x => x, by simp⟩
  | cons st l ih =>
    intro O i j i' r h hs hne hl he
    have hl' : ∀ st ∈ l, EntryOk O st := fun x hx => hl x (List.mem_cons_of_mem _ hx)
    rw [List.map_cons]
    rw [EarleyState.completeLoop] at he ⊢
    have hst : ((ρx).estate st).prodState.nextElemState =
        st.prodState.nextElemState.map fun x => ((ρx).start.prodElement x.1, (ρx).start.state x.2) :=
      (ρx).start.state_nextElemState _
    rw [hst]
    cases hn : st.prodState.nextElemState with
    | none => rw [hn] at he; exact ih h hs hne hl' he
    | some eps =>
      obtain ⟨e, ps⟩ := eps
      rw [hn] at he
      simp only [Option.map_some, Renaming.prodElement, Renaming.elem_asNonterm] at he ⊢
      cases ht : e.element.asNonterm with
      | none => rw [ht] at he; exact ih h hs hne hl' he
      | some nt =>
        rw [ht] at he
        simp only [Option.map_some] at he ⊢
        have hhead : ((ρx).estate s).prodState.prod.head = s.prodState.prod.head := keyRen_start_nonterm _ _
        rw [hhead, keyRen_start_nonterm]
        by_cases hnt : nt = s.prodState.prod.head
        · rw [if_pos hnt] at he ⊢
          have hk : ((ρx).estate s).prodState.actionKey.asBase =
              s.prodState.actionKey.asBase.map ExactKey.mk := by
            show ((ρx).start.key s.prodState.actionKey).asBase = _
            cases s.prodState.actionKey <;> rfl
          rw [hk]
          cases ha : s.prodState.actionKey.asBase with
          | none => rw [ha] at he; cases he
          | some ak =>
            rw [ha] at he
            have hv : ((ρx).estate s).value = s.value := rfl
            simp only [Option.map_some, hv] at he ⊢
            split at he
            · rename_i i1 node hm
              obtain ⟨j1, e1, h1⟩ := h.makeBranchNode st.key.prodState.prod.actionKey.asBase hne
                (fun m hm => hs.own m hm ak ha) hm
              split at he
              · rename_i i2 rest hc
                cases he
                have hle : OwnLe O (ownMore O node st.key.prodState.prod.actionKey.asBase) := ownLe_more
                obtain ⟨O', j2, e2, h2, h3, h4⟩ := ih h1 (hs.mono hle) hne (fun x hx => (hl' x hx).mono hle) hc
                simp only [e1, e2]
                refine ⟨O', j2, rfl, h2, fun m ak x => h3 _ _ (hle _ _ x), ?_⟩
                intro s' hs'
                rcases List.mem_cons.1 hs' with rfl | hs'
                · have := (hl st (by simp)).next node hn
                  exact ⟨this.1.mono h3, this.2⟩
                · exact h4 s' hs'
              · cases he
              · cases he
            · cases he
            · cases he
        · rw [if_neg hnt] at he ⊢
          exact ih h hs hne hl' he

theorem XRel.complete (h : XRel O i i') {s : EarleyState T NT AK AV} (hs : EntryOk O s)
    (hne : s.prodState.isComplete = true → s.value ≠ []) {prev : List (EarleyStateSet T NT AK AV)}
    {curr : EarleyStateSet T NT AK AV} (hp : ∀ Z ∈ prev, KSetOk O Z) (hc : KSetOk O curr) {r}
    (he : s.complete prev curr i = .ok (j, r)) :
    ∃ O' j', ((ρx).estate s).complete (prev.map (ρx).eset) ((ρx).eset curr) i' =
        .ok (j', r.map (ρx).estate) ∧
      XRel O' j j' ∧ OwnLe O O' ∧ ∀ s' ∈ r, EntryOk O' s' ∧ s'.key.prodState.prod.numElements ≠ 0 := by
  simp only [EarleyState.complete, Renaming.eset_states, List.length_map, List.getElem?_map] at he ⊢
  have h1 : ((ρx).estate s).prodState.isComplete = s.prodState.isComplete := (ρx).start.state_isComplete _
  have h2 : ((ρx).estate s).key.originIndex = s.key.originIndex := rfl
  rw [h1, h2]
  split at he
  · rename_i hcm
    rw [if_pos hcm]
    split at he
    · rename_i ho
      rw [if_pos ho]
      exact h.completeLoop _ hs (hne hcm) hc.entry he
    · rename_i ho
      rw [if_neg ho]
      split at he
      · rename_i o hz
        simp only [hz, Option.map_some, Renaming.eset_states]
        exact h.completeLoop _ hs (hne hcm) (hp o (List.mem_of_getElem? hz)).entry he
      · cases he
  · rename_i hcm
    rw [if_neg hcm]
    cases he
    exact ⟨O, i', rfl, h, fun _ _ x => x, by simp⟩

/-- The grammars are the same but for the order of the keys. -/
structure XGrammar (g : StartGrammar T NT AK AV) (g' : StartGrammar T NT (ExactKey AK) AV) : Prop where
  rule : ∀ nt, g'.tryGetRule ((ρx).start.nonterm nt) = (g.tryGetRule nt).map (ρx).start.rule
  start : g'.startSymbol = (ρx).start.nonterm g.startSymbol
  head : ∀ nt r, g.tryGetRule nt = some r → r.head = nt
  nonempty : ∀ r, g.tryGetRule g.startSymbol = some r → ∀ p ∈ r.prodRefs, p.numElements ≠ 0

variable {g' : StartGrammar T NT (ExactKey AK) AV}

theorem predict_ok (hg : XGrammar g g') {Z : EarleyStateSet T NT AK AV} {s : EarleyState T NT AK AV}
    (hs : s ∈ EarleyStateSet.states Z) (n : Nat) : ∀ x ∈ s.predict g n, EntryOk O x ∧ Asked n Z x := by
  intro x hx
  unfold EarleyState.predict at hx
  split at hx
  · cases hx
  · rename_i nt hnt
    split at hx
    · cases hx
    · rename_i r hr
      obtain ⟨p, hp, rfl⟩ := List.mem_map.1 hx
      refine ⟨⟨rfl, by simp⟩, fun _ => ⟨rfl, ?_⟩⟩
      obtain ⟨kv, hkv, rfl⟩ := List.mem_map.1 hs
      refine ⟨kv, hkv, ?_⟩
      simp only [EarleyState.prodState, ProdState.nextElem, ProdState.offsetElem] at hnt
      obtain ⟨e, he, hnt⟩ := Option.bind_eq_some_iff.1 hnt
      obtain ⟨pe, hpe, rfl⟩ := Option.map_eq_some_iff.1 he
      refine ⟨pe, ⟨kv.1.prodState.prod, kv.1.prodState.index + 1⟩, ?_, ?_⟩
      · simp only [ProdState.nextElemState, ProdState.nextProdElem]
        rw [hpe]; rfl
      · rw [hnt]
        obtain ⟨q, hq, rfl⟩ := List.mem_map.1 hp
        show some nt = some r.head
        rw [hg.head nt r hr]

theorem XRel.closureStates (hg : XGrammar g g') {prev : List (EarleyStateSet T NT AK AV)}
    {curr : EarleyStateSet T NT AK AV} (l : List (EarleyState T NT AK AV)) :
    ∀ {O : Nat → AK → Prop} {i j : Inner T AK V} {i' : Inner T (ExactKey AK) V} {r}, XRel O i i' →
    (∀ Z ∈ prev, KSetOk O Z) → KSetOk O curr → (∀ s ∈ l, s ∈ EarleyStateSet.states curr) →
    (∀ s ∈ l, s.prodState.isComplete = true → s.value ≠ []) →
    Bongo.closureStates g prev curr l i = .ok (j, r) →
    ∃ O' j', Bongo.closureStates g' (prev.map (ρx).eset) ((ρx).eset curr) (l.map (ρx).estate) i' =
        .ok (j', r.map (ρx).estate) ∧
      XRel O' j j' ∧ OwnLe O O' ∧ ∀ s' ∈ r, EntryOk O' s' ∧ Asked prev.length curr s' := by
  induction l with
  | nil =>
    intro O i j i' r h _ _ _ _ he
    cases he
    exact ⟨O, i', rfl, h, fun _ _ x => x, by simp⟩
  | cons s l ih =>
    intro O i j i' r h hp hc hl hne he
    rw [List.map_cons]
    rw [Bongo.closureStates] at he ⊢
    split at he
    · rename_i i1 cs hcm
      obtain ⟨O1, j1, e1, h1, hle, h2⟩ := h.complete (hc.entry s (hl s (by simp))) (hne s (by simp)) hp hc hcm
      split at he
      · rename_i i2 rest hr
        cases he
        obtain ⟨O2, j2, e2, h3, hle', h4⟩ := ih h1 (fun Z hZ => (hp Z hZ).mono hle) (hc.mono hle)
          (fun x hx => hl x (List.mem_cons_of_mem _ hx)) (fun x hx => hne x (List.mem_cons_of_mem _ hx)) hr
        simp only [e1, e2]
        refine ⟨O2, j2, ?_, h3, fun m ak x => hle' _ _ (hle _ _ x), ?_⟩
        · simp only [List.map_append, Renaming.predict hg.rule, List.length_map]
        · intro s' hs'
          rcases List.mem_append.1 hs' with hs' | hs'
          · rcases List.mem_append.1 hs' with hs' | hs'
            · exact predict_ok hg (hl s (by simp)) _ s' hs'
            · have := h2 s' hs'
              exact ⟨this.1.mono hle', fun h0 => absurd h0 this.2⟩
          · exact h4 s' hs'
      · cases he
      · cases he
    · cases he
    · cases he

theorem StX.inserts {n : Nat} (l : List (EarleyState T NT AK AV)) :
    ∀ {st st₁ : Inner T AK V × EarleyStateSet T NT AK AV}
      {st' : Inner T (ExactKey AK) V × EarleyStateSet T NT (ExactKey AK) AV} {acc c : WasChanged}, StX O st st' →
    KCurOk addr O n st.2 → (∀ s ∈ l, EntryOk O s ∧ Asked n st.2 s) →
    changeIterM l (EarleyStateSet.insert addr) st acc = .ok (st₁, c) →
    ∃ st₁', changeIterM (l.map (ρx).estate) (EarleyStateSet.insert addr) st' acc = .ok (st₁', c) ∧
      StX O st₁ st₁' ∧ KCurOk addr O n st₁.2 := by
  induction l with
  | nil => intro st st₁ st' acc c h hz _ he; cases he; exact ⟨st', rfl, h, hz⟩
  | cons s l ih =>
    intro st st₁ st' acc c h hz hl he
    rw [List.map_cons]
    rw [changeIterM] at he ⊢
    cases hr : EarleyStateSet.insert addr st s with
    | panic p => rw [hr] at he; cases he
    | oof => rw [hr] at he; cases he
    | ok r =>
      obtain ⟨st2, c2⟩ := r
      rw [hr] at he
      obtain ⟨st2', e1, h1⟩ := h.insert hr
      have hs := hl s (by simp)
      obtain ⟨hz2, hsub⟩ := hz.insert hr hs.1 hs.2
      obtain ⟨st3, e2, h2, h3⟩ := ih h1 hz2 (fun x hx => by
        have := hl x (List.mem_cons_of_mem _ hx)
        exact ⟨this.1, this.2.mono hsub⟩) he
      refine ⟨st3, ?_, h2, h3⟩
      simp only [e1]
      exact e2

theorem StX.closePass (hg : XGrammar g g') {prev : List (EarleyStateSet T NT AK AV)}
    {st st₁ : Inner T AK V × EarleyStateSet T NT AK AV}
    {st' : Inner T (ExactKey AK) V × EarleyStateSet T NT (ExactKey AK) AV} {c : WasChanged} (h : StX O st st')
    (hp : ∀ Z ∈ prev, KSetOk O Z) (hz : KCurOk addr O prev.length st.2)
    (he : Bongo.closePass addr g prev st = .ok (st₁, c)) :
    ∃ O' st₁', Bongo.closePass addr g' (prev.map (ρx).eset) st' = .ok (st₁', c) ∧ StX O' st₁ st₁' ∧
      OwnLe O O' ∧ KCurOk addr O' prev.length st₁.2 := by
  have hne := closePass_nonempty hz he
  unfold Bongo.closePass at he ⊢
  split at he
  · rename_i i1 cl hc
    obtain ⟨O', j', e1, h1, hle, h2⟩ := h.1.closureStates hg _ hp hz.toKSetOk (fun _ x => x) hne hc
    obtain ⟨st3, e2, h3, h4⟩ := StX.inserts (st := (i1, st.2)) (st' := (j', st'.2)) _ ⟨h1, h.2⟩ (hz.mono hle) h2 he
    refine ⟨O', st3, ?_, h3, hle, h4⟩
    rw [h.2, Renaming.eset_states, e1]
    rw [h.2] at e2
    exact e2
  · cases he
  · cases he

theorem StX.closeState (hg : XGrammar g g') {prev : List (EarleyStateSet T NT AK AV)} {fuel : Nat}
    {O : Nat → AK → Prop} {st st₁ : Inner T AK V × EarleyStateSet T NT AK AV}
    {st' : Inner T (ExactKey AK) V × EarleyStateSet T NT (ExactKey AK) AV} (h : StX O st st')
    (hp : ∀ Z ∈ prev, KSetOk O Z) (hz : KCurOk addr O prev.length st.2)
    (he : Bongo.closeState addr g fuel prev st = .ok st₁) :
    ∃ O' st₁', Bongo.closeState addr g' fuel (prev.map (ρx).eset) st' = .ok st₁' ∧ StX O' st₁ st₁' ∧
      OwnLe O O' ∧ KSetOk O' st₁.2 := by
  unfold Bongo.closeState at he ⊢
  have hem : st'.2.isEmpty = st.2.isEmpty := by rw [h.2]; simp [Renaming.eset]
  rw [hem]
  split at he
  · cases he
  · rename_i hem'
    rw [if_neg hem']
    clear hem hem'
    induction fuel generalizing st st' O with
    | zero => cases he
    | succ fuel ih =>
      rw [changeLoop] at he ⊢
      cases hr : Bongo.closePass addr g prev st with
      | panic p => rw [hr] at he; cases he
      | oof => rw [hr] at he; cases he
      | ok r =>
        obtain ⟨st2, c⟩ := r
        rw [hr] at he
        obtain ⟨O', st2', e1, h1, hle, hz2⟩ := h.closePass hg hp hz hr
        simp only [e1]
        cases c with
        | changed =>
          obtain ⟨O2, st3, e2, h2, hle2, h3⟩ := ih h1 (fun Z hZ => (hp Z hZ).mono hle) hz2 he
          exact ⟨O2, st3, e2, h2, fun m ak x => hle2 _ _ (hle _ _ x), h3⟩
        | unchanged =>
          cases he
          exact ⟨O', st2', rfl, h1, hle, hz2.toKSetOk⟩

theorem StX.shift {n : Nat} {tok : Token T V} (l : List (EarleyState T NT AK AV)) :
    ∀ {O : Nat → AK → Prop} {st st₁ : Inner T AK V × EarleyStateSet T NT AK AV}
      {st' : Inner T (ExactKey AK) V × EarleyStateSet T NT (ExactKey AK) AV}, StX O st st' →
    KCurOk addr O n st.2 → (∀ s ∈ l, EntryOk O s) → EarleyStateSet.shift addr tok l st = .ok st₁ →
    ∃ O' st₁', EarleyStateSet.shift addr tok (l.map (ρx).estate) st' = .ok st₁' ∧ StX O' st₁ st₁' ∧
      OwnLe O O' ∧ KCurOk addr O' n st₁.2 := by
  induction l with
  | nil => intro O st st₁ st' h hz _ he; cases he; exact ⟨O, st', rfl, h, fun _ _ x => x, hz⟩
  | cons s l ih =>
    intro O st st₁ st' h hz hl he
    have hl' : ∀ x ∈ l, EntryOk O x := fun x hx => hl x (List.mem_cons_of_mem _ hx)
    rw [List.map_cons]
    rw [EarleyStateSet.shift] at he ⊢
    cases hr : s.scan st.1 tok with
    | panic p => rw [hr] at he; cases he
    | oof => rw [hr] at he; cases he
    | ok r =>
      obtain ⟨i1, r⟩ := r
      rw [hr] at he
      obtain ⟨O1, j1, e1, h1, hle, h2⟩ := h.1.scan (hl s (by simp)) hr
      rw [e1]
      cases r with
      | none =>
        obtain ⟨O2, st3, e2, h3, hle2, h4⟩ := ih (st := (i1, st.2)) (st' := (j1, st'.2)) ⟨h1, h.2⟩ (hz.mono hle)
          (fun x hx => (hl' x hx).mono hle) he
        exact ⟨O2, st3, e2, h3, fun m ak x => hle2 _ _ (hle _ _ x), h4⟩
      | some s' =>
        simp only [Option.map_some] at he ⊢
        cases hi : EarleyStateSet.insert addr (i1, st.2) s' with
        | panic p => rw [hi] at he; cases he
        | oof => rw [hi] at he; cases he
        | ok r =>
          obtain ⟨st2, c⟩ := r
          rw [hi] at he
          obtain ⟨hs1, hs2⟩ := h2 s' rfl
          obtain ⟨st2', e3, h3⟩ := StX.insert (st := (i1, st.2)) (st' := (j1, st'.2)) ⟨h1, h.2⟩ hi
          obtain ⟨hz2, -⟩ := KCurOk.insert (st := (i1, st.2)) (hz.mono hle) hi hs1 (fun h0 => absurd h0 hs2)
          obtain ⟨O2, st3, e4, h4, hle2, h5⟩ := ih h3 hz2 (fun x hx => (hl' x hx).mono hle) he
          simp only [e3]
          exact ⟨O2, st3, e4, h4, fun m ak x => hle2 _ _ (hle _ _ x), h5⟩

theorem StX.fromStates {n : Nat} (l : List (EarleyState T NT AK AV)) :
    ∀ {st st₁ : Inner T AK V × EarleyStateSet T NT AK AV}
      {st' : Inner T (ExactKey AK) V × EarleyStateSet T NT (ExactKey AK) AV}, StX O st st' →
    KCurOk addr O n st.2 → (∀ s ∈ l, EntryOk O s ∧ Asked n st.2 s) →
    EarleyStateSet.fromStates addr l st = .ok st₁ →
    ∃ st₁', EarleyStateSet.fromStates addr (l.map (ρx).estate) st' = .ok st₁' ∧
      StX O st₁ st₁' ∧ KCurOk addr O n st₁.2 := by
  induction l with
  | nil => intro st st₁ st' h hz _ he; cases he; exact ⟨st', rfl, h, hz⟩
  | cons s l ih =>
    intro st st₁ st' h hz hl he
    rw [List.map_cons]
    rw [EarleyStateSet.fromStates] at he ⊢
    cases hr : EarleyStateSet.insert addr st s with
    | panic p => rw [hr] at he; cases he
    | oof => rw [hr] at he; cases he
    | ok r =>
      obtain ⟨st2, c2⟩ := r
      rw [hr] at he
      obtain ⟨st2', e1, h1⟩ := h.insert hr
      have hs := hl s (by simp)
      obtain ⟨hz2, hsub⟩ := hz.insert hr hs.1 hs.2
      obtain ⟨st3, e2, h2, h3⟩ := ih h1 hz2 (fun x hx => by
        have := hl x (List.mem_cons_of_mem _ hx)
        exact ⟨this.1, this.2.mono hsub⟩) he
      refine ⟨st3, ?_, h2, h3⟩
      simp only [e1]
      exact e2

theorem XRel.newStart (hg : XGrammar g g') (h : XRel O i i') {st : Inner T AK V × EarleyStateSet T NT AK AV}
    (he : EarleyStateSet.newStart addr g i = .ok st) :
    ∃ st', EarleyStateSet.newStart addr g' i' = .ok st' ∧ StX O st st' ∧ KCurOk addr O 0 st.2 := by
  simp only [EarleyStateSet.newStart, Grammar.getRule, hg.start, hg.rule] at he ⊢
  cases hr : g.tryGetRule g.startSymbol with
  | none => rw [hr] at he; cases he
  | some r =>
    rw [hr] at he
    simp only [Option.map_some, Res.expect] at he ⊢
    have := StX.fromStates (O := O) (n := 0) (r.prodRefs.map fun p => EarleyState.fromProdStart p 0)
      (st := (i, [])) (st' := (i', [])) ⟨h, rfl⟩ kCurOk_nil (by
        intro s hs
        obtain ⟨p, hp, rfl⟩ := List.mem_map.1 hs
        exact ⟨⟨rfl, by simp [EarleyState.fromProdStart]⟩, fun h0 => absurd h0 (hg.nonempty r hr p hp)⟩) he
    rw [Renaming.prodRefs, List.map_map]
    rw [List.map_map] at this
    exact this

theorem XRel.parseLoop (hg : XGrammar g g') {fuel : Nat} (toks : List (Token T V)) :
    ∀ {O : Nat → AK → Prop} {i : Inner T AK V} {i' : Inner T (ExactKey AK) V}
      {before : List (EarleyStateSet T NT AK AV)} {last : EarleyStateSet T NT AK AV}
      {st : Inner T AK V × EarleyStateSet T NT AK AV}, XRel O i i' →
    (∀ Z ∈ before, KSetOk O Z) → KSetOk O last → Bongo.parseLoop addr g fuel before last i toks = .ok st →
    ∃ O' st', Bongo.parseLoop addr g' fuel (before.map (ρx).eset) ((ρx).eset last) i' toks = .ok st' ∧
      StX O' st st' := by
  induction toks with
  | nil => intro O i i' before last st h _ _ he; cases he; exact ⟨O, _, rfl, h, rfl⟩
  | cons tok toks ih =>
    intro O i i' before last st h hb hl he
    rw [Bongo.parseLoop] at he ⊢
    rw [Renaming.eset_states]
    cases hr : EarleyStateSet.shift addr tok (EarleyStateSet.states last) (i, []) with
    | panic p => rw [hr] at he; cases he
    | oof => rw [hr] at he; cases he
    | ok st1 =>
      rw [hr] at he
      simp only at he
      obtain ⟨O1, st1', e1, h1, hle, hz⟩ := StX.shift (n := (before ++ [last]).length) (st' := (i', []))
        (EarleyStateSet.states last) ⟨h, rfl⟩ kCurOk_nil hl.entry hr
      have hb1 : ∀ Z ∈ before ++ [last], KSetOk O1 Z := by
        intro Z hZ
        rcases List.mem_append.1 hZ with hZ | hZ
        · exact (hb Z hZ).mono hle
        · rw [List.mem_singleton.1 hZ]; exact hl.mono hle
      have hbm : before.map (ρx).eset ++ [(ρx).eset last] = (before ++ [last]).map (ρx).eset := by simp
      simp only [e1]
      rw [hbm]
      split at he
      · rename_i i2 new hc
        obtain ⟨O2, st2', e2, h2, hle2, hz2⟩ := h1.closeState hg hb1 hz hc
        obtain ⟨i2', z2'⟩ := st2'
        have hz' : z2' = (ρx).eset new := h2.2
        subst hz'
        simp only [e2]
        exact ih h2.1 (fun Z hZ => (hb1 Z hZ).mono hle2) hz2 he
      · cases he
      · cases he

/-- A parse that returns does what it would do if all keys were told apart. -/
theorem XRel.parseInner (hg : XGrammar g g') {fuel : Nat} {toks : List (Token T V)} (h : XRel O i i')
    {r : Option Nat} (he : Bongo.parseInner addr g fuel i toks = .ok (j, r)) :
    ∃ O' j', Bongo.parseInner addr g' fuel i' toks = .ok (j', r) ∧ XRel O' j j' := by
  unfold Bongo.parseInner at he ⊢
  split at he
  · rename_i st hs
    obtain ⟨st', e1, h1, hz⟩ := h.newStart hg hs
    simp only [e1]
    split at he
    · rename_i i1 init hc
      obtain ⟨O1, st1, e2, h2, -, hz1⟩ := h1.closeState hg (prev := []) (by simp) hz hc
      obtain ⟨i1', z1⟩ := st1
      have hz' : z1 = (ρx).eset init := h2.2
      subst hz'
      rw [List.map_nil] at e2
      simp only [e2]
      split at he
      · rename_i i2 last hp
        obtain ⟨O2, st2, e3, h3⟩ := h2.1.parseLoop hg toks (by simp) hz1 hp
        obtain ⟨i2', z2⟩ := st2
        have hz' : z2 = (ρx).eset last := h3.2
        subst hz'
        rw [List.map_nil] at e3
        simp only [e3, Renaming.getFinal]
        split at he
        · rename_i n hn
          cases he
          exact ⟨O2, i2', rfl, h3.1⟩
        · cases he
        · cases he
      · cases he
      · cases he
    · cases he
    · cases he
  · cases he
  · cases he
end
end Bongo
