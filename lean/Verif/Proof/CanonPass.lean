import Verif.Proof.CanonSim
/-! The sets of the parser are the named ones: the states of a pass. -/
set_option linter.unusedSectionVars false
namespace Bongo
open Std
variable {T NT AK AV V : Type}

/-- The completed state `s` moves an item with value `v` to `K`. -/
def MoveTo (prev : List (EarleyStateSet T NT AK AV)) (Z : EarleyStateSet T NT AK AV)
    (s : EarleyState T NT AK AV) (K : EarleyStateKey T NT AK AV) (v : List Nat) : Prop :=
  s.key.prodState.index = s.key.prodState.prod.numElements ∧
    ∃ Zk, (prev ++ [Z])[s.key.originIndex]? = some Zk ∧ ∃ e, (e, v) ∈ Zk ∧
      e.after = some (.nonterm s.key.prodState.prod.head) ∧ K = e.next

section
variable [Ord T] [Ord NT] [Ord AK] [Ord V] [DecidableEq T] [DecidableEq NT]
variable [TransOrd T] [TransOrd NT] [TransOrd AK] [TransOrd V]
variable [LawfulEqOrd T] [LawfulEqOrd NT] [LawfulEqOrd AK] [LawfulEqOrd V]
variable {P : NName T NT AK AV → CC T NT AK AV V → Prop}
variable {sg : StartGrammar T NT AK AV} {prev : List (EarleyStateSet T NT AK AV)}
  {Z : EarleyStateSet T NT AK AV}

/-- `complete` of one state. -/
theorem complete_sim {s : EarleyState T NT AK AV} {tab : Nat → Option (NName T NT AK AV)}
    {I I' : Inner T AK V} {l : List (EarleyState T NT AK AV)} (h : CSound P tab I)
    {u : List (NName T NT AK AV)} (hu : Nmd tab s.value u)
    (hP : ∀ ak K v, s.key.prodState.prod.actionKey.asBase = some ak → MoveTo prev Z s K v →
      P (prev.length, K) (.branch ak u))
    (hm : s.complete prev Z I = .ok (I', l)) :
    ∃ tab', (∀ n ν, tab n = some ν → tab' n = some ν) ∧ CSound P tab' I' ∧
      (∀ s' ∈ l, ∃ v n, MoveTo prev Z s s'.key v ∧ s'.value = v ++ [n] ∧
        tab' n = some (prev.length, s'.key)) ∧
      (∀ K v, MoveTo prev Z s K v → ∃ s' ∈ l, s'.key = K) := by
  rw [complete_eq] at hm
  split at hm
  · next hc =>
    rw [ProdState.isComplete_iff] at hc
    have hc' : s.key.prodState.index = s.key.prodState.prod.numElements := hc
    cases hZ : (prev ++ [Z])[s.key.originIndex]? with
    | none => rw [hZ] at hm; cases hm
    | some Zk =>
      rw [hZ] at hm
      simp only at hm
      cases hak : s.key.prodState.prod.actionKey.asBase with
      | none =>
        rcases completeLoop_startKey (I := I) hak (EarleyStateSet.states Zk) with
          ⟨k1, k2⟩ | ⟨k1, -⟩
        · rw [k1] at hm
          simp only [Res.ok.injEq, _root_.Prod.mk.injEq] at hm
          obtain ⟨rfl, rfl⟩ := hm
          refine ⟨tab, fun _ _ h => h, h, by simp, ?_⟩
          rintro K v ⟨-, Zk', e1, e, e2, e3, -⟩
          rw [hZ] at e1; cases e1
          exact absurd e3 (k2 ⟨e, v⟩ (mem_states.2 e2))
        · rw [k1] at hm; cases hm
      | some ak =>
        obtain ⟨tab', k1, -, k3, k4, k5⟩ := completeLoop_sim (j := prev.length) hak
          (EarleyStateSet.states Zk) h hu (by
            intro st hst ha
            exact hP ak _ st.value hak ⟨hc', Zk, hZ, st.key, mem_states.1 hst, ha, rfl⟩) hm
        refine ⟨tab', k1, k3, ?_, ?_⟩
        · intro s' hs'
          obtain ⟨st, m1, m2, m3, n, m4, m5, -⟩ := k4 s' hs'
          refine ⟨st.value, n, ⟨hc', Zk, hZ, st.key, mem_states.1 m1, m2, m3⟩, m4, ?_⟩
          rw [m5, m3]
        · rintro K v ⟨-, Zk', e1, e, e2, e3, rfl⟩
          rw [hZ] at e1; cases e1
          exact k5 ⟨e, v⟩ (mem_states.2 e2) e3
  · next hc =>
    simp only [Res.ok.injEq, _root_.Prod.mk.injEq] at hm
    obtain ⟨rfl, rfl⟩ := hm
    refine ⟨tab, fun _ _ h => h, h, by simp, ?_⟩
    rintro K v ⟨e1, -⟩
    rw [Bool.not_eq_true, ← Bool.not_eq_true, ProdState.isComplete_iff] at hc
    exact absurd e1 hc

/-- The states one pass produces: where they come from, and in which order. -/
theorem closureStates_sim (hw : sg.WF) (l : List (EarleyState T NT AK AV))
    {tab : Nat → Option (NName T NT AK AV)} {I I' : Inner T AK V} {out : List (EarleyState T NT AK AV)}
    (h : CSound P tab I)
    (hl : ∀ s ∈ l, ∃ u, Nmd tab s.value u ∧ ∀ ak K v, s.key.prodState.prod.actionKey.asBase = some ak →
      MoveTo prev Z s K v → P (prev.length, K) (.branch ak u))
    (hm : closureStates sg prev Z l I = .ok (I', out)) :
    ∃ tab', (∀ n ν, tab n = some ν → tab' n = some ν) ∧ CSound P tab' I' ∧
      (∀ s' ∈ out, (∃ s ∈ l, ∃ q ∈ sg.prods, s.key.after = some (.nonterm q.head) ∧
          s' = ⟨⟨⟨q, 0⟩, prev.length⟩, []⟩) ∨
        ∃ s ∈ l, ∃ v n, MoveTo prev Z s s'.key v ∧ s'.value = v ++ [n] ∧
          tab' n = some (prev.length, s'.key)) ∧
      (∀ s ∈ l, ∀ q ∈ sg.prods, s.key.after = some (.nonterm q.head) →
        (⟨⟨⟨q, 0⟩, prev.length⟩, []⟩ : EarleyState T NT AK AV) ∈ out) ∧
      (∀ s ∈ l, ∀ K v, MoveTo prev Z s K v → ∃ s' ∈ out, s'.key = K) ∧
      (∀ o₁ s' o₂, out = o₁ ++ s' :: o₂ → (∀ x ∈ o₁, x.key ≠ s'.key) → s'.key.prodState.index ≠ 0 →
        ∃ l₁ s l₂ v n, l = l₁ ++ s :: l₂ ∧ MoveTo prev Z s s'.key v ∧ s'.value = v ++ [n] ∧
          tab' n = some (prev.length, s'.key) ∧ ∀ s₁ ∈ l₁, ∀ v', ¬ MoveTo prev Z s₁ s'.key v') := by
  induction l generalizing I out tab with
  | nil =>
    simp only [closureStates, Res.ok.injEq, _root_.Prod.mk.injEq] at hm
    obtain ⟨rfl, rfl⟩ := hm
    exact ⟨tab, fun _ _ h => h, h, by simp, by simp, by simp, by simp⟩
  | cons s l ih =>
    rw [closureStates] at hm
    cases hc : s.complete prev Z I with
    | panic w => rw [hc] at hm; cases hm
    | oof => rw [hc] at hm; cases hm
    | ok r =>
      obtain ⟨I1, comp⟩ := r
      rw [hc] at hm
      simp only at hm
      cases hr : closureStates sg prev Z l I1 with
      | panic w => rw [hr] at hm; cases hm
      | oof => rw [hr] at hm; cases hm
      | ok r =>
        obtain ⟨I2, rest⟩ := r
        rw [hr] at hm
        simp only [Res.ok.injEq, _root_.Prod.mk.injEq] at hm
        obtain ⟨rfl, rfl⟩ := hm
        obtain ⟨u, hu, hP⟩ := hl s (by simp)
        obtain ⟨tab1, a1, a2, a3, a4⟩ := complete_sim h hu hP hc
        obtain ⟨tab2, b1, b2, b3, b4, b5, b6⟩ := ih a2 (by
          intro s' hs'
          obtain ⟨u, k1, k2⟩ := hl s' (by simp [hs'])
          exact ⟨u, k1.ext a1, k2⟩) hr
        refine ⟨tab2, fun n ν hn => b1 n ν (a1 n ν hn), b2, ?_, ?_, ?_, ?_⟩
        · intro s' hs'
          rcases List.mem_append.1 hs' with hs' | hs'
          · rcases List.mem_append.1 hs' with hs' | hs'
            · obtain ⟨q, k1, k2, k3⟩ := (mem_predict hw).1 hs'
              exact Or.inl ⟨s, by simp, q, k1, k2, k3⟩
            · obtain ⟨v, n, k1, k2, k3⟩ := a3 s' hs'
              exact Or.inr ⟨s, by simp, v, n, k1, k2, b1 _ _ k3⟩
          · rcases b3 s' hs' with ⟨x, k1, k2⟩ | ⟨x, k1, k2⟩
            · exact Or.inl ⟨x, by simp [k1], k2⟩
            · exact Or.inr ⟨x, by simp [k1], k2⟩
        · intro s' hs' q hq ha
          rcases List.mem_cons.1 hs' with rfl | hs'
          · simp only [List.mem_append]
            exact Or.inl (Or.inl ((mem_predict hw).2 ⟨q, hq, ha, rfl⟩))
          · exact List.mem_append_right _ (b4 s' hs' q hq ha)
        · intro s' hs' K v hst
          rcases List.mem_cons.1 hs' with rfl | hs'
          · obtain ⟨x, k1, k2⟩ := a4 K v hst
            exact ⟨x, by simp [k1], k2⟩
          · obtain ⟨x, k1, k2⟩ := b5 s' hs' K v hst
            exact ⟨x, List.mem_append_right _ k1, k2⟩
        · intro o₁ s' o₂ heq hno h0
          rcases List.append_eq_append_iff.1 heq with ⟨A, e1, e2⟩ | ⟨B, e1, e2⟩
          · -- in the rest
            obtain ⟨l₁, x, l₂, v, n, k1, k2, k3, k4, k5⟩ := b6 A s' o₂ e2 (fun y hy => hno y (by
              rw [e1]; exact List.mem_append_right _ hy)) h0
            refine ⟨s :: l₁, x, l₂, v, n, by rw [k1]; rfl, k2, k3, k4, ?_⟩
            intro s₁ hs₁ v' hst
            rcases List.mem_cons.1 hs₁ with rfl | hs₁
            · obtain ⟨y, m1, m2⟩ := a4 _ _ hst
              exact hno y (by rw [e1]; simp [m1]) m2
            · exact k5 s₁ hs₁ v' hst
          · cases B with
            | nil =>
              simp only [List.nil_append, List.append_nil] at e1 e2
              obtain ⟨l₁, x, l₂, v, n, k1, k2, k3, k4, k5⟩ := b6 [] s' o₂ e2.symm (by simp) h0
              refine ⟨s :: l₁, x, l₂, v, n, by rw [k1]; rfl, k2, k3, k4, ?_⟩
              intro s₁ hs₁ v' hst
              rcases List.mem_cons.1 hs₁ with rfl | hs₁
              · obtain ⟨y, m1, m2⟩ := a4 _ _ hst
                exact hno y (by rw [← e1]; simp [m1]) m2
              · exact k5 s₁ hs₁ v' hst
            | cons b B =>
              simp only [List.cons_append, List.cons.injEq] at e2
              obtain ⟨rfl, -⟩ := e2
              have hmem : s' ∈ s.predict sg prev.length ++ comp := by rw [e1]; simp
              rcases List.mem_append.1 hmem with hs' | hs'
              · obtain ⟨q, -, -, rfl⟩ := (mem_predict hw).1 hs'
                exact absurd rfl h0
              · obtain ⟨v, n, k1, k2, k3⟩ := a3 s' hs'
                exact ⟨[], s, l, v, n, rfl, k1, k2, b1 _ _ k3, by simp⟩

variable {addr : StartNonTerminal NT → Nat → Nat} {toks : List (Token T V)} {N : Nat}
  {L : Nat → Unit → Prop}

/-- Inserting a list of states: an item that was not there gets the first value. -/
theorem insertAll_first (hg : SGOk addr sg) {j : Nat} (l : List (EarleyState T NT AK AV))
    {I : Inner T AK V} (ht : Typed (unitLabel sg toks) N I L) {Z : EarleyStateSet T NT AK AV}
    (hz : SetOk (unitLabel sg toks) addr j L Z)
    (hl : ∀ s ∈ l, StOk (unitLabel sg toks) j L s.key s.value) {acc c : WasChanged} {I' Z'}
    (hm : changeIterM l (EarleyStateSet.insert addr) (I, Z) acc = .ok ((I', Z'), c)) :
    (∀ e ∈ Z, e ∈ Z') ∧ (∀ s ∈ l, ∃ v, (s.key, v) ∈ Z') ∧
      ∀ e ∈ Z', e ∈ Z ∨ (∀ v, (e.1, v) ∉ Z) ∧ ∃ o₁ s o₂, l = o₁ ++ s :: o₂ ∧ s.key = e.1 ∧
        s.value = e.2 ∧ ∀ x ∈ o₁, x.key ≠ e.1 := by
  induction l generalizing I Z acc with
  | nil =>
    simp only [changeIterM, Res.ok.injEq, _root_.Prod.mk.injEq] at hm
    obtain ⟨⟨rfl, rfl⟩, -⟩ := hm
    exact ⟨fun _ h => h, by simp, fun _ h => Or.inl h⟩
  | cons s l ih =>
    rcases insert_spec hg.wf hg.addr ht hz (hl s (by simp)) with
      ⟨I1, Z1, c1, h1, h2, h3, h4, h5, h6, ⟨v0, h7⟩, -, -⟩ | ⟨h1, h2⟩
    · rw [changeIterM, h1] at hm
      obtain ⟨g1, g2, g3⟩ := ih h2 h3 (fun s hs => hl s (by simp [hs])) hm
      refine ⟨fun e he => g1 e (h5 e he), ?_, ?_⟩
      · intro s' hs'
        rcases List.mem_cons.1 hs' with rfl | hs'
        · exact ⟨v0, g1 _ h7⟩
        · exact g2 s' hs'
      · intro e he
        rcases g3 e he with he1 | ⟨k1, o₁, s', o₂, k2, k3, k4, k5⟩
        · rcases h6 e he1 with he | rfl
          · exact Or.inl he
          · by_cases hin : ∃ v, (s.key, v) ∈ Z
            · obtain ⟨v, hv⟩ := hin
              have := h3.unique hg.wf hg.addr he1 (h5 _ hv) rfl rfl
              rw [this]; exact Or.inl hv
            · exact Or.inr ⟨fun v hv => hin ⟨v, hv⟩, [], s, l, rfl, rfl, rfl, by simp⟩
        · right
          refine ⟨fun v hv => k1 v (h5 _ hv), s :: o₁, s', o₂, by rw [k2]; rfl, k3, k4, ?_⟩
          intro x hx
          rcases List.mem_cons.1 hx with rfl | hx
          · intro hxe; rw [← hxe] at k1; exact k1 v0 h7
          · exact k5 x hx
    · rw [changeIterM, h1] at hm; cases hm

/-- Inserting a list of states keeps the contents of named nodes allowed. -/
theorem insertAll_sound {tab : Nat → Option (NName T NT AK AV)} {Zf : EarleyStateSet T NT AK AV}
    (l : List (EarleyState T NT AK AV))
    (hl : ∀ s ∈ l, ∀ k v, (k, v) ∈ Zf → EarleyStateKey.cmp addr s.key k = .eq →
      v.length = s.value.length → ∀ (x n m : Nat), v[x]? = some n → s.value[x]? = some m →
      ∃ ν ν', tab n = some ν ∧ tab m = some ν' ∧ ∀ c, P ν' c → P ν c)
    {I : Inner T AK V} (h : CSound P tab I) {Z : EarleyStateSet T NT AK AV} {acc c : WasChanged} {I' Z'}
    (hm : changeIterM l (EarleyStateSet.insert addr) (I, Z) acc = .ok ((I', Z'), c))
    (hsub : ∀ e ∈ Z', e ∈ Zf) : CSound P tab I' := by
  induction l generalizing I Z acc with
  | nil =>
    simp only [changeIterM, Res.ok.injEq, _root_.Prod.mk.injEq] at hm
    obtain ⟨⟨rfl, rfl⟩, -⟩ := hm
    exact h
  | cons s l ih =>
    rw [changeIterM] at hm
    cases hi : EarleyStateSet.insert addr (I, Z) s with
    | panic w => rw [hi] at hm; cases hm
    | oof => rw [hi] at hm; cases hm
    | ok r =>
      obtain ⟨⟨I1, Z1⟩, c1⟩ := r
      rw [hi] at hm
      simp only at hm
      refine ih (fun s hs => hl s (by simp [hs])) ?_ hm
      -- one insertion
      have hZ1 : ∀ e ∈ Z1, e ∈ Z' := insertAll_keep l hm
      unfold EarleyStateSet.insert at hi
      simp only at hi
      cases hgt : BMap.get? (EarleyStateKey.cmp addr) Z s.key with
      | none =>
        rw [hgt] at hi
        simp only [Res.ok.injEq, _root_.Prod.mk.injEq] at hi
        rw [← hi.1.1]; exact h
      | some existing =>
        rw [hgt] at hi
        simp only at hi
        split at hi
        · next hlen =>
          cases hch : changeIterM (existing.zip s.value)
              (fun (i : Inner T AK V) en => i.addAll en.1 en.2) I with
          | panic w => rw [hch] at hi; cases hi
          | oof => rw [hch] at hi; cases hi
          | ok r =>
            obtain ⟨J, d⟩ := r
            rw [hch] at hi
            simp only [Res.ok.injEq, _root_.Prod.mk.injEq] at hi
            obtain ⟨⟨rfl, rfl⟩, rfl⟩ := hi
            obtain ⟨k', hk1, hk2⟩ := BMap.get?_mem hgt
            refine (CSound.add_alls _ h ?_ hch).1
            intro pr hpr
            obtain ⟨x, hx⟩ := List.mem_iff_getElem?.1 hpr
            obtain ⟨hx1, hx2⟩ := List.getElem?_zip_eq_some.1 hx
            exact hl s (by simp) k' existing (hsub _ (hZ1 _ hk1)) hk2 hlen x _ _ hx1 hx2
        · cases hi
where
  insertAll_keep : ∀ (l : List (EarleyState T NT AK AV)) {I : Inner T AK V}
      {Z : EarleyStateSet T NT AK AV} {acc c : WasChanged} {I' Z'},
      changeIterM l (EarleyStateSet.insert addr) (I, Z) acc = .ok ((I', Z'), c) → ∀ e ∈ Z, e ∈ Z' := by
    intro l
    induction l with
    | nil =>
      intro I Z acc c I' Z' hm e he
      simp only [changeIterM, Res.ok.injEq, _root_.Prod.mk.injEq] at hm
      rw [← hm.1.2]; exact he
    | cons s l ih =>
      intro I Z acc c I' Z' hm e he
      rw [changeIterM] at hm
      cases hi : EarleyStateSet.insert addr (I, Z) s with
      | panic w => rw [hi] at hm; cases hm
      | oof => rw [hi] at hm; cases hm
      | ok r =>
        obtain ⟨⟨I1, Z1⟩, c1⟩ := r
        rw [hi] at hm
        simp only at hm
        refine ih hm e ?_
        unfold EarleyStateSet.insert at hi
        simp only at hi
        cases hgt : BMap.get? (EarleyStateKey.cmp addr) Z s.key with
        | none =>
          rw [hgt] at hi
          simp only [Res.ok.injEq, _root_.Prod.mk.injEq] at hi
          rw [← hi.1.2]
          exact (BMap.mem_insert_of_vacant hgt e).2 (Or.inr he)
        | some existing =>
          rw [hgt] at hi
          simp only at hi
          split at hi
          · cases hch : changeIterM (existing.zip s.value)
                (fun (i : Inner T AK V) en => i.addAll en.1 en.2) I with
            | panic w => rw [hch] at hi; cases hi
            | oof => rw [hch] at hi; cases hi
            | ok r =>
              rw [hch] at hi
              simp only [Res.ok.injEq, _root_.Prod.mk.injEq] at hi
              rw [← hi.1.2]; exact he
          · cases hi
end
end Bongo
