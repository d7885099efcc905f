import Verif.Proof.Canon
/-! The sets of the parser are the named ones: one pass. -/
set_option linter.unusedSectionVars false
namespace Bongo
open Std
variable {T NT AK AV V : Type}

/-- The nodes have the names. -/
def Nmd (tab : Nat → Option (NName T NT AK AV)) (v : List Nat) (v' : List (NName T NT AK AV)) : Prop :=
  v.map tab = v'.map some

/-- The nodes of the content have the names. -/
def NmdC (tab : Nat → Option (NName T NT AK AV)) : NodeContent T AK V → CC T NT AK AV V → Prop
  | .leaf k v, .leaf k' v' => k = k' ∧ v = v'
  | .branch a ns, .branch b νs => a = b ∧ Nmd tab ns νs
  | _, _ => False

theorem Nmd.get {tab : Nat → Option (NName T NT AK AV)} {v : List Nat} {v' : List (NName T NT AK AV)}
    (h : Nmd tab v v') {x n : Nat} (hx : v[x]? = some n) : ∃ ν, v'[x]? = some ν ∧ tab n = some ν := by
  have h' : (v.map tab)[x]? = (v'.map some)[x]? := by rw [h]
  rw [List.getElem?_map, List.getElem?_map, hx] at h'
  cases hv : v'[x]? with
  | none => rw [hv] at h'; simp at h'
  | some ν => rw [hv] at h'; simp at h'; exact ⟨ν, rfl, h'⟩

theorem Nmd.get' {tab : Nat → Option (NName T NT AK AV)} {v : List Nat} {v' : List (NName T NT AK AV)}
    (h : Nmd tab v v') {x : Nat} {ν} (hx : v'[x]? = some ν) : ∃ n, v[x]? = some n ∧ tab n = some ν := by
  have h' : (v.map tab)[x]? = (v'.map some)[x]? := by rw [h]
  rw [List.getElem?_map, List.getElem?_map, hx] at h'
  cases hv : v[x]? with
  | none => rw [hv] at h'; simp at h'
  | some n => rw [hv] at h'; simp at h'; exact ⟨n, rfl, h'⟩

theorem Nmd.len {tab : Nat → Option (NName T NT AK AV)} {v : List Nat} {v' : List (NName T NT AK AV)}
    (h : Nmd tab v v') : v.length = v'.length := by
  have := congrArg List.length h; simpa using this

theorem Nmd.unique {tab : Nat → Option (NName T NT AK AV)} {v : List Nat}
    {v' v'' : List (NName T NT AK AV)} (h : Nmd tab v v') (h' : Nmd tab v v'') : v' = v'' := by
  have : v'.map some = v''.map some := h.symm.trans h'
  exact (List.map_inj_right (by intro a b; simp)).1 this

theorem Nmd.snoc {tab : Nat → Option (NName T NT AK AV)} {v : List Nat} {v' : List (NName T NT AK AV)}
    {n ν} (h : Nmd tab v v') (hn : tab n = some ν) : Nmd tab (v ++ [n]) (v' ++ [ν]) := by
  unfold Nmd at *
  rw [List.map_append, List.map_append, h]; simp [hn]

theorem Nmd.ext {tab tab' : Nat → Option (NName T NT AK AV)} (hx : ∀ n ν, tab n = some ν → tab' n = some ν)
    {v : List Nat} {v' : List (NName T NT AK AV)} (h : Nmd tab v v') : Nmd tab' v v' := by
  unfold Nmd at *
  rw [← h]
  apply List.map_congr_left
  intro n hn
  obtain ⟨x, hxn⟩ := List.mem_iff_getElem?.1 hn
  obtain ⟨ν, -, h2⟩ := Nmd.get (v := v) (v' := v') h hxn
  rw [h2, hx _ _ h2]

theorem NmdC.ext {tab tab' : Nat → Option (NName T NT AK AV)}
    (hx : ∀ n ν, tab n = some ν → tab' n = some ν) {c : NodeContent T AK V} {c' : CC T NT AK AV V}
    (h : NmdC tab c c') : NmdC tab' c c' := by
  cases c <;> cases c' <;> first | exact h | exact ⟨h.1, h.2.ext hx⟩

/-- The set is the named one. -/
structure SimSet (tab : Nat → Option (NName T NT AK AV)) (Z : EarleyStateSet T NT AK AV)
    (S : KSet T NT AK AV) : Prop where
  fwd : ∀ K v, (K, v) ∈ Z → ∃ v', S K v' ∧ Nmd tab v v'
  bwd : ∀ K v', S K v' → ∃ v, (K, v) ∈ Z ∧ Nmd tab v v'

theorem SimSet.ext {tab tab' : Nat → Option (NName T NT AK AV)}
    (hx : ∀ n ν, tab n = some ν → tab' n = some ν) {Z : EarleyStateSet T NT AK AV}
    {S : KSet T NT AK AV} (h : SimSet tab Z S) : SimSet tab' Z S := by
  refine ⟨fun K v hK => ?_, fun K v' hK => ?_⟩
  · obtain ⟨v', h1, h2⟩ := h.fwd K v hK; exact ⟨v', h1, h2.ext hx⟩
  · obtain ⟨v, h1, h2⟩ := h.bwd K v' hK; exact ⟨v, h1, h2.ext hx⟩

/-- The node occurs in a value. -/
def Occ (Zs : List (EarleyStateSet T NT AK AV)) (n : Nat) : Prop :=
  ∃ (k : Nat) (Z : EarleyStateSet T NT AK AV) (K : EarleyStateKey T NT AK AV) (v : List Nat),
    Zs[k]? = some Z ∧ (K, v) ∈ Z ∧ n ∈ v

section
variable [Ord T] [Ord AK] [Ord V]

/-- The content is an alternative of the node. -/
def Inner.Holds (I : Inner T AK V) (n : Nat) (c : NodeContent T AK V) : Prop :=
  ∃ a, I.Has n a ∧ I.altAt a = some c

theorem Inner.Holds.mono {I J : Inner T AK V} (h : I.Le J) {n c} (hh : I.Holds n c) : J.Holds n c := by
  obtain ⟨a, h1, h2⟩ := hh
  exact ⟨a, h.has _ _ h1, h.alts _ _ h2⟩

/-- The named nodes have only contents that are allowed. -/
structure CSound (P : NName T NT AK AV → CC T NT AK AV V → Prop)
    (tab : Nat → Option (NName T NT AK AV)) (I : Inner T AK V) : Prop where
  wf : I.WF
  dom : ∀ n ν, tab n = some ν → n < I.nodes.length
  sound : ∀ n ν, tab n = some ν → ∀ c, I.Holds n c → ∃ c', P ν c' ∧ NmdC tab c c'

variable [TransOrd T] [TransOrd AK] [TransOrd V] [LawfulEqOrd T] [LawfulEqOrd AK] [LawfulEqOrd V]
variable {P : NName T NT AK AV → CC T NT AK AV V → Prop}

/-- A new node with a name. -/
theorem CSound.mk_node {tab : Nat → Option (NName T NT AK AV)} {I I' : Inner T AK V} {n : Nat}
    (h : CSound P tab I) {c : NodeContent T AK V}
    (hc : ∀ a ns, c = .branch a ns → ∀ n ∈ ns, n < I.nodes.length) {ν c'} (hP : P ν c')
    (hcc : NmdC tab c c') (hm : I.mkNode c = .ok (I', n)) :
    n = I.nodes.length ∧ I.Le I' ∧ I.nodes.length < I'.nodes.length ∧
      CSound P (fun m => if m = n then some ν else tab m) I' := by
  obtain ⟨j, a, h1, h2, h3, h4, h5, h6⟩ := Inner.mkNode_ok h.wf c hc
  rw [h1] at hm
  simp only [Res.ok.injEq, _root_.Prod.mk.injEq] at hm
  obtain ⟨rfl, rfl⟩ := hm
  have hfresh : ∀ ν, tab I.nodes.length ≠ some ν := fun ν hh => Nat.lt_irrefl _ (h.dom _ _ hh)
  have hx : ∀ m μ, tab m = some μ → (fun m => if m = I.nodes.length then some ν else tab m) m = some μ := by
    intro m μ hm
    simp only
    rw [if_neg]
    · exact hm
    · rintro rfl; exact hfresh _ hm
  refine ⟨rfl, h6, by omega, h2, ?_, ?_⟩
  · intro m μ hm
    split at hm
    · omega
    · have := h.dom m μ hm; omega
  · rintro m μ hm d ⟨b, hb1, hb2⟩
    split at hm
    · next hmn =>
      cases hm
      subst hmn
      rcases (h4 _ _).1 hb1 with hb | ⟨-, rfl⟩
      · exact absurd hb.lt (Nat.lt_irrefl _)
      · have : d = c := by
          have := (h5 _ c).2 (Or.inr ⟨rfl, rfl⟩)
          rw [hb2] at this; cases this; rfl
        subst this
        exact ⟨c', hP, hcc.ext hx⟩
    · next hmn =>
      rcases (h4 _ _).1 hb1 with hb | ⟨rfl, -⟩
      · have hlt : I.Holds m d := by
          refine ⟨b, hb, ?_⟩
          rcases (h5 _ _).1 hb2 with h' | ⟨rfl, rfl⟩
          · exact h'
          · -- `b` is an alternative of an old node
            have hbl : b < I.alternatives.idToValue.length := hb.alt_lt h.wf
            have := List.getElem?_eq_getElem hbl
            have h7 : I.altAt b = some _ := this
            have h8 := h6.alts _ _ h7
            rw [hb2] at h8; rw [h7, h8]
        obtain ⟨d', k1, k2⟩ := h.sound m μ hm d hlt
        exact ⟨d', k1, k2.ext hx⟩
      · exact absurd rfl hmn

/-- Merging keeps it if the contents of the one name are allowed for the other. -/
theorem CSound.add_alls {tab : Nat → Option (NName T NT AK AV)} (l : List (Nat × Nat))
    {I I' : Inner T AK V} (h : CSound P tab I)
    (hl : ∀ pr ∈ l, ∃ ν ν', tab pr.1 = some ν ∧ tab pr.2 = some ν' ∧ ∀ c, P ν' c → P ν c)
    {acc c : WasChanged}
    (hm : changeIterM l (fun (i : Inner T AK V) en => i.addAll en.1 en.2) I acc = .ok (I', c)) :
    CSound P tab I' ∧ I'.nodes.length = I.nodes.length := by
  induction l generalizing I acc with
  | nil => simp only [changeIterM, Res.ok.injEq, _root_.Prod.mk.injEq] at hm; rw [← hm.1]; exact ⟨h, rfl⟩
  | cons pr l ih =>
    obtain ⟨ν, ν', e1, e2, e3⟩ := hl pr (by simp)
    obtain ⟨J, c1, h1, h2, h3, h4, h5, h6, h7⟩ := Inner.addAll_ok h.wf (h.dom _ _ e1) (h.dom _ _ e2)
    rw [changeIterM, h1] at hm
    have hJ : CSound P tab J := by
      refine ⟨h6, fun n μ hn => by rw [h3]; exact h.dom n μ hn, ?_⟩
      rintro n μ hn d ⟨b, hb1, hb2⟩
      have hb2' : I.altAt b = some d := by
        have : J.altAt b = I.altAt b := by unfold Inner.altAt; rw [h2]
        rw [← this]; exact hb2
      rcases (h4 n b).1 hb1 with hb | ⟨rfl, hb⟩
      · exact h.sound n μ hn d ⟨b, hb, hb2'⟩
      · rw [e1] at hn
        cases hn
        obtain ⟨d', k1, k2⟩ := h.sound _ _ e2 d ⟨b, hb, hb2'⟩
        exact ⟨d', e3 _ k1, k2⟩
    obtain ⟨g1, g2⟩ := ih hJ (fun pr hpr => hl pr (by simp [hpr])) hm
    exact ⟨g1, by omega⟩

variable [DecidableEq NT]

/-- Completing a state. -/
theorem completeLoop_sim {s : EarleyState T NT AK AV} {ak : AK} {j : Nat}
    (hak : s.key.prodState.prod.actionKey.asBase = some ak) {u : List (NName T NT AK AV)}
    (sts : List (EarleyState T NT AK AV)) {tab : Nat → Option (NName T NT AK AV)} {I I' : Inner T AK V}
    {l : List (EarleyState T NT AK AV)} (h : CSound P tab I) (hu : Nmd tab s.value u)
    (hP : ∀ st ∈ sts, st.key.after = some (.nonterm s.key.prodState.prod.head) →
      P (j, st.key.next) (.branch ak u))
    (hm : s.completeLoop sts I = .ok (I', l)) :
    ∃ tab', (∀ n ν, tab n = some ν → tab' n = some ν) ∧ I.nodes.length ≤ I'.nodes.length ∧
      CSound P tab' I' ∧
      (∀ s' ∈ l, ∃ st ∈ sts, st.key.after = some (.nonterm s.key.prodState.prod.head) ∧
        s'.key = st.key.next ∧ ∃ n, s'.value = st.value ++ [n] ∧ tab' n = some (j, st.key.next) ∧
          I.nodes.length ≤ n) ∧
      (∀ st ∈ sts, st.key.after = some (.nonterm s.key.prodState.prod.head) →
        ∃ s' ∈ l, s'.key = st.key.next) := by
  induction sts generalizing I l tab with
  | nil =>
    simp only [EarleyState.completeLoop, Res.ok.injEq, _root_.Prod.mk.injEq] at hm
    obtain ⟨rfl, rfl⟩ := hm
    exact ⟨tab, fun _ _ h => h, Nat.le_refl _, h, by simp, by simp⟩
  | cons st sts ih =>
    have hskip : st.key.after ≠ some (.nonterm s.key.prodState.prod.head) →
        s.completeLoop (st :: sts) I = s.completeLoop sts I →
        ∃ tab', (∀ n ν, tab n = some ν → tab' n = some ν) ∧ I.nodes.length ≤ I'.nodes.length ∧
          CSound P tab' I' ∧
          (∀ s' ∈ l, ∃ st' ∈ st :: sts, st'.key.after = some (.nonterm s.key.prodState.prod.head) ∧
            s'.key = st'.key.next ∧ ∃ n, s'.value = st'.value ++ [n] ∧ tab' n = some (j, st'.key.next) ∧
              I.nodes.length ≤ n) ∧
          (∀ st' ∈ st :: sts, st'.key.after = some (.nonterm s.key.prodState.prod.head) →
            ∃ s' ∈ l, s'.key = st'.key.next) := by
      intro hne heq
      rw [heq] at hm
      obtain ⟨tab', h1, h2, h3, h4, h5⟩ := ih h hu (fun st hst => hP st (by simp [hst])) hm
      refine ⟨tab', h1, h2, h3, ?_, ?_⟩
      · intro s' hs'
        obtain ⟨st', m1, m2⟩ := h4 s' hs'
        exact ⟨st', List.mem_cons_of_mem _ m1, m2⟩
      · intro st' hst' ha
        rcases List.mem_cons.1 hst' with rfl | hst'
        · exact absurd ha hne
        · exact h5 st' hst' ha
    rcases ProdState.nextElemState_cases st.prodState with ⟨h1, h2⟩ | ⟨e, h1, h2⟩
    · refine hskip ?_ ?_
      · unfold EarleyStateKey.after
        intro h; unfold EarleyState.prodState at h2; rw [h2] at h; cases h
      · rw [EarleyState.completeLoop, h1]
    · cases hel : e.element with
      | term t =>
        refine hskip ?_ ?_
        · unfold EarleyStateKey.after
          intro h; unfold EarleyState.prodState at h2; rw [h2, hel] at h; cases h
        · rw [EarleyState.completeLoop, h1]; simp only [hel, Elem.asNonterm]
      | nonterm nt =>
        by_cases hnt : nt = s.prodState.prod.head
        · have hafter : st.key.after = some (.nonterm s.key.prodState.prod.head) := by
            unfold EarleyStateKey.after
            unfold EarleyState.prodState at h2 hnt
            rw [h2, hel, hnt]
          rw [EarleyState.completeLoop, h1] at hm
          have hak' : s.prodState.actionKey.asBase = some ak := hak
          simp only [hel, Elem.asNonterm, hnt, if_true, hak', Inner.makeBranchNode_eq] at hm
          cases hk : I.mkNode (.branch ak s.value) with
          | panic w => rw [hk] at hm; cases hm
          | oof => rw [hk] at hm; cases hm
          | ok r =>
            obtain ⟨I1, n⟩ := r
            rw [hk] at hm
            simp only at hm
            cases hr : s.completeLoop sts I1 with
            | panic w => rw [hr] at hm; cases hm
            | oof => rw [hr] at hm; cases hm
            | ok r =>
              obtain ⟨I2, rest⟩ := r
              rw [hr] at hm
              simp only [Res.ok.injEq, _root_.Prod.mk.injEq] at hm
              obtain ⟨rfl, rfl⟩ := hm
              obtain ⟨e1, e2, e3, e4⟩ := h.mk_node (by
                rintro a ns ⟨rfl, rfl⟩ m hm
                obtain ⟨x, hx⟩ := List.mem_iff_getElem?.1 hm
                obtain ⟨ν, -, hν⟩ := hu.get hx
                exact h.dom _ _ hν) (hP st (by simp) hafter) (show NmdC tab (.branch ak s.value) (.branch ak u) from ⟨rfl, hu⟩) hk
              have hx1 : ∀ m μ, tab m = some μ →
                  (fun m => if m = n then some (j, st.key.next) else tab m) m = some μ := by
                intro m μ hm
                simp only
                rw [if_neg]
                · exact hm
                · rintro rfl; have := h.dom _ _ hm; omega
              obtain ⟨tab', k1, k2, k3, k4, k5⟩ := ih e4 (hu.ext hx1)
                (fun st hst => hP st (by simp [hst])) hr
              refine ⟨tab', fun m μ hm => k1 m μ (hx1 m μ hm), by omega, k3, ?_, ?_⟩
              · intro s' hs'
                rcases List.mem_cons.1 hs' with rfl | hs'
                · exact ⟨st, by simp, hafter, rfl, n, rfl, k1 _ _ (by simp), by omega⟩
                · obtain ⟨st', m1, m2, m3, n', m4, m5, m6⟩ := k4 s' hs'
                  exact ⟨st', List.mem_cons_of_mem _ m1, m2, m3, n', m4, m5, by omega⟩
              · intro st' hst' ha
                rcases List.mem_cons.1 hst' with rfl | hst'
                · exact ⟨_, List.mem_cons_self, rfl⟩
                · obtain ⟨s', m1, m2⟩ := k5 st' hst' ha
                  exact ⟨s', List.mem_cons_of_mem _ m1, m2⟩
        · refine hskip ?_ ?_
          · unfold EarleyStateKey.after
            intro h; unfold EarleyState.prodState at h2; rw [h2, hel] at h
            injection h with h; injection h with h
            exact hnt h
          · rw [EarleyState.completeLoop, h1]; simp only [hel, Elem.asNonterm, hnt, if_false]
end
end Bongo
