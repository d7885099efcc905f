import Verif.Proof.CanonClose
import Verif.Proof.EarleyRun
/-! The sets of the parser are the named ones: the run over the tokens. -/
set_option linter.unusedSectionVars false
namespace Bongo
open Std
variable {T NT AK AV V : Type}
variable [Ord T] [Ord NT] [Ord AK] [Ord V] [DecidableEq T] [DecidableEq NT]
variable [TransOrd T] [TransOrd NT] [TransOrd AK] [TransOrd V]
variable [LawfulEqOrd T] [LawfulEqOrd NT] [LawfulEqOrd AK] [LawfulEqOrd V]
variable {P : NName T NT AK AV → CC T NT AK AV V → Prop}
variable {sg : StartGrammar T NT AK AV} {prev : List (EarleyStateSet T NT AK AV)}
  {Z Z' : EarleyStateSet T NT AK AV} {prevS : List (KSet T NT AK AV)} {curS : KSet T NT AK AV}
  {tab : Nat → Option (NName T NT AK AV)} {I I' : Inner T AK V}
variable {addr : StartNonTerminal NT → Nat → Nat} {toks : List (Token T V)} {N : Nat}
  {L : Nat → Unit → Prop}

theorem KIter.succ_le {prev : List (KSet T NT AK AV)} {init : KSet T NT AK AV} {m K v}
    (h : KIter sg prev init m K v) : KIter sg prev init (m + 1) K v := KNext.le h

/-- If a pass adds nothing, no later pass does. -/
theorem KIter.stable {prev : List (KSet T NT AK AV)} {init : KSet T NT AK AV} {m}
    (h : KIter sg prev init (m + 1) = KIter sg prev init m) :
    KClose sg prev init = KIter sg prev init m := by
  have hk : ∀ k, KIter sg prev init (m + k) = KIter sg prev init m := by
    intro k
    induction k with
    | zero => rfl
    | succ k ih =>
      show KNext sg prev (KIter sg prev init (m + k)) = _
      rw [ih]; exact h
  have hle : ∀ a b K v, KIter sg prev init a K v → KIter sg prev init (a + b) K v := by
    intro a b K v hh
    induction b with
    | zero => exact hh
    | succ b ih => exact KIter.succ_le ih
  funext K v
  apply propext
  constructor
  · rintro ⟨a, ha⟩
    have := hle a m K v ha
    rw [Nat.add_comm, hk] at this
    exact this
  · intro hh; exact ⟨m, hh⟩

theorem Occ.snoc {Zs : List (EarleyStateSet T NT AK AV)} {Z n} (h : Occ Zs n) : Occ (Zs ++ [Z]) n := by
  obtain ⟨k, Zk, K, v, h1, h2, h3⟩ := h
  exact ⟨k, Zk, K, v, by rw [List.getElem?_append_left (List.getElem?_eq_some_iff.1 h1).1]; exact h1, h2, h3⟩

theorem Occ.grow {Zs : List (EarleyStateSet T NT AK AV)} {Z Z'} (hZ : ∀ e ∈ Z, e ∈ Z') {n}
    (h : Occ (Zs ++ [Z]) n) : Occ (Zs ++ [Z']) n := by
  obtain ⟨k, Zk, K, v, h1, h2, h3⟩ := h
  rcases getElem?_concat h1 with ⟨hlt, h1⟩ | ⟨rfl, rfl⟩
  · exact ⟨k, Zk, K, v, by rw [List.getElem?_append_left hlt]; exact h1, h2, h3⟩
  · exact ⟨Zs.length, Z', K, v, by simp, hZ _ h2, h3⟩

/-- The nodes below a branch occur in values, unless the branch was there before. -/
def KidsOk (Zs : List (EarleyStateSet T NT AK AV)) (N : Nat) (I : Inner T AK V) : Prop :=
  ∀ k a ns, I.altAt k = some (.branch a ns) → (∀ m ∈ ns, Occ Zs m) ∨ ∀ m ∈ ns, m < N

theorem KidsOk.pass (h : KidsOk (prev ++ [Z]) N I) (he : Inner.Ext N (ContentOf Z) I I')
    (hZ : ∀ e ∈ Z, e ∈ Z') : KidsOk (prev ++ [Z']) N I' := by
  intro k a ns hk
  rcases he.new k _ hk with hk | ⟨e, he, ak, -, hc⟩
  · rcases h k a ns hk with h | h
    · exact Or.inl fun m hm => (h m hm).grow hZ
    · exact Or.inr h
  · cases hc
    exact Or.inl fun m hm => ⟨prev.length, Z', e.1, e.2, by simp, hZ _ he, hm⟩

/-- The closing loop. -/
theorem changeLoop_sim (hg : SGOk addr sg) (ho : AddrOrdered sg addr) {j : Nat} (hj : prev.length = j)
    (fuel : Nat) {m : Nat} {tab : Nat → Option (NName T NT AK AV)} {I : Inner T AK V}
    {Z : EarleyStateSet T NT AK AV} {L : Nat → Unit → Prop}
    (ht : Typed (unitLabel sg toks) N I L)
    (hsets : ∀ k Zk, (prev ++ [Z])[k]? = some Zk → SetOk (unitLabel sg toks) addr k L Zk)
    (h : PassSim (CAlt sg toks j) (KPrev sg toks j)
      (KIter sg (KPrev sg toks j) (KInit sg toks j (KPrev sg toks j)) m) prev tab I Z)
    (hkids : KidsOk (prev ++ [Z]) N I)
    (hm : changeLoop fuel (closePass addr sg prev) (I, Z) = .ok (I', Z')) :
    ∃ tab' L', (∀ n ν, tab n = some ν → tab' n = some ν) ∧ Typed (unitLabel sg toks) N I' L' ∧
      (∀ k Zk, (prev ++ [Z'])[k]? = some Zk → SetOk (unitLabel sg toks) addr k L' Zk) ∧
      PassSim (CAlt sg toks j) (KPrev sg toks j) (KAt sg toks j) prev tab' I' Z' ∧
      Closed sg prev Z' I' ∧ I.Le I' ∧ (∀ e ∈ Z, e ∈ Z') ∧ KidsOk (prev ++ [Z']) N I' := by
  induction fuel generalizing m tab I Z L with
  | zero => cases hm
  | succ fuel ih =>
    rw [changeLoop] at hm
    cases hp : closePass addr sg prev (I, Z) with
    | panic w => rw [hp] at hm; cases hm
    | oof => rw [hp] at hm; cases hm
    | ok r =>
      obtain ⟨⟨I1, Z1⟩, c⟩ := r
      rw [hp] at hm
      have hlast : LastOk (KPrev sg toks j).length
          (KIter sg (KPrev sg toks j) (KInit sg toks j (KPrev sg toks j)) m) :=
        KIter.lastOk (by rw [KPrev_length]; exact KInit.lastOk j _) m
      obtain ⟨tab1, a1, a2⟩ := h.pass hg ho ht hsets hlast (by
          intro e q k u v ak hmv hak
          rw [KPrev_length]
          exact CAlt.branch (hmv.mono (fun K v hK => ⟨m, hK⟩)) hak) (by
          intro e q k u v v' x ν ν' c hmv hK hx hx' hc
          exact CAlt.merge (hmv.mono (fun K v hK => ⟨m, hK⟩)) ⟨m + 1, hK⟩ hx hx' hc) hp
      rcases closePass_spec hg ht hsets with
        ⟨I2, Z2, c2, L2, b1, b2, b3, b4, b5, b6, -, b8⟩ | ⟨w, b1, -⟩
      swap
      · rw [b1] at hp; cases hp
      rw [b1] at hp
      simp only [Res.ok.injEq, _root_.Prod.mk.injEq] at hp
      obtain ⟨⟨rfl, rfl⟩, rfl⟩ := hp
      have hsets' : ∀ k Zk, (prev ++ [Z2])[k]? = some Zk → SetOk (unitLabel sg toks) addr k L2 Zk := by
        intro k Zk hk
        rcases getElem?_concat hk with ⟨hlt, hk⟩ | ⟨rfl, rfl⟩
        · exact (hsets k Zk (by rw [List.getElem?_append_left hlt]; exact hk)).mono b3
        · exact b4
      cases c2 with
      | changed =>
        obtain ⟨tab2, L3, c1, c2, c3, c4, c5, c6, c7, c8⟩ := ih b2 hsets' (m := m + 1) a2
          (hkids.pass b5 b6) hm
        exact ⟨tab2, L3, fun n ν hn => c1 n ν (a1 n ν hn), c2, c3, c4, c5, b5.le.trans c6,
          fun e he => c7 e (b6 e he), c8⟩
      | unchanged =>
        simp only [Res.ok.injEq, _root_.Prod.mk.injEq] at hm
        obtain ⟨rfl, rfl⟩ := hm
        obtain ⟨rfl, hcl⟩ := b8 rfl
        refine ⟨tab1, L2, a1, b2, hsets', ?_, hcl, b5.le, b6, hkids.pass b5 b6⟩
        have heq : KIter sg (KPrev sg toks j) (KInit sg toks j (KPrev sg toks j)) (m + 1) =
            KIter sg (KPrev sg toks j) (KInit sg toks j (KPrev sg toks j)) m := by
          funext K v
          apply propext
          refine ⟨fun hK => ?_, KNext.le⟩
          obtain ⟨w, w1, w2⟩ := a2.cur.bwd K v hK
          obtain ⟨v', w3, w4⟩ := h.cur.fwd K w w1
          rw [w2.unique (w4.ext a1)]
          exact w3
        have : KAt sg toks j = KIter sg (KPrev sg toks j) (KInit sg toks j (KPrev sg toks j)) (m + 1) := by
          rw [heq]; exact KIter.stable heq
        rw [this]
        exact a2

/-- The new nodes of a scan. -/
theorem shift_sim {tok : Token T V} {j : Nat} (l : List (EarleyState T NT AK AV))
    (hl : l.Pairwise fun a b => EarleyStateKey.cmp addr a.key b.key ≠ .eq)
    {tab : Nat → Option (NName T NT AK AV)} {I I' : Inner T AK V}
    {acc Z' : EarleyStateSet T NT AK AV} (h : CSound P tab I)
    (hP : ∀ s ∈ l, s.key.after = some (.term (.term tok.kind)) →
      P (j, s.key.next) (.leaf tok.kind tok.value))
    (hdis : ∀ e ∈ acc, ∀ s ∈ l, EarleyStateKey.cmp addr s.key e.1 ≠ .eq)
    (hm : EarleyStateSet.shift addr tok l (I, acc) = .ok (I', Z')) :
    ∃ tab', (∀ n ν, tab n = some ν → tab' n = some ν) ∧ CSound P tab' I' ∧ I.Le I' ∧
      (∀ e ∈ Z', e ∈ acc ∨ ∃ s ∈ l, s.key.after = some (.term (.term tok.kind)) ∧ e.1 = s.key.next ∧
        ∃ n, e.2 = s.value ++ [n] ∧ tab' n = some (j, s.key.next) ∧
          I'.Holds n (.leaf tok.kind tok.value)) ∧
      (∀ e ∈ acc, e ∈ Z') ∧
      (∀ s ∈ l, s.key.after = some (.term (.term tok.kind)) → ∃ v, (s.key.next, v) ∈ Z') := by
  induction l generalizing I acc tab with
  | nil =>
    simp only [EarleyStateSet.shift, Res.ok.injEq, _root_.Prod.mk.injEq] at hm
    obtain ⟨rfl, rfl⟩ := hm
    exact ⟨tab, fun _ _ h => h, h, .refl _, fun _ h => Or.inl h, fun _ h => h, by simp⟩
  | cons s l ih =>
    rw [List.pairwise_cons] at hl
    have hafter : s.key.after = s.prodState.prod.elements[s.prodState.index]? := rfl
    have hskip : s.key.after ≠ some (.term (.term tok.kind)) →
        EarleyStateSet.shift addr tok l (I, acc) = .ok (I', Z') →
        ∃ tab', (∀ n ν, tab n = some ν → tab' n = some ν) ∧ CSound P tab' I' ∧ I.Le I' ∧
          (∀ e ∈ Z', e ∈ acc ∨ ∃ s' ∈ s :: l, s'.key.after = some (.term (.term tok.kind)) ∧
            e.1 = s'.key.next ∧ ∃ n, e.2 = s'.value ++ [n] ∧ tab' n = some (j, s'.key.next) ∧
            I'.Holds n (.leaf tok.kind tok.value)) ∧
          (∀ e ∈ acc, e ∈ Z') ∧
          (∀ s' ∈ s :: l, s'.key.after = some (.term (.term tok.kind)) → ∃ v, (s'.key.next, v) ∈ Z') := by
      intro hne hm
      obtain ⟨tab', h1, h2, h3, h4, h5, h6⟩ := ih hl.2 h (fun s hs => hP s (by simp [hs]))
        (fun e he s hs => hdis e he s (by simp [hs])) hm
      refine ⟨tab', h1, h2, h3, ?_, h5, ?_⟩
      · intro e he
        rcases h4 e he with he | ⟨s', m1, m2⟩
        · exact Or.inl he
        · exact Or.inr ⟨s', by simp [m1], m2⟩
      · intro s' hs' ha
        rcases List.mem_cons.1 hs' with rfl | hs'
        · exact absurd ha hne
        · exact h6 s' hs' ha
    rcases ProdState.nextElemState_cases s.prodState with ⟨h1, h2⟩ | ⟨e, h1, h2⟩
    · refine hskip (by rw [hafter, h2]; simp) ?_
      rw [EarleyStateSet.shift] at hm
      unfold EarleyState.scan at hm; rw [h1] at hm; exact hm
    · cases hel : e.element with
      | nonterm A =>
        refine hskip (by rw [hafter, h2, hel]; simp) ?_
        rw [EarleyStateSet.shift] at hm
        unfold EarleyState.scan at hm; rw [h1] at hm; simp only [hel, Elem.asTerm] at hm; exact hm
      | term t =>
        by_cases hk : t.hasKind tok.kind = true
        · have hk' := hasKind_iff.1 hk
          have ha : s.key.after = some (.term (.term tok.kind)) := by
            rw [hafter, h2, hel, hk']
          rw [EarleyStateSet.shift] at hm
          unfold EarleyState.scan at hm
          rw [h1] at hm
          simp only [hel, Elem.asTerm, hk, if_true, Inner.makeLeafNode_eq] at hm
          cases hn : I.mkNode (.leaf tok.kind tok.value) with
          | panic w => rw [hn] at hm; cases hm
          | oof => rw [hn] at hm; cases hm
          | ok r =>
            obtain ⟨I1, n⟩ := r
            rw [hn] at hm
            simp only at hm
            obtain ⟨e1, e2, e3, e4⟩ := h.mk_node (by intro a ns h; cases h) (hP s (by simp) ha)
              (show NmdC tab (.leaf tok.kind tok.value) (.leaf tok.kind tok.value) from ⟨rfl, rfl⟩) hn
            have hholds : I1.Holds n (.leaf tok.kind tok.value) := by
              obtain ⟨J, a, k1, -, -, k4, k5, -⟩ := Inner.mkNode_ok h.wf (.leaf tok.kind tok.value)
                (by intro a ns h; cases h)
              rw [k1] at hn
              simp only [Res.ok.injEq, _root_.Prod.mk.injEq] at hn
              obtain ⟨rfl, rfl⟩ := hn
              exact ⟨a, (k4 _ _).2 (Or.inr ⟨rfl, rfl⟩), (k5 _ _).2 (Or.inr ⟨rfl, rfl⟩)⟩
            have hx1 : ∀ m μ, tab m = some μ →
                (fun m => if m = n then some (j, s.key.next) else tab m) m = some μ := by
              intro m μ hmm
              simp only
              rw [if_neg]
              · exact hmm
              · intro hmn; have := h.dom _ _ hmm; omega
            obtain ⟨v1, v2⟩ := insert_vacant (addr := addr) (st := (I1, acc))
              (s := ⟨s.key.next, s.value ++ [n]⟩) (by
                intro e he; exact hdis e he s (by simp))
            have hs' : (⟨⟨⟨s.prodState.prod, s.prodState.index + 1⟩, s.key.originIndex⟩,
              s.createNextValue n⟩ : EarleyState T NT AK AV) = ⟨s.key.next, s.value ++ [n]⟩ := rfl
            rw [hs', v1] at hm
            simp only at hm
            obtain ⟨tab', g1, g2, g3, g4, g5, g6⟩ := ih hl.2 e4 (fun s hs => hP s (by simp [hs]))
              (by
                intro e he x hx
                rcases (v2 e).1 he with rfl | he
                · have := hl.1 x hx
                  intro h
                  exact this (OrientedCmp.eq_symm (cmp := EarleyStateKey.cmp addr) h)
                · exact hdis e he x (by simp [hx])) hm
            refine ⟨tab', fun m μ hm => g1 m μ (hx1 m μ hm), g2, e2.trans g3, ?_,
              fun e he => g5 e ((v2 e).2 (Or.inr he)), ?_⟩
            · intro e he
              rcases g4 e he with he | ⟨s', m1, m2⟩
              · rcases (v2 e).1 he with rfl | he
                · exact Or.inr ⟨s, by simp, ha, rfl, n, rfl, g1 _ _ (by simp), hholds.mono g3⟩
                · exact Or.inl he
              · exact Or.inr ⟨s', by simp [m1], m2⟩
            · intro s' hs' ha'
              rcases List.mem_cons.1 hs' with rfl | hs'
              · exact ⟨_, g5 _ ((v2 _).2 (Or.inl rfl))⟩
              · exact g6 s' hs' ha'
        · refine hskip ?_ ?_
          · rw [hafter, h2, hel]
            intro h
            injection h with h; injection h with h
            exact hk (hasKind_iff.2 h)
          · rw [EarleyStateSet.shift] at hm
            unfold EarleyState.scan at hm
            rw [h1] at hm; simp only [hel, Elem.asTerm, hk] at hm; exact hm

theorem CSound.weaken {P Q : NName T NT AK AV → CC T NT AK AV V → Prop} (hPQ : ∀ ν c, P ν c → Q ν c)
    (h : CSound P tab I) : CSound Q tab I := by
  refine ⟨h.wf, h.dom, ?_⟩
  intro n ν hn c hc
  obtain ⟨c', h1, h2⟩ := h.sound n ν hn c hc
  exact ⟨c', hPQ _ _ h1, h2⟩

/-- The named content is there. -/
def HasName (Zs : List (EarleyStateSet T NT AK AV)) (tab : Nat → Option (NName T NT AK AV))
    (I : Inner T AK V) (ν : NName T NT AK AV) (c' : CC T NT AK AV V) : Prop :=
  ∃ n c, Occ Zs n ∧ tab n = some ν ∧ I.Holds n c ∧ NmdC tab c c' ∧
    ∀ a ns, c = .branch a ns → ∀ m ∈ ns, Occ Zs m

theorem HasName.mono {Zs Zs' : List (EarleyStateSet T NT AK AV)}
    {tab tab' : Nat → Option (NName T NT AK AV)} {I I' : Inner T AK V} {ν c'}
    (hO : ∀ n, Occ Zs n → Occ Zs' n) (hx : ∀ n ν, tab n = some ν → tab' n = some ν) (hI : I.Le I')
    (h : HasName Zs tab I ν c') : HasName Zs' tab' I' ν c' := by
  obtain ⟨n, c, h1, h2, h3, h4, h5⟩ := h
  exact ⟨n, c, hO _ h1, hx _ _ h2, h3.mono hI, h4.ext hx, fun a ns e m hm => hO _ (h5 a ns e m hm)⟩

/-- What is there before a set is closed. -/
structure PreSim (addr : StartNonTerminal NT → Nat → Nat) (sg : StartGrammar T NT AK AV)
    (toks : List (Token T V)) (N : Nat) (prev : List (EarleyStateSet T NT AK AV))
    (Z : EarleyStateSet T NT AK AV) (tab : Nat → Option (NName T NT AK AV)) (I : Inner T AK V)
    (L : Nat → Unit → Prop) : Prop where
  typed : Typed (unitLabel sg toks) N I L
  sets : ∀ k Zk, (prev ++ [Z])[k]? = some Zk → SetOk (unitLabel sg toks) addr k L Zk
  sim : PassSim (CAlt sg toks prev.length) (KPrev sg toks prev.length)
    (KInit sg toks prev.length (KPrev sg toks prev.length)) prev tab I Z
  old : ∀ j ν c, prev.length = j + 1 → CAlt sg toks j ν c → HasName (prev ++ [Z]) tab I ν c
  scan : ∀ j tok e v, prev.length = j + 1 → toks[j]? = some tok → KAt sg toks j e v →
    e.after = some (.term (.term tok.kind)) →
    HasName (prev ++ [Z]) tab I (j + 1, e.next) (.leaf tok.kind tok.value)
  kids : KidsOk (prev ++ [Z]) N I

/-- What is there after a set was closed. -/
structure RunSim (addr : StartNonTerminal NT → Nat → Nat) (sg : StartGrammar T NT AK AV)
    (toks : List (Token T V)) (N : Nat) (prev : List (EarleyStateSet T NT AK AV))
    (Z : EarleyStateSet T NT AK AV) (tab : Nat → Option (NName T NT AK AV)) (I : Inner T AK V)
    (L : Nat → Unit → Prop) : Prop where
  typed : Typed (unitLabel sg toks) N I L
  sets : ∀ k Zk, (prev ++ [Z])[k]? = some Zk → SetOk (unitLabel sg toks) addr k L Zk
  sim : PassSim (CAlt sg toks prev.length) (KPrev sg toks prev.length)
    (KAt sg toks prev.length) prev tab I Z
  kids : KidsOk (prev ++ [Z]) N I
  full : ∀ ν c, CAlt sg toks prev.length ν c → HasName (prev ++ [Z]) tab I ν c

/-- Closing a set. -/
theorem PreSim.close (hg : SGOk addr sg) (ho : AddrOrdered sg addr)
    (h : PreSim addr sg toks N prev Z tab I L) {fuel : Nat}
    (hm : closeState addr sg fuel prev (I, Z) = .ok (I', Z')) :
    ∃ tab' L', RunSim addr sg toks N prev Z' tab' I' L' := by
  have hm' : changeLoop fuel (closePass addr sg prev) (I, Z) = .ok (I', Z') := by
    unfold closeState at hm
    cases Z with
    | nil => cases hm
    | cons e Z => exact hm
  obtain ⟨tab', L', a1, a2, a3, a4, a5, a6, a7, a8⟩ :=
    changeLoop_sim hg ho rfl fuel (m := 0) h.typed h.sets h.sim h.kids hm'
  refine ⟨tab', L', a2, a3, a4, a8, ?_⟩
  have hZ' : SetOk (unitLabel sg toks) addr prev.length L' Z' := a3 _ _ (by simp)
  -- a named move
  have hmove : ∀ e q k u v, Moves (KPrev sg toks prev.length) (KAt sg toks prev.length) e q k u v →
      ∃ vq v0 v1 v1' n' a ak, Nmd tab' vq u ∧ Nmd tab' v0 v ∧ (∀ n ∈ v0, Occ (prev ++ [Z']) n) ∧
        (∀ n ∈ vq, Occ (prev ++ [Z']) n) ∧ (e.next, v1) ∈ Z' ∧ KAt sg toks prev.length e.next v1' ∧
        Nmd tab' v1 v1' ∧
        (∀ x n m b : Nat, v1[x]? = some n → v0[x]? = some m → I'.Has m b → I'.Has n b) ∧
        n' ∈ v1 ∧ tab' n' = some (prev.length, e.next) ∧ I'.Has n' a ∧
        I'.altAt a = some (.branch ak vq) ∧ q.actionKey.asBase = some ak := by
    intro e q k u v hmv
    obtain ⟨vq, v0, b1, b2, b3, b4⟩ := a4.moves' hmv
    obtain ⟨-, Zk, z1, e', z2, z3, z4⟩ := b4
    have := EarleyStateKey.next_inj z4
    subst this
    obtain ⟨v1, n', a, ak, c1, c2, c3, c4, c5, c6⟩ := a5.complete _ b1 rfl Zk z1 _ z2 z3
    obtain ⟨v1', d1, d2⟩ := a4.cur.fwd _ _ c1
    refine ⟨vq, v0, v1, v1', n', a, ak, b2, b3, fun n hn => ⟨_, Zk, e, v0, z1, z2, hn⟩,
      fun n hn => ⟨prev.length, Z', _, vq, by simp, b1, hn⟩, c1, d1, d2, c2,
      List.mem_of_getElem? c3, ?_, c4, c5, c6⟩
    obtain ⟨ν, e1, e2⟩ := d2.get c3
    have hl1 : v1.length = e.prodState.index + 1 := (hZ'.entry _ c1).2.1
    rcases KAt.lastOk _ _ _ d1 with ⟨hh, -⟩ | ⟨w0, hh⟩
    · simp [EarleyStateKey.next] at hh
    · have hl2 := d2.len
      rw [hl1, hh] at hl2
      simp at hl2
      rw [hh, hl2] at e1
      simp at e1
      rw [e2, e1]
  have key : ∀ j ν c, CAlt sg toks j ν c → j = prev.length → HasName (prev ++ [Z']) tab' I' ν c := by
    intro j ν c hc
    induction hc with
    | @old j ν c hc _ =>
      intro hj
      exact (h.old j ν c hj.symm hc).mono (fun n hn => hn.grow a7) a1 a6
    | @scan j tok e v h1 h2 h3 =>
      intro hj
      exact (h.scan j tok e v hj.symm h1 h2 h3).mono (fun n hn => hn.grow a7) a1 a6
    | @branch j e q k u v ak h1 h2 =>
      rintro rfl
      obtain ⟨vq, v0, v1, v1', n', a, ak', b1, b2, b3, b3', b4, b5, b6, b7, b8, b9, b10, b11, b12⟩ :=
        hmove e q k u v h1
      rw [h2] at b12
      cases b12
      refine ⟨n', .branch ak vq, ⟨prev.length, Z', _, v1, by simp, b4, b8⟩, b9, ⟨a, b10, b11⟩,
        ⟨rfl, b1⟩, ?_⟩
      rintro a' ns ⟨⟩ m hm
      exact b3' m hm
    | @merge j e q k u v v' x ν ν' c h1 h2 h3 h4 _ ih =>
      rintro rfl
      obtain ⟨n, c0, d1, d2, ⟨b, d3, d3'⟩, d4, d5⟩ := ih rfl
      obtain ⟨vq, v0, v1, v1', n', a, ak', b1, b2, b3, b3', b4, b5, b6, b7, -⟩ := hmove e q k u v h1
      have : v1' = v' := a4.cur.func (hZ'.fn hg) b5 h2
      subst this
      obtain ⟨m, m1, m2⟩ := b2.get' h3
      obtain ⟨n2, n21, n22⟩ := b6.get' h4
      have hmn : n = m := a4.uniq n m d1 (b3 m (List.mem_of_getElem? m1)) (by rw [d2, m2])
      subst hmn
      exact ⟨n2, c0, ⟨prev.length, Z', _, v1, by simp, b4, List.mem_of_getElem? n21⟩, n22,
        ⟨b, b7 x _ _ b n21 m1 d3, d3'⟩, d4, d5⟩
  intro ν c hc
  exact key _ ν c hc rfl

/-- A token. -/
theorem RunSim.shift (hg : SGOk addr sg) {before : List (EarleyStateSet T NT AK AV)}
    {last : EarleyStateSet T NT AK AV} (h : RunSim addr sg toks N before last tab I L)
    {tok : Token T V} (htok : toks[before.length]? = some tok)
    (hm : EarleyStateSet.shift addr tok (EarleyStateSet.states last) (I, []) = .ok (I', Z')) :
    ∃ tab' L', PreSim addr sg toks N (before ++ [last]) Z' tab' I' L' := by
  have hz : SetOk (unitLabel sg toks) addr before.length L last := h.sets _ _ (by simp)
  have hpw : (EarleyStateSet.states last).Pairwise
      (fun a b => EarleyStateKey.cmp addr a.key b.key ≠ .eq) := by
    unfold EarleyStateSet.states
    rw [List.pairwise_map]
    have := hz.sorted
    unfold BMap.Sorted at this
    refine List.Pairwise.imp ?_ this
    intro a b hab
    simp [hab]
  have hlen : (before ++ [last]).length = before.length + 1 := by simp
  obtain ⟨I1, Z1, L1, s1, s2, s3, s4, s5, -, -⟩ := shift_spec hg htok (EarleyStateSet.states last)
    hpw (acc := []) h.typed (fun s hs => hz.entry _ (mem_states.1 hs)) ⟨BMap.sorted_nil, by simp⟩ (by simp)
  rw [s1] at hm
  simp only [Res.ok.injEq, _root_.Prod.mk.injEq] at hm
  obtain ⟨rfl, rfl⟩ := hm
  obtain ⟨tab', a1, a2, a3, a4, -, a6⟩ := shift_sim (P := CAlt sg toks (before.length + 1))
    (j := before.length + 1) (EarleyStateSet.states last)
    hpw (h.sim.cs.weaken (fun _ _ hc => CAlt.old hc)) (by
      intro s hs ha
      obtain ⟨v', v1, -⟩ := h.sim.cur.fwd _ _ (mem_states.1 hs)
      exact CAlt.scan htok v1 ha) (acc := []) (by simp) s1
  have hnew : ∀ K v, (K, v) ∈ Z1 → ∃ e w w' n, (e, w) ∈ last ∧ KAt sg toks before.length e w' ∧
      Nmd tab w w' ∧ e.after = some (.term (.term tok.kind)) ∧ K = e.next ∧ v = w ++ [n] ∧
      tab' n = some (before.length + 1, K) ∧ I1.Holds n (.leaf tok.kind tok.value) := by
    intro K v hK
    rcases a4 _ hK with hK | ⟨s, m1, m2, m3, n, m4, m5, m6⟩
    · cases hK
    · simp only at m3 m4
      obtain ⟨w', v1, v2⟩ := h.sim.cur.fwd _ _ (mem_states.1 m1)
      subst m3
      exact ⟨s.key, s.value, w', n, mem_states.1 m1, v1, v2, m2, rfl, m4, m5, m6⟩
  have hsetsK : ∀ (k : Nat) (Zk : EarleyStateSet T NT AK AV), (before ++ [last])[k]? = some Zk →
      ∃ Sk, (KPrev sg toks (before.length + 1))[k]? = some Sk ∧ SimSet tab' Zk Sk := by
    intro k Zk hk
    obtain ⟨Sk, k1, k2⟩ := h.sim.at hk
    exact ⟨Sk, by rw [KPrev_succ]; exact k1, k2.ext a1⟩
  have hj : (KPrev sg toks (before.length + 1))[before.length]? = some (KAt sg toks before.length) :=
    KPrev_get (Nat.lt_succ_self _)
  have hbwd : ∀ e v0, KAt sg toks before.length e v0 → e.after = some (.term (.term tok.kind)) →
      ∃ w n, (e.next, w ++ [n]) ∈ Z1 ∧ Nmd tab' w v0 ∧ tab' n = some (before.length + 1, e.next) ∧
        I1.Holds n (.leaf tok.kind tok.value) := by
    intro e v0 he ha
    obtain ⟨w, w1, w2⟩ := h.sim.cur.bwd _ _ he
    obtain ⟨v, hv⟩ := a6 ⟨e, w⟩ (mem_states.2 w1) ha
    obtain ⟨e', w3, w', n, b1, b2, b3, b4, b5, rfl, b7, b8⟩ := hnew _ _ hv
    have := EarleyStateKey.next_inj b5
    subst this
    have : w = w3 := hz.fn hg _ _ _ w1 b1
    subst this
    exact ⟨w, n, hv, w2.ext a1, b7, b8⟩
  have hocc : ∀ n, Occ (before ++ [last] ++ [Z1]) n → Occ (before ++ [last]) n ∨
      ∃ K w, (K, w ++ [n]) ∈ Z1 ∧ tab' n = some (before.length + 1, K) := by
    rintro n ⟨k, Zk, K, v, hk, hKv, hn⟩
    rcases getElem?_concat hk with ⟨hlt, hk⟩ | ⟨rfl, rfl⟩
    · exact Or.inl ⟨k, Zk, K, v, hk, hKv, hn⟩
    · obtain ⟨e, w, w', m, b1, -, -, -, rfl, rfl, b7, -⟩ := hnew K v hKv
      rcases List.mem_append.1 hn with hn | hn
      · exact Or.inl ⟨before.length, last, e, w, by simp, b1, hn⟩
      · simp only [List.mem_singleton] at hn
        subst hn
        exact Or.inr ⟨_, w, hKv, b7⟩
  have hoccname : ∀ n, Occ (before ++ [last]) n → ∃ ν, tab n = some ν ∧ tab' n = some ν := by
    rintro n ⟨k, Zk, K, v, hk, hKv, hn⟩
    obtain ⟨Sk, -, hs⟩ := h.sim.at hk
    obtain ⟨v', -, hv'⟩ := hs.fwd K v hKv
    obtain ⟨x, hx⟩ := List.mem_iff_getElem?.1 hn
    obtain ⟨ν, -, hν⟩ := hv'.get hx
    exact ⟨ν, hν, a1 _ _ hν⟩
  have hmix : ∀ n m, Occ (before ++ [last]) n → (∃ K w, (K, w ++ [m]) ∈ Z1 ∧
      tab' m = some (before.length + 1, K)) → tab' n ≠ tab' m := by
    rintro n m hn ⟨K, w, -, b3⟩ heq
    obtain ⟨ν, c1, c2⟩ := hoccname n hn
    rw [c2, b3] at heq
    cases heq
    obtain ⟨Zi, w, d1, d2⟩ := h.sim.names n _ _ hn c1
    have := (List.getElem?_eq_some_iff.1 d1).1
    simp at this
  have hZ1sets : ∀ k Zk, (before ++ [last] ++ [Z1])[k]? = some Zk →
      SetOk (unitLabel sg toks) addr k L1 Zk := by
    intro k Zk hk
    rcases getElem?_concat hk with ⟨hlt, hk⟩ | ⟨rfl, rfl⟩
    · exact (h.sets k Zk hk).mono s3
    · rw [hlen]; exact s4
  have hkids : KidsOk (before ++ [last] ++ [Z1]) N I1 := by
    intro k a ns hk
    rcases s5.new k _ hk with hk | hk
    · rcases h.kids k a ns hk with h | h
      · exact Or.inl fun m hm => (h m hm).snoc
      · exact Or.inr h
    · cases hk
  refine ⟨tab', L1, s2, hZ1sets, ?_, ?_, ?_, hkids⟩
  · rw [hlen]
    refine ⟨by rw [hlen, KPrev_length], a2, hsetsK, ⟨?_, ?_⟩, ?_, ?_⟩
    · intro K v hK
      obtain ⟨e, w, w', n, b1, b2, b3, b4, rfl, rfl, b7, -⟩ := hnew K v hK
      exact ⟨w' ++ [(before.length + 1, e.next)], ⟨_, tok, e, w', hj, htok, b2, b4, rfl, rfl⟩,
        (b3.ext a1).snoc b7⟩
    · rintro K v' ⟨S, tok', e, v0, c1, c2, c3, c4, rfl, rfl⟩
      rw [hj] at c1; cases c1
      rw [htok] at c2; cases c2
      obtain ⟨w, n, d1, d2, d3, -⟩ := hbwd e v0 c3 c4
      exact ⟨_, d1, d2.snoc d3⟩
    · intro n i K hn hν
      rcases hocc n hn with ho' | ⟨K', w, b1, b2⟩
      · obtain ⟨ν, c1, c2⟩ := hoccname n ho'
        rw [c2] at hν
        cases hν
        obtain ⟨Zi, w, d1, d2⟩ := h.sim.names n i K ho' c1
        exact ⟨Zi, w, by rw [List.getElem?_append_left (List.getElem?_eq_some_iff.1 d1).1]; exact d1, d2⟩
      · rw [b2] at hν
        cases hν
        exact ⟨Z1, _, by rw [← hlen]; simp, b1⟩
    · intro n m hn hm' heq
      rcases hocc n hn with h1' | h1'
      · rcases hocc m hm' with h2' | h2'
        · obtain ⟨ν, c1, c2⟩ := hoccname n h1'
          obtain ⟨μ, e1, e2⟩ := hoccname m h2'
          refine h.sim.uniq n m h1' h2' ?_
          rw [c2, e2] at heq
          rw [c1, e1, heq]
        · exact absurd heq (hmix n m h1' h2')
      · rcases hocc m hm' with h2' | h2'
        · exact absurd heq.symm (hmix m n h2' h1')
        · obtain ⟨K, v, b1, b3⟩ := h1'
          obtain ⟨K', v', b1', b3'⟩ := h2'
          rw [b3, b3'] at heq
          cases heq
          have := s4.fn hg _ _ _ b1 b1'
          have := congrArg List.getLast? this
          simpa using this
  · intro j ν c hj' hc
    rw [hlen] at hj'
    have : j = before.length := by omega
    subst this
    exact (h.full ν c hc).mono (fun n hn => hn.snoc) a1 a3
  · intro j tok' e v hj' ht hK ha
    rw [hlen] at hj'
    have : j = before.length := by omega
    subst this
    rw [htok] at ht; cases ht
    obtain ⟨w, n, d1, d2, d3, d4⟩ := hbwd e v hK ha
    refine ⟨n, _, ⟨(before ++ [last]).length, Z1, _, _, by simp, d1, by simp⟩, d3, d4, ⟨rfl, rfl⟩, ?_⟩
    intro a ns h; cases h

/-- The loop over the tokens. -/
theorem RunSim.loop (hg : SGOk addr sg) (ho : AddrOrdered sg addr) {fuel : Nat} (rest : List (Token T V))
    {before : List (EarleyStateSet T NT AK AV)} {last last' : EarleyStateSet T NT AK AV}
    {tab : Nat → Option (NName T NT AK AV)} {I : Inner T AK V} {L : Nat → Unit → Prop}
    (h : RunSim addr sg toks N before last tab I L) (hrest : toks.drop before.length = rest)
    (hlen : before.length ≤ toks.length)
    (hm : parseLoop addr sg fuel before last I rest = .ok (I', last')) :
    ∃ sets tab' L', RunSim addr sg toks N sets last' tab' I' L' ∧ sets.length = toks.length := by
  induction rest generalizing before last I L tab with
  | nil =>
    simp only [parseLoop, Res.ok.injEq, _root_.Prod.mk.injEq] at hm
    obtain ⟨rfl, rfl⟩ := hm
    refine ⟨before, tab, L, h, ?_⟩
    have := congrArg List.length hrest; simp at this; omega
  | cons tok rest ih =>
    have hlt : before.length < toks.length := by
      have := congrArg List.length hrest; simp at this; omega
    have htok : toks[before.length]? = some tok := by
      have : (toks.drop before.length)[0]? = some tok := by rw [hrest]; rfl
      simpa using this
    have hl1 : (before ++ [last]).length = before.length + 1 := by simp
    have hdrop : toks.drop (before ++ [last]).length = rest := by
      rw [hl1, ← List.drop_drop, hrest]; rfl
    rw [parseLoop] at hm
    cases hs : EarleyStateSet.shift addr tok (EarleyStateSet.states last) (I, []) with
    | panic w => rw [hs] at hm; cases hm
    | oof => rw [hs] at hm; cases hm
    | ok st =>
      obtain ⟨I1, Z1⟩ := st
      rw [hs] at hm
      simp only at hm
      obtain ⟨tab1, L1, h1⟩ := h.shift hg htok hs
      cases hc : closeState addr sg fuel (before ++ [last]) (I1, Z1) with
      | panic w => rw [hc] at hm; cases hm
      | oof => rw [hc] at hm; cases hm
      | ok st =>
        obtain ⟨I2, Z2⟩ := st
        rw [hc] at hm
        simp only at hm
        obtain ⟨tab2, L2, h2⟩ := h1.close hg ho hc
        exact ih h2 hdrop (by omega) hm
end Bongo
