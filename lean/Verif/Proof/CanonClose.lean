import Verif.Proof.CanonPass
/-! The sets of the parser are the named ones: closing a set. -/
set_option linter.unusedSectionVars false
namespace Bongo
open Std
variable {T NT AK AV V : Type}
variable [Ord T] [Ord NT] [Ord AK] [Ord V] [DecidableEq T] [DecidableEq NT]
variable [TransOrd T] [TransOrd NT] [TransOrd AK] [TransOrd V]
variable [LawfulEqOrd T] [LawfulEqOrd NT] [LawfulEqOrd AK] [LawfulEqOrd V]
variable {P : NName T NT AK AV → CC T NT AK AV V → Prop}
variable {sg : StartGrammar T NT AK AV} {prev : List (EarleyStateSet T NT AK AV)}
  {Z Z' : EarleyStateSet T NT AK AV} {prevS : List (KSet T NT AK AV)} {curS : KSet T NT AK AV}
  {tab : Nat → Option (NName T NT AK AV)} {I I' : Inner T AK V}

/-- The state of the parser is the named one. -/
structure PassSim (P : NName T NT AK AV → CC T NT AK AV V → Prop) (prevS : List (KSet T NT AK AV))
    (curS : KSet T NT AK AV) (prev : List (EarleyStateSet T NT AK AV))
    (tab : Nat → Option (NName T NT AK AV)) (I : Inner T AK V) (Z : EarleyStateSet T NT AK AV) :
    Prop where
  len : prev.length = prevS.length
  cs : CSound P tab I
  sets : ∀ (k : Nat) (Zk : EarleyStateSet T NT AK AV), prev[k]? = some Zk →
    ∃ Sk, prevS[k]? = some Sk ∧ SimSet tab Zk Sk
  cur : SimSet tab Z curS
  names : ∀ n i K, Occ (prev ++ [Z]) n → tab n = some (i, K) →
    ∃ Zi v, (prev ++ [Z])[i]? = some Zi ∧ (K, v) ∈ Zi
  uniq : ∀ n m, Occ (prev ++ [Z]) n → Occ (prev ++ [Z]) m → tab n = tab m → n = m

theorem PassSim.at (h : PassSim P prevS curS prev tab I Z) {k : Nat} {Zk}
    (hk : (prev ++ [Z])[k]? = some Zk) : ∃ Sk, (prevS ++ [curS])[k]? = some Sk ∧ SimSet tab Zk Sk := by
  rcases getElem?_concat hk with ⟨hlt, hk⟩ | ⟨rfl, rfl⟩
  · obtain ⟨Sk, h1, h2⟩ := h.sets k Zk hk
    exact ⟨Sk, by rw [List.getElem?_append_left (by have := h.len; omega)]; exact h1, h2⟩
  · exact ⟨curS, by rw [h.len]; simp, h.cur⟩

theorem PassSim.at' (h : PassSim P prevS curS prev tab I Z) {k : Nat} {Sk}
    (hk : (prevS ++ [curS])[k]? = some Sk) : ∃ Zk, (prev ++ [Z])[k]? = some Zk ∧ SimSet tab Zk Sk := by
  have hlt : k < (prev ++ [Z]).length := by
    have := (List.getElem?_eq_some_iff.1 hk).1
    have := h.len
    simp at *; omega
  have hz := List.getElem?_eq_getElem hlt
  obtain ⟨Sk', h1, h2⟩ := h.at hz
  rw [hk] at h1; cases h1
  exact ⟨_, hz, h2⟩

/-- A real step is a named one. -/
theorem PassSim.moves (h : PassSim P prevS curS prev tab I Z) {s : EarleyState T NT AK AV}
    (hs : (s.key, s.value) ∈ Z) {u} (hu : curS s.key u) {K v} (hm : MoveTo prev Z s K v) :
    ∃ e v', K = e.next ∧ Nmd tab v v' ∧
      Moves prevS curS e s.key.prodState.prod s.key.originIndex u v' := by
  obtain ⟨h1, Zk, h2, e, h3, h4, rfl⟩ := hm
  obtain ⟨Sk, k1, k2⟩ := h.at h2
  obtain ⟨v', m1, m2⟩ := k2.fwd e v h3
  refine ⟨e, v', rfl, m2, ?_, h4, Sk, k1, m1⟩
  rw [← h1]; exact hu

/-- A named step is a real one. -/
theorem PassSim.moves' (h : PassSim P prevS curS prev tab I Z) {e q k u v'}
    (hm : Moves prevS curS e q k u v') : ∃ vq v, ((⟨⟨q, q.numElements⟩, k⟩, vq) :
      EarleyStateKey T NT AK AV × List Nat) ∈ Z ∧ Nmd tab vq u ∧ Nmd tab v v' ∧
      MoveTo prev Z ⟨⟨⟨q, q.numElements⟩, k⟩, vq⟩ e.next v := by
  obtain ⟨h1, h2, S, h3, h4⟩ := hm
  obtain ⟨vq, a1, a2⟩ := h.cur.bwd _ _ h1
  obtain ⟨Zk, b1, b2⟩ := h.at' h3
  obtain ⟨v, c1, c2⟩ := b2.bwd _ _ h4
  exact ⟨vq, v, a1, a2, c2, rfl, Zk, b1, e, c1, h2, rfl⟩

theorem SimSet.func {tab : Nat → Option (NName T NT AK AV)} {S : KSet T NT AK AV} (h : SimSet tab Z S)
    (hu : ∀ K v w, (K, v) ∈ Z → (K, w) ∈ Z → v = w) {K v w} (h1 : S K v) (h2 : S K w) : v = w := by
  obtain ⟨a, a1, a2⟩ := h.bwd _ _ h1
  obtain ⟨b, b1, b2⟩ := h.bwd _ _ h2
  have := hu _ _ _ a1 b1
  subst this
  exact a2.unique b2

variable {addr : StartNonTerminal NT → Nat → Nat} {toks : List (Token T V)} {N : Nat}
  {L : Nat → Unit → Prop}

theorem SetOk.fn (hg : SGOk addr sg) {j : Nat} (hz : SetOk (unitLabel sg toks) addr j L Z) :
    ∀ K v w, (K, v) ∈ Z → (K, w) ∈ Z → v = w := by
  intro K v w h1 h2
  have := hz.unique hg.wf hg.addr h1 h2 rfl rfl
  rw [_root_.Prod.mk.injEq] at this
  exact this.2

theorem prod_ext_of_mem (hw : sg.WF) {p q : SProd T NT AK AV} (hp : p ∈ sg.prods) (hq : q ∈ sg.prods)
    (h1 : p.head = q.head) (h2 : p.index = q.index) : p = q := by
  obtain ⟨r, hr, h⟩ := (Grammar.mem_prods hw).1 hp
  obtain ⟨r', hr', h'⟩ := (Grammar.mem_prods hw).1 hq
  rw [h1, hr'] at hr
  cases hr
  rw [h2, h'] at h
  obtain ⟨a, b, c⟩ := p
  obtain ⟨a', b', c'⟩ := q
  simp only [Option.some.injEq] at h h1 h2
  subst h h1 h2
  rfl

/-- The order of completed states of one rule. -/
theorem cmp_lt_order (hg : SGOk addr sg) (ho : AddrOrdered sg addr) {k k' : EarleyStateKey T NT AK AV}
    (hk : k.prodState.prod ∈ sg.prods) (hk' : k'.prodState.prod ∈ sg.prods)
    (hh : k.prodState.prod.head = k'.prodState.prod.head)
    (hc : EarleyStateKey.cmp addr k k' = .lt) :
    k.prodState.prod.index < k'.prodState.prod.index ∨
      (k.prodState.prod.index = k'.prodState.prod.index ∧ k.originIndex ≤ k'.originIndex) := by
  unfold EarleyStateKey.cmp ProdState.cmp prodCmp at hc
  rcases Nat.lt_trichotomy k.prodState.prod.index k'.prodState.prod.index with h | h | h
  · exact Or.inl h
  · right
    refine ⟨h, ?_⟩
    have := prod_ext_of_mem hg.wf hk hk' hh h
    rw [this] at hc
    simp only [compare_self, Ordering.then] at hc
    have := Nat.compare_eq_lt.1 hc
    omega
  · have := ho _ hk' _ hk hh.symm h
    have e : compare (addr k.prodState.prod.head k.prodState.prod.index)
        (addr k'.prodState.prod.head k'.prodState.prod.index) = .gt := Nat.compare_eq_gt.2 this
    rw [e] at hc; cases hc

/-- One pass. -/
theorem PassSim.pass (hg : SGOk addr sg) (ho : AddrOrdered sg addr)
    (ht : Typed (unitLabel sg toks) N I L)
    (hsets : ∀ k Zk, (prev ++ [Z])[k]? = some Zk → SetOk (unitLabel sg toks) addr k L Zk)
    (h : PassSim P prevS curS prev tab I Z) (hlast : LastOk prevS.length curS)
    (hbr : ∀ e q k u v ak, Moves prevS curS e q k u v → q.actionKey.asBase = some ak →
      P (prevS.length, e.next) (.branch ak u))
    (hmg : ∀ e q k u v v' (x : Nat) ν ν' c, Moves prevS curS e q k u v →
      KNext sg prevS curS e.next v' → v[x]? = some ν → v'[x]? = some ν' → P ν c → P ν' c)
    {c : WasChanged} (hm : closePass addr sg prev (I, Z) = .ok ((I', Z'), c)) :
    ∃ tab', (∀ n ν, tab n = some ν → tab' n = some ν) ∧
      PassSim P prevS (KNext sg prevS curS) prev tab' I' Z' := by
  have hzZ : SetOk (unitLabel sg toks) addr prev.length L Z := hsets _ _ (by simp)
  unfold closePass at hm
  simp only at hm
  rcases closureStates_spec hg (EarleyStateSet.states Z) (fun s hs => mem_states.1 hs) ht hsets with
    ⟨I1, L1, out, h1, h2, h3, -, h5, -, -⟩ | ⟨h1, -⟩
  swap
  · rw [h1] at hm; cases hm
  rw [h1] at hm
  simp only at hm
  have hZ1 : SetOk (unitLabel sg toks) addr prev.length L1 Z := hzZ.mono h3
  obtain ⟨f1, f2, f3⟩ := insertAll_first hg out h2 hZ1 h5 hm
  have hZ' : SetOk (unitLabel sg toks) addr prev.length L1 Z' := by
    rcases insertAll_spec hg out h2 hZ1 h5 .unchanged with ⟨I2, Z2, c2, g1, g2, g3, -⟩ | ⟨g1, -⟩
    · rw [g1] at hm
      simp only [Res.ok.injEq, _root_.Prod.mk.injEq] at hm
      rw [← hm.1.2]; exact g3
    · rw [g1] at hm; cases hm
  obtain ⟨tab', a1, a2, a3, a4, a5, a6⟩ := closureStates_sim (P := P) hg.wf (EarleyStateSet.states Z)
    h.cs (by
      intro s hs
      obtain ⟨u, u1, u2⟩ := h.cur.fwd _ _ (mem_states.1 hs)
      refine ⟨u, u2, ?_⟩
      intro ak K v hak hmv
      obtain ⟨e, v', rfl, -, hmo⟩ := h.moves (mem_states.1 hs) u1 hmv
      rw [h.len]
      exact hbr _ _ _ _ _ ak hmo hak) h1
  have hlen := h.len
  -- the entries of the new set
  have hnew : ∀ K v, (K, v) ∈ Z' → (∀ w, (K, w) ∉ Z) →
      (K.prodState.index = 0 ∧ v = [] ∧ ∃ q ∈ sg.prods, K = ⟨⟨q, 0⟩, prev.length⟩ ∧
        ∃ e w, (e, w) ∈ Z ∧ e.after = some (.nonterm q.head)) ∨
      ∃ v0 n l₁ s l₂, v = v0 ++ [n] ∧ EarleyStateSet.states Z = l₁ ++ s :: l₂ ∧
        MoveTo prev Z s K v0 ∧ tab' n = some (prev.length, K) ∧
        ∀ s₁ ∈ l₁, ∀ v', ¬ MoveTo prev Z s₁ K v' := by
    intro K v hKv hno
    rcases f3 _ hKv with hz | ⟨-, o₁, s', o₂, k2, k3, k4, k5⟩
    · exact absurd hz (hno v)
    · simp only at k3 k4 k5
      subst k3 k4
      by_cases h0 : s'.key.prodState.index = 0
      · left
        rcases a3 s' (by rw [k2]; simp) with ⟨s, m1, q, m2, m3, m4⟩ | ⟨s, m1, v, n, ⟨-, Zk, -, e, -, -, m2⟩, -⟩
        · rw [m4]
          exact ⟨rfl, rfl, q, m2, rfl, s.key, s.value, mem_states.1 m1, m3⟩
        · rw [m2] at h0; simp [EarleyStateKey.next] at h0
      · right
        obtain ⟨l₁, s, l₂, v, n, m1, m2, m3, m4, m5⟩ := a6 o₁ s' o₂ k2 k5 h0
        exact ⟨v, n, l₁, s, l₂, m3, m1, m2, m4, m5⟩
  have hnotcur : ∀ K, (∀ w, (K, w) ∉ Z) → ∀ u, ¬ curS K u := by
    intro K hno u hu
    obtain ⟨v, hv, -⟩ := h.cur.bwd _ _ hu
    exact hno v hv
  have hsorted : (EarleyStateSet.states Z).Pairwise
      (fun a b => EarleyStateKey.cmp addr a.key b.key = .lt) := by
    unfold EarleyStateSet.states
    rw [List.pairwise_map]
    exact hzZ.sorted
  have hfwd : ∀ K v, (K, v) ∈ Z' → ∃ v', KNext sg prevS curS K v' ∧ Nmd tab' v v' := by
    intro K v hKv
    by_cases hin : ∃ w, (K, w) ∈ Z
    · obtain ⟨w, hw⟩ := hin
      have : v = w := hZ'.fn hg K v w hKv (f1 _ hw)
      subst this
      obtain ⟨v', k1, k2⟩ := h.cur.fwd K v hw
      exact ⟨v', KNext.le k1, k2.ext a1⟩
    · have hno : ∀ w, (K, w) ∉ Z := fun w hw => hin ⟨w, hw⟩
      rcases hnew K v hKv hno with ⟨-, rfl, q, k2, rfl, e, w, k3, k4⟩ | ⟨v0, n, l₁, s, l₂, rfl, k2, k3, k4, k5⟩
      · obtain ⟨u, u1, -⟩ := h.cur.fwd e w k3
        refine ⟨[], Or.inr ⟨hnotcur _ hno, Or.inl ⟨q, k2, by rw [hlen], rfl, e, u, u1, k4⟩⟩, rfl⟩
      · have hsZ : (s.key, s.value) ∈ Z := mem_states.1 (by rw [k2]; simp)
        obtain ⟨u, u1, -⟩ := h.cur.fwd _ _ hsZ
        obtain ⟨e, v', rfl, m2, m3⟩ := h.moves hsZ u1 k3
        refine ⟨v' ++ [(prev.length, e.next)], Or.inr ⟨hnotcur _ hno, Or.inr ⟨e, _, _, _, v', m3, rfl,
          by rw [hlen], ?_⟩⟩, (m2.ext a1).snoc k4⟩
        intro q' k' u' v'' hm'
        obtain ⟨vq, w, b1, -, -, b4⟩ := h.moves' hm'
        have hs2 : (⟨⟨⟨q', q'.numElements⟩, k'⟩, vq⟩ : EarleyState T NT AK AV) ∈ l₁ ++ s :: l₂ := by
          rw [← k2]; exact mem_states.2 b1
        have hhead : s.key.prodState.prod.head = q'.head := by
          have e1 := m3.2.1
          have e2 := hm'.2.1
          rw [e1] at e2
          injection e2 with e2; injection e2
        rcases List.mem_append.1 hs2 with hin1 | hin2
        · exact absurd b4 (k5 _ hin1 _)
        · rcases List.mem_cons.1 hin2 with heq | hin2
          · right; rw [← heq]; exact ⟨rfl, Nat.le_refl _⟩
          · have hlt : EarleyStateKey.cmp addr s.key ⟨⟨q', q'.numElements⟩, k'⟩ = .lt := by
              rw [k2] at hsorted
              have := (List.pairwise_append.1 hsorted).2.1
              rw [List.pairwise_cons] at this
              exact this.1 _ hin2
            exact cmp_lt_order hg ho (hzZ.entry _ hsZ).1.mem (hzZ.entry _ b1).1.mem hhead hlt
  -- the named set is a function
  have hfun : ∀ K v w, KNext sg prevS curS K v → KNext sg prevS curS K w → v = w := by
    have hcf : ∀ K v w, curS K v → curS K w → v = w := fun K v w => h.cur.func (hzZ.fn hg)
    rintro K v w (hv | ⟨hv0, hv⟩) (hw | ⟨hw0, hw⟩)
    · exact hcf K v w hv hw
    · exact absurd hv (hw0 v)
    · exact absurd hw (hv0 w)
    · rcases hv with ⟨q, -, rfl, rfl, -⟩ | ⟨e, q, k, u, v0, m1, rfl, rfl, m4⟩
      · rcases hw with ⟨q', -, -, rfl, -⟩ | ⟨e', q', k', u', w0, -, m2, -, -⟩
        · rfl
        · have := congrArg (fun K => K.prodState.index) m2
          simp [EarleyStateKey.next] at this
      · rcases hw with ⟨q', -, m2, -, -⟩ | ⟨e', q', k', u', w0, n1, n2, rfl, n4⟩
        · have := congrArg (fun K => K.prodState.index) m2
          simp [EarleyStateKey.next] at this
        · have := EarleyStateKey.next_inj n2
          subst this
          have c1 := m4 _ _ _ _ n1
          have c2 := n4 _ _ _ _ m1
          have hk : k = k' := by omega
          subst hk
          obtain ⟨-, -, S, b1, b2⟩ := m1
          obtain ⟨-, -, S', b1', b2'⟩ := n1
          rw [b1] at b1'; cases b1'
          obtain ⟨Zk, z1, z2⟩ := h.at' b1
          rw [z2.func ((hsets _ _ z1).fn hg) b2 b2']
  have hsim : SimSet tab' Z' (KNext sg prevS curS) := by
    refine ⟨hfwd, ?_⟩
    intro K v' hK
    have hex : ∃ v, (K, v) ∈ Z' := by
      rcases hK with hK | ⟨-, ⟨q, b1, rfl, -, e, u, b2, b3⟩ | ⟨e, q, k, u, v0, b1, rfl, -, -⟩⟩
      · obtain ⟨v, hv, -⟩ := h.cur.bwd _ _ hK
        exact ⟨v, f1 _ hv⟩
      · obtain ⟨w, hw, -⟩ := h.cur.bwd _ _ b2
        obtain ⟨v, hv⟩ := f2 _ (a4 ⟨e, w⟩ (mem_states.2 hw) q b1 b3)
        exact ⟨v, by rw [← hlen]; exact hv⟩
      · obtain ⟨vq, w, c1, -, -, c4⟩ := h.moves' b1
        obtain ⟨s', d1, d2⟩ := a5 _ (mem_states.2 c1) _ _ c4
        obtain ⟨v, hv⟩ := f2 s' d1
        rw [d2] at hv
        exact ⟨v, hv⟩
    obtain ⟨v, hv⟩ := hex
    obtain ⟨v'', k1, k2⟩ := hfwd K v hv
    rw [hfun K v' v'' hK k1]
    exact ⟨v, hv, k2⟩
  -- which nodes occur
  have hocc : ∀ n, Occ (prev ++ [Z']) n → Occ (prev ++ [Z]) n ∨
      ∃ K v v0, (K, v) ∈ Z' ∧ (∀ w, (K, w) ∉ Z) ∧ tab' n = some (prev.length, K) ∧ v = v0 ++ [n] := by
    rintro n ⟨k, Zk, K, v, hk, hKv, hn⟩
    rcases getElem?_concat hk with ⟨hlt, hk⟩ | ⟨rfl, rfl⟩
    · exact Or.inl ⟨k, Zk, K, v, by rw [List.getElem?_append_left hlt]; exact hk, hKv, hn⟩
    · by_cases hin : ∃ w, (K, w) ∈ Z
      · obtain ⟨w, hw⟩ := hin
        have : v = w := hZ'.fn hg K v w hKv (f1 _ hw)
        subst this
        exact Or.inl ⟨prev.length, Z, K, v, by simp, hw, hn⟩
      · have hno : ∀ w, (K, w) ∉ Z := fun w hw => hin ⟨w, hw⟩
        rcases hnew K v hKv hno with ⟨-, rfl, -⟩ | ⟨v0, m, l₁, s, l₂, rfl, k2, k3, k4, k5⟩
        · simp at hn
        · rcases List.mem_append.1 hn with hn | hn
          · obtain ⟨-, Zk, z1, e, z2, -⟩ := k3
            exact Or.inl ⟨_, Zk, e, v0, z1, z2, hn⟩
          · simp only [List.mem_singleton] at hn
            subst hn
            exact Or.inr ⟨K, _, v0, hKv, hno, k4, rfl⟩
  have hoccname : ∀ n, Occ (prev ++ [Z]) n → ∃ ν, tab n = some ν ∧ tab' n = some ν := by
    rintro n ⟨k, Zk, K, v, hk, hKv, hn⟩
    obtain ⟨Sk, -, hs⟩ := h.at hk
    obtain ⟨v', -, hv'⟩ := hs.fwd K v hKv
    obtain ⟨x, hx⟩ := List.mem_iff_getElem?.1 hn
    obtain ⟨ν, -, hν⟩ := hv'.get hx
    exact ⟨ν, hν, a1 _ _ hν⟩
  refine ⟨tab', a1, ⟨hlen, ?_, ?_, hsim, ?_, ?_⟩⟩
  · -- contents
    refine insertAll_sound (Zf := Z') out ?_ a2 hm (fun _ h => h)
    intro s' hs' k v hkv hcmp hl x n m hx hy
    have hst := h5 s' hs'
    have hek := hZ'.entry _ hkv
    have hkk : k = s'.key := by
      obtain ⟨hp, hor⟩ := (EarleyStateKey.cmp_eq_iff hg.wf hg.addr hst.1.mem hek.1.mem).1 hcmp
      have h3 : k.prodState.index = s'.key.prodState.index := by
        rw [← hek.2.1, ← hst.2.1]; exact hl
      obtain ⟨⟨p1, d1⟩, o1⟩ := k
      obtain ⟨⟨⟨p2, d2⟩, o2⟩, v2⟩ := s'
      simp only at hp hor h3
      subst hp hor h3
      rfl
    subst hkk
    rcases a3 s' hs' with ⟨s, -, q, -, -, rfl⟩ | ⟨s, m1, v0, n0, m2, m3, m4⟩
    · simp at hy
    · obtain ⟨u, u1, -⟩ := h.cur.fwd _ _ (mem_states.1 m1)
      obtain ⟨e, v0', he, b2, b3⟩ := h.moves (mem_states.1 m1) u1 m2
      obtain ⟨v', c1, c2⟩ := hfwd _ _ hkv
      obtain ⟨ν, d1, d2⟩ := c2.get hx
      rw [m3, List.getElem?_append] at hy
      split at hy
      · obtain ⟨ν', d3, d4⟩ := b2.get hy
        refine ⟨ν, ν', d2, a1 _ _ d4, ?_⟩
        intro c hc
        rw [he] at c1
        exact hmg _ _ _ _ _ _ x _ _ c b3 c1 d3 d1 hc
      · next hge =>
        rw [List.getElem?_singleton] at hy
        split at hy
        · cases hy
          have hlen1 := c2.len
          rw [m3] at hl
          simp at hl
          rcases KNext.lastOk hlast _ _ c1 with ⟨-, h0⟩ | ⟨w0, h0⟩
          · have := (List.getElem?_eq_some_iff.1 hx).1
            rw [h0] at hlen1; simp only [List.length_nil] at hlen1; omega
          · rw [h0] at hlen1
            simp at hlen1
            have hx' : x = w0.length := by omega
            rw [h0, hx'] at d1
            simp at d1
            refine ⟨ν, ν, d2, ?_, fun c hc => hc⟩
            rw [m4, ← d1, hlen]
        · cases hy
  · intro k Zk hk
    obtain ⟨Sk, k1, k2⟩ := h.sets k Zk hk
    exact ⟨Sk, k1, k2.ext a1⟩
  · intro n i K hn hν
    rcases hocc n hn with ho' | ⟨K', v, v0, b1, -, b2, -⟩
    · obtain ⟨ν, c1, c2⟩ := hoccname n ho'
      rw [c2] at hν
      cases hν
      obtain ⟨Zi, w, d1, d2⟩ := h.names n i K ho' c1
      rcases getElem?_concat d1 with ⟨hlt, d1⟩ | ⟨rfl, rfl⟩
      · exact ⟨Zi, w, by rw [List.getElem?_append_left hlt]; exact d1, d2⟩
      · exact ⟨Z', w, by simp, f1 _ d2⟩
    · rw [b2] at hν
      cases hν
      exact ⟨Z', v, by simp, b1⟩
  · intro n m hn hm' heq
    have hmix : ∀ n m, Occ (prev ++ [Z]) n → (∃ K v v0, (K, v) ∈ Z' ∧ (∀ w, (K, w) ∉ Z) ∧
        tab' m = some (prev.length, K) ∧ v = v0 ++ [m]) → tab' n = tab' m → n = m := by
      rintro n m hn ⟨K, v, v0, b1, b2, b3, b4⟩ heq
      obtain ⟨ν, c1, c2⟩ := hoccname n hn
      rw [c2, b3] at heq
      cases heq
      obtain ⟨Zi, w, d1, d2⟩ := h.names n _ _ hn c1
      have : Zi = Z := by simp at d1; exact d1.symm
      subst this
      exact absurd d2 (b2 w)
    rcases hocc n hn with h1' | h1'
    · rcases hocc m hm' with h2' | h2'
      · obtain ⟨ν, c1, c2⟩ := hoccname n h1'
        obtain ⟨μ, e1, e2⟩ := hoccname m h2'
        refine h.uniq n m h1' h2' ?_
        rw [c2, e2] at heq
        rw [c1, e1, heq]
      · exact hmix n m h1' h2' heq
    · rcases hocc m hm' with h2' | h2'
      · exact (hmix m n h2' h1' heq.symm).symm
      · obtain ⟨K, v, v0, b1, -, b3, rfl⟩ := h1'
        obtain ⟨K', v', v0', b1', -, b3', rfl⟩ := h2'
        rw [b3, b3'] at heq
        cases heq
        have := hZ'.fn hg _ _ _ b1 b1'
        have := congrArg List.getLast? this
        simpa using this
end Bongo
