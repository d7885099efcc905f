import Verif.Proof.EarleyLoop
import Verif.Proof.EarleyMix
/-! A run of the Earley parser. -/
set_option linter.unusedSectionVars false
namespace Bongo
open Std
variable {T NT AK AV V Λ : Type}

/-! ### Trees represented by nodes -/
section rep
variable [Ord T] [Ord AK] [Ord V]
mutual
/-- The tree can be found in the forest at the node. -/
def Rep (I : Inner T AK V) : STree T NT AK AV V → Nat → Prop
  | .leaf tok, n => ∃ a, I.Has n a ∧ I.altAt a = some (.leaf tok.kind tok.value)
  | .node q us, n => ∃ a ak ns, I.Has n a ∧ I.altAt a = some (.branch ak ns) ∧
      q.actionKey.asBase = some ak ∧ RepAll I us ns
def RepAll (I : Inner T AK V) : List (STree T NT AK AV V) → List Nat → Prop
  | [], [] => True
  | t :: ts, n :: ns => Rep I t n ∧ RepAll I ts ns
  | _, _ => False
end

mutual
theorem Rep.mono {I J : Inner T AK V} (h : I.Le J) : (t : STree T NT AK AV V) → (n : Nat) →
    Rep I t n → Rep J t n
  | .leaf tok, n => by
    rw [Rep, Rep]
    rintro ⟨a, h1, h2⟩
    exact ⟨a, h.has _ _ h1, h.alts _ _ h2⟩
  | .node q us, n => by
    rw [Rep, Rep]
    rintro ⟨a, ak, ns, h1, h2, h3, h4⟩
    exact ⟨a, ak, ns, h.has _ _ h1, h.alts _ _ h2, h3, RepAll.mono h us ns h4⟩
theorem RepAll.mono {I J : Inner T AK V} (h : I.Le J) : (ts : List (STree T NT AK AV V)) →
    (ns : List Nat) → RepAll I ts ns → RepAll J ts ns
  | [], [] => fun _ => by rw [RepAll]; trivial
  | t :: ts, n :: ns => by
    rw [RepAll, RepAll]
    rintro ⟨h1, h2⟩
    exact ⟨Rep.mono h t n h1, RepAll.mono h ts ns h2⟩
  | [], _ :: _ => fun h => by simp [RepAll] at h
  | _ :: _, [] => fun h => by simp [RepAll] at h
end

theorem Rep.of_sub {I : Inner T AK V} {t : STree T NT AK AV V} {m n : Nat} (h : Rep I t m)
    (hs : ∀ b, I.Has m b → I.Has n b) : Rep I t n := by
  cases t with
  | leaf tok =>
    rw [Rep] at h ⊢
    obtain ⟨a, h1, h2⟩ := h
    exact ⟨a, hs a h1, h2⟩
  | node q us =>
    rw [Rep] at h ⊢
    obtain ⟨a, ak, ns, h1, h2⟩ := h
    exact ⟨a, ak, ns, hs a h1, h2⟩

theorem RepAll_iff {I : Inner T AK V} {ts : List (STree T NT AK AV V)} {ns : List Nat} :
    RepAll I ts ns ↔ ts.length = ns.length ∧
      ∀ (x : Nat) (t : STree T NT AK AV V) (n : Nat), ts[x]? = some t → ns[x]? = some n →
        Rep I t n := by
  induction ts generalizing ns with
  | nil =>
    cases ns with
    | nil => simp [RepAll]
    | cons n ns => simp [RepAll]
  | cons t ts ih =>
    cases ns with
    | nil => simp [RepAll]
    | cons n ns =>
      rw [RepAll, ih]
      simp only [List.length_cons, Nat.add_right_cancel_iff]
      constructor
      · rintro ⟨h1, h2, h3⟩
        refine ⟨h2, ?_⟩
        intro x t' n' hx hy
        cases x with
        | zero => simp at hx hy; subst hx hy; exact h1
        | succ x => simp at hx hy; exact h3 x t' n' hx hy
      · rintro ⟨h1, h2⟩
        exact ⟨h2 0 t n rfl rfl, h1, fun x t' n' hx hy => h2 (x + 1) t' n' hx hy⟩
end rep

section
variable {sg : StartGrammar T NT AK AV} {toks : List (Token T V)} {lb : Labelling sg toks Λ}
variable [Ord T] [Ord NT] [Ord AK] [Ord V] [DecidableEq T] [DecidableEq NT]
variable [TransOrd T] [TransOrd NT] [TransOrd AK] [TransOrd V]
variable [LawfulEqOrd T] [LawfulEqOrd NT] [LawfulEqOrd AK] [LawfulEqOrd V]
variable {addr : StartNonTerminal NT → Nat → Nat} {N : Nat} {I : Inner T AK V} {L : Nat → Λ → Prop}

/-- Every item is in the set, and the trees that are possible as its children can be found at the
nodes of its value. -/
def Full (sg : StartGrammar T NT AK AV) (toks : List (Token T V)) (j : Nat) (I : Inner T AK V)
    (Z : EarleyStateSet T NT AK AV) : Prop :=
  ∀ p d i, EItem sg toks j p d i → ∃ v, (⟨⟨p, d⟩, i⟩, v) ∈ Z ∧
    ∀ (x : Nat) (s : STree T NT AK AV V), LItem sg toks j p d i x s →
      ∃ n, v[x]? = some n ∧ Rep I s n

theorem Full.mono {j : Nat} {I J : Inner T AK V} {Z : EarleyStateSet T NT AK AV} (h : I.Le J)
    (hf : Full sg toks j I Z) : Full sg toks j J Z := by
  intro p d i he
  obtain ⟨v, h1, h2⟩ := hf p d i he
  refine ⟨v, h1, fun x s hx => ?_⟩
  obtain ⟨n, h3, h4⟩ := h2 x s hx
  exact ⟨n, h3, h4.mono h s n⟩

/-- The items a state starts with are in the set. -/
structure Kern (sg : StartGrammar T NT AK AV) (toks : List (Token T V)) (j : Nat) (I : Inner T AK V)
    (Z : EarleyStateSet T NT AK AV) : Prop where
  start : j = 0 → ∀ p ∈ sg.prods, p.head = sg.startSymbol →
    ∃ v, ((⟨⟨p, 0⟩, 0⟩, v) : EarleyStateKey T NT AK AV × List Nat) ∈ Z
  scan : ∀ j' p d i tok, j = j' + 1 → EItem sg toks j' p d i →
    p.elements[d]? = some (.term (.term tok.kind)) → toks[j']? = some tok →
    ∃ v, (⟨⟨p, d + 1⟩, i⟩, v) ∈ Z ∧ (∃ n, v[d]? = some n ∧ Rep I (.leaf tok : STree T NT AK AV V) n) ∧
      ∀ (x : Nat) (s : STree T NT AK AV V), LItem sg toks j' p d i x s →
        ∃ n, v[x]? = some n ∧ Rep I s n

theorem full_of_closed (hg : SGOk addr sg) (prev : List (EarleyStateSet T NT AK AV))
    {Z : EarleyStateSet T NT AK AV}
    (hsets : ∀ k Zk, (prev ++ [Z])[k]? = some Zk → SetOk lb addr k L Zk)
    (hfull : ∀ k Zk, prev[k]? = some Zk → Full sg toks k I Zk)
    (hk : Kern sg toks prev.length I Z) (hc : Closed sg prev Z I) :
    Full sg toks prev.length I Z := by
  have hz : SetOk lb addr prev.length L Z := hsets _ _ (by simp)
  have hset : ∀ k, k ≤ prev.length → ∃ Zk, (prev ++ [Z])[k]? = some Zk ∧
      (k < prev.length → prev[k]? = some Zk) ∧ (k = prev.length → Zk = Z) := by
    intro k hle
    rcases Nat.lt_or_ge k prev.length with hlt | hge
    · have hkz := List.getElem?_eq_getElem hlt
      refine ⟨prev[k], by rw [List.getElem?_append_left hlt]; exact hkz, fun _ => hkz, by omega⟩
    · have : k = prev.length := by omega
      exact ⟨Z, by rw [this]; simp, by omega, fun _ => rfl⟩
  have key : ∀ j p d i ts, EParse sg toks j p d i ts → j = prev.length →
      ∃ v, ((⟨⟨p, d⟩, i⟩, v) : EarleyStateKey T NT AK AV × List Nat) ∈ Z := by
    intro j p d i ts h
    induction h with
    | start h1 h2 =>
      intro hj
      exact hk.start hj.symm _ h1 h2
    | @predict j p d i ts q h1 h2 h3 ih =>
      intro hj
      obtain ⟨v, hv⟩ := ih hj
      obtain ⟨v', hv'⟩ := hc.predict _ hv q h3 h2
      rw [hj]
      exact ⟨v', hv'⟩
    | scan h1 h2 h3 ih =>
      intro hj
      obtain ⟨v, hv, -⟩ := hk.scan _ _ _ _ _ hj.symm ⟨_, h1⟩ h2 h3
      exact ⟨v, hv⟩
    | @complete j k p d i ts q us h1 h2 h3 ih1 ih2 =>
      intro hj
      obtain ⟨vq, hvq⟩ := ih2 hj
      have hkj := h3.bounds.2.1
      obtain ⟨Zk, hZk, e1, e2⟩ := hset k (by omega)
      have horig : ∃ v, ((⟨⟨p, d⟩, i⟩, v) : EarleyStateKey T NT AK AV × List Nat) ∈ Zk := by
        rcases Nat.lt_or_ge k prev.length with hlt | hge
        · obtain ⟨v, hv, -⟩ := hfull k _ (e1 hlt) p d i ⟨_, h1⟩
          exact ⟨v, hv⟩
        · have : k = prev.length := by omega
          rw [e2 this]; exact ih1 this
      obtain ⟨v, hv⟩ := horig
      obtain ⟨v', n', a, ak, c1, -⟩ := hc.complete _ hvq rfl Zk hZk _ hv h2
      exact ⟨v', c1⟩
  have keyL : ∀ j p d i x s, LItem sg toks j p d i x s → j = prev.length →
      ∀ v, ((⟨⟨p, d⟩, i⟩, v) : EarleyStateKey T NT AK AV × List Nat) ∈ Z →
        ∃ n, v[x]? = some n ∧ Rep I s n := by
    intro j p d i x s h
    induction h with
    | scanOld h1 h2 h3 h4 ih =>
      intro hj v hv
      obtain ⟨v', hv', -, hl⟩ := hk.scan _ _ _ _ _ hj.symm h1 h2 h3
      have := hz.unique hg.wf hg.addr hv hv' rfl rfl
      simp only [_root_.Prod.mk.injEq, true_and] at this
      rw [this]
      exact hl _ _ h4
    | scanNew h1 h2 h3 =>
      intro hj v hv
      obtain ⟨v', hv', hl, -⟩ := hk.scan _ _ _ _ _ hj.symm h1 h2 h3
      have := hz.unique hg.wf hg.addr hv hv' rfl rfl
      simp only [_root_.Prod.mk.injEq, true_and] at this
      rw [this]
      exact hl
    | @compOld j k p d i q x s h1 h2 h3 h4 ih =>
      intro hj v hv
      obtain ⟨us, h3⟩ := h3
      obtain ⟨vq, hvq⟩ := key _ _ _ _ _ h3 hj
      have hkj := h3.bounds.2.1
      obtain ⟨Zk, hZk, e1, e2⟩ := hset k (by omega)
      have horig : ∃ v, ((⟨⟨p, d⟩, i⟩, v) : EarleyStateKey T NT AK AV × List Nat) ∈ Zk ∧
          ∃ n, v[x]? = some n ∧ Rep I s n := by
        rcases Nat.lt_or_ge k prev.length with hlt | hge
        · obtain ⟨v, hv, hl⟩ := hfull k _ (e1 hlt) p d i h1
          exact ⟨v, hv, hl x s h4⟩
        · have : k = prev.length := by omega
          obtain ⟨ts, h1⟩ := h1
          obtain ⟨v, hv⟩ := key _ _ _ _ _ h1 this
          rw [e2 this]; exact ⟨v, hv, ih this v hv⟩
      obtain ⟨v1, hv1, m, hm, hr⟩ := horig
      obtain ⟨v', n', a, ak, c1, c2, -⟩ := hc.complete _ hvq rfl Zk hZk _ hv1 h2
      have := hz.unique hg.wf hg.addr hv c1 rfl rfl
      simp only [_root_.Prod.mk.injEq] at this
      rw [this.2]
      have hl' := (hz.entry _ c1).2.1
      simp only [EarleyStateKey.next] at hl'
      have hxd := h4.lt
      have hn := List.getElem?_eq_getElem (l := v') (i := x) (by omega)
      exact ⟨_, hn, hr.of_sub (fun b hb => c2 x _ _ b hn hm hb)⟩
    | @compNew j k p d i q us h1 h2 h3 hlen h4 ih =>
      intro hj v hv
      obtain ⟨us', h3⟩ := h3
      obtain ⟨vq, hvq⟩ := key _ _ _ _ _ h3 hj
      have hkj := h3.bounds.2.1
      obtain ⟨Zk, hZk, e1, e2⟩ := hset k (by omega)
      have horig : ∃ v, ((⟨⟨p, d⟩, i⟩, v) : EarleyStateKey T NT AK AV × List Nat) ∈ Zk := by
        rcases Nat.lt_or_ge k prev.length with hlt | hge
        · obtain ⟨v, hv, -⟩ := hfull k _ (e1 hlt) p d i h1
          exact ⟨v, hv⟩
        · have : k = prev.length := by omega
          obtain ⟨ts, h1⟩ := h1
          rw [e2 this]; exact key _ _ _ _ _ h1 this
      obtain ⟨v1, hv1⟩ := horig
      obtain ⟨v', n', a, ak, c1, c2, c3, c4, c5, c6⟩ := hc.complete _ hvq rfl Zk hZk _ hv1 h2
      have := hz.unique hg.wf hg.addr hv c1 rfl rfl
      simp only [_root_.Prod.mk.injEq] at this
      rw [this.2]
      refine ⟨n', c3, ?_⟩
      rw [Rep]
      refine ⟨a, ak, vq, c4, c5, c6, ?_⟩
      rw [RepAll_iff]
      have hlq : vq.length = q.numElements := (hz.entry _ hvq).2.1
      refine ⟨by omega, ?_⟩
      intro y u n hu hn
      obtain ⟨n2, e3, e4⟩ := ih y u hu hj vq hvq
      rw [hn] at e3; cases e3; exact e4
  rintro p d i ⟨ts, h⟩
  obtain ⟨v, hv⟩ := key _ p d i ts h rfl
  exact ⟨v, hv, fun x s hx => keyL _ p d i x s hx rfl v hv⟩

/-- The trees of a derivation of an item can be found together. -/
theorem Full.parse {j : Nat} {Z : EarleyStateSet T NT AK AV} (hf : Full sg toks j I Z)
    (hz : SetOk lb addr j L Z) {p d i ts} (h : EParse sg toks j p d i ts) :
    ∃ v, (⟨⟨p, d⟩, i⟩, v) ∈ Z ∧ RepAll I ts v := by
  obtain ⟨v, hv, hl⟩ := hf p d i ⟨ts, h⟩
  refine ⟨v, hv, RepAll_iff.2 ⟨?_, ?_⟩⟩
  · have h1 := (hz.entry _ hv).2.1
    have h2 := h.bounds.2.2.2
    simp only at h1
    omega
  · intro x t n hx hn
    obtain ⟨m, h1, h2⟩ := hl x t (h.litem x t hx)
    rw [hn] at h1; cases h1; exact h2

/-! ### Shifting -/
theorem insert_vacant {st : Inner T AK V × EarleyStateSet T NT AK AV} {s : EarleyState T NT AK AV}
    (h : ∀ e ∈ st.2, EarleyStateKey.cmp addr s.key e.1 ≠ .eq) :
    EarleyStateSet.insert addr st s =
      .ok ((st.1, BMap.insert (EarleyStateKey.cmp addr) st.2 s.key s.value), .changed) ∧
    ∀ e, e ∈ BMap.insert (EarleyStateKey.cmp addr) st.2 s.key s.value ↔
      e = (s.key, s.value) ∨ e ∈ st.2 := by
  have hg : BMap.get? (EarleyStateKey.cmp addr) st.2 s.key = none := by
    cases hg : BMap.get? (EarleyStateKey.cmp addr) st.2 s.key with
    | none => rfl
    | some v =>
      obtain ⟨k', h1, h2⟩ := BMap.get?_mem hg
      exact absurd h2 (h _ h1)
  unfold EarleyStateSet.insert
  rw [hg]
  exact ⟨rfl, fun e => BMap.mem_insert_of_vacant hg e⟩

theorem hasKind_iff {t : StreamTerminal T} {k : T} : t.hasKind k = true ↔ t = .term k := by
  cases t with
  | endOfStream => simp [StreamTerminal.hasKind]
  | term t => simp [StreamTerminal.hasKind]

/-- `shift` never merges: its states have the keys of the states they come from. -/
theorem shift_spec (hg : SGOk addr sg) {j : Nat} {tok : Token T V} (htok : toks[j]? = some tok)
    (l : List (EarleyState T NT AK AV))
    (hl : l.Pairwise fun a b => EarleyStateKey.cmp addr a.key b.key ≠ .eq)
    {acc : EarleyStateSet T NT AK AV} (ht : Typed lb N I L)
    (hs : ∀ s ∈ l, StOk lb j L s.key s.value) (hacc : SetOk lb addr (j + 1) L acc)
    (hdis : ∀ e ∈ acc, ∀ s ∈ l, EarleyStateKey.cmp addr s.key e.1 ≠ .eq) :
    ∃ I' Z' L', EarleyStateSet.shift addr tok l (I, acc) = .ok (I', Z') ∧ Typed lb N I' L' ∧
      (∀ n ℓ, L n ℓ → L' n ℓ) ∧ SetOk lb addr (j + 1) L' Z' ∧ Inner.Ext N (· = .leaf tok.kind tok.value) I I' ∧
      (∀ e ∈ acc, e ∈ Z') ∧
      ∀ s ∈ l, s.key.after = some (.term (.term tok.kind)) → ∃ n a, (s.key.next, s.value ++ [n]) ∈ Z' ∧
        I'.Has n a ∧ I'.altAt a = some (.leaf tok.kind tok.value) := by
  induction l generalizing I L acc with
  | nil => exact ⟨I, acc, L, rfl, ht, fun _ _ h => h, hacc, .refl _ _ _, fun _ h => h, by simp⟩
  | cons s l ih =>
    rw [List.pairwise_cons] at hl
    have hskip : s.key.after ≠ some (.term (.term tok.kind)) → s.scan I tok = .ok (I, none) →
        ∃ I' Z' L', EarleyStateSet.shift addr tok (s :: l) (I, acc) = .ok (I', Z') ∧
          Typed lb N I' L' ∧
          (∀ n ℓ, L n ℓ → L' n ℓ) ∧ SetOk lb addr (j + 1) L' Z' ∧ Inner.Ext N (· = .leaf tok.kind tok.value) I I' ∧
          (∀ e ∈ acc, e ∈ Z') ∧
          ∀ s' ∈ s :: l, s'.key.after = some (.term (.term tok.kind)) →
            ∃ n a, (s'.key.next, s'.value ++ [n]) ∈ Z' ∧
            I'.Has n a ∧ I'.altAt a = some (.leaf tok.kind tok.value) := by
      intro hne hscan
      obtain ⟨I', Z', L', h1, h2, h3, h4, h5, h6, h7⟩ := ih hl.2 ht
        (fun s hs' => hs s (by simp [hs'])) hacc (fun e he s hs' => hdis e he s (by simp [hs']))
      refine ⟨I', Z', L', ?_, h2, h3, h4, h5, h6, ?_⟩
      · rw [EarleyStateSet.shift, hscan]; exact h1
      · intro s' hs' ha
        rcases List.mem_cons.1 hs' with rfl | hs'
        · exact absurd ha hne
        · exact h7 s' hs' ha
    have hafter : s.key.after = s.prodState.prod.elements[s.prodState.index]? := rfl
    rcases ProdState.nextElemState_cases s.prodState with ⟨h1, h2⟩ | ⟨e, h1, h2⟩
    · refine hskip (by rw [hafter, h2]; simp) ?_
      unfold EarleyState.scan; rw [h1]
    · cases hel : e.element with
      | nonterm A =>
        refine hskip (by rw [hafter, h2, hel]; simp) ?_
        unfold EarleyState.scan; rw [h1]; simp only [hel, Elem.asTerm]
      | term t =>
        by_cases hk : t.hasKind tok.kind = true
        · have hk' := hasKind_iff.1 hk
          have ha : s.prodState.prod.elements[s.prodState.index]? = some (.term (.term tok.kind)) := by
            rw [h2, hel, hk']
          have hsk := hs s (by simp)
          obtain ⟨I1, L1, n, a, k1, k2, k3, k4, k5, k6, k7⟩ := ht.mk_node
            (ℓ := lb.lab (j + 1) s.prodState.prod (s.prodState.index + 1) s.key.originIndex
              s.prodState.index)
            (c := .leaf tok.kind tok.value) ⟨j, tok, htok, rfl, rfl, lb.scanNew hsk.1 ha htok⟩
          let s' : EarleyState T NT AK AV := ⟨s.key.next, s.value ++ [n]⟩
          have hscan : s.scan I tok = .ok (I1, some s') := by
            unfold EarleyState.scan
            rw [h1]
            simp only [hel, Elem.asTerm, hk, if_true, Inner.makeLeafNode_eq, k1]
            rfl
          have hs' : StOk lb (j + 1) L1 s'.key s'.value := by
            refine ⟨hsk.1.scan ha htok, by simp [s', EarleyStateKey.next, hsk.2.1], ?_⟩
            intro x m hx
            have hlen : s.value.length = s.prodState.index := hsk.2.1
            simp only [s', List.getElem?_append] at hx
            split at hx
            · next hlt =>
              rw [hlen] at hlt
              have := hsk.2.2 x m hx
              rw [← lb.scanOld hsk.1 ha htok hlt] at this
              exact k3 _ _ this
            · next hge =>
              rw [List.getElem?_singleton] at hx
              split at hx
              · next h0 =>
                cases hx
                have hx' : x = s.prodState.index := by omega
                subst hx'
                exact k4
              · cases hx
          have hcmpnext : ∀ k : EarleyStateKey T NT AK AV,
              EarleyStateKey.cmp addr s.key.next k = EarleyStateKey.cmp addr s.key k := fun _ => rfl
          obtain ⟨v1, v2⟩ := insert_vacant (addr := addr) (st := (I1, acc)) (s := s') (by
            intro e he; exact hdis e he s (by simp))
          obtain ⟨I', Z', L', g1, g2, g3, g4, g5, g6, g7⟩ := ih (I := I1) (L := L1) hl.2 k2
            (fun s hs' => (hs s (by simp [hs'])).mono k3)
            (acc := BMap.insert (EarleyStateKey.cmp addr) acc s'.key s'.value)
            ⟨BMap.sorted_insert hacc.sorted _ _, by
              intro e he
              rcases (v2 e).1 he with rfl | he
              · exact hs'
              · exact (hacc.entry e he).mono k3⟩
            (by
              intro e he x hx
              rcases (v2 e).1 he with rfl | he
              · have := hl.1 x hx
                intro h
                exact this (OrientedCmp.eq_symm (cmp := EarleyStateKey.cmp addr) h)
              · exact hdis e he x (by simp [hx]))
          refine ⟨I', Z', L', ?_, g2, fun n ℓ h => g3 n ℓ (k3 n ℓ h), g4,
            k7.trans g5, fun e he => g6 e ((v2 e).2 (Or.inr he)), ?_⟩
          · rw [EarleyStateSet.shift, hscan]
            simp only [v1]
            exact g1
          · intro x hx hxa
            rcases List.mem_cons.1 hx with rfl | hx
            · exact ⟨n, a, g6 _ ((v2 _).2 (Or.inl rfl)), g5.le.has _ _ k5, g5.le.alts _ _ k6⟩
            · exact g7 x hx hxa
        · refine hskip ?_ ?_
          · rw [hafter, h2, hel]
            intro h
            injection h with h; injection h with h
            exact hk (hasKind_iff.2 h)
          · unfold EarleyState.scan; rw [h1]; simp only [hel, Elem.asTerm, hk]; rfl

/-- The invariant between tokens. -/
structure RunOk (lb : Labelling sg toks Λ) (addr : StartNonTerminal NT → Nat → Nat)
    (I0 : Inner T AK V) (Zs : List (EarleyStateSet T NT AK AV)) (I : Inner T AK V)
    (L : Nat → Λ → Prop) : Prop where
  typed : Typed lb I0.nodes.length I L
  sets : ∀ (k : Nat) (Zk : EarleyStateSet T NT AK AV), Zs[k]? = some Zk → SetOk lb addr k L Zk
  full : ∀ (k : Nat) (Zk : EarleyStateSet T NT AK AV), Zs[k]? = some Zk → Full sg toks k I Zk
  ext : Inner.Ext I0.nodes.length (fun _ => True) I0 I

theorem getElem?_concat {α : Type} {l : List α} {a b : α} {k : Nat} (h : (l ++ [a])[k]? = some b) :
    (k < l.length ∧ l[k]? = some b) ∨ (k = l.length ∧ b = a) := by
  rw [List.getElem?_append] at h
  split at h
  · next hlt => exact Or.inl ⟨hlt, h⟩
  · next hge =>
    rw [List.getElem?_singleton] at h
    split at h
    · cases h; exact Or.inr ⟨by omega, rfl⟩
    · cases h

/-- A closed full set has no start production that is waited for. -/
theorem Full.no_startDone {prev : List (EarleyStateSet T NT AK AV)} {Z : EarleyStateSet T NT AK AV}
    (hf : ∀ k Zk, (prev ++ [Z])[k]? = some Zk → Full sg toks k I Zk) (hc : Closed sg prev Z I) :
    ¬ StartDone sg toks prev.length := by
  rintro ⟨q, k, p, d, i, h1, h2, h3, h4⟩
  obtain ⟨v, hv, -⟩ := hf prev.length Z (by simp) _ _ _ h1
  have hk := h1.bounds.2.1
  have hlt : k < (prev ++ [Z]).length := by simp; exact Nat.lt_succ_of_le hk
  have hget := List.getElem?_eq_getElem hlt
  obtain ⟨v', hv', -⟩ := hf _ _ hget _ _ _ h2
  obtain ⟨_, _, _, ak, -, -, -, -, -, h5⟩ := hc.complete _ hv rfl _ hget _ hv' h3
  simp only at h5
  rw [h4] at h5
  cases h5

/-- A full set has no collisions. -/
theorem Full.no_collision (hg : SGOk addr sg) {j : Nat} {Z : EarleyStateSet T NT AK AV}
    (hf : Full sg toks j I Z) (hz : SetOk lb addr j L Z) : ¬ Collides sg toks j := by
  rintro ⟨p, d₁, d₂, i, hlt, h1, h2⟩
  obtain ⟨v1, m1, -⟩ := hf _ _ _ h1
  obtain ⟨v2, m2, -⟩ := hf _ _ _ h2
  have := hz.unique hg.wf hg.addr m1 m2 rfl rfl
  simp only [_root_.Prod.mk.injEq, EarleyStateKey.mk.injEq, ProdState.mk.injEq] at this
  omega

/-- An item after the first token comes from a scan. -/
theorem EParse.kernel {j p d i ts} (h : EParse sg toks j p d i ts) : ∀ j', j = j' + 1 →
    ∃ p d i ts tok, EParse sg toks j' p d i ts ∧ p.elements[d]? = some (.term (.term tok.kind)) ∧
      toks[j']? = some tok := by
  induction h with
  | start _ _ => intro j' h; cases h
  | predict _ _ _ ih => exact ih
  | scan h1 h2 h3 _ => intro j' h; cases h; exact ⟨_, _, _, _, _, h1, h2, h3⟩
  | complete _ _ _ _ ih => exact ih

/-- The state at `j` has items, which are kept apart. -/
def GoodAt (sg : StartGrammar T NT AK AV) (toks : List (Token T V)) (j : Nat) : Prop :=
  (∃ p d i, EItem sg toks j p d i) ∧ ∀ w, ¬ Stuck sg toks j w

/-- Closing a kernel. -/
theorem close_kernel (hg : SGOk addr sg) {I0 : Inner T AK V}
    {prev : List (EarleyStateSet T NT AK AV)} {Z : EarleyStateSet T NT AK AV} (hne : Z ≠ [])
    (hr : RunOk lb addr I0 prev I L) (hz : SetOk lb addr prev.length L Z)
    (hk : Kern sg toks prev.length I Z) :
    ∃ F, (∃ I' Z' L', (∀ fuel, F ≤ fuel → closeState addr sg fuel prev (I, Z) = .ok (I', Z')) ∧
      RunOk lb addr I0 (prev ++ [Z']) I' L' ∧ GoodAt sg toks prev.length) ∨
    (∃ w, (∀ fuel, F ≤ fuel → closeState addr sg fuel prev (I, Z) = .panic w) ∧
      Stuck sg toks prev.length w) := by
  have hsets : ∀ k Zk, (prev ++ [Z])[k]? = some Zk → SetOk lb addr k L Zk := by
    intro k Zk h
    rcases getElem?_concat h with ⟨-, h⟩ | ⟨rfl, rfl⟩
    · exact hr.sets k Zk h
    · exact hz
  obtain ⟨F, h | h⟩ := closeState_spec hg hne hr.typed hsets
  · refine ⟨F, Or.inl ?_⟩
    obtain ⟨I', Z', L', h1, h2, h3, h4, h5, h6, h7⟩ := h
    have hk' : Kern sg toks prev.length I' Z' := by
      refine ⟨?_, ?_⟩
      · intro hj p hp hh
        obtain ⟨v, hv⟩ := hk.start hj p hp hh
        exact ⟨v, h6 _ hv⟩
      · intro j' p d i tok e1 e2 e3 e4
        obtain ⟨v, hv, ⟨n, hn1, hn2⟩, hrep⟩ := hk.scan j' p d i tok e1 e2 e3 e4
        refine ⟨v, h6 _ hv, ⟨n, hn1, hn2.mono h5.le _ _⟩, fun x s hx => ?_⟩
        obtain ⟨n, hn1, hn2⟩ := hrep x s hx
        exact ⟨n, hn1, hn2.mono h5.le _ _⟩
    have hfull := full_of_closed hg prev h4 (fun k Zk hk => (hr.full k Zk hk).mono h5.le) hk' h7
    have hz' : SetOk lb addr prev.length L' Z' := h4 _ _ (by simp)
    have hfulls : ∀ k Zk, (prev ++ [Z'])[k]? = some Zk → Full sg toks k I' Zk := by
      intro k Zk h
      rcases getElem?_concat h with ⟨-, h⟩ | ⟨rfl, rfl⟩
      · exact (hr.full k Zk h).mono h5.le
      · exact hfull
    refine ⟨I', Z', L', h1, ⟨h2, h4, hfulls, hr.ext.trans h5⟩, ?_, ?_⟩
    swap
    · intro w hw
      cases hw with
      | collides h => exact hfull.no_collision hg hz' h
      | startKey h => exact Full.no_startDone hfulls h7 h
    · cases Z with
      | nil => exact absurd rfl hne
      | cons e Z => exact ⟨_, _, _, (hz.entry e (by simp)).1⟩
  · exact ⟨F, Or.inr h⟩

/-- One token. -/
theorem token_step (hg : SGOk addr sg) {I0 : Inner T AK V}
    {before : List (EarleyStateSet T NT AK AV)} {last : EarleyStateSet T NT AK AV}
    (hr : RunOk lb addr I0 (before ++ [last]) I L) {tok : Token T V}
    (htok : toks[before.length]? = some tok) :
    ∃ st F, EarleyStateSet.shift addr tok (EarleyStateSet.states last) (I, []) = .ok st ∧
    ((∃ I' new L', (∀ fuel, F ≤ fuel → closeState addr sg fuel (before ++ [last]) st = .ok (I', new)) ∧
      RunOk lb addr I0 (before ++ [last] ++ [new]) I' L' ∧ GoodAt sg toks (before.length + 1)) ∨
    ((∀ fuel, F ≤ fuel → closeState addr sg fuel (before ++ [last]) st = .panic .emptyState) ∧
      ¬ ∃ p d i, EItem sg toks (before.length + 1) p d i) ∨
    (∃ w, (∀ fuel, F ≤ fuel → closeState addr sg fuel (before ++ [last]) st = .panic w) ∧
      Stuck sg toks (before.length + 1) w)) := by
  have hlast : (before ++ [last])[before.length]? = some last := by simp
  have hz := hr.sets _ _ hlast
  have hf := hr.full _ _ hlast
  obtain ⟨I1, Z1, L1, h1, h2, h3, h4, h5', -, h7⟩ := shift_spec hg htok (EarleyStateSet.states last)
    (by
      unfold EarleyStateSet.states
      rw [List.pairwise_map]
      have := hz.sorted
      unfold BMap.Sorted at this
      refine List.Pairwise.imp ?_ this
      intro a b hab
      simp [hab]) (acc := []) hr.typed
    (fun s hs => hz.entry _ (mem_states.1 hs)) ⟨BMap.sorted_nil, by simp⟩ (by simp)
  have h5 := h5'.mono (Q := fun _ => True) (fun _ _ => trivial)
  have hlen : (before ++ [last]).length = before.length + 1 := by simp
  have hr1 : RunOk lb addr I0 (before ++ [last]) I1 L1 :=
    ⟨h2, fun k Zk h => (hr.sets k Zk h).mono h3, fun k Zk h => (hr.full k Zk h).mono h5.le,
      hr.ext.trans h5⟩
  have hscan : ∀ p d i tok', EItem sg toks before.length p d i →
      p.elements[d]? = some (.term (.term tok'.kind)) → toks[before.length]? = some tok' →
      ∃ v, (⟨⟨p, d + 1⟩, i⟩, v) ∈ Z1 ∧
        (∃ n, v[d]? = some n ∧ Rep I1 (.leaf tok' : STree T NT AK AV V) n) ∧
        ∀ (x : Nat) (s : STree T NT AK AV V), LItem sg toks before.length p d i x s →
          ∃ n, v[x]? = some n ∧ Rep I1 s n := by
    intro p d i tok' e1 e2 e3
    rw [htok] at e3; cases e3
    obtain ⟨v, hv, hrep⟩ := hf _ _ _ e1
    obtain ⟨n, a, m1, m2, m3⟩ := h7 ⟨⟨⟨p, d⟩, i⟩, v⟩ (mem_states.2 hv) e2
    have hl : v.length = d := (hz.entry _ hv).2.1
    refine ⟨_, m1, ⟨n, by simp only; rw [← hl]; simp, by rw [Rep]; exact ⟨a, m2, m3⟩⟩, ?_⟩
    intro x s hx
    obtain ⟨m, k1, k2⟩ := hrep x s hx
    refine ⟨m, ?_, k2.mono h5.le _ _⟩
    simp only
    rw [List.getElem?_append_left (List.getElem?_eq_some_iff.1 k1).1]
    exact k1
  have hk : Kern sg toks (before ++ [last]).length I1 Z1 := by
    refine ⟨by intro h; simp at h, ?_⟩
    intro j' p d i tok' e1 e2 e3 e4
    rw [hlen] at e1
    have : j' = before.length := by omega
    subst this
    exact hscan p d i tok' e2 e3 e4
  by_cases hne : Z1 = []
  · refine ⟨(I1, Z1), 0, h1, Or.inr (Or.inl ⟨?_, ?_⟩)⟩
    · intro fuel _
      unfold closeState
      rw [hne]; rfl
    · rintro ⟨p, d, i, ts, hp⟩
      obtain ⟨p', d', i', ts', tok', e1, e2, e3⟩ := hp.kernel _ rfl
      obtain ⟨v, hv, -⟩ := hscan _ _ _ _ ⟨_, e1⟩ e2 e3
      rw [hne] at hv; cases hv
  · obtain ⟨F, h | h⟩ := close_kernel hg hne hr1 (by rw [hlen]; exact h4) hk
    · rw [hlen] at h
      exact ⟨(I1, Z1), F, h1, Or.inl h⟩
    · rw [hlen] at h
      exact ⟨(I1, Z1), F, h1, Or.inr (Or.inr h)⟩

/-- The loop over the tokens. -/
theorem parseLoop_spec (hg : SGOk addr sg) {I0 : Inner T AK V} (rest : List (Token T V))
    {before : List (EarleyStateSet T NT AK AV)} {last : EarleyStateSet T NT AK AV}
    (hr : RunOk lb addr I0 (before ++ [last]) I L) (hrest : toks.drop before.length = rest)
    (hlen : before.length ≤ toks.length) :
    ∃ F, (∃ I' sets last' L', (∀ fuel, F ≤ fuel →
        parseLoop addr sg fuel before last I rest = .ok (I', last')) ∧
      RunOk lb addr I0 (sets ++ [last']) I' L' ∧ sets.length = toks.length ∧
      ∀ k, before.length < k → k ≤ toks.length → GoodAt sg toks k) ∨
    (∃ b, before.length < b ∧ b ≤ toks.length ∧
      (∀ k, before.length < k → k < b → GoodAt sg toks k) ∧
      (((∀ fuel, F ≤ fuel → parseLoop addr sg fuel before last I rest = .panic .emptyState) ∧
        ¬ ∃ p d i, EItem sg toks b p d i) ∨
      (∃ w, (∀ fuel, F ≤ fuel → parseLoop addr sg fuel before last I rest = .panic w) ∧
        Stuck sg toks b w))) := by
  induction rest generalizing before last I L with
  | nil =>
    have : before.length = toks.length := by
      have := congrArg List.length hrest; simp at this; omega
    refine ⟨0, Or.inl ⟨I, before, last, L, fun _ _ => rfl, hr, this, ?_⟩⟩
    intro k h1 h2; omega
  | cons tok rest ih =>
    have hlt : before.length < toks.length := by
      have := congrArg List.length hrest; simp at this; omega
    have htok : toks[before.length]? = some tok := by
      have : (toks.drop before.length)[0]? = some tok := by rw [hrest]; rfl
      simpa using this
    have hl1 : (before ++ [last]).length = before.length + 1 := by simp
    obtain ⟨st, F, h1, h2 | h2 | h2⟩ := token_step hg hr htok
    · obtain ⟨I', new, L', k1, k2, k3⟩ := h2
      have hdrop : toks.drop (before ++ [last]).length = rest := by
        rw [hl1, ← List.drop_drop, hrest]; rfl
      have heq : ∀ fuel, F ≤ fuel → parseLoop addr sg fuel before last I (tok :: rest) =
          parseLoop addr sg fuel (before ++ [last]) new I' rest := by
        intro fuel hf
        rw [parseLoop, h1]
        simp only [k1 fuel hf]
      obtain ⟨F', h | h⟩ := ih k2 hdrop (by omega)
      · obtain ⟨I'', sets, last', L'', m1, m2, m3, m4⟩ := h
        refine ⟨max F F', Or.inl ⟨I'', sets, last', L'', ?_, m2, m3, ?_⟩⟩
        · intro fuel hf
          rw [heq fuel (by omega)]; exact m1 fuel (by omega)
        · intro k hk1 hk2
          rcases Nat.lt_or_ge (before.length + 1) k with h | h
          · exact m4 k (by omega) hk2
          · have : k = before.length + 1 := by omega
            rw [this]; exact k3
      · obtain ⟨b, b1, b2, b3, b4⟩ := h
        refine ⟨max F F', Or.inr ⟨b, by omega, b2, ?_, ?_⟩⟩
        · intro k hk1 hk2
          rcases Nat.lt_or_ge (before.length + 1) k with h | h
          · exact b3 k (by omega) hk2
          · have : k = before.length + 1 := by omega
            rw [this]; exact k3
        · rcases b4 with ⟨c1, c2⟩ | ⟨w, c1, c2⟩
          · exact Or.inl ⟨fun fuel hf => by rw [heq fuel (by omega)]; exact c1 fuel (by omega), c2⟩
          · exact Or.inr ⟨w, fun fuel hf => by rw [heq fuel (by omega)]; exact c1 fuel (by omega), c2⟩
    · refine ⟨F, Or.inr ⟨before.length + 1, by omega, by omega, by intro k a b; omega, Or.inl ⟨?_, h2.2⟩⟩⟩
      intro fuel hf
      rw [parseLoop, h1]; simp only [h2.1 fuel hf]
    · obtain ⟨w, h2⟩ := h2
      refine ⟨F, Or.inr ⟨before.length + 1, by omega, by omega, by intro k a b; omega,
        Or.inr ⟨w, ?_, h2.2⟩⟩⟩
      intro fuel hf
      rw [parseLoop, h1]; simp only [h2.1 fuel hf]
end
end Bongo
