import Verif.Proof.CanonRun
import Verif.Proof.EarleyParse
/-! What can be read off the returned node, without reference to memory. -/
set_option linter.unusedSectionVars false
namespace Bongo
open Std
variable {T NT AK AV V : Type}
variable [Ord T] [Ord NT] [Ord AK] [Ord V] [DecidableEq T] [DecidableEq NT]
variable [TransOrd T] [TransOrd NT] [TransOrd AK] [TransOrd V]
variable [LawfulEqOrd T] [LawfulEqOrd NT] [LawfulEqOrd AK] [LawfulEqOrd V]
variable {sg : StartGrammar T NT AK AV} {prev : List (EarleyStateSet T NT AK AV)}
  {Z : EarleyStateSet T NT AK AV} {tab : Nat → Option (NName T NT AK AV)}
variable {addr : StartNonTerminal NT → Nat → Nat} {toks : List (Token T V)} {N : Nat}
  {L : Nat → Unit → Prop}

theorem cReadsAll_iff {j : Nat} {cs : List (DTree (Token T V) AK)} {νs : List (NName T NT AK AV)} :
    CReadsAll sg toks j cs νs ↔ cs.length = νs.length ∧
      ∀ (x : Nat) (c : DTree (Token T V) AK) (ν : NName T NT AK AV), cs[x]? = some c →
        νs[x]? = some ν → CReads sg toks j c ν := by
  induction cs generalizing νs with
  | nil =>
    cases νs with
    | nil => simp [CReadsAll]
    | cons n ns => simp [CReadsAll]
  | cons c cs ih =>
    cases νs with
    | nil => simp [CReadsAll]
    | cons n ns =>
      rw [CReadsAll, ih]
      simp only [List.length_cons, Nat.add_right_cancel_iff]
      constructor
      · rintro ⟨h1, h2, h3⟩
        refine ⟨h2, ?_⟩
        intro x t' n' hx hy
        cases x with
        | zero => simp at hx hy; subst hx hy; exact h1
        | succ x => simp at hx hy; exact h3 x t' n' hx hy
      · rintro ⟨h1, h2⟩
        exact ⟨h2 0 c n rfl rfl, h1, fun x t' n' hx hy => h2 (x + 1) t' n' hx hy⟩

theorem Nmd.cons_iff {ns : List Nat} {νs : List (NName T NT AK AV)} {n ν} :
    Nmd tab (n :: ns) (ν :: νs) ↔ tab n = some ν ∧ Nmd tab ns νs := by
  simp [Nmd]

mutual
/-- What can be read off a node can be read off its name. -/
theorem RunSim.reads {w : World T AK V} {t : Nat} (h : RunSim addr sg toks N prev Z tab (w t) L) :
    (s : DTree (Token T V) AK) → (n : Nat) → (ν : NName T NT AK AV) →
    tab n = some ν → Reads w s ⟨n, t⟩ → CReads sg toks prev.length s ν
  | .leaf tok, n, ν, hν => by
    rw [reads_leaf, CReads]
    rintro ⟨a, h1, h2⟩
    obtain ⟨c', k1, k2⟩ := h.sim.cs.sound n ν hν _ ⟨a, h1, h2⟩
    cases c' with
    | branch _ _ => exact k2.elim
    | leaf k v => obtain ⟨rfl, rfl⟩ := k2; exact k1
  | .node ak cs, n, ν, hν => by
    rw [reads_node, CReads]
    rintro ⟨a, ns, h1, h2, h3⟩
    obtain ⟨c', k1, k2⟩ := h.sim.cs.sound n ν hν _ ⟨a, h1, h2⟩
    cases c' with
    | leaf _ _ => exact k2.elim
    | branch k νs =>
      obtain ⟨rfl, k2⟩ := k2
      exact ⟨νs, k1, h.readsAll cs ns νs k2 h3⟩
theorem RunSim.readsAll {w : World T AK V} {t : Nat} (h : RunSim addr sg toks N prev Z tab (w t) L) :
    (cs : List (DTree (Token T V) AK)) → (ns : List Nat) → (νs : List (NName T NT AK AV)) →
    Nmd tab ns νs → ReadsAll w cs (ns.map (⟨·, t⟩)) → CReadsAll sg toks prev.length cs νs
  | [], ns, νs, hN => by
    have hl := hN.len
    cases ns with
    | nil => cases νs with
      | nil => simp [ReadsAll, CReadsAll]
      | cons ν νs => simp at hl
    | cons n ns => simp [ReadsAll]
  | c :: cs, ns, νs, hN => by
    have hl := hN.len
    cases ns with
    | nil => simp [ReadsAll]
    | cons n ns =>
      cases νs with
      | nil => simp at hl
      | cons ν νs =>
        rw [Nmd.cons_iff] at hN
        simp only [List.map_cons, ReadsAll, CReadsAll]
        rintro ⟨h1, h2⟩
        exact ⟨h.reads c n ν hN.1 h1, h.readsAll cs ns νs hN.2 h2⟩
end

mutual
/-- What can be read off the name of a node can be read off the node. -/
theorem RunSim.reads' {w : World T AK V} {t : Nat} (h : RunSim addr sg toks N prev Z tab (w t) L) :
    (s : DTree (Token T V) AK) → (n : Nat) → (ν : NName T NT AK AV) → Occ (prev ++ [Z]) n →
    tab n = some ν → CReads sg toks prev.length s ν → Reads w s ⟨n, t⟩
  | .leaf tok, n, ν, ho, hν => by
    rw [reads_leaf, CReads]
    intro hc
    obtain ⟨m, c, k1, k2, ⟨a, k3, k4⟩, k5, -⟩ := h.full _ _ hc
    have : m = n := h.sim.uniq m n k1 ho (by rw [k2, hν])
    subst this
    cases c with
    | branch _ _ => exact k5.elim
    | leaf k v => obtain ⟨rfl, rfl⟩ := k5; exact ⟨a, k3, k4⟩
  | .node ak cs, n, ν, ho, hν => by
    rw [reads_node, CReads]
    rintro ⟨νs, h1, h2⟩
    obtain ⟨m, c, e1, e2, ⟨b, e3, e4⟩, e5, e6⟩ := h.full _ _ h1
    have : m = n := h.sim.uniq m n e1 ho (by rw [e2, hν])
    subst this
    cases c with
    | leaf _ _ => exact e5.elim
    | branch ak' ns' =>
      obtain ⟨rfl, e5⟩ := e5
      exact ⟨b, ns', e3, e4, h.readsAll' cs ns' νs (e6 _ _ rfl) e5 h2⟩
theorem RunSim.readsAll' {w : World T AK V} {t : Nat} (h : RunSim addr sg toks N prev Z tab (w t) L) :
    (cs : List (DTree (Token T V) AK)) → (ns : List Nat) → (νs : List (NName T NT AK AV)) →
    (∀ n ∈ ns, Occ (prev ++ [Z]) n) → Nmd tab ns νs → CReadsAll sg toks prev.length cs νs →
    ReadsAll w cs (ns.map (⟨·, t⟩))
  | [], ns, νs, ho, hN => by
    have hl := hN.len
    cases ns with
    | nil => simp [ReadsAll]
    | cons n ns =>
      cases νs with
      | nil => simp at hl
      | cons ν νs => simp [CReadsAll]
  | c :: cs, ns, νs, ho, hN => by
    have hl := hN.len
    cases ns with
    | nil => cases νs with
      | nil => simp [CReadsAll]
      | cons ν νs => simp at hl
    | cons n ns =>
      cases νs with
      | nil => simp at hl
      | cons ν νs =>
        rw [Nmd.cons_iff] at hN
        simp only [List.map_cons, ReadsAll, CReadsAll]
        rintro ⟨h1, h2⟩
        exact ⟨h.reads' c n ν (ho n (by simp)) hN.1 h1,
          h.readsAll' cs ns νs (fun m hm => ho m (by simp [hm])) hN.2 h2⟩
end

variable {g : Grammar T NT AK AV}

/-- The state of the parser at the start. -/
theorem start_preSim (hw : g.WF) {I0 : Inner T AK V} (hI : I0.WF) :
    PreSim addr g.wrapped toks I0.nodes.length []
      ([(⟨⟨startRef g, 0⟩, 0⟩, [])] : EarleyStateSet T NT AK AV) (fun _ => none) I0
      (fun _ _ => False) := by
  obtain ⟨hr0, hz0, -⟩ := start_kernel (addr := addr) hw (unitLabel g.wrapped toks) hI
  have hno : ∀ n, ¬ Occ ([] ++ [[(⟨⟨startRef g, 0⟩, 0⟩, [])]] : List (EarleyStateSet T NT AK AV)) n := by
    rintro n ⟨k, Zk, K, v, h1, h2, h3⟩
    rcases getElem?_concat h1 with ⟨hlt, -⟩ | ⟨rfl, rfl⟩
    · simp at hlt
    · simp only [List.mem_singleton, _root_.Prod.mk.injEq] at h2
      rw [h2.2] at h3; cases h3
  refine ⟨hr0.typed, ?_, ⟨rfl, ⟨hI, by simp, by simp⟩, by simp, ⟨?_, ?_⟩, ?_, ?_⟩, ?_, ?_,
    fun k a ns hk => Or.inr (hI.branchNodes k a ns hk)⟩
  · intro k Zk hk
    rcases getElem?_concat hk with ⟨hlt, -⟩ | ⟨rfl, rfl⟩
    · simp at hlt
    · exact hz0
  · intro K v hK
    simp only [List.mem_singleton, _root_.Prod.mk.injEq] at hK
    obtain ⟨rfl, rfl⟩ := hK
    exact ⟨[], ⟨startRef g, startRef_mem hw, rfl, rfl, rfl⟩, rfl⟩
  · rintro K v' ⟨p, hp, hh, rfl, rfl⟩
    rcases (mem_wrapped_prods hw).1 hp with rfl | ⟨q, hq, rfl⟩
    · exact ⟨[], by simp, rfl⟩
    · exact absurd hh (by simp [Grammar.wrapped])
  · intro n i K hn; exact absurd hn (hno n)
  · intro n m hn; exact absurd hn (hno n)
  · intro j ν c h; simp at h
  · intro j tok e v h; simp at h

/-- The name of the returned node. -/
def finalName (g : Grammar T NT AK AV) (toks : List (Token T V)) : NName T NT AK AV :=
  (toks.length, ⟨⟨startRef g, 1⟩, 0⟩)

/-- The run of the parser, with the name of the returned node. -/
theorem parseInner_run (hw : g.WF) (ha : AddrInj g.wrapped addr) (ho : AddrOrdered g.wrapped addr)
    {I0 I' : Inner T AK V} (hI : I0.WF) {fuel m : Nat}
    (h : parseInner addr g.wrapped fuel I0 toks = .ok (I', some m)) :
    ∃ sets last tab L, RunSim addr g.wrapped toks I0.nodes.length sets last tab I' L ∧
      sets.length = toks.length ∧ Occ (sets ++ [last]) m ∧ tab m = some (finalName g toks) := by
  have hg := wrapped_sgok hw ha
  unfold parseInner at h
  rw [newStart_wrapped] at h
  simp only at h
  cases hc : closeState addr g.wrapped fuel [] (I0, [(⟨⟨startRef g, 0⟩, 0⟩, [])]) with
  | panic p => rw [hc] at h; cases h
  | oof => rw [hc] at h; cases h
  | ok r =>
    obtain ⟨I1, Z1⟩ := r
    rw [hc] at h
    simp only at h
    obtain ⟨tab1, L1, h1⟩ := (start_preSim (addr := addr) (toks := toks) hw hI).close hg ho hc
    cases hp : parseLoop addr g.wrapped fuel [] Z1 I1 toks with
    | panic p => rw [hp] at h; cases h
    | oof => rw [hp] at h; cases h
    | ok r =>
      obtain ⟨I2, last⟩ := r
      rw [hp] at h
      simp only at h
      obtain ⟨sets, tab, L, h2, hlen⟩ := h1.loop hg ho toks (by simp) (by simp) hp
      cases hf : EarleyStateSet.getFinal last with
      | panic p => rw [hf] at h; cases h
      | oof => rw [hf] at h; cases h
      | ok r =>
        rw [hf] at h
        simp only [Res.ok.injEq, _root_.Prod.mk.injEq] at h
        obtain ⟨rfl, rfl⟩ := h
        have hlast : SetOk (unitLabel g.wrapped toks) addr sets.length L last := h2.sets _ _ (by simp)
        rcases getFinal_spec hw last (fun e he => ⟨(hlast.entry e he).1.mem, (hlast.entry e he).2.1⟩) with
          ⟨f1, -⟩ | ⟨n, k, f1, f2, f3, f4⟩
        · rw [f1] at hf; cases hf
        · rw [f1] at hf
          cases hf
          have h0 : k.originIndex = 0 := by
            have := (hlast.entry _ f2).1
            simp only at this
            rw [f3] at this
            rcases this.means hw with ⟨-, hi, -⟩ | ⟨q, hq, hh, -⟩
            · exact hi
            · have := congrArg Prod.head hh
              simp at this
          obtain ⟨⟨p, d⟩, o⟩ := k
          simp only at f3 f4 h0
          subst f3 f4 h0
          obtain ⟨v', v1, v2⟩ := h2.sim.cur.fwd _ _ f2
          have hname : tab m = some (finalName g toks) := by
            obtain ⟨ν, e1, e2⟩ := v2.get (x := 0) (n := m) rfl
            have hl := v2.len
            rcases KAt.lastOk _ _ _ v1 with ⟨hh, -⟩ | ⟨w0, hh⟩
            · simp at hh
            · rw [hh] at hl
              simp at hl
              rw [hh, hl] at e1
              simp at e1
              rw [e2, ← e1, hlen]; rfl
          have hocc : Occ (sets ++ [last]) m := ⟨sets.length, last, _, _, by simp, f2, by simp⟩
          exact ⟨sets, last, tab, L, h2, hlen, hocc, hname⟩

/-- What can be read off the returned node. -/
theorem parseInner_reads (hw : g.WF) (ha : AddrInj g.wrapped addr) (ho : AddrOrdered g.wrapped addr)
    {w : World T AK V} {t : Nat} {I0 : Inner T AK V} (hI : I0.WF) {fuel m : Nat}
    (h : parseInner addr g.wrapped fuel I0 toks = .ok (w t, some m)) (s : DTree (Token T V) AK) :
    Reads w s ⟨m, t⟩ ↔ CReads g.wrapped toks toks.length s (finalName g toks) := by
  obtain ⟨sets, last, tab, L, h2, hlen, hocc, hname⟩ := parseInner_run hw ha ho hI h
  rw [← hlen]
  exact ⟨h2.reads s m _ hname, h2.reads' s m _ hocc hname⟩
end Bongo
