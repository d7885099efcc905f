import Verif.Proof.EarleyProg
/-!
# Lemmas: the same work done in two trees

`Sim o i j`: the nodes `o` names have, up to the renaming `o`, the same alternatives in `i` and `j`.
-/
set_option linter.unusedSectionVars false
namespace Bongo
open Std
variable {T NT AK AV V : Type}
variable [Ord T] [Ord NT] [Ord AK] [Ord V] [DecidableEq T] [DecidableEq NT]
variable [TransOrd T] [TransOrd AK] [TransOrd V] [LawfulEqOrd T] [LawfulEqOrd AK] [LawfulEqOrd V]

/-- Nodes and alternatives a thread has made: their indices in the two trees. -/
structure Own where
  nodes : List (Nat × Nat)
  alts : List (Nat × Nat)

namespace Own
def addNode (o : Own) (n m : Nat) : Own := ⟨(n, m) :: o.nodes, o.alts⟩
def addAlt (o : Own) (a b : Nat) : Own := ⟨o.nodes, (a, b) :: o.alts⟩
structure Le (o o' : Own) : Prop where
  nodes : ∀ p ∈ o.nodes, p ∈ o'.nodes
  alts : ∀ p ∈ o.alts, p ∈ o'.alts
theorem Le.refl (o : Own) : o.Le o := ⟨fun _ h => h, fun _ h => h⟩
theorem Le.trans {o p q : Own} (h : o.Le p) (h' : p.Le q) : o.Le q :=
  ⟨fun x hx => h'.nodes x (h.nodes x hx), fun x hx => h'.alts x (h.alts x hx)⟩
theorem le_addNode (o : Own) (n m : Nat) : o.Le (o.addNode n m) :=
  ⟨fun _ h => List.mem_cons_of_mem _ h, fun _ h => h⟩
theorem le_addAlt (o : Own) (n m : Nat) : o.Le (o.addAlt n m) :=
  ⟨fun _ h => h, fun _ h => List.mem_cons_of_mem _ h⟩

/-- Lists of nodes that correspond. -/
def Vals (o : Own) (l l' : List Nat) : Prop := List.Forall₂ (fun n m => (n, m) ∈ o.nodes) l l'

theorem Vals.mono {o o' : Own} (h : o.Le o') {l l' : List Nat} (hv : o.Vals l l') : o'.Vals l l' :=
  List.Forall₂.imp (fun _ _ hm => h.nodes _ hm) hv

/-- Contents that correspond. -/
def Corr (o : Own) : NodeContent T AK V → NodeContent T AK V → Prop
  | .leaf k v, .leaf k' v' => k = k' ∧ v = v'
  | .branch a ns, .branch a' ns' => a = a' ∧ o.Vals ns ns'
  | _, _ => False

theorem Corr.mono {o o' : Own} (h : o.Le o') {c c' : NodeContent T AK V} (hc : o.Corr c c') :
    o'.Corr c c' := by
  cases c <;> cases c'
  · exact hc
  · exact hc
  · exact hc
  · exact ⟨hc.1, hc.2.mono h⟩

/-- `m` is the other tree's index of a node the thread made. -/
def Mine (o : Own) (m : Nat) : Prop := ∃ n, (n, m) ∈ o.nodes
end Own

structure Sim (o : Own) (i j : Inner T AK V) : Prop where
  wfi : i.WF
  wfj : j.WF
  ltI : ∀ n m, (n, m) ∈ o.nodes → n < i.nodes.length
  ltJ : ∀ n m, (n, m) ∈ o.nodes → m < j.nodes.length
  fn : ∀ n m m', (n, m) ∈ o.nodes → (n, m') ∈ o.nodes → m = m'
  inj : ∀ n n' m, (n, m) ∈ o.nodes → (n', m) ∈ o.nodes → n = n'
  alt : ∀ a b, (a, b) ∈ o.alts → ∃ c c', i.altAt a = some c ∧ j.altAt b = some c' ∧ o.Corr c c'
  fwd : ∀ n m a, (n, m) ∈ o.nodes → i.Has n a →
    ∃ c b c', i.altAt a = some c ∧ j.altAt b = some c' ∧ o.Corr c c' ∧ j.Has m b
  bwd : ∀ n m b, (n, m) ∈ o.nodes → j.Has m b →
    ∃ c a c', i.altAt a = some c ∧ j.altAt b = some c' ∧ o.Corr c c' ∧ i.Has n a

namespace Sim
variable {o : Own} {i j : Inner T AK V}

theorem vals_fn (h : Sim o i j) {l l' l'' : List Nat} (h1 : o.Vals l l') (h2 : o.Vals l l'') :
    l' = l'' := by
  unfold Own.Vals at h1 h2
  induction h1 generalizing l'' with
  | nil => cases h2; rfl
  | cons hm _ ih =>
    cases h2 with
    | cons hm' h2 => rw [h.fn _ _ _ hm hm', ih h2]

theorem vals_inj (h : Sim o i j) {l l' l'' : List Nat} (h1 : o.Vals l' l) (h2 : o.Vals l'' l) :
    l' = l'' := by
  unfold Own.Vals at h1 h2
  induction h1 generalizing l'' with
  | nil => cases h2; rfl
  | cons hm _ ih =>
    cases h2 with
    | cons hm' h2 => rw [h.inj _ _ _ hm hm', ih h2]

theorem corr_fn (h : Sim o i j) {c c' c'' : NodeContent T AK V} (h1 : o.Corr c c')
    (h2 : o.Corr c c'') : c' = c'' := by
  cases c <;> cases c' <;> cases c'' <;> simp only [Own.Corr] at h1 h2
  · rw [← h1.1, ← h1.2, ← h2.1, ← h2.2]
  · rw [← h1.1, ← h2.1, h.vals_fn h1.2 h2.2]

theorem corr_inj (h : Sim o i j) {c c' c'' : NodeContent T AK V} (h1 : o.Corr c' c)
    (h2 : o.Corr c'' c) : c' = c'' := by
  cases c <;> cases c' <;> cases c'' <;> simp only [Own.Corr] at h1 h2
  · rw [h1.1, h1.2, h2.1, h2.2]
  · rw [h1.1, h2.1, h.vals_inj h1.2 h2.2]

theorem has_iff (h : Sim o i j) {n m a b : Nat} (hm : (n, m) ∈ o.nodes) {c c' : NodeContent T AK V}
    (ha : i.altAt a = some c) (hb : j.altAt b = some c') (hc : o.Corr c c') :
    i.Has n a ↔ j.Has m b := by
  constructor
  · intro hh
    obtain ⟨d, b', d', h1, h2, h3, h4⟩ := h.fwd n m a hm hh
    rw [ha] at h1
    cases h1
    cases h.corr_fn hc h3
    rwa [h.wfj.altAt_inj hb h2]
  · intro hh
    obtain ⟨d, a', d', h1, h2, h3, h4⟩ := h.bwd n m b hm hh
    rw [hb] at h2
    cases h2
    cases h.corr_inj hc h3
    rwa [h.wfi.altAt_inj ha h1]

/-- Two lists of nodes within bounds. -/
theorem vals_lt (h : Sim o i j) {l l' : List Nat} (hv : o.Vals l l') :
    (∀ n ∈ l, n < i.nodes.length) ∧ ∀ m ∈ l', m < j.nodes.length := by
  unfold Own.Vals at hv
  induction hv with
  | nil => simp
  | cons hm _ ih =>
    simp only [List.mem_cons, forall_eq_or_imp]
    exact ⟨⟨h.ltI _ _ hm, ih.1⟩, h.ltJ _ _ hm, ih.2⟩

theorem makeNode (h : Sim o i j) :
    Sim (o.addNode i.nodes.length j.nodes.length) i.makeNode.1 j.makeNode.1 where
  wfi := Inner.makeNode_wf h.wfi
  wfj := Inner.makeNode_wf h.wfj
  ltI n m hm := by
    simp only [Inner.makeNode_nodes, List.length_append, List.length_singleton]
    rcases List.mem_cons.1 hm with he | hm
    · cases he; omega
    · have := h.ltI n m hm; omega
  ltJ n m hm := by
    simp only [Inner.makeNode_nodes, List.length_append, List.length_singleton]
    rcases List.mem_cons.1 hm with he | hm
    · cases he; omega
    · have := h.ltJ n m hm; omega
  fn n m m' h1 h2 := by
    rcases List.mem_cons.1 h1 with he | h1 <;> rcases List.mem_cons.1 h2 with he' | h2
    · cases he; cases he'; rfl
    · cases he; exact absurd (h.ltI _ _ h2) (Nat.lt_irrefl _)
    · cases he'; exact absurd (h.ltI _ _ h1) (Nat.lt_irrefl _)
    · exact h.fn _ _ _ h1 h2
  inj n n' m h1 h2 := by
    rcases List.mem_cons.1 h1 with he | h1 <;> rcases List.mem_cons.1 h2 with he' | h2
    · cases he; cases he'; rfl
    · cases he; exact absurd (h.ltJ _ _ h2) (Nat.lt_irrefl _)
    · cases he'; exact absurd (h.ltJ _ _ h1) (Nat.lt_irrefl _)
    · exact h.inj _ _ _ h1 h2
  alt a b hab := by
    obtain ⟨c, c', h1, h2, h3⟩ := h.alt a b hab
    exact ⟨c, c', h1, h2, h3.mono (Own.le_addNode _ _ _)⟩
  fwd n m a hm hh := by
    rw [Inner.makeNode_has] at hh
    rcases List.mem_cons.1 hm with he | hm
    · cases he; exact absurd hh.lt (Nat.lt_irrefl _)
    · obtain ⟨c, b, c', h1, h2, h3, h4⟩ := h.fwd n m a hm hh
      exact ⟨c, b, c', h1, h2, h3.mono (Own.le_addNode _ _ _), Inner.makeNode_has.2 h4⟩
  bwd n m b hm hh := by
    rw [Inner.makeNode_has] at hh
    rcases List.mem_cons.1 hm with he | hm
    · cases he; exact absurd hh.lt (Nat.lt_irrefl _)
    · obtain ⟨c, a, c', h1, h2, h3, h4⟩ := h.bwd n m b hm hh
      exact ⟨c, a, c', h1, h2, h3.mono (Own.le_addNode _ _ _), Inner.makeNode_has.2 h4⟩

theorem makeAlt (h : Sim o i j) {c c' : NodeContent T AK V} (hc : o.Corr c c') :
    Sim (o.addAlt (i.makeAlt c).2 (j.makeAlt c').2) (i.makeAlt c).1 (j.makeAlt c').1 := by
  have hle := Own.le_addAlt o (i.makeAlt c).2 (j.makeAlt c').2
  have li := Inner.makeAlt_le h.wfi c
  have lj := Inner.makeAlt_le h.wfj c'
  refine ⟨Inner.makeAlt_wf h.wfi c ?_, Inner.makeAlt_wf h.wfj c' ?_, h.ltI, h.ltJ, h.fn, h.inj, ?_, ?_, ?_⟩
  · rintro a ns rfl
    cases c' with
    | leaf _ _ => exact hc.elim
    | branch _ _ => exact (h.vals_lt hc.2).1
  · rintro a ns rfl
    cases c with
    | leaf _ _ => exact hc.elim
    | branch _ _ => exact (h.vals_lt hc.2).2
  · intro a b hab
    rcases List.mem_cons.1 hab with he | hab
    · cases he
      exact ⟨c, c', Inner.makeAlt_self h.wfi c, Inner.makeAlt_self h.wfj c', hc.mono hle⟩
    · obtain ⟨d, d', h1, h2, h3⟩ := h.alt a b hab
      exact ⟨d, d', li.alts _ _ h1, lj.alts _ _ h2, h3.mono hle⟩
  · intro n m a hm hh
    obtain ⟨d, b, d', h1, h2, h3, h4⟩ := h.fwd n m a hm hh
    exact ⟨d, b, d', li.alts _ _ h1, lj.alts _ _ h2, h3.mono hle, h4⟩
  · intro n m b hm hh
    obtain ⟨d, a, d', h1, h2, h3, h4⟩ := h.bwd n m b hm hh
    exact ⟨d, a, d', li.alts _ _ h1, lj.alts _ _ h2, h3.mono hle, h4⟩

theorem addNodeAlt (h : Sim o i j) {n m a b : Nat} (hm : (n, m) ∈ o.nodes) (hab : (a, b) ∈ o.alts) :
    ∃ i' j' c, i.addNodeAlt n a = .ok (i', c) ∧ j.addNodeAlt m b = .ok (j', c) ∧ Sim o i' j' ∧
      j.Le j' ∧ ∀ m' b', j'.Has m' b' → j.Has m' b' ∨ m' = m := by
  obtain ⟨d, d', ha, hb, hd⟩ := h.alt a b hab
  obtain ⟨i', c, h1, h2, h3, h4, h5, h6, -⟩ := Inner.addNodeAlt_ok (h.ltI n m hm) a
  obtain ⟨j', c', g1, g2, g3, g4, g5, g6, -⟩ := Inner.addNodeAlt_ok (h.ltJ n m hm) b
  have e1 : ∀ k, i'.altAt k = i.altAt k := fun k => by unfold Inner.altAt; rw [h2]
  have e2 : ∀ k, j'.altAt k = j.altAt k := fun k => by unfold Inner.altAt; rw [g2]
  have hcc : c = c' := by
    have := h5 h.wfi
    have := g5 h.wfj
    have := h.has_iff hm ha hb hd
    cases c <;> cases c' <;> simp_all
  subst hcc
  refine ⟨i', j', c, h1, g1, ?_, ?_, ?_⟩
  · refine ⟨h6 h.wfi (Inner.altAt_lt ha), g6 h.wfj (Inner.altAt_lt hb), ?_, ?_, h.fn, h.inj, ?_, ?_, ?_⟩
    · intro x y hxy; rw [h3]; exact h.ltI x y hxy
    · intro x y hxy; rw [g3]; exact h.ltJ x y hxy
    · intro x y hxy; rw [e1, e2]; exact h.alt x y hxy
    · intro x y k hxy hk
      rcases (h4 h.wfi x k).1 hk with hk | ⟨rfl, rfl⟩
      · obtain ⟨p, q, p', q1, q2, q3, q4⟩ := h.fwd x y k hxy hk
        exact ⟨p, q, p', by rw [e1]; exact q1, by rw [e2]; exact q2, q3, (g4 h.wfj _ _).2 (Or.inl q4)⟩
      · cases h.fn _ _ _ hxy hm
        exact ⟨d, b, d', by rw [e1]; exact ha, by rw [e2]; exact hb, hd,
          (g4 h.wfj _ _).2 (Or.inr ⟨rfl, rfl⟩)⟩
    · intro x y k hxy hk
      rcases (g4 h.wfj y k).1 hk with hk | ⟨rfl, rfl⟩
      · obtain ⟨p, q, p', q1, q2, q3, q4⟩ := h.bwd x y k hxy hk
        exact ⟨p, q, p', by rw [e1]; exact q1, by rw [e2]; exact q2, q3, (h4 h.wfi _ _).2 (Or.inl q4)⟩
      · cases h.inj _ _ _ hxy hm
        exact ⟨d, a, d', by rw [e1]; exact ha, by rw [e2]; exact hb, hd,
          (h4 h.wfi _ _).2 (Or.inr ⟨rfl, rfl⟩)⟩
  · exact ⟨fun k c hk => by rw [e2]; exact hk, by rw [g2]; exact Nat.le_refl _, by rw [g3]; exact Nat.le_refl _,
      fun x y hxy => (g4 h.wfj x y).2 (Or.inl hxy)⟩
  · intro m' b' hh
    rcases (g4 h.wfj _ _).1 hh with hh | hh
    · exact Or.inl hh
    · exact Or.inr hh.1

theorem addAll (h : Sim o i j) {n m n' m' : Nat} (hm : (n, m) ∈ o.nodes) (hm' : (n', m') ∈ o.nodes) :
    ∃ i' j' c, i.addAll n n' = .ok (i', c) ∧ j.addAll m m' = .ok (j', c) ∧ Sim o i' j' ∧
      j.Le j' ∧ ∀ m' b', j'.Has m' b' → j.Has m' b' ∨ m' = m := by
  obtain ⟨i', c, h1, h2, h3, h4, h5, h6, -⟩ := Inner.addAll_ok h.wfi (h.ltI n m hm) (h.ltI n' m' hm')
  obtain ⟨j', c', g1, g2, g3, g4, g5, g6, -⟩ := Inner.addAll_ok h.wfj (h.ltJ n m hm) (h.ltJ n' m' hm')
  have e1 : ∀ k, i'.altAt k = i.altAt k := fun k => by unfold Inner.altAt; rw [h2]
  have e2 : ∀ k, j'.altAt k = j.altAt k := fun k => by unfold Inner.altAt; rw [g2]
  have hcc : c = c' := by
    have : c = .changed ↔ c' = .changed := by
      rw [h5, g5]
      constructor
      · rintro ⟨a, ha, hna⟩
        obtain ⟨p, q, p', q1, q2, q3, q4⟩ := h.fwd _ _ _ hm' ha
        exact ⟨q, q4, fun hc => hna ((h.has_iff hm q1 q2 q3).2 hc)⟩
      · rintro ⟨b, hb, hnb⟩
        obtain ⟨p, q, p', q1, q2, q3, q4⟩ := h.bwd _ _ _ hm' hb
        exact ⟨q, q4, fun hc => hnb ((h.has_iff hm q1 q2 q3).1 hc)⟩
    cases c <;> cases c' <;> simp_all
  subst hcc
  refine ⟨i', j', c, h1, g1, ?_, ?_, ?_⟩
  · refine ⟨h6, g6, ?_, ?_, h.fn, h.inj, ?_, ?_, ?_⟩
    · intro x y hxy; rw [h3]; exact h.ltI x y hxy
    · intro x y hxy; rw [g3]; exact h.ltJ x y hxy
    · intro x y hxy; rw [e1, e2]; exact h.alt x y hxy
    · intro x y k hxy hk
      rcases (h4 x k).1 hk with hk | ⟨rfl, hk⟩
      · obtain ⟨p, q, p', q1, q2, q3, q4⟩ := h.fwd x y k hxy hk
        exact ⟨p, q, p', by rw [e1]; exact q1, by rw [e2]; exact q2, q3, (g4 _ _).2 (Or.inl q4)⟩
      · cases h.fn _ _ _ hxy hm
        obtain ⟨p, q, p', q1, q2, q3, q4⟩ := h.fwd _ _ k hm' hk
        exact ⟨p, q, p', by rw [e1]; exact q1, by rw [e2]; exact q2, q3, (g4 _ _).2 (Or.inr ⟨rfl, q4⟩)⟩
    · intro x y k hxy hk
      rcases (g4 y k).1 hk with hk | ⟨rfl, hk⟩
      · obtain ⟨p, q, p', q1, q2, q3, q4⟩ := h.bwd x y k hxy hk
        exact ⟨p, q, p', by rw [e1]; exact q1, by rw [e2]; exact q2, q3, (h4 _ _).2 (Or.inl q4)⟩
      · cases h.inj _ _ _ hxy hm
        obtain ⟨p, q, p', q1, q2, q3, q4⟩ := h.bwd _ _ k hm' hk
        exact ⟨p, q, p', by rw [e1]; exact q1, by rw [e2]; exact q2, q3, (h4 _ _).2 (Or.inr ⟨rfl, q4⟩)⟩
  · exact ⟨fun k c hk => by rw [e2]; exact hk, by rw [g2]; exact Nat.le_refl _, by rw [g3]; exact Nat.le_refl _,
      fun x y hxy => (g4 x y).2 (Or.inl hxy)⟩
  · intro m' b' hh
    rcases (g4 _ _).1 hh with hh | hh
    · exact Or.inl hh
    · exact Or.inr hh.1

/-- Others may change the second tree as long as they do not add to the thread's nodes. -/
theorem env (h : Sim o i j) {j' : Inner T AK V} (hw : j'.WF) (hle : j.Le j')
    (hh : ∀ n m b, (n, m) ∈ o.nodes → j'.Has m b → j.Has m b) : Sim o i j' where
  wfi := h.wfi
  wfj := hw
  ltI := h.ltI
  ltJ n m hm := Nat.lt_of_lt_of_le (h.ltJ n m hm) hle.nodesLen
  fn := h.fn
  inj := h.inj
  alt a b hab := by
    obtain ⟨c, c', h1, h2, h3⟩ := h.alt a b hab
    exact ⟨c, c', h1, hle.alts _ _ h2, h3⟩
  fwd n m a hm ha := by
    obtain ⟨c, b, c', h1, h2, h3, h4⟩ := h.fwd n m a hm ha
    exact ⟨c, b, c', h1, hle.alts _ _ h2, h3, hle.has _ _ h4⟩
  bwd n m b hm hb := by
    obtain ⟨c, a, c', h1, h2, h3, h4⟩ := h.bwd n m b hm (hh n m b hm hb)
    exact ⟨c, a, c', h1, hle.alts _ _ h2, h3, h4⟩
end Sim

/-! ### Reading -/
section reads
variable {o : Own} {w w' : World T AK V} {t : Nat}

theorem readsAll_vals {l l' : List Nat} (hv : o.Vals l l') : ∀ (cs : List (DTree (Token T V) AK)),
    (∀ c ∈ cs, ∀ n m, (n, m) ∈ o.nodes → (Reads w c ⟨n, t⟩ ↔ Reads w' c ⟨m, t⟩)) →
    (ReadsAll w cs (l.map (⟨·, t⟩)) ↔ ReadsAll w' cs (l'.map (⟨·, t⟩))) := by
  unfold Own.Vals at hv
  induction hv with
  | nil => intro cs _; cases cs <;> simp [ReadsAll]
  | cons hm _ ih =>
    intro cs hcs
    cases cs with
    | nil => simp [ReadsAll]
    | cons c cs =>
      simp only [List.map_cons, ReadsAll]
      rw [hcs c (List.mem_cons_self ..) _ _ hm,
        ih cs fun d hd => hcs d (List.mem_cons_of_mem _ hd)]

theorem Sim.reads (h : Sim o (w t) (w' t)) : ∀ (s : DTree (Token T V) AK) (n m : Nat),
    (n, m) ∈ o.nodes → (Reads w s ⟨n, t⟩ ↔ Reads w' s ⟨m, t⟩)
  | .leaf tok, n, m => by
    intro hm
    rw [reads_leaf, reads_leaf]
    constructor
    · rintro ⟨a, h1, h2⟩
      obtain ⟨c, b, c', q1, q2, q3, q4⟩ := h.fwd n m a hm h1
      rw [h2] at q1
      cases q1
      cases c' with
      | leaf k v => obtain ⟨rfl, rfl⟩ := q3; exact ⟨b, q4, q2⟩
      | branch _ _ => exact q3.elim
    · rintro ⟨b, h1, h2⟩
      obtain ⟨c, a, c', q1, q2, q3, q4⟩ := h.bwd n m b hm h1
      simp only at h2
      rw [h2] at q2
      cases q2
      cases c with
      | leaf k v => obtain ⟨rfl, rfl⟩ := q3; exact ⟨a, q4, q1⟩
      | branch _ _ => exact q3.elim
  | .node ak cs, n, m => by
    intro hm
    rw [reads_node, reads_node]
    constructor
    · rintro ⟨a, ns, h1, h2, h3⟩
      obtain ⟨c, b, c', q1, q2, q3, q4⟩ := h.fwd n m a hm h1
      simp only at h2
      rw [h2] at q1
      cases q1
      cases c' with
      | leaf k v => exact q3.elim
      | branch ak' ns' =>
        obtain ⟨rfl, hv⟩ := q3
        refine ⟨b, ns', q4, q2, ?_⟩
        exact (readsAll_vals hv cs fun c hc x y hxy => Sim.reads h c x y hxy).1 h3
    · rintro ⟨b, ns, h1, h2, h3⟩
      obtain ⟨c, a, c', q1, q2, q3, q4⟩ := h.bwd n m b hm h1
      simp only at h2
      rw [h2] at q2
      cases q2
      cases c with
      | leaf k v => exact q3.elim
      | branch ak' ns' =>
        obtain ⟨rfl, hv⟩ := q3
        refine ⟨a, ns', q4, q1, ?_⟩
        exact (readsAll_vals hv cs fun c hc x y hxy => Sim.reads h c x y hxy).2 h3
end reads
end Bongo
