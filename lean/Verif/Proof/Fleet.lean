import Verif.Model.Fleet
import Verif.Props.Shared
/-! # Lemmas: any number of parses -/
set_option linter.unusedSectionVars false
namespace Bongo
open Std
variable {T NT AK AV V : Type}
variable [Ord T] [Ord NT] [Ord AK] [Ord V] [DecidableEq T] [DecidableEq NT]
variable [TransOrd T] [TransOrd AK] [TransOrd V] [LawfulEqOrd T] [LawfulEqOrd AK] [LawfulEqOrd V]

/-- The handles a parse has. -/
structure HasHandles (t : Nat) (o : Own) (l : List Handle) : Prop where
  nodes : ∀ n m, (n, m) ∈ o.nodes → .node ⟨m, t⟩ ∈ l
  alts : ∀ a b, (a, b) ∈ o.alts → .alt ⟨b, t⟩ ∈ l
  tree : ∃ h ∈ l, h.owner = t

theorem HasHandles.mono {t : Nat} {o : Own} {l l' : List Handle} (h : HasHandles t o l)
    (hs : ∀ x ∈ l, x ∈ l') : HasHandles t o l' :=
  ⟨fun n m hm => hs _ (h.nodes n m hm), fun a b hab => hs _ (h.alts a b hab),
    h.tree.elim fun x hx => ⟨x, hs x hx.1, hx.2⟩⟩

/-- The calls of a parse use handles it has. -/
theorem PRel.allowed {α β : Type} {t : Nat} {R : Own → α → β → Prop} {o : Own} {ps : TreeProg T AK V α}
    {op : TreeOp T AK V} {k : TreeOut T AK V → TreeProg T AK V β} (h : PRel t R o ps (.call op k))
    {l : List Handle} (hl : HasHandles t o l) : op.Allowed l := by
  cases h with
  | makeNode _ => exact hl.tree
  | leafAlt kd v _ => exact hl.tree
  | branchAlt ak hv _ => exact ⟨hl.tree, hv.full hl.nodes⟩
  | addAlt h1 h2 _ => exact ⟨hl.nodes _ _ h1, hl.alts _ _ h2⟩
  | addAll h1 h2 _ => exact ⟨hl.nodes _ _ h1, hl.nodes _ _ h2⟩

theorem TreeOp.Allowed.weaken {op : TreeOp T AK V} {l l' : List Handle} (h : op.Allowed l)
    (hs : ∀ x ∈ l, x ∈ l') : op.Allowed l' := by
  cases op with
  | makeNode t => exact h.elim fun x hx => ⟨x, hs x hx.1, hx.2⟩
  | makeLeafAlt t k v => exact h.elim fun x hx => ⟨x, hs x hx.1, hx.2⟩
  | makeBranchAlt t a ns => exact ⟨h.1.elim fun x hx => ⟨x, hs x hx.1, hx.2⟩, fun n hn => hs _ (h.2 n hn)⟩
  | addAlt n a => exact ⟨hs _ h.1, hs _ h.2⟩
  | addAll n a => exact ⟨hs _ h.1, hs _ h.2⟩
  | alts n => exact hs _ h
  | content n => exact hs _ h
  | kind n => exact hs _ h
  | value n => exact hs _ h
  | action n => exact hs _ h
  | nodes n => exact hs _ h

/-- What is kept about one parse. -/
structure ParseMate (c : Fleet T NT AK AV V) (full : List Handle) (log : TreeLog T AK V)
    (own : Nat → Own) (i : Nat) (x : ParseThread T NT AK AV V) (ps : TreeProg T AK V (Option Node))
    (ws : World T AK V) (others : List Handle) : Prop where
  rel : PRel x.job.tree (ResRel x.job.tree) (own i) ps x.prog
  run : ps.run ws = x.job.prog.run x.began
  calls : x.steps + ps.calls ws = x.job.prog.calls x.began
  mate : Mate x.job.tree (own i) ws c.world others full log
  users : ∀ h ∈ c.users, h ∈ others
  peers : ∀ j y, j ≠ i → c.parses j = some y → HasHandles y.job.tree (own j) others
  has : HasHandles x.job.tree (own i) full
  began : ∃ log₀ held₀, History log₀ x.began held₀ ∧ ∃ h ∈ held₀, h.owner = x.job.tree

/-- What is kept about all of them. -/
structure FleetInv (c : Fleet T NT AK AV V) (full : List Handle) (log : TreeLog T AK V)
    (own : Nat → Own) : Prop where
  hist : History log c.world full
  users : ∀ h ∈ c.users, h ∈ full
  owners : ∀ h ∈ full, ∃ y ∈ c.users, y.owner = h.owner
  parses : ∀ i x, c.parses i = some x → ∃ ps ws others, ParseMate c full log own i x ps ws others

theorem Fleet.put_self (c : Fleet T NT AK AV V) (i : Nat) (x) : c.put i x i = x := by simp [Fleet.put]
theorem Fleet.put_other (c : Fleet T NT AK AV V) {i j : Nat} (h : j ≠ i) (x) :
    c.put i x j = c.parses j := by simp [Fleet.put, h]

theorem FleetInv.step {c d : Fleet T NT AK AV V} {full log own} (inv : FleetInv c full log own)
    (hs : FleetStep c d) : ∃ full' log' own', FleetInv d full' log' own' := by
  cases hs with
  | start i job hi ht =>
    have hfull : ∃ h ∈ full, h.owner = job.tree := ht.elim fun x hx => ⟨x, inv.users x hx.1, hx.2⟩
    let own' : Nat → Own := fun j => if j = i then ⟨[], []⟩ else own j
    have oi : own' i = ⟨[], []⟩ := if_pos rfl
    have oj : ∀ {j}, j ≠ i → own' j = own j := fun h => if_neg h
    refine ⟨full, log, own', inv.hist, inv.users, inv.owners, ?_⟩
    intro j x hj
    by_cases hji : j = i
    · subst hji
      simp only [Fleet.put_self, Option.some.injEq] at hj
      subst hj
      refine ⟨job.prog, c.world, full, ?_, rfl, Nat.zero_add _, ?_, inv.users, ?_, ?_, log, full, inv.hist, hfull⟩
      · rw [oi]; exact rel_parse _ _ _
      · rw [oi]; exact Mate.start inv.hist hfull
      · intro k y hk hy
        simp only [Fleet.put_other _ hk] at hy
        rw [oj hk]
        obtain ⟨ps, ws, others, hp⟩ := inv.parses k y hy
        exact hp.has
      · rw [oi]; exact ⟨by simp, by simp, hfull⟩
    · simp only [Fleet.put_other _ hji] at hj
      obtain ⟨ps, ws, others, hp⟩ := inv.parses j x hj
      refine ⟨ps, ws, others, ?_, hp.run, hp.calls, ?_, hp.users, ?_, ?_, hp.began⟩
      · rw [oj hji]; exact hp.rel
      · rw [oj hji]; exact hp.mate
      · intro k y hk hy
        by_cases hki : k = i
        · subst hki
          simp only [Fleet.put_self, Option.some.injEq] at hy
          subst hy
          rw [oi]
          exact ⟨by simp, by simp, ht.elim fun x hx => ⟨x, hp.users x hx.1, hx.2⟩⟩
        · simp only [Fleet.put_other _ hki] at hy
          rw [oj hki]
          exact hp.peers k y hk hy
      · rw [oj hji]; exact hp.has
  | @call i x op k w' o hi hx he =>
    obtain ⟨ps, ws, others, hp⟩ := inv.parses i x hi
    have hrel := hp.rel
    rw [hx] at hrel
    obtain ⟨o', ps', ws', w'', out, g1, g2, g3, g4, g5, -, -, -, g6, g7⟩ := hp.mate.own hrel
    rw [he] at g1
    cases g1
    let own' : Nat → Own := fun j => if j = i then o' else own j
    have oi : own' i = o' := if_pos rfl
    have oj : ∀ {j}, j ≠ i → own' j = own j := fun h => if_neg h
    have hall : op.Allowed full := hrel.allowed hp.has
    have new : ∀ {l : List Handle}, HasHandles x.job.tree (own i) l →
        HasHandles x.job.tree o' (TreeOut.gives (op.exec c.world).2 ++ l) := by
      intro l hl
      refine ⟨fun n m hm => ?_, fun a b hab => ?_, ?_⟩
      · exact (g6 n m hm).elim (fun h => List.mem_append_right _ (hl.nodes n m h)) (List.mem_append_left _)
      · exact (g7 a b hab).elim (fun h => List.mem_append_right _ (hl.alts a b h)) (List.mem_append_left _)
      · exact hl.tree.elim fun y hy => ⟨y, List.mem_append_right _ hy.1, hy.2⟩
    have hhist := g5.hist
    refine ⟨TreeOut.gives (op.exec c.world).2 ++ full, (op, (op.exec c.world).2) :: log, own', hhist,
      fun h hh => List.mem_append_right _ (inv.users h hh), ?_, ?_⟩
    · intro h hh
      rcases List.mem_append.1 hh with hh | hh
      · obtain ⟨y, hy, hy'⟩ := gives_owner hall hh
        obtain ⟨z, hz, hz'⟩ := inv.owners y hy
        exact ⟨z, hz, hz'.trans hy'⟩
      · exact inv.owners h hh
    · intro j y hj
      by_cases hji : j = i
      · subst hji
        simp only [Fleet.put_self, Option.some.injEq] at hj
        subst hj
        refine ⟨ps', ws', others, ?_, g3.trans hp.run, ?_, ?_, hp.users, ?_, ?_, hp.began⟩
        · rw [oi]; exact g2
        · have := hp.calls
          show x.steps + 1 + ps'.calls ws' = x.job.prog.calls x.began
          omega
        · rw [oi]; exact g5
        · intro k' z hk hz
          simp only [Fleet.put_other _ hk] at hz
          rw [oj hk]
          exact hp.peers k' z hk hz
        · rw [oi]; exact new hp.has
      · simp only [Fleet.put_other _ hji] at hj
        obtain ⟨qs, vs, others', hq⟩ := inv.parses j y hj
        have hpeer := hq.peers i x (Ne.symm hji) hi
        have hm := hq.mate.other op (hrel.allowed hpeer)
        have hw : (op.exec c.world).1 = w' := by rw [he]
        rw [hw] at hm
        refine ⟨qs, vs, TreeOut.gives (op.exec c.world).2 ++ others', ?_, hq.run, hq.calls, ?_,
          fun h hh => List.mem_append_right _ (hq.users h hh), ?_, ?_, hq.began⟩
        · rw [oj hji]; exact hq.rel
        · rw [oj hji]; exact hm
        · intro k' z hk hz
          by_cases hki : k' = i
          · subst hki
            simp only [Fleet.put_self, Option.some.injEq] at hz
            subst hz
            rw [oi]
            exact new hpeer
          · simp only [Fleet.put_other _ hki] at hz
            rw [oj hki]
            exact (hq.peers k' z hk hz).mono fun h hh => List.mem_append_right _ hh
        · rw [oj hji]
          exact hq.has.mono fun h hh => List.mem_append_right _ hh
  | @panic i x op k w' p hi hx he =>
    exfalso
    obtain ⟨ps, ws, others, hp⟩ := inv.parses i x hi
    have hrel := hp.rel
    rw [hx] at hrel
    obtain ⟨o', ps', ws', w'', out, g1, -⟩ := hp.mate.own hrel
    rw [he] at g1
    cases g1
  | @finish i x r hi hx =>
    obtain ⟨ps, ws, others, hp⟩ := inv.parses i x hi
    have hrel := hp.rel
    rw [hx] at hrel
    have hown : ∀ h ∈ (r.map Handle.node).toList, ∀ l, HasHandles x.job.tree (own i) l → h ∈ l := by
      intro h hh l hl
      cases r with
      | none => simp at hh
      | some n =>
        simp only [Option.map_some, Option.toList_some, List.mem_singleton] at hh
        subst hh
        cases hrel with
        | @ret _ a _ ha =>
          cases a with
          | none => exact ha.elim
          | some m =>
            obtain ⟨e1, e2, e3⟩ := ha
            have := hl.nodes _ _ e3
            obtain ⟨ni, nt⟩ := n
            simp only at e2 this
            rw [e2]
            exact this
    refine ⟨full, log, own, inv.hist, ?_, ?_, ?_⟩
    · intro h hh
      rcases List.mem_append.1 hh with hh | hh
      · exact hown h hh _ hp.has
      · exact inv.users h hh
    · intro h hh
      obtain ⟨y, hy, hy'⟩ := inv.owners h hh
      exact ⟨y, List.mem_append_right _ hy, hy'⟩
    · intro j y hj
      by_cases hji : j = i
      · subst hji
        simp [Fleet.put_self] at hj
      · simp only [Fleet.put_other _ hji] at hj
        obtain ⟨qs, vs, others', hq⟩ := inv.parses j y hj
        refine ⟨qs, vs, others', hq.rel, hq.run, hq.calls, hq.mate, ?_, ?_, hq.has, hq.began⟩
        · intro h hh
          rcases List.mem_append.1 hh with hh | hh
          · exact hown h hh _ (hq.peers i x (Ne.symm hji) hi)
          · exact hq.users h hh
        · intro k z hk hz
          by_cases hki : k = i
          · subst hki
            simp [Fleet.put_self] at hz
          · simp only [Fleet.put_other _ hki] at hz
            exact hq.peers k z hk hz
  | abandon i =>
    refine ⟨full, log, own, inv.hist, inv.users, inv.owners, ?_⟩
    intro j y hj
    by_cases hji : j = i
    · subst hji
      simp [Fleet.put_self] at hj
    · simp only [Fleet.put_other _ hji] at hj
      obtain ⟨qs, vs, others', hq⟩ := inv.parses j y hj
      refine ⟨qs, vs, others', hq.rel, hq.run, hq.calls, hq.mate, hq.users, ?_, hq.has, hq.began⟩
      intro k z hk hz
      by_cases hki : k = i
      · subst hki
        simp [Fleet.put_self] at hz
      · simp only [Fleet.put_other _ hki] at hz
        exact hq.peers k z hk hz
  | user op hop =>
    have hhist := inv.hist.call op (hop.weaken inv.users)
    refine ⟨TreeOut.gives (op.exec c.world).2 ++ full, (op, (op.exec c.world).2) :: log, own, hhist, ?_, ?_, ?_⟩
    · intro h hh
      exact (List.mem_append.1 hh).elim (fun hh => List.mem_append_left _ hh)
        fun hh => List.mem_append_right _ (inv.users h hh)
    · intro h hh
      rcases List.mem_append.1 hh with hh | hh
      · exact ⟨h, List.mem_append_left _ hh, rfl⟩
      · obtain ⟨y, hy, hy'⟩ := inv.owners h hh
        exact ⟨y, List.mem_append_right _ hy, hy'⟩
    · intro j y hj
      obtain ⟨qs, vs, others', hq⟩ := inv.parses j y hj
      refine ⟨qs, vs, TreeOut.gives (op.exec c.world).2 ++ others', hq.rel, hq.run, hq.calls,
        hq.mate.other op (hop.weaken hq.users), ?_, ?_, ?_, hq.began⟩
      · intro h hh
        exact (List.mem_append.1 hh).elim (fun hh => List.mem_append_left _ hh)
          fun hh => List.mem_append_right _ (hq.users h hh)
      · intro k z hk hz
        exact (hq.peers k z hk hz).mono fun h hh => List.mem_append_right _ hh
      · exact hq.has.mono fun h hh => List.mem_append_right _ hh
  | newOwner t ht =>
    have hfresh : ∀ h ∈ full, h.owner ≠ t := by
      intro h hh
      obtain ⟨y, hy, hy'⟩ := inv.owners h hh
      rw [← hy']
      exact ht y hy
    refine ⟨.tree t :: full, log, own, inv.hist.newOwner t hfresh, ?_, ?_, ?_⟩
    · intro h hh
      exact (List.mem_cons.1 hh).elim (fun e => e ▸ List.mem_cons_self ..)
        fun hh => List.mem_cons_of_mem _ (inv.users h hh)
    · intro h hh
      rcases List.mem_cons.1 hh with rfl | hh
      · exact ⟨_, List.mem_cons_self .., rfl⟩
      · obtain ⟨y, hy, hy'⟩ := inv.owners h hh
        exact ⟨y, List.mem_cons_of_mem _ hy, hy'⟩
    · intro j y hj
      obtain ⟨qs, vs, others', hq⟩ := inv.parses j y hj
      refine ⟨qs, vs, .tree t :: others', hq.rel, hq.run, hq.calls,
        hq.mate.newOwner t (fun x hx => hfresh x (hq.mate.sub x hx)), ?_, ?_, ?_, hq.began⟩
      · intro h hh
        exact (List.mem_cons.1 hh).elim (fun e => e ▸ List.mem_cons_self ..)
          fun hh => List.mem_cons_of_mem _ (hq.users h hh)
      · intro k z hk hz
        exact (hq.peers k z hk hz).mono fun h hh => List.mem_cons_of_mem _ hh
      · exact hq.has.mono fun h hh => List.mem_cons_of_mem _ hh

theorem FleetReach.inv {c : Fleet T NT AK AV V} (h : FleetReach c) :
    ∃ full log own, FleetInv c full log own := by
  induction h with
  | start => exact ⟨[], [], fun _ => ⟨[], []⟩, .start, by simp, by simp, by simp⟩
  | step _ hs ih =>
    obtain ⟨full, log, own, inv⟩ := ih
    exact inv.step hs
end Bongo
