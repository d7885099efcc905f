import Verif.Proof.ProgRel
/-!
# Lemmas: code that runs while other threads use its tree
-/
set_option linter.unusedSectionVars false
namespace Bongo
open Std
variable {T NT AK AV V : Type}
variable [Ord T] [Ord NT] [Ord AK] [Ord V] [DecidableEq T] [DecidableEq NT]
variable [TransOrd T] [TransOrd AK] [TransOrd V] [LawfulEqOrd T] [LawfulEqOrd AK] [LawfulEqOrd V]

/-- Alternative `b` has no child the thread made. -/
def CleanAt (o : Own) (j : Inner T AK V) (b : Nat) : Prop :=
  ∀ a ns, j.altAt b = some (.branch a ns) → ∀ m ∈ ns, ¬ o.Mine m

/-- The other threads can reach nothing the thread has made. -/
structure Env (t : Nat) (o : Own) (j : Inner T AK V) (others : List Handle) : Prop where
  node : ∀ m, .node ⟨m, t⟩ ∈ others → ¬ o.Mine m
  alt : ∀ b, .alt ⟨b, t⟩ ∈ others → CleanAt o j b
  branch : ∀ b, .branch ⟨b, t⟩ ∈ others → CleanAt o j b
  free : ∀ m b, ¬ o.Mine m → j.Has m b → CleanAt o j b

/-- What is known of the contents and the handles of one tree. -/
structure TreeOk (t : Nat) (j : Inner T AK V) (others : List Handle) : Prop where
  wf : j.WF
  node : ∀ m, .node ⟨m, t⟩ ∈ others → m < j.nodes.length
  alt : ∀ b, .alt ⟨b, t⟩ ∈ others → ∃ c, j.altAt b = some c
  branch : ∀ b, .branch ⟨b, t⟩ ∈ others → ∃ a ns, j.altAt b = some (.branch a ns)

theorem HistInv.treeOk {log : TreeLog T AK V} {w : World T AK V} {full others : List Handle}
    (h : HistInv log w full) (hs : ∀ x ∈ others, x ∈ full) (t : Nat) : TreeOk t (w t) others where
  wf := h.wf t
  node m hm := h.handles _ (hs _ hm)
  alt b hb := by
    have : b < (w t).alternatives.idToValue.length := h.handles _ (hs _ hb)
    exact ⟨_, List.getElem?_eq_getElem this⟩
  branch b hb := h.handles _ (hs _ hb)

namespace Env
variable {t : Nat} {o : Own} {j j' : Inner T AK V} {others : List Handle}

theorem cleanAt_le (hle : j.Le j') {b : Nat} {c : NodeContent T AK V} (hb : j.altAt b = some c)
    (h : CleanAt o j b) : CleanAt o j' b := by
  intro a ns hc
  have := hle.alts _ _ hb
  rw [hc] at this
  cases this
  exact h a ns hb

theorem has_alt (hw : j.WF) {m b : Nat} (h : j.Has m b) : ∃ c, j.altAt b = some c :=
  ⟨_, List.getElem?_eq_getElem (h.alt_lt hw)⟩

/-- The thread changes the tree without adding to the nodes of others. -/
theorem grow (h : Env t o j others) (ok : TreeOk t j others) (hle : j.Le j')
    (hh : ∀ m b, ¬ o.Mine m → j'.Has m b → j.Has m b) : Env t o j' others where
  node := h.node
  alt b hb := (ok.alt b hb).elim fun _ hc => cleanAt_le hle hc (h.alt b hb)
  branch b hb := by
    obtain ⟨a, ns, hc⟩ := ok.branch b hb
    exact cleanAt_le hle hc (h.branch b hb)
  free m b hm hb := by
    have hb := hh m b hm hb
    exact (has_alt ok.wf hb).elim fun _ hc => cleanAt_le hle hc (h.free m b hm hb)

theorem addAltOwn (h : Env t o j others) (a b : Nat) : Env t (o.addAlt a b) j others :=
  ⟨h.node, h.alt, h.branch, h.free⟩

theorem cleanAt_makeNode (hw : j.WF) {n : Nat} {b : Nat} (h : CleanAt o j b) :
    CleanAt (o.addNode n j.nodes.length) j.makeNode.1 b := by
  intro a ns hc m hm
  have hlt := hw.branchNodes b a ns hc m hm
  rintro ⟨k, hk⟩
  rcases List.mem_cons.1 hk with he | hk
  · cases he; exact absurd hlt (Nat.lt_irrefl _)
  · exact h a ns hc m hm ⟨k, hk⟩

theorem makeNodeOwn (h : Env t o j others) (ok : TreeOk t j others) (n : Nat) :
    Env t (o.addNode n j.nodes.length) j.makeNode.1 others where
  node m hm := by
    rintro ⟨k, hk⟩
    rcases List.mem_cons.1 hk with he | hk
    · cases he; exact absurd (ok.node _ hm) (Nat.lt_irrefl _)
    · exact h.node m hm ⟨k, hk⟩
  alt b hb := cleanAt_makeNode ok.wf (h.alt b hb)
  branch b hb := cleanAt_makeNode ok.wf (h.branch b hb)
  free m b hm hb := by
    refine cleanAt_makeNode ok.wf (h.free m b ?_ (Inner.makeNode_has.1 hb))
    rintro ⟨k, hk⟩
    exact hm ⟨k, List.mem_cons_of_mem _ hk⟩

/-- More handles. -/
theorem give (h : Env t o j others) {new : List Handle}
    (h1 : ∀ m, .node ⟨m, t⟩ ∈ new → ¬ o.Mine m) (h2 : ∀ b, .alt ⟨b, t⟩ ∈ new → CleanAt o j b)
    (h3 : ∀ b, .branch ⟨b, t⟩ ∈ new → CleanAt o j b) : Env t o j (new ++ others) where
  node m hm := (List.mem_append.1 hm).elim (h1 m) (h.node m)
  alt m hm := (List.mem_append.1 hm).elim (h2 m) (h.alt m)
  branch m hm := (List.mem_append.1 hm).elim (h3 m) (h.branch m)
  free := h.free

/-- A call of another thread. -/
theorem other {w : World T AK V} (h : Env t o (w t) others) {log : TreeLog T AK V} {full : List Handle}
    (inv : HistInv log w full) (hs : ∀ x ∈ others, x ∈ full)
    (hlt : ∀ m, o.Mine m → m < (w t).nodes.length) (op : TreeOp T AK V) (hop : op.Allowed others) :
    Env t o ((op.exec w).1 t) (TreeOut.gives (op.exec w).2 ++ others) ∧
      ∀ m b, o.Mine m → ((op.exec w).1 t).Has m b → (w t).Has m b := by
  have ok := inv.treeOk hs t
  have okAll := fun t' => inv.treeOk hs t'
  cases op with
  | makeNode t' =>
    simp only [TreeOp.exec, World.makeNode, TreeOut.gives, World.set_apply]
    by_cases ht : t = t'
    · subst ht
      simp only [if_true, Inner.makeNode_snd]
      refine ⟨(h.grow ok (Inner.makeNode_le _) fun m b _ hb => Inner.makeNode_has.1 hb).give ?_ (by simp) (by simp),
        fun m b _ hb => Inner.makeNode_has.1 hb⟩
      intro m hm hmine
      simp only [List.mem_singleton, Handle.node.injEq, Node.mk.injEq, and_true] at hm
      have := hlt m hmine
      omega
    · simp only [if_neg ht]
      refine ⟨h.give ?_ (by simp) (by simp), fun _ _ _ hb => hb⟩
      intro m hm
      simp only [List.mem_singleton, Handle.node.injEq, Node.mk.injEq] at hm
      exact absurd hm.2 ht
  | makeLeafAlt t' k v =>
    simp only [TreeOp.exec, World.makeLeafAlt, World.makeAlt, TreeOut.gives, World.set_apply]
    by_cases ht : t = t'
    · subst ht
      simp only [if_true]
      refine ⟨(h.grow ok (Inner.makeAlt_le ok.wf _) fun m b _ hb => hb).give (by simp) ?_ (by simp),
        fun m b _ hb => hb⟩
      intro b hb a ns hc
      simp only [List.mem_singleton, Handle.alt.injEq, Alternative.mk.injEq, and_true] at hb
      subst hb
      rw [Inner.makeAlt_self ok.wf] at hc
      cases hc
    · simp only [if_neg ht]
      refine ⟨h.give (by simp) ?_ (by simp), fun _ _ _ hb => hb⟩
      intro m hm
      simp only [List.mem_singleton, Handle.alt.injEq, Alternative.mk.injEq] at hm
      exact absurd hm.2 ht
  | makeBranchAlt t' act ns =>
    obtain ⟨-, hns⟩ := hop
    simp only [TreeOp.exec, World.makeBranchAlt]
    by_cases hall : (ns.all fun n => World.isSame t' n.tree) = true
    · rw [if_pos hall]
      simp only [World.makeAlt, Res.mapOut, TreeOut.gives, World.set_apply]
      by_cases ht : t = t'
      · subst ht
        simp only [if_true]
        refine ⟨(h.grow ok (Inner.makeAlt_le ok.wf _) fun m b _ hb => hb).give (by simp) ?_ (by simp),
          fun m b _ hb => hb⟩
        intro b hb a ns' hc
        simp only [List.mem_singleton, Handle.alt.injEq, Alternative.mk.injEq, and_true] at hb
        subst hb
        rw [Inner.makeAlt_self ok.wf] at hc
        cases hc
        intro m hm
        obtain ⟨n, hn, rfl⟩ := List.mem_map.1 hm
        have hnt : n.tree = t := by
          have := List.all_eq_true.1 hall n hn
          simp only [World.isSame, beq_iff_eq] at this
          exact this.symm
        have := hns n hn
        obtain ⟨ni, nt⟩ := n
        simp only at hnt
        subst hnt
        exact h.node _ this
      · simp only [if_neg ht]
        refine ⟨h.give (by simp) ?_ (by simp), fun _ _ _ hb => hb⟩
        intro m hm
        simp only [List.mem_singleton, Handle.alt.injEq, Alternative.mk.injEq] at hm
        exact absurd hm.2 ht
    · rw [if_neg hall]
      exact ⟨h.give (by simp [Res.mapOut, TreeOut.gives]) (by simp [Res.mapOut, TreeOut.gives])
        (by simp [Res.mapOut, TreeOut.gives]), fun _ _ _ hb => hb⟩
  | addAlt n a =>
    obtain ⟨hn, ha⟩ := hop
    obtain ⟨n, t'⟩ := n
    obtain ⟨a, t''⟩ := a
    simp only [TreeOp.exec, World.addAlt, World.isSame]
    by_cases hsame : t' = t''
    · subst hsame
      obtain ⟨c, hc⟩ := (okAll t').alt a ha
      obtain ⟨j', ch, h1, h2, h3, h4, h5, h6, -⟩ := Inner.addNodeAlt_ok ((okAll t').node n hn) a
      simp only [beq_self_eq_true, if_true, h1, World.update, Res.mapOut, TreeOut.gives, List.nil_append,
        World.set_apply]
      by_cases ht : t = t'
      · subst ht
        simp only [if_true]
        have e : ∀ k, j'.altAt k = (w t).altAt k := fun k => by unfold Inner.altAt; rw [h2]
        have ec : ∀ {b}, CleanAt o (w t) b → CleanAt o j' b := fun hcl a ns hq => hcl a ns (by rw [← e]; exact hq)
        refine ⟨⟨h.node, fun b hb => ec (h.alt b hb), fun b hb => ec (h.branch b hb), ?_⟩, ?_⟩
        · intro m b hm hb
          rcases (h4 ok.wf m b).1 hb with hb | ⟨rfl, rfl⟩
          · exact ec (h.free m b hm hb)
          · exact ec (h.alt _ ha)
        · intro m b hm hb
          rcases (h4 ok.wf m b).1 hb with hb | ⟨rfl, rfl⟩
          · exact hb
          · exact absurd hm (h.node _ hn)
      · simp only [if_neg ht]
        exact ⟨h, fun _ _ _ hb => hb⟩
    · have : (t' == t'') = false := by simpa using hsame
      simp only [this, Bool.false_eq_true, if_false, Res.mapOut, TreeOut.gives, List.nil_append]
      exact ⟨h, fun _ _ _ hb => hb⟩
  | addAll n n' =>
    obtain ⟨hn, hn'⟩ := hop
    obtain ⟨n, t'⟩ := n
    obtain ⟨n', t''⟩ := n'
    simp only [TreeOp.exec, World.addAll, World.isSame]
    by_cases hsame : t' = t''
    · subst hsame
      obtain ⟨j', ch, h1, h2, h3, h4, h5, h6, -⟩ := Inner.addAll_ok (okAll t').wf ((okAll t').node n hn)
        ((okAll t').node n' hn')
      simp only [beq_self_eq_true, if_true, h1, World.update, Res.mapOut, TreeOut.gives, List.nil_append,
        World.set_apply]
      by_cases ht : t = t'
      · subst ht
        simp only [if_true]
        have e : ∀ k, j'.altAt k = (w t).altAt k := fun k => by unfold Inner.altAt; rw [h2]
        have ec : ∀ {b}, CleanAt o (w t) b → CleanAt o j' b := fun hcl a ns hq => hcl a ns (by rw [← e]; exact hq)
        refine ⟨⟨h.node, fun b hb => ec (h.alt b hb), fun b hb => ec (h.branch b hb), ?_⟩, ?_⟩
        · intro m b hm hb
          rcases (h4 m b).1 hb with hb | ⟨rfl, hb⟩
          · exact ec (h.free m b hm hb)
          · exact ec (h.free _ b (h.node _ hn') hb)
        · intro m b hm hb
          rcases (h4 m b).1 hb with hb | ⟨rfl, hb⟩
          · exact hb
          · exact absurd hm (h.node _ hn)
      · simp only [if_neg ht]
        exact ⟨h, fun _ _ _ hb => hb⟩
    · have : (t' == t'') = false := by simpa using hsame
      simp only [this, Bool.false_eq_true, if_false, Res.mapOut, TreeOut.gives, List.nil_append]
      exact ⟨h, fun _ _ _ hb => hb⟩
  | alts n =>
    obtain ⟨n, t'⟩ := n
    refine ⟨?_, fun _ _ _ hb => hb⟩
    have hn := (okAll t').node n hop
    simp only [TreeOp.exec, World.alts, Inner.getNode_ok hn, Res.mapOut, TreeOut.gives]
    refine h.give (by simp) ?_ (by simp)
    intro b hb
    simp only [List.mem_map, Handle.alt.injEq, exists_eq_right, Alternative.mk.injEq] at hb
    obtain ⟨b', hb', rfl, rfl⟩ := hb
    exact h.free n b' (h.node n hop) ⟨_, List.getElem?_eq_getElem hn, hb'⟩
  | content a =>
    obtain ⟨a, t'⟩ := a
    refine ⟨?_, fun _ _ _ hb => hb⟩
    obtain ⟨c, hc⟩ := (okAll t').alt a hop
    simp only [TreeOp.exec, World.content, getAlt_of_altAt hc]
    cases c with
    | leaf k v =>
      simp only [Res.mapOut, TreeOut.gives]
      exact h.give (by simp) (by simp) (by simp)
    | branch k v =>
      simp only [Res.mapOut, TreeOut.gives]
      refine h.give (by simp) (by simp) ?_
      intro b hb
      simp only [List.mem_singleton, Handle.branch.injEq, Branch.mk.injEq] at hb
      obtain ⟨rfl, rfl⟩ := hb
      exact h.alt _ hop
  | kind l =>
    refine ⟨?_, fun _ _ _ hb => hb⟩
    simp only [TreeOp.exec]
    cases w.kind l <;> simpa [Res.mapOut, TreeOut.gives] using h
  | value l =>
    refine ⟨?_, fun _ _ _ hb => hb⟩
    simp only [TreeOp.exec]
    cases w.value l <;> simpa [Res.mapOut, TreeOut.gives] using h
  | action l =>
    refine ⟨?_, fun _ _ _ hb => hb⟩
    simp only [TreeOp.exec]
    cases w.action l <;> simpa [Res.mapOut, TreeOut.gives] using h
  | nodes b =>
    obtain ⟨b, t'⟩ := b
    refine ⟨?_, fun _ _ _ hb => hb⟩
    obtain ⟨a, ns, hc⟩ := (okAll t').branch b hop
    simp only [TreeOp.exec, World.branchNodes, World.withBranch, getAlt_of_altAt hc,
      NodeContent.asBranch, Res.expect_some, Res.mapOut, TreeOut.gives]
    refine h.give ?_ (by simp) (by simp)
    intro m hm
    simp only [List.mem_map, Handle.node.injEq, exists_eq_right, Node.mk.injEq] at hm
    obtain ⟨m', hm', rfl, rfl⟩ := hm
    exact h.branch b hop a ns hc _ hm'
end Env

/-- Calls give handles of trees the caller had a handle of. -/
theorem gives_owner {w : World T AK V} {held : List Handle} {op : TreeOp T AK V} (hop : op.Allowed held)
    {x : Handle} (hx : x ∈ TreeOut.gives (op.exec w).2) : ∃ h ∈ held, h.owner = x.owner := by
  cases op with
  | makeNode t =>
    simp only [TreeOp.exec, TreeOut.gives, List.mem_singleton] at hx
    subst hx
    exact hop
  | makeLeafAlt t k v =>
    simp only [TreeOp.exec, TreeOut.gives, List.mem_singleton] at hx
    subst hx
    exact hop
  | makeBranchAlt t act ns =>
    simp only [TreeOp.exec, World.makeBranchAlt] at hx
    by_cases hall : (ns.all fun n => World.isSame t n.tree) = true
    · rw [if_pos hall] at hx
      simp only [World.makeAlt, Res.mapOut, TreeOut.gives, List.mem_singleton] at hx
      subst hx
      exact hop.1
    · rw [if_neg hall] at hx
      simp [Res.mapOut, TreeOut.gives] at hx
  | addAlt n a =>
    simp only [TreeOp.exec] at hx
    cases hr : (w.addAlt n a).2 <;> rw [hr] at hx <;> simp [Res.mapOut, TreeOut.gives] at hx
  | addAll n a =>
    simp only [TreeOp.exec] at hx
    cases hr : (w.addAll n a).2 <;> rw [hr] at hx <;> simp [Res.mapOut, TreeOut.gives] at hx
  | alts n =>
    simp only [TreeOp.exec, World.alts] at hx
    cases hr : (w n.tree).getNode n.index with
    | ok s =>
      rw [hr] at hx
      simp only [Res.mapOut, TreeOut.gives, List.mem_map] at hx
      obtain ⟨a, ⟨b, -, rfl⟩, rfl⟩ := hx
      exact ⟨_, hop, rfl⟩
    | panic p => rw [hr] at hx; simp [Res.mapOut, TreeOut.gives] at hx
    | oof => rw [hr] at hx; simp [Res.mapOut, TreeOut.gives] at hx
  | content a =>
    simp only [TreeOp.exec, World.content] at hx
    cases hr : (w a.tree).getAlt a.index with
    | ok c =>
      rw [hr] at hx
      cases c with
      | leaf k v =>
        simp only [Res.mapOut, TreeOut.gives, List.mem_singleton] at hx
        subst hx
        exact ⟨_, hop, rfl⟩
      | branch k v =>
        simp only [Res.mapOut, TreeOut.gives, List.mem_singleton] at hx
        subst hx
        exact ⟨_, hop, rfl⟩
    | panic p => rw [hr] at hx; simp [Res.mapOut, TreeOut.gives] at hx
    | oof => rw [hr] at hx; simp [Res.mapOut, TreeOut.gives] at hx
  | kind l =>
    simp only [TreeOp.exec] at hx
    cases hr : w.kind l <;> rw [hr] at hx <;> simp [Res.mapOut, TreeOut.gives] at hx
  | value l =>
    simp only [TreeOp.exec] at hx
    cases hr : w.value l <;> rw [hr] at hx <;> simp [Res.mapOut, TreeOut.gives] at hx
  | action l =>
    simp only [TreeOp.exec] at hx
    cases hr : w.action l <;> rw [hr] at hx <;> simp [Res.mapOut, TreeOut.gives] at hx
  | nodes b =>
    simp only [TreeOp.exec, World.branchNodes] at hx
    cases hr : w.withBranch b with
    | ok d =>
      rw [hr] at hx
      simp only [Res.mapOut, TreeOut.gives, List.mem_map] at hx
      obtain ⟨a, ⟨b, -, rfl⟩, rfl⟩ := hx
      exact ⟨_, hop, rfl⟩
    | panic p => rw [hr] at hx; simp [Res.mapOut, TreeOut.gives] at hx
    | oof => rw [hr] at hx; simp [Res.mapOut, TreeOut.gives] at hx

/-! ### The invariant -/
section
variable {α β : Type} {t : Nat} {R : Own → α → β → Prop}

/-- The thread's side of a run among others. -/
structure Mate (t : Nat) (o : Own) (ws w : World T AK V) (others full : List Handle)
    (log : TreeLog T AK V) : Prop where
  sim : Sim o (ws t) (w t)
  env : Env t o (w t) others
  hist : History log w full
  sub : ∀ x ∈ others, x ∈ full
  nodes : ∀ n m, (n, m) ∈ o.nodes → .node ⟨m, t⟩ ∈ full
  alts : ∀ a b, (a, b) ∈ o.alts → .alt ⟨b, t⟩ ∈ full
  owners : ∀ x ∈ full, ∃ y ∈ others, y.owner = x.owner
  tree : ∃ y ∈ others, y.owner = t

theorem Own.Vals.full {o : Own} {l l' : List Nat} (hv : o.Vals l l') {full : List Handle}
    (h : ∀ n m, (n, m) ∈ o.nodes → Handle.node ⟨m, t⟩ ∈ full) :
    ∀ n ∈ l'.map (fun m => (⟨m, t⟩ : Node)), Handle.node n ∈ full := by
  unfold Own.Vals at hv
  induction hv with
  | nil => simp
  | cons hm _ ih =>
    simp only [List.map_cons, List.mem_cons, forall_eq_or_imp]
    exact ⟨h _ _ hm, ih⟩

theorem makeBranchAlt_exec (w : World T AK V) (t : Nat) (ak : AK) (l : List Nat) :
    (TreeOp.makeBranchAlt t ak (l.map (fun m => (⟨m, t⟩ : Node)))).exec w =
      (w.set t ((w t).makeAlt (.branch ak l)).1, .ok (.alt ⟨((w t).makeAlt (.branch ak l)).2, t⟩)) := by
  have h2 : (l.map (fun x : Nat => (⟨x, t⟩ : Node))).map (·.index) = l := by simp [Function.comp_def]
  have h3 : (l.map (fun x : Nat => (⟨x, t⟩ : Node))).all (fun n => World.isSame t n.tree) = true := by
    simp [World.isSame]
  simp only [TreeOp.exec, World.makeBranchAlt, h2, h3, if_true, World.makeAlt, Res.mapOut]

theorem addAlt_exec (w : World T AK V) (t n a : Nat) {j : Inner T AK V} {c : WasChanged}
    (h : (w t).addNodeAlt n a = .ok (j, c)) :
    (TreeOp.addAlt ⟨n, t⟩ ⟨a, t⟩).exec w = (w.set t j, .ok (.changed c)) := by
  simp only [TreeOp.exec, World.addAlt, World.isSame, beq_self_eq_true, if_true, h, World.update, Res.mapOut]

theorem addAll_exec (w : World T AK V) (t n a : Nat) {j : Inner T AK V} {c : WasChanged}
    (h : (w t).addAll n a = .ok (j, c)) :
    (TreeOp.addAll ⟨n, t⟩ ⟨a, t⟩).exec w = (w.set t j, .ok (.changed c)) := by
  simp only [TreeOp.exec, World.addAll, World.isSame, beq_self_eq_true, if_true, h, World.update, Res.mapOut]

/-- What the thread's own call does. -/
theorem Mate.own {o : Own} {ws w : World T AK V} {others full : List Handle} {log : TreeLog T AK V}
    (h : Mate t o ws w others full log) {ps : TreeProg T AK V α} {op : TreeOp T AK V}
    {k : TreeOut T AK V → TreeProg T AK V β} (hr : PRel t R o ps (.call op k)) :
    ∃ o' ps' ws' w' out, op.exec w = (w', .ok out) ∧ PRel t R o' ps' (k out) ∧
      ps'.run ws' = ps.run ws ∧ ps.calls ws = ps'.calls ws' + 1 ∧
      Mate t o' ws' w' others (TreeOut.gives (op.exec w).2 ++ full) ((op, (op.exec w).2) :: log) ∧
      (∀ t', t' ≠ t → w' t' = w t') ∧ (w t).Le (w' t) ∧
      (∀ m b, ¬ o.Mine m → (w' t).Has m b → (w t).Has m b) ∧
      (∀ n m, (n, m) ∈ o'.nodes → (n, m) ∈ o.nodes ∨ .node ⟨m, t⟩ ∈ TreeOut.gives (op.exec w).2) ∧
      (∀ a b, (a, b) ∈ o'.alts → (a, b) ∈ o.alts ∨ .alt ⟨b, t⟩ ∈ TreeOut.gives (op.exec w).2) := by
  have ok := h.hist.inv.treeOk h.sub t
  have htree : ∃ x ∈ full, x.owner = t := h.tree.elim fun y hy => ⟨y, h.sub y hy.1, hy.2⟩
  have hsub : ∀ {new : List Handle}, ∀ x ∈ others, x ∈ new ++ full :=
    fun x hx => List.mem_append_right _ (h.sub x hx)
  have hown : ∀ {new : List Handle}, (∀ x ∈ new, x.owner = t) → ∀ x ∈ new ++ full, ∃ y ∈ others, y.owner = x.owner := by
    intro new hn x hx
    rcases List.mem_append.1 hx with hx | hx
    · rw [hn x hx]; exact h.tree
    · exact h.owners x hx
  cases hr with
  | @makeNode _ k1 _ hk =>
    have hop : (TreeOp.makeNode t : TreeOp T AK V).Allowed full := htree
    have hist := h.hist.call (.makeNode t) hop
    refine ⟨_, _, ws.set t (ws t).makeNode.1, w.set t (w t).makeNode.1, .node ⟨(w t).nodes.length, t⟩, rfl,
      hk (ws t).nodes.length (w t).nodes.length, rfl, rfl, ⟨?_, ?_, hist, hsub, ?_, ?_, hown ?_, h.tree⟩,
      fun t' ht => World.set_other _ _ ht, ?_, ?_, ?_, ?_⟩
    · rw [World.set_self, World.set_self]; exact h.sim.makeNode
    · rw [World.set_self]; exact h.env.makeNodeOwn ok _
    · intro n m hm
      rcases List.mem_cons.1 hm with he | hm
      · cases he; exact List.mem_cons_self ..
      · exact List.mem_append_right _ (h.nodes n m hm)
    · intro a b hab; exact List.mem_append_right _ (h.alts a b hab)
    · intro x hx
      simp only [TreeOp.exec, TreeOut.gives, List.mem_singleton] at hx
      subst hx; rfl
    · rw [World.set_self]; exact Inner.makeNode_le _
    · intro m b _ hb; rw [World.set_self] at hb; exact Inner.makeNode_has.1 hb
    · intro n m hm
      rcases List.mem_cons.1 hm with he | hm
      · cases he; exact Or.inr (List.mem_cons_self ..)
      · exact Or.inl hm
    · intro a b hab; exact Or.inl hab
  | @leafAlt _ k1 _ kd v hk =>
    have hop : (TreeOp.makeLeafAlt t kd v : TreeOp T AK V).Allowed full := htree
    have hist := h.hist.call (.makeLeafAlt t kd v) hop
    have hc : o.Corr (AK := AK) (.leaf kd v) (.leaf kd v) := ⟨rfl, rfl⟩
    refine ⟨_, _, ws.set t ((ws t).makeAlt (.leaf kd v)).1, w.set t ((w t).makeAlt (.leaf kd v)).1,
      .alt ⟨((w t).makeAlt (.leaf kd v)).2, t⟩, rfl,
      hk ((ws t).makeAlt (.leaf kd v)).2 ((w t).makeAlt (.leaf kd v)).2, rfl, rfl,
      ⟨?_, ?_, hist, hsub, ?_, ?_, hown ?_, h.tree⟩, fun t' ht => World.set_other _ _ ht, ?_, ?_, ?_, ?_⟩
    · rw [World.set_self, World.set_self]; exact h.sim.makeAlt hc
    · rw [World.set_self]
      exact (h.env.grow ok (Inner.makeAlt_le ok.wf _) fun m b _ hb => hb).addAltOwn _ _
    · intro n m hm; exact List.mem_append_right _ (h.nodes n m hm)
    · intro a b hab
      rcases List.mem_cons.1 hab with he | hab
      · cases he; exact List.mem_cons_self ..
      · exact List.mem_append_right _ (h.alts a b hab)
    · intro x hx
      simp only [TreeOp.exec, TreeOut.gives, List.mem_singleton] at hx
      subst hx; rfl
    · rw [World.set_self]; exact Inner.makeAlt_le ok.wf _
    · intro m b _ hb; rw [World.set_self] at hb; exact hb
    · intro n m hm; exact Or.inl hm
    · intro a b hab
      rcases List.mem_cons.1 hab with he | hab
      · cases he; exact Or.inr (List.mem_cons_self ..)
      · exact Or.inl hab
  | @branchAlt _ k1 _ ak l l' hv hk =>
    have hop : (TreeOp.makeBranchAlt t ak (l'.map (fun m => (⟨m, t⟩ : Node))) : TreeOp T AK V).Allowed full :=
      ⟨htree, hv.full h.nodes⟩
    have hist := h.hist.call _ hop
    rw [congrArg Prod.fst (makeBranchAlt_exec w t ak l')] at hist
    have hc : o.Corr (T := T) (V := V) (.branch ak l) (.branch ak l') := ⟨rfl, hv⟩
    refine ⟨_, _, ws.set t ((ws t).makeAlt (.branch ak l)).1, w.set t ((w t).makeAlt (.branch ak l')).1,
      .alt ⟨((w t).makeAlt (.branch ak l')).2, t⟩, makeBranchAlt_exec w t ak l',
      hk ((ws t).makeAlt (.branch ak l)).2 ((w t).makeAlt (.branch ak l')).2, ?_, ?_,
      ⟨?_, ?_, hist, hsub, ?_, ?_, hown ?_, h.tree⟩, fun t' ht => World.set_other _ _ ht, ?_, ?_, ?_, ?_⟩
    · simp only [TreeProg.run, makeBranchAlt_exec]
    · simp only [TreeProg.calls, makeBranchAlt_exec]
    · rw [World.set_self, World.set_self]; exact h.sim.makeAlt hc
    · rw [World.set_self]
      exact (h.env.grow ok (Inner.makeAlt_le ok.wf _) fun m b _ hb => hb).addAltOwn _ _
    · intro n m hm; exact List.mem_append_right _ (h.nodes n m hm)
    · intro a b hab
      rw [makeBranchAlt_exec]
      rcases List.mem_cons.1 hab with he | hab
      · cases he; exact List.mem_cons_self ..
      · exact List.mem_append_right _ (h.alts a b hab)
    · intro x hx
      rw [makeBranchAlt_exec] at hx
      simp only [TreeOut.gives, List.mem_singleton] at hx
      subst hx; rfl
    · rw [World.set_self]; exact Inner.makeAlt_le ok.wf _
    · intro m b _ hb; rw [World.set_self] at hb; exact hb
    · intro n m hm; exact Or.inl hm
    · intro a b hab
      rw [makeBranchAlt_exec]
      rcases List.mem_cons.1 hab with he | hab
      · cases he; exact Or.inr (List.mem_cons_self ..)
      · exact Or.inl hab
  | @addAlt _ k1 _ n m a b hm hab hk =>
    have hop : (TreeOp.addAlt ⟨m, t⟩ ⟨b, t⟩ : TreeOp T AK V).Allowed full := ⟨h.nodes _ _ hm, h.alts _ _ hab⟩
    have hist := h.hist.call _ hop
    obtain ⟨i', j', c, h1, h2, h3, h4, h5⟩ := h.sim.addNodeAlt hm hab
    have e1 := addAlt_exec ws t n a h1
    have e2 := addAlt_exec w t m b h2
    rw [congrArg Prod.fst e2] at hist
    have hh : ∀ m' b', ¬ o.Mine m' → j'.Has m' b' → (w t).Has m' b' := by
      intro m' b' hm' hb'
      rcases h5 m' b' hb' with hb' | rfl
      · exact hb'
      · exact absurd ⟨n, hm⟩ hm'
    refine ⟨_, _, ws.set t i', w.set t j', .changed c, e2, hk c, ?_, ?_,
      ⟨?_, ?_, hist, hsub, ?_, ?_, hown ?_, h.tree⟩, fun t' ht => World.set_other _ _ ht, ?_, ?_, ?_, ?_⟩
    · simp only [TreeProg.run, e1]
    · simp only [TreeProg.calls, e1]
    · rw [World.set_self, World.set_self]; exact h3
    · rw [World.set_self]; exact h.env.grow ok h4 hh
    · intro n m hm; exact List.mem_append_right _ (h.nodes n m hm)
    · intro a b hab; exact List.mem_append_right _ (h.alts a b hab)
    · intro x hx
      rw [e2] at hx
      simp [TreeOut.gives] at hx
    · rw [World.set_self]; exact h4
    · intro m b hm hb; rw [World.set_self] at hb; exact hh m b hm hb
    · intro n m hm; exact Or.inl hm
    · intro a b hab; exact Or.inl hab
  | @addAll _ k1 _ n m n' m' hm hm' hk =>
    have hop : (TreeOp.addAll ⟨m, t⟩ ⟨m', t⟩ : TreeOp T AK V).Allowed full := ⟨h.nodes _ _ hm, h.nodes _ _ hm'⟩
    have hist := h.hist.call _ hop
    obtain ⟨i', j', c, h1, h2, h3, h4, h5⟩ := h.sim.addAll hm hm'
    have e1 := addAll_exec ws t n n' h1
    have e2 := addAll_exec w t m m' h2
    rw [congrArg Prod.fst e2] at hist
    have hh : ∀ m' b', ¬ o.Mine m' → j'.Has m' b' → (w t).Has m' b' := by
      intro m' b' hm' hb'
      rcases h5 m' b' hb' with hb' | rfl
      · exact hb'
      · exact absurd ⟨n, hm⟩ hm'
    refine ⟨_, _, ws.set t i', w.set t j', .changed c, e2, hk c, ?_, ?_,
      ⟨?_, ?_, hist, hsub, ?_, ?_, hown ?_, h.tree⟩, fun t' ht => World.set_other _ _ ht, ?_, ?_, ?_, ?_⟩
    · simp only [TreeProg.run, e1]
    · simp only [TreeProg.calls, e1]
    · rw [World.set_self, World.set_self]; exact h3
    · rw [World.set_self]; exact h.env.grow ok h4 hh
    · intro n m hm; exact List.mem_append_right _ (h.nodes n m hm)
    · intro a b hab; exact List.mem_append_right _ (h.alts a b hab)
    · intro x hx
      rw [e2] at hx
      simp [TreeOut.gives] at hx
    · rw [World.set_self]; exact h4
    · intro m b hm hb; rw [World.set_self] at hb; exact hh m b hm hb
    · intro n m hm; exact Or.inl hm
    · intro a b hab; exact Or.inl hab

/-- What a call of another thread does. -/
theorem Mate.other {o : Own} {ws w : World T AK V} {others full : List Handle} {log : TreeLog T AK V}
    (h : Mate t o ws w others full log) (op : TreeOp T AK V) (hop : op.Allowed others) :
    Mate t o ws (op.exec w).1 (TreeOut.gives (op.exec w).2 ++ others)
      (TreeOut.gives (op.exec w).2 ++ full) ((op, (op.exec w).2) :: log) := by
  have hop' : op.Allowed full := by
    cases op with
    | makeNode t => obtain ⟨x, hx, hx'⟩ := hop; exact ⟨x, h.sub x hx, hx'⟩
    | makeLeafAlt t k v => obtain ⟨x, hx, hx'⟩ := hop; exact ⟨x, h.sub x hx, hx'⟩
    | makeBranchAlt t a ns =>
      obtain ⟨⟨x, hx, hx'⟩, hns⟩ := hop
      exact ⟨⟨x, h.sub x hx, hx'⟩, fun n hn => h.sub _ (hns n hn)⟩
    | addAlt n a => exact ⟨h.sub _ hop.1, h.sub _ hop.2⟩
    | addAll n a => exact ⟨h.sub _ hop.1, h.sub _ hop.2⟩
    | alts n => exact h.sub _ hop
    | content n => exact h.sub _ hop
    | kind n => exact h.sub _ hop
    | value n => exact h.sub _ hop
    | action n => exact h.sub _ hop
    | nodes n => exact h.sub _ hop
  have hist := h.hist.call op hop'
  obtain ⟨-, hle, -⟩ := exec_inv h.hist.inv op hop'
  obtain ⟨he, hm⟩ := h.env.other h.hist.inv h.sub (fun m hm => hm.elim fun n hn => h.sim.ltJ n m hn) op hop
  refine ⟨h.sim.env (hist.inv.wf t) (hle t) fun n m b hn hb => hm m b ⟨n, hn⟩ hb, he, hist, ?_, ?_, ?_, ?_, ?_⟩
  · intro x hx
    exact (List.mem_append.1 hx).elim (fun hx => List.mem_append_left _ hx)
      fun hx => List.mem_append_right _ (h.sub x hx)
  · intro n m hm; exact List.mem_append_right _ (h.nodes n m hm)
  · intro a b hab; exact List.mem_append_right _ (h.alts a b hab)
  · intro x hx
    rcases List.mem_append.1 hx with hx | hx
    · obtain ⟨y, hy, hy'⟩ := gives_owner hop hx
      exact ⟨y, List.mem_append_right _ hy, hy'⟩
    · obtain ⟨y, hy, hy'⟩ := h.owners x hx
      exact ⟨y, List.mem_append_right _ hy, hy'⟩
  · obtain ⟨y, hy, hy'⟩ := h.tree
    exact ⟨y, List.mem_append_right _ hy, hy'⟩

theorem Mate.newOwner {o : Own} {ws w : World T AK V} {others full : List Handle} {log : TreeLog T AK V}
    (h : Mate t o ws w others full log) (t' : Nat) (ht : ∀ x ∈ others, x.owner ≠ t') :
    Mate t o ws w (.tree t' :: others) (.tree t' :: full) log where
  sim := h.sim
  env := h.env.give (new := [.tree t']) (by simp) (by simp) (by simp)
  hist := h.hist.newOwner t' fun x hx => by
    obtain ⟨y, hy, hy'⟩ := h.owners x hx
    rw [← hy']
    exact ht y hy
  sub x hx := (List.mem_cons.1 hx).elim (fun e => e ▸ List.mem_cons_self ..)
    fun hx => List.mem_cons_of_mem _ (h.sub x hx)
  nodes n m hm := List.mem_cons_of_mem _ (h.nodes n m hm)
  alts n m hm := List.mem_cons_of_mem _ (h.alts n m hm)
  owners x hx := by
    rcases List.mem_cons.1 hx with rfl | hx
    · exact ⟨_, List.mem_cons_self .., rfl⟩
    · obtain ⟨y, hy, hy'⟩ := h.owners x hx
      exact ⟨y, List.mem_cons_of_mem _ hy, hy'⟩
  tree := by
    obtain ⟨y, hy, hy'⟩ := h.tree
    exact ⟨y, List.mem_cons_of_mem _ hy, hy'⟩

theorem Mate.start {w : World T AK V} {held : List Handle} {log : TreeLog T AK V} (h : History log w held)
    (ht : ∃ y ∈ held, y.owner = t) : Mate t ⟨[], []⟩ w w held held log where
  sim := ⟨h.inv.wf t, h.inv.wf t, by simp, by simp, by simp, by simp, by simp, by simp, by simp⟩
  env := ⟨by simp [Own.Mine], by simp [CleanAt, Own.Mine], by simp [CleanAt, Own.Mine],
    by simp [CleanAt, Own.Mine]⟩
  hist := h
  sub _ hx := hx
  nodes := by simp
  alts := by simp
  owners x hx := ⟨x, hx, rfl⟩
  tree := ht

/-- At every point of every schedule. -/
theorem runs_mate {w : World T AK V} {held : List Handle} {log : TreeLog T AK V} (h : History log w held)
    (ht : ∃ y ∈ held, y.owner = t) {R : Own → α → α → Prop} {p : TreeProg T AK V α}
    (hp : PRel t R ⟨[], []⟩ p p) {n : Nat} {c : Running T AK V α} (hr : SharedRuns ⟨p, w, held⟩ n c) :
    ∃ o ps ws full log', PRel t R o ps c.prog ∧ ps.run ws = p.run w ∧ n + ps.calls ws = p.calls w ∧
      Mate t o ws c.world c.others full log' := by
  induction hr with
  | start => exact ⟨_, p, w, held, log, hp, rfl, Nat.zero_add _, Mate.start h ht⟩
  | own _ hs ih =>
    obtain ⟨o, ps, ws, full, log', h1, h2, h3, h4⟩ := ih
    cases hs with
    | call hx =>
      obtain ⟨o', ps', ws', w', out, g1, g2, g3, g4, g5, -⟩ := h4.own h1
      rw [hx] at g1
      cases g1
      exact ⟨o', ps', ws', _, _, g2, g3.trans h2, by omega, g5⟩
    | panic hx =>
      obtain ⟨o', ps', ws', w', out, g1, -⟩ := h4.own h1
      rw [hx] at g1
      cases g1
  | other _ hs ih =>
    obtain ⟨o, ps, ws, full, log', h1, h2, h3, h4⟩ := ih
    cases hs with
    | call op hop => exact ⟨o, ps, ws, _, _, h1, h2, h3, h4.other op hop⟩
    | newOwner t' ht' => exact ⟨o, ps, ws, _, _, h1, h2, h3, h4.newOwner t' ht'⟩
end
end Bongo
