import Verif.Proof.EarleyTree
import Verif.Props.Forest
/-! What a parse does to the memory is a sequence of calls of the public tree operations. -/
set_option linter.unusedSectionVars false
namespace Bongo
open Std
variable {T NT AK AV V : Type}
variable [Ord T] [Ord NT] [Ord AK] [Ord V] [DecidableEq T] [DecidableEq NT]
variable [TransOrd T] [TransOrd AK] [TransOrd V] [LawfulEqOrd T] [LawfulEqOrd AK] [LawfulEqOrd V]

/-- Memory `w` with tree `t` replaced by `i` is reached, from a history with the calls `log`, by
successful calls on tree `t`; `held` is held afterwards. -/
def Hist (log : TreeLog T AK V) (w : World T AK V) (t : Nat) (i : Inner T AK V)
    (held : List Handle) : Prop :=
  (∃ new, History (new ++ log) (w.set t i) held ∧ CallsOn t new) ∧ ∃ h ∈ held, h.owner = t

/-- The nodes are held. -/
def HeldNodes (t : Nat) (held : List Handle) (l : List Nat) : Prop :=
  ∀ n ∈ l, Handle.node ⟨n, t⟩ ∈ held

/-- The nodes of the states are held. -/
def HeldStates (t : Nat) (held : List Handle) (l : List (EarleyState T NT AK AV)) : Prop :=
  ∀ s ∈ l, HeldNodes t held s.value

/-- The nodes of the set are held. -/
def HeldSet (t : Nat) (held : List Handle) (l : EarleyStateSet T NT AK AV) : Prop :=
  ∀ e ∈ l, HeldNodes t held e.2

theorem HeldNodes.mono {t : Nat} {held held' : List Handle} {l : List Nat}
    (h : HeldNodes t held l) (hs : ∀ x ∈ held, x ∈ held') : HeldNodes t held' l :=
  fun n hn => hs _ (h n hn)

theorem HeldStates.mono {t : Nat} {held held' : List Handle} {l : List (EarleyState T NT AK AV)}
    (h : HeldStates t held l) (hs : ∀ x ∈ held, x ∈ held') : HeldStates t held' l :=
  fun s hs' => (h s hs').mono hs

theorem HeldSet.mono {t : Nat} {held held' : List Handle} {l : EarleyStateSet T NT AK AV}
    (h : HeldSet t held l) (hs : ∀ x ∈ held, x ∈ held') : HeldSet t held' l :=
  fun s hs' => (h s hs').mono hs

theorem HeldSet.states {t : Nat} {held : List Handle} {l : EarleyStateSet T NT AK AV}
    (h : HeldSet t held l) : HeldStates t held (EarleyStateSet.states l) := by
  intro s hs
  obtain ⟨e, he, rfl⟩ := List.mem_map.1 hs
  exact h e he

section
variable {log : TreeLog T AK V} {w : World T AK V} {t : Nat}

theorem callsOn_append {a b : TreeLog T AK V} (ha : CallsOn t a) (hb : CallsOn t b) :
    CallsOn t (a ++ b) := by
  intro c hc
  rcases List.mem_append.1 hc with hc | hc
  · exact ha c hc
  · exact hb c hc

theorem Hist.leaf {i i' : Inner T AK V} {held : List Handle} {k : T} {v : V} {n : Nat}
    (h : Hist log w t i held) (he : i.makeLeafNode k v = .ok (i', n)) :
    ∃ held', Hist log w t i' held' ∧ (∀ x ∈ held, x ∈ held') ∧ Handle.node ⟨n, t⟩ ∈ held' := by
  obtain ⟨⟨new, hl, hon⟩, ho⟩ := h
  obtain ⟨j, m, h1, h2⟩ := World.makeLeafNode_eq (w.set t i) t k v
  rw [World.set_self, he] at h1
  cases h1
  obtain ⟨new', held', n', a, l, k1, k0, k2, k3, k4, k5, k6, -⟩ := makeLeafNode_history hl ho k v
  rw [h2] at k1 k2
  cases k2
  rw [World.set_set, ← List.append_assoc] at k1
  obtain ⟨x, hx, hx'⟩ := ho
  exact ⟨held', ⟨⟨new' ++ new, k1, callsOn_append k0 hon⟩, x, k6 x hx, hx'⟩, k6, k4⟩

theorem Hist.branch {i i' : Inner T AK V} {held : List Handle} {a : AK} {ns : List Nat} {n : Nat}
    (h : Hist log w t i held) (hns : HeldNodes t held ns) (he : i.makeBranchNode a ns = .ok (i', n)) :
    ∃ held', Hist log w t i' held' ∧ (∀ x ∈ held, x ∈ held') ∧ Handle.node ⟨n, t⟩ ∈ held' := by
  obtain ⟨⟨new, hl, hon⟩, ho⟩ := h
  obtain ⟨j, m, h1, h2⟩ := World.makeBranchNode_eq (w.set t i) t a ns
  rw [World.set_self, he] at h1
  cases h1
  obtain ⟨new', held', n', a', l, k1, k0, k2, k3, k4, k5, k6, -⟩ :=
    makeBranchNode_history hl ho a (ns := ns.map (⟨·, t⟩))
      (by simpa [HeldNodes] using hns) (by simp)
  rw [h2] at k1 k2
  cases k2
  rw [World.set_set, ← List.append_assoc] at k1
  obtain ⟨x, hx, hx'⟩ := ho
  exact ⟨held', ⟨⟨new' ++ new, k1, callsOn_append k0 hon⟩, x, k6 x hx, hx'⟩, k6, k4⟩

theorem Hist.addAll {i i' : Inner T AK V} {held : List Handle} {n m : Nat} {c : WasChanged}
    (h : Hist log w t i held) (hn : Handle.node ⟨n, t⟩ ∈ held) (hm : Handle.node ⟨m, t⟩ ∈ held)
    (he : i.addAll n m = .ok (i', c)) : Hist log w t i' held := by
  obtain ⟨⟨new, hl, hon⟩, ho⟩ := h
  have h1 := History.call (.addAll ⟨n, t⟩ ⟨m, t⟩) hl ⟨hn, hm⟩
  simp only [TreeOp.exec, World.addAll_eq, World.set_self, he, World.update, World.set_set,
    Res.mapOut, TreeOut.gives, List.nil_append] at h1
  rw [← List.cons_append] at h1
  refine ⟨⟨_, h1, ?_⟩, ho⟩
  intro c hc
  rcases List.mem_cons.1 hc with rfl | hc
  · exact ⟨rfl, _, rfl⟩
  · exact hon c hc

theorem Hist.addAlls {held : List Handle} {l : List (Nat × Nat)} {i i' : Inner T AK V}
    {c c' : WasChanged} (h : Hist log w t i held)
    (hl : ∀ e ∈ l, Handle.node ⟨e.1, t⟩ ∈ held ∧ Handle.node ⟨e.2, t⟩ ∈ held)
    (he : changeIterM l (fun (i : Inner T AK V) en => i.addAll en.1 en.2) i c = .ok (i', c')) :
    Hist log w t i' held := by
  induction l generalizing i c with
  | nil => simp only [changeIterM, Res.ok.injEq, _root_.Prod.mk.injEq] at he; rw [← he.1]; exact h
  | cons e l ih =>
    unfold changeIterM at he
    cases h1 : i.addAll e.1 e.2 with
    | panic p => rw [h1] at he; cases he
    | oof => rw [h1] at he; cases he
    | ok r =>
      obtain ⟨j, c1⟩ := r
      rw [h1] at he
      exact ih (h.addAll (hl e (by simp)).1 (hl e (by simp)).2 h1) (fun e he => hl e (by simp [he])) he

/-! ### The state set -/

theorem Hist.insert {addr : StartNonTerminal NT → Nat → Nat} {held : List Handle}
    {i i' : Inner T AK V} {set set' : EarleyStateSet T NT AK AV} {s : EarleyState T NT AK AV}
    {c : WasChanged} (h : Hist log w t i held) (hset : HeldSet t held set) (hs : HeldNodes t held s.value)
    (he : EarleyStateSet.insert addr (i, set) s = .ok ((i', set'), c)) :
    Hist log w t i' held ∧ HeldSet t held set' := by
  unfold EarleyStateSet.insert at he
  simp only at he
  cases h1 : BMap.get? (EarleyStateKey.cmp addr) set s.key with
  | none =>
    rw [h1] at he
    simp only [Res.ok.injEq, _root_.Prod.mk.injEq] at he
    obtain ⟨⟨rfl, rfl⟩, -⟩ := he
    refine ⟨h, ?_⟩
    intro e he
    rcases (BMap.mem_insert_of_vacant h1 e).1 he with he | he
    · rw [he]; exact hs
    · exact hset e he
  | some ex =>
    rw [h1] at he
    simp only at he
    split at he
    · cases h2 : changeIterM (ex.zip s.value) (fun (i : Inner T AK V) en => i.addAll en.1 en.2) i with
      | panic p => rw [h2] at he; cases he
      | oof => rw [h2] at he; cases he
      | ok r =>
        obtain ⟨j, c1⟩ := r
        rw [h2] at he
        simp only [Res.ok.injEq, _root_.Prod.mk.injEq] at he
        obtain ⟨⟨rfl, rfl⟩, -⟩ := he
        refine ⟨h.addAlls ?_ h2, hset⟩
        intro e hez
        obtain ⟨k, hk⟩ := BMap.get?_mem h1
        exact ⟨hset _ hk.1 _ (List.of_mem_zip (a := e.1) (b := e.2) hez).1, hs _ (List.of_mem_zip (a := e.1) (b := e.2) hez).2⟩
    · cases he

theorem Hist.inserts {addr : StartNonTerminal NT → Nat → Nat} {held : List Handle}
    {l : List (EarleyState T NT AK AV)}
    {st st' : Inner T AK V × EarleyStateSet T NT AK AV}
    {c c' : WasChanged} (h : Hist log w t st.1 held) (hset : HeldSet t held st.2)
    (hs : HeldStates t held l)
    (he : changeIterM l (EarleyStateSet.insert addr) st c = .ok (st', c')) :
    Hist log w t st'.1 held ∧ HeldSet t held st'.2 := by
  induction l generalizing st c with
  | nil =>
    simp only [changeIterM, Res.ok.injEq, _root_.Prod.mk.injEq] at he
    rw [← he.1]; exact ⟨h, hset⟩
  | cons e l ih =>
    unfold changeIterM at he
    cases h1 : EarleyStateSet.insert addr st e with
    | panic p => rw [h1] at he; cases he
    | oof => rw [h1] at he; cases he
    | ok r =>
      obtain ⟨j, c1⟩ := r
      rw [h1] at he
      obtain ⟨k1, k2⟩ := h.insert hset (hs e (by simp)) h1
      exact ih k1 k2 (fun e he => hs e (by simp [he])) he

theorem Hist.fromStates {addr : StartNonTerminal NT → Nat → Nat} {held : List Handle}
    {l : List (EarleyState T NT AK AV)}
    {st st' : Inner T AK V × EarleyStateSet T NT AK AV}
    (h : Hist log w t st.1 held) (hset : HeldSet t held st.2) (hs : HeldStates t held l)
    (he : EarleyStateSet.fromStates addr l st = .ok st') :
    Hist log w t st'.1 held ∧ HeldSet t held st'.2 := by
  induction l generalizing st with
  | nil =>
    simp only [EarleyStateSet.fromStates, Res.ok.injEq] at he
    rw [← he]; exact ⟨h, hset⟩
  | cons e l ih =>
    unfold EarleyStateSet.fromStates at he
    cases h1 : EarleyStateSet.insert addr st e with
    | panic p => rw [h1] at he; cases he
    | oof => rw [h1] at he; cases he
    | ok r =>
      obtain ⟨j, c1⟩ := r
      rw [h1] at he
      obtain ⟨k1, k2⟩ := h.insert hset (hs e (by simp)) h1
      exact ih k1 k2 (fun e he => hs e (by simp [he])) he

theorem Hist.scan {held : List Handle} {s : EarleyState T NT AK AV} {i i' : Inner T AK V}
    {tok : Token T V} {r : Option (EarleyState T NT AK AV)} (h : Hist log w t i held)
    (hs : HeldNodes t held s.value) (he : s.scan i tok = .ok (i', r)) :
    ∃ held', Hist log w t i' held' ∧ (∀ x ∈ held, x ∈ held') ∧
      ∀ s', r = some s' → HeldNodes t held' s'.value := by
  have triv : ∀ (e : Res.ok (i, (none : Option (EarleyState T NT AK AV))) = .ok (i', r)),
      ∃ held', Hist log w t i' held' ∧ (∀ x ∈ held, x ∈ held') ∧
        ∀ s', r = some s' → HeldNodes t held' s'.value := by
    intro e; cases e; exact ⟨held, h, fun x hx => hx, by simp⟩
  unfold EarleyState.scan at he
  split at he
  · exact triv he
  · split at he
    · exact triv he
    · split at he
      · split at he
        · next j node h1 =>
          obtain ⟨held', k1, k2, k3⟩ := h.leaf h1
          cases he
          refine ⟨held', k1, k2, ?_⟩
          intro s' hs'
          cases hs'
          intro n hn
          rcases List.mem_append.1 hn with hn | hn
          · exact k2 _ (hs n hn)
          · rw [List.mem_singleton.1 hn]; exact k3
        · cases he
        · cases he
      · exact triv he

theorem Hist.shift {addr : StartNonTerminal NT → Nat → Nat} {held : List Handle}
    {l : List (EarleyState T NT AK AV)} {tok : Token T V}
    {st st' : Inner T AK V × EarleyStateSet T NT AK AV}
    (h : Hist log w t st.1 held) (hset : HeldSet t held st.2) (hs : HeldStates t held l)
    (he : EarleyStateSet.shift addr tok l st = .ok st') :
    ∃ held', Hist log w t st'.1 held' ∧ (∀ x ∈ held, x ∈ held') ∧ HeldSet t held' st'.2 := by
  induction l generalizing st held with
  | nil =>
    simp only [EarleyStateSet.shift, Res.ok.injEq] at he
    rw [← he]; exact ⟨held, h, fun _ hx => hx, hset⟩
  | cons e l ih =>
    unfold EarleyStateSet.shift at he
    cases h1 : e.scan st.1 tok with
    | panic p => rw [h1] at he; cases he
    | oof => rw [h1] at he; cases he
    | ok r =>
      obtain ⟨j, r⟩ := r
      rw [h1] at he
      obtain ⟨held1, k1, k2, k3⟩ := h.scan (hs e (by simp)) h1
      have hl : HeldStates t held1 l := HeldStates.mono (fun e he => hs e (by simp [he])) k2
      cases r with
      | none =>
        obtain ⟨held', q1, q2, q3⟩ := ih (st := (j, st.2)) k1 (hset.mono k2) hl he
        exact ⟨held', q1, fun x hx => q2 x (k2 x hx), q3⟩
      | some s' =>
        simp only at he
        cases h2 : EarleyStateSet.insert addr (j, st.2) s' with
        | panic p => rw [h2] at he; cases he
        | oof => rw [h2] at he; cases he
        | ok r =>
          obtain ⟨st1, c1⟩ := r
          rw [h2] at he
          obtain ⟨p1, p2⟩ := k1.insert (hset.mono k2) (k3 s' rfl) h2
          obtain ⟨held', q1, q2, q3⟩ := ih p1 p2 hl he
          exact ⟨held', q1, fun x hx => q2 x (k2 x hx), q3⟩

theorem Hist.completeLoop {held : List Handle} {s : EarleyState T NT AK AV}
    {l out : List (EarleyState T NT AK AV)} {i i' : Inner T AK V} (h : Hist log w t i held)
    (hs : HeldNodes t held s.value) (hl : HeldStates t held l)
    (he : s.completeLoop l i = .ok (i', out)) :
    ∃ held', Hist log w t i' held' ∧ (∀ x ∈ held, x ∈ held') ∧ HeldStates t held' out := by
  induction l generalizing i out held with
  | nil =>
    simp only [EarleyState.completeLoop, Res.ok.injEq, _root_.Prod.mk.injEq] at he
    obtain ⟨rfl, rfl⟩ := he
    exact ⟨held, h, fun _ hx => hx, by simp [HeldStates]⟩
  | cons st l ih =>
    have hl' : HeldStates t held l := fun e he => hl e (by simp [he])
    unfold EarleyState.completeLoop at he
    split at he
    · exact ih h hs hl' he
    · split at he
      · exact ih h hs hl' he
      · split at he
        · split at he
          · cases he
          · split at he
            · next j node h1 =>
              obtain ⟨held1, k1, k2, k3⟩ := h.branch hs h1
              cases h2 : s.completeLoop l j with
              | panic p => rw [h2] at he; cases he
              | oof => rw [h2] at he; cases he
              | ok r =>
                obtain ⟨j', rest⟩ := r
                rw [h2] at he
                cases he
                obtain ⟨held', q1, q2, q3⟩ := ih k1 (hs.mono k2) (hl'.mono k2) h2
                refine ⟨held', q1, fun x hx => q2 x (k2 x hx), ?_⟩
                intro s' hs'
                rcases List.mem_cons.1 hs' with rfl | hs'
                · intro n hn
                  rcases List.mem_append.1 hn with hn | hn
                  · exact q2 _ (k2 _ (hl st (by simp) n hn))
                  · rw [List.mem_singleton.1 hn]; exact q2 _ k3
                · exact q3 s' hs'
            · cases he
            · cases he
        · exact ih h hs hl' he

theorem Hist.complete {held : List Handle} {s : EarleyState T NT AK AV}
    {prev : List (EarleyStateSet T NT AK AV)} {curr : EarleyStateSet T NT AK AV}
    {out : List (EarleyState T NT AK AV)} {i i' : Inner T AK V} (h : Hist log w t i held)
    (hs : HeldNodes t held s.value) (hp : ∀ p ∈ prev, HeldSet t held p) (hc : HeldSet t held curr)
    (he : s.complete prev curr i = .ok (i', out)) :
    ∃ held', Hist log w t i' held' ∧ (∀ x ∈ held, x ∈ held') ∧ HeldStates t held' out := by
  unfold EarleyState.complete at he
  split at he
  · split at he
    · exact h.completeLoop hs hc.states he
    · split at he
      · next o ho => exact h.completeLoop hs (hp o (List.mem_of_getElem? ho)).states he
      · cases he
  · cases he
    exact ⟨held, h, fun _ hx => hx, by simp [HeldStates]⟩

/-! ### The parser -/
variable {addr : StartNonTerminal NT → Nat → Nat} {g : StartGrammar T NT AK AV}

theorem heldStates_predict {held : List Handle} (s : EarleyState T NT AK AV) (k : Nat) :
    HeldStates t held (s.predict g k) := by
  intro e he
  unfold EarleyState.predict at he
  split at he
  · cases he
  · split at he
    · cases he
    · obtain ⟨p, -, rfl⟩ := List.mem_map.1 he
      simp [HeldNodes]

theorem Hist.closureStates {held : List Handle}
    {prev : List (EarleyStateSet T NT AK AV)} {curr : EarleyStateSet T NT AK AV}
    {l out : List (EarleyState T NT AK AV)} {i i' : Inner T AK V} (h : Hist log w t i held)
    (hl : HeldStates t held l) (hp : ∀ p ∈ prev, HeldSet t held p) (hc : HeldSet t held curr)
    (he : closureStates g prev curr l i = .ok (i', out)) :
    ∃ held', Hist log w t i' held' ∧ (∀ x ∈ held, x ∈ held') ∧ HeldStates t held' out := by
  induction l generalizing i out held with
  | nil =>
    simp only [Bongo.closureStates, Res.ok.injEq, _root_.Prod.mk.injEq] at he
    obtain ⟨rfl, rfl⟩ := he
    exact ⟨held, h, fun _ hx => hx, by simp [HeldStates]⟩
  | cons s l ih =>
    unfold Bongo.closureStates at he
    cases h1 : s.complete prev curr i with
    | panic p => rw [h1] at he; cases he
    | oof => rw [h1] at he; cases he
    | ok r =>
      obtain ⟨j, comp⟩ := r
      rw [h1] at he
      obtain ⟨held1, k1, k2, k3⟩ := h.complete (hl s (by simp)) hp hc h1
      simp only at he
      cases h2 : Bongo.closureStates g prev curr l j with
      | panic p => rw [h2] at he; cases he
      | oof => rw [h2] at he; cases he
      | ok r =>
        obtain ⟨j', rest⟩ := r
        rw [h2] at he
        cases he
        obtain ⟨held', q1, q2, q3⟩ := ih k1 (HeldStates.mono (fun e he => hl e (by simp [he])) k2)
          (fun p hpm => (hp p hpm).mono k2) (hc.mono k2) h2
        refine ⟨held', q1, fun x hx => q2 x (k2 x hx), ?_⟩
        intro e he
        rcases List.mem_append.1 he with he | he
        · rcases List.mem_append.1 he with he | he
          · exact heldStates_predict s _ e he
          · exact (k3.mono q2) e he
        · exact q3 e he

theorem Hist.closePass {held : List Handle} {prev : List (EarleyStateSet T NT AK AV)}
    {st st' : Inner T AK V × EarleyStateSet T NT AK AV} {c : WasChanged} (h : Hist log w t st.1 held)
    (hp : ∀ p ∈ prev, HeldSet t held p) (hc : HeldSet t held st.2)
    (he : closePass addr g prev st = .ok (st', c)) :
    ∃ held', Hist log w t st'.1 held' ∧ (∀ x ∈ held, x ∈ held') ∧ HeldSet t held' st'.2 := by
  unfold Bongo.closePass at he
  cases h1 : Bongo.closureStates g prev st.2 (EarleyStateSet.states st.2) st.1 with
  | panic p => rw [h1] at he; cases he
  | oof => rw [h1] at he; cases he
  | ok r =>
    obtain ⟨j, cl⟩ := r
    rw [h1] at he
    obtain ⟨held1, k1, k2, k3⟩ := h.closureStates hc.states hp hc h1
    obtain ⟨q1, q2⟩ := Hist.inserts (st := (j, st.2)) k1 (hc.mono k2) k3 he
    exact ⟨held1, q1, k2, q2⟩

theorem Hist.closeState {held : List Handle} {prev : List (EarleyStateSet T NT AK AV)}
    {st st' : Inner T AK V × EarleyStateSet T NT AK AV} {fuel : Nat} (h : Hist log w t st.1 held)
    (hp : ∀ p ∈ prev, HeldSet t held p) (hc : HeldSet t held st.2)
    (he : closeState addr g fuel prev st = .ok st') :
    ∃ held', Hist log w t st'.1 held' ∧ (∀ x ∈ held, x ∈ held') ∧ HeldSet t held' st'.2 := by
  unfold Bongo.closeState at he
  split at he
  · cases he
  · next hne =>
    clear hne
    induction fuel generalizing st held with
    | zero => cases he
    | succ fuel ih =>
      unfold changeLoop at he
      cases h1 : Bongo.closePass addr g prev st with
      | panic p => rw [h1] at he; cases he
      | oof => rw [h1] at he; cases he
      | ok r =>
        obtain ⟨st1, c⟩ := r
        rw [h1] at he
        obtain ⟨held1, k1, k2, k3⟩ := h.closePass hp hc h1
        cases c with
        | unchanged => cases he; exact ⟨held1, k1, k2, k3⟩
        | changed =>
          obtain ⟨held', q1, q2, q3⟩ := ih k1 (fun p hpm => (hp p hpm).mono k2) k3 he
          exact ⟨held', q1, fun x hx => q2 x (k2 x hx), q3⟩

theorem Hist.parseLoop {held : List Handle} {toks : List (Token T V)}
    {before : List (EarleyStateSet T NT AK AV)} {last out : EarleyStateSet T NT AK AV}
    {i i' : Inner T AK V} {fuel : Nat} (h : Hist log w t i held)
    (hp : ∀ p ∈ before, HeldSet t held p) (hc : HeldSet t held last)
    (he : parseLoop addr g fuel before last i toks = .ok (i', out)) :
    ∃ held', Hist log w t i' held' ∧ (∀ x ∈ held, x ∈ held') ∧ HeldSet t held' out := by
  induction toks generalizing before last i held with
  | nil =>
    simp only [Bongo.parseLoop, Res.ok.injEq, _root_.Prod.mk.injEq] at he
    obtain ⟨rfl, rfl⟩ := he
    exact ⟨held, h, fun _ hx => hx, hc⟩
  | cons tok toks ih =>
    unfold Bongo.parseLoop at he
    cases h1 : EarleyStateSet.shift addr tok (EarleyStateSet.states last) (i, []) with
    | panic p => rw [h1] at he; cases he
    | oof => rw [h1] at he; cases he
    | ok st =>
      rw [h1] at he
      obtain ⟨held1, k1, k2, k3⟩ := Hist.shift (st := (i, [])) h (by simp [HeldSet]) hc.states h1
      simp only at he
      have hp1 : ∀ p ∈ before ++ [last], HeldSet t held1 p := by
        intro p hpm
        rcases List.mem_append.1 hpm with hpm | hpm
        · exact (hp p hpm).mono k2
        · rw [List.mem_singleton.1 hpm]; exact hc.mono k2
      cases h2 : Bongo.closeState addr g fuel (before ++ [last]) st with
      | panic p => rw [h2] at he; cases he
      | oof => rw [h2] at he; cases he
      | ok r =>
        obtain ⟨j, new⟩ := r
        rw [h2] at he
        obtain ⟨held2, q1, q2, q3⟩ := k1.closeState hp1 k3 h2
        obtain ⟨held', r1, r2, r3⟩ := ih q1 (fun p hpm => (hp1 p hpm).mono q2) q3 he
        exact ⟨held', r1, fun x hx => r2 x (q2 x (k2 x hx)), r3⟩

theorem heldNodes_getFinal {held : List Handle} {s : EarleyStateSet T NT AK AV} {n : Nat}
    (h : HeldSet t held s) (he : EarleyStateSet.getFinal s = .ok (some n)) :
    Handle.node ⟨n, t⟩ ∈ held := by
  induction s with
  | nil => cases he
  | cons e s ih =>
    obtain ⟨k, v⟩ := e
    unfold EarleyStateSet.getFinal at he
    split at he
    · split at he
      · cases he
        exact h (k, [n]) (by simp) n (by simp)
      · cases he
    · exact ih (fun e he => h e (by simp [he])) he

theorem Hist.parseInner {held : List Handle} {toks : List (Token T V)} {i i' : Inner T AK V}
    {fuel : Nat} {r : Option Nat} (h : Hist log w t i held)
    (he : parseInner addr g fuel i toks = .ok (i', r)) :
    ∃ held', Hist log w t i' held' ∧ (∀ x ∈ held, x ∈ held') ∧
      ∀ n, r = some n → Handle.node ⟨n, t⟩ ∈ held' := by
  unfold Bongo.parseInner at he
  cases h1 : EarleyStateSet.newStart addr g i with
  | panic p => rw [h1] at he; cases he
  | oof => rw [h1] at he; cases he
  | ok st =>
    rw [h1] at he
    unfold EarleyStateSet.newStart at h1
    split at h1
    · next rule hr =>
      obtain ⟨a1, a2⟩ := Hist.fromStates (st := (i, [])) h (by simp [HeldSet])
        (by
          intro s hs
          obtain ⟨p, -, rfl⟩ := List.mem_map.1 hs
          simp [HeldNodes, EarleyState.fromProdStart]) h1
      simp only at he
      cases h2 : Bongo.closeState addr g fuel [] st with
      | panic p => rw [h2] at he; cases he
      | oof => rw [h2] at he; cases he
      | ok r2 =>
        obtain ⟨j, init⟩ := r2
        rw [h2] at he
        obtain ⟨held1, b1, b2, b3⟩ := a1.closeState (by simp) a2 h2
        simp only at he
        cases h3 : Bongo.parseLoop addr g fuel [] init j toks with
        | panic p => rw [h3] at he; cases he
        | oof => rw [h3] at he; cases he
        | ok r3 =>
          obtain ⟨j', last⟩ := r3
          rw [h3] at he
          obtain ⟨held2, c1, c2, c3⟩ := b1.parseLoop (by simp) b3 h3
          simp only at he
          cases h4 : EarleyStateSet.getFinal last with
          | panic p => rw [h4] at he; cases he
          | oof => rw [h4] at he; cases he
          | ok n =>
            rw [h4] at he
            cases he
            refine ⟨held2, c1, fun x hx => c2 x (b2 x hx), ?_⟩
            intro n hn
            subst hn
            exact heldNodes_getFinal c3 h4
    · cases h1
    · cases h1
end
end Bongo
