import Verif.Proof.Firsts
import Verif.Proof.Follows
import Verif.Proof.NullableSpec
/-! How many rounds the loops of the passes take: as many as the derivations are deep. -/
set_option linter.unusedSectionVars false
namespace Bongo
open Std

section levels
open scoped Classical
variable {X : Type}

/-- The facts that are there after `k` rounds of a rule `H`. -/
def level (H : (X → Prop) → X → Prop) : Nat → X → Prop
  | 0 => fun _ => False
  | k + 1 => H (level H k)

/-- More facts give more facts. -/
def MonoRule (H : (X → Prop) → X → Prop) : Prop :=
  ∀ P Q : X → Prop, (∀ x, P x → Q x) → ∀ x, H P x → H Q x

theorem level_succ {H : (X → Prop) → X → Prop} (hm : MonoRule H) (k : Nat) :
    ∀ x, level H k x → level H (k + 1) x := by
  induction k with
  | zero => intro x h; exact h.elim
  | succ k ih => exact hm _ _ ih

theorem level_mono {H : (X → Prop) → X → Prop} (hm : MonoRule H) {j k : Nat} (h : j ≤ k) :
    ∀ x, level H j x → level H k x := by
  induction h with
  | refl => exact fun x h => h
  | step _ ih => exact fun x h => level_succ hm _ x (ih x h)

theorem level_stable {H : (X → Prop) → X → Prop} (hm : MonoRule H) {k : Nat}
    (h : ∀ x, level H (k + 1) x → level H k x) : ∀ j x, level H j x → level H k x := by
  intro j
  induction j with
  | zero => intro x h; exact h.elim
  | succ j ih => intro x hx; exact h x (hm _ _ ih x hx)

/-- Facts from a list of length `n` are there after `n` rounds or never. -/
theorem level_bound {H : (X → Prop) → X → Prop} (hm : MonoRule H) {U : List X}
    (hU : ∀ k x, level H k x → x ∈ U) : ∀ j x, level H j x → level H U.length x := by
  by_contra hn
  have hgrow : ∀ k, k ≤ U.length → ∃ x, ¬ level H k x ∧ level H (k + 1) x := by
    intro k hk
    by_contra h
    apply hn
    intro j x hx
    refine level_mono hm hk x (level_stable hm (fun x hx => ?_) j x hx)
    by_contra hx'
    exact h ⟨x, hx', hx⟩
  have hcount : ∀ k, k ≤ U.length + 1 →
      missing U (fun k x => level H k x) k + k ≤ U.length := by
    intro k
    induction k with
    | zero => intro _; simpa using missing_le_length U (fun k x => level H k x) 0
    | succ k ih =>
      intro hk
      obtain ⟨x, h1, h2⟩ := hgrow k (by omega)
      have := missing_lt (U := U) (F := fun k x => level H k x) (s := k) (s' := k + 1)
        (fun x hx => level_succ hm k x hx) ⟨x, hU _ _ h2, h1, h2⟩
      have := ih (by omega)
      omega
  have := hcount (U.length + 1) (Nat.le_refl _)
  omega
end levels

section rounds
variable {S ι X : Type}

/-- A loop that has stopped changing things after `n` rounds returns within `n + 1`. -/
theorem changeLoop_rounds {f : S → Res (S × WasChanged)} {Q : Nat → S → Prop} {n : Nat}
    (hne : ∀ k s, Q k s → f s ≠ .oof)
    (hstep : ∀ k s s', Q k s → f s = .ok (s', .changed) → Q (k + 1) s')
    (hend : ∀ s s', Q n s → f s ≠ .ok (s', .changed)) {k : Nat} {s : S} (hs : Q k s) (hk : k ≤ n)
    {fuel : Nat} (hf : n + 1 ≤ fuel + k) : changeLoop fuel f s ≠ .oof := by
  induction fuel generalizing k s with
  | zero => omega
  | succ m ih =>
    rw [changeLoop]
    cases he : f s with
    | panic w => simp
    | oof => exact absurd he (hne k s hs)
    | ok r =>
      obtain ⟨s', c⟩ := r
      cases c with
      | unchanged => simp
      | changed =>
        simp only
        by_cases hkn : k = n
        · subst hkn; exact absurd he (hend s s' hs)
        · exact ih (hstep k s s' hs he) (by omega) (by omega)

/-- Every visit of a round happens to a state with at least the facts of the start, and what it
adds is there at the end. -/
theorem FactPass.iter_visit {l : List ι} {f : S → ι → S × WasChanged} {P : S → Prop}
    {F : S → X → Prop} {U : List X} (h : FactPass l f P F U) {s : S} (hs : P s) {i : ι} (hi : i ∈ l) :
    ∃ s₁, P s₁ ∧ (∀ x, F s x → F s₁ x) ∧ ∀ x, F (f s₁ i).1 x → F (changeIter l f s).1 x := by
  induction l generalizing s with
  | nil => simp at hi
  | cons a l ih =>
    have h' : FactPass l f P F U :=
      ⟨fun s i hi => h.inv s i (by simp [hi]), fun s i hi => h.mono s i (by simp [hi]),
        fun s i hi => h.changed s i (by simp [hi]), fun s i hi => h.unchanged s i (by simp [hi])⟩
    rw [changeIter_cons]
    rcases List.mem_cons.1 hi with rfl | hi
    · exact ⟨s, hs, fun _ hx => hx, (h'.iter (h.inv s i (by simp) hs)).2.1⟩
    · obtain ⟨s₁, h1, h2, h3⟩ := ih h' (h.inv s a (by simp) hs) hi
      exact ⟨s₁, h1, fun x hx => h2 x (h.mono s a (by simp) hs x hx), h3⟩
end rounds

/-! ### Maps of sets -/
namespace CollectOp
variable {K V : Type} [Ord K] [TransOrd K] [LawfulEqOrd K] [Ord V] [TransOrd V] [LawfulEqOrd V]

/-- One round for the value `v`. -/
def rule (ops : List (CollectOp K V)) (v : V) (S : K → Prop) (k : K) : Prop :=
  CollectOp.insert k v ∈ ops ∨ (∃ vs, CollectOp.iter k vs ∈ ops ∧ v ∈ vs) ∨
    ∃ src, CollectOp.fromKey k src ∈ ops ∧ S src

theorem rule_mono (ops : List (CollectOp K V)) (v : V) : MonoRule (rule ops v) := by
  rintro P Q h k (h1 | h1 | ⟨src, h1, h2⟩)
  · exact Or.inl h1
  · exact Or.inr (Or.inl h1)
  · exact Or.inr (Or.inr ⟨src, h1, h _ h2⟩)

theorem coll_level {ops : List (CollectOp K V)} {k : K} {v : V} (h : Coll ops k v) :
    ∃ n, level (rule ops v) n k := by
  induction h with
  | insert h => exact ⟨1, Or.inl h⟩
  | iter h hv => exact ⟨1, Or.inr (Or.inl ⟨_, h, hv⟩)⟩
  | fromKey h _ ih =>
    obtain ⟨n, hn⟩ := ih
    exact ⟨n + 1, Or.inr (Or.inr ⟨_, h, hn⟩)⟩

theorem level_key {ops : List (CollectOp K V)} {ks : List K} (hk : ∀ op ∈ ops, op.key ∈ ks) {v : V}
    {n : Nat} {k : K} (h : level (rule ops v) n k) : k ∈ ks := by
  cases n with
  | zero => exact h.elim
  | succ n =>
    rcases h with h | ⟨_, h, -⟩ | ⟨_, h, -⟩
    · exact hk _ h
    · exact hk _ h
    · exact hk _ h

/-- The loop takes at most one round more than there are keys. -/
theorem loop_rounds (ops : List (CollectOp K V)) {ks : List K} (hk : ∀ op ∈ ops, op.key ∈ ks)
    {fuel : Nat} (hf : ks.length < fuel) :
    changeLoop fuel (fun m => .ok (changeIter ops apply m)) [] ≠ .oof := by
  have hfp := factPass ops
  refine changeLoop_rounds (Q := fun k m => (CollectMap.WF compare compare m ∧
      ∀ k v, CollectMap.Has compare m k v → Coll ops k v) ∧
      ∀ v x, level (rule ops v) k x → CollectMap.Has compare m x v) (n := ks.length)
    (fun k s _ => by simp) ?_ ?_ (k := 0) ⟨⟨CollectMap.wf_nil, by simp [CollectMap.Has]⟩, ?_⟩
    (by omega) (by omega)
  · rintro k m m' ⟨h1, h2⟩ he
    simp only [Res.ok.injEq] at he
    have hm' : m' = (changeIter ops apply m).1 := by rw [he]
    subst hm'
    refine ⟨(hfp.iter h1).1, ?_⟩
    rintro v x (h | ⟨vs, h, hv⟩ | ⟨src, h, hs⟩)
    · obtain ⟨s₁, i1, i2, i3⟩ := hfp.iter_visit h1 h
      exact i3 (x, v) ((CollectMap.has_insert x v x v).2 (Or.inl ⟨rfl, rfl⟩))
    · obtain ⟨s₁, i1, i2, i3⟩ := hfp.iter_visit h1 h
      exact i3 (x, v) ((CollectMap.has_insertIter i1.1 x vs x v).2 (Or.inl ⟨rfl, hv⟩))
    · obtain ⟨s₁, i1, i2, i3⟩ := hfp.iter_visit h1 h
      exact i3 (x, v) ((CollectMap.has_insertFromKeySet i1.1 x src x v).2
        (Or.inl ⟨rfl, i2 (src, v) (h2 v src hs)⟩))
  · rintro m m' ⟨h1, h2⟩ he
    simp only [Res.ok.injEq] at he
    obtain ⟨i1, -, i3, -⟩ := hfp.iter h1
    rw [he] at i1 i3
    obtain ⟨⟨x, v⟩, -, j1, j2⟩ := i3 rfl
    obtain ⟨n, hn⟩ := coll_level (i1.2 x v j2)
    exact j1 (h2 v x (level_bound (rule_mono ops v) (fun k x h => level_key hk h) n x hn))
  · intro v x h; exact h.elim

theorem loop_sharp (ops : List (CollectOp K V)) {ks : List K} (hk : ∀ op ∈ ops, op.key ∈ ks)
    {fuel : Nat} (hf : ks.length < fuel) :
    ∃ m, changeLoop fuel (fun m => .ok (changeIter ops apply m)) [] = .ok m := by
  obtain ⟨m, h, -⟩ := loop ops (fuel := max fuel (bound ops)) (by omega)
  rw [changeLoop_mono (Nat.le_max_left _ _) (loop_rounds ops hk hf)] at h
  exact ⟨m, h⟩
end CollectOp

/-! ### The passes -/
variable {T NT AK AV : Type} [Ord T] [TransOrd T] [LawfulEqOrd T]
  [Ord NT] [TransOrd NT] [LawfulEqOrd NT]

/-- One round for nullability. -/
def nullRule (g : Grammar T NT AK AV) (S : NT → Prop) (A : NT) : Prop :=
  ∃ p ∈ g.prods, p.head = A ∧ ∀ e ∈ p.elements, ∃ B, e = .nonterm B ∧ S B

theorem nullRule_mono (g : Grammar T NT AK AV) : MonoRule (nullRule g) := by
  rintro P Q h A ⟨p, hp, hA, he⟩
  refine ⟨p, hp, hA, fun e hin => ?_⟩
  obtain ⟨B, rfl, hB⟩ := he e hin
  exact ⟨B, rfl, h B hB⟩

section
variable {g : Grammar T NT AK AV} {addr : NT → Nat → Nat}

theorem null_level (hw : g.WF) {A : NT} (h : g.cfg.Null A) : ∃ n, level (nullRule g) n A := by
  induction h with
  | intro A Bs hp _ ih =>
    obtain ⟨p, hp', rfl, he⟩ := (Grammar.cfg_prod_iff hw).1 hp
    have : ∀ l : List NT, (∀ B ∈ l, ∃ n, level (nullRule g) n B) →
        ∃ n, ∀ B ∈ l, level (nullRule g) n B := by
      intro l
      induction l with
      | nil => intro _; exact ⟨0, by simp⟩
      | cons B l ihl =>
        intro h
        obtain ⟨n, hn⟩ := h B (by simp)
        obtain ⟨k, hk⟩ := ihl fun B hB => h B (by simp [hB])
        refine ⟨max n k, fun C hC => ?_⟩
        rcases List.mem_cons.1 hC with rfl | hC
        · exact level_mono (nullRule_mono g) (Nat.le_max_left n k) _ hn
        · exact level_mono (nullRule_mono g) (Nat.le_max_right n k) _ (hk C hC)
    obtain ⟨n, hn⟩ := this Bs ih
    refine ⟨n + 1, p, hp', rfl, fun e hin => ?_⟩
    rw [he] at hin
    obtain ⟨B, hB, rfl⟩ := List.mem_map.1 hin
    exact ⟨B, rfl, hn B hB⟩

/-- The first loop takes at most two rounds more than there are nonterminals with productions. -/
theorem innerNullables_rounds (hw : g.WF) (ha : AddrInj g addr) {hs : List NT}
    (hhs : ∀ p ∈ g.prods, p.head ∈ hs) {fuel : Nat} (hf : hs.length + 1 < fuel) :
    innerCalculateNullables fuel addr g ≠ .oof := by
  have hfp := nullFactPass hw ha (g := g)
  refine changeLoop_rounds (Q := fun k m => NullInv addr g m ∧
      ∀ p ∈ g.prods, ∀ j, j < k → (∀ e ∈ p.elements, ∃ B, e = .nonterm B ∧
        level (nullRule g) j B) → NullFact m p) (n := hs.length + 1)
    (fun k s _ => by simp) ?_ ?_ (k := 0) ⟨nullInv_nil, by simp⟩ (by omega) (by omega)
  · rintro k m m' ⟨h1, h2⟩ he
    simp only [Res.ok.injEq] at he
    have hm' : m' = (changeIter g.prods (nullableVisit addr) m).1 := by rw [he]
    subst hm'
    refine ⟨(hfp.iter h1).1, ?_⟩
    intro p hp j hj hel
    obtain ⟨s₁, i1, i2, i3⟩ := hfp.iter_visit h1 hp
    refine i3 p ((nullableVisit_fact hw ha i1 hp p).2 (Or.inl ⟨rfl, ?_⟩))
    rw [isProdNullable_iff]
    intro e hin
    obtain ⟨B, rfl, hB⟩ := hel e hin
    refine ⟨B, rfl, ?_⟩
    cases j with
    | zero => exact hB.elim
    | succ j =>
      obtain ⟨q, hq, rfl, hqe⟩ := hB
      exact (i1.contains_iff _).2 ⟨q, rfl, i2 q (h2 q hq j (by omega) hqe)⟩
  · rintro m m' ⟨h1, h2⟩ he
    simp only [Res.ok.injEq] at he
    obtain ⟨i1, -, i3, -⟩ := hfp.iter h1
    rw [he] at i1 i3
    obtain ⟨p, hp, j1, s, hs', hps⟩ := i3 rfl
    refine j1 (h2 p hp hs.length (by omega) fun e hin => ?_)
    obtain ⟨B, rfl, hB⟩ := Cfg.yields_nil_word_iff.1 (i1.sub p.head s hs' p hps).2.2 e hin
    obtain ⟨n, hn⟩ := null_level hw hB
    refine ⟨B, rfl, level_bound (nullRule_mono g) (fun k x h => ?_) n B hn⟩
    cases k with
    | zero => exact h.elim
    | succ k => obtain ⟨q, hq, rfl, -⟩ := h; exact hhs q hq

theorem firstsOps_key {info : GrammarNullableInfo NT AK} {head : NT} {es : List (Elem T NT)}
    {op : CollectOp NT T} (h : op ∈ firstsOps info head es) : op.key = head := by
  cases op with
  | insert k v => exact (mem_firstsOps_insert.1 h).1
  | iter k vs => exact absurd h mem_firstsOps_iter
  | fromKey k src => exact (mem_firstsOps_fromKey.1 h).1

theorem firstsRun_rounds {info : GrammarNullableInfo NT AK} {hs : List NT}
    (hhs : ∀ p ∈ g.prods, p.head ∈ hs) {fuel : Nat} (hf : hs.length < fuel) :
    ∃ f, Firsts.runPass fuel g (.ok info) = .ok (.ok f) := by
  obtain ⟨m, h⟩ := CollectOp.loop_sharp (allFirstsOps info g) (ks := hs) (by
    intro op hop
    obtain ⟨p, hp, h⟩ := List.mem_flatMap.1 hop
    rw [firstsOps_key h]
    exact hhs p hp) hf
  refine ⟨⟨m⟩, ?_⟩
  show (match changeLoop fuel (fun m => Res.ok (changeIter g.prods (firstsVisit info) m)) [] with
    | .ok m => _ | .panic w => _ | .oof => _) = _
  have : (fun m => Res.ok (changeIter g.prods (firstsVisit info) m)) =
      fun m : CollectMap NT T => Res.ok (changeIter (allFirstsOps info g) CollectOp.apply m) := by
    funext m; rw [firstsPass_eq]
  rw [this, h]

theorem followsPairOps_key {firsts : Firsts T NT} {es : List (Elem T NT)} {op : CollectOp NT T}
    (h : op ∈ followsPairOps firsts es) : Elem.nonterm op.key ∈ es := by
  induction es with
  | nil => simp [followsPairOps] at h
  | cons a es ih =>
    cases es with
    | nil => cases a <;> simp [followsPairOps] at h
    | cons b es =>
      cases a <;> cases b <;> simp only [followsPairOps] at h
      all_goals first
        | exact List.mem_cons_of_mem _ (ih h)
        | (rcases List.mem_cons.1 h with rfl | h
           · exact List.mem_cons_self
           · exact List.mem_cons_of_mem _ (ih h))

theorem followsRun_rounds {firsts : Firsts T NT} {ns : List NT}
    (hns : ∀ p ∈ g.prods, ∀ B, Elem.nonterm B ∈ p.elements → B ∈ ns) {fuel : Nat}
    (hf : ns.length < fuel) (hg : ∀ p ∈ g.prods, ¬ FirstsGap firsts p.elements) :
    ∃ f, Follows.runPass fuel g (.ok firsts) = .ok (.ok f) := by
    obtain ⟨m, h⟩ := CollectOp.loop_sharp (allFollowsOps firsts g) (ks := ns) (by
      intro op hop
      obtain ⟨p, hp, h⟩ := List.mem_flatMap.1 hop
      rcases List.mem_append.1 h with h | h
      · exact hns p hp _ (followsPairOps_key h)
      · split at h
        · rename_i last hl
          rw [List.mem_singleton] at h
          subst h
          exact hns p hp _ (List.mem_of_getLast? hl)
        · simp at h) hf
    refine ⟨⟨m⟩, ?_⟩
    show (match changeLoop fuel (fun m => changeIterM g.prods (followsVisit firsts) m) [] with
      | .ok m => _ | .panic w => _ | .oof => _) = _
    have : (fun m => changeIterM g.prods (followsVisit firsts) m) =
        fun m : CollectMap NT T => Res.ok (changeIter (allFollowsOps firsts g) CollectOp.apply m) := by
      funext m
      rw [changeIterM_ok (fun p hp s => (followsVisit_spec firsts s p).1 (hg p hp)),
        WasChanged.unchanged_join]
      unfold allFollowsOps
      rw [changeIter_flatMap]
    rw [this, h]
end
end Bongo
