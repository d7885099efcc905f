import Verif.Spec.Pass
import Verif.Proof.BTree
import Verif.Proof.Utils
/-! `PassContext::get_pass`. -/
set_option linter.unusedSectionVars false
namespace Bongo
open Std
variable {P V E : Type} {prog : P → PassProg P V E}

/-! ### Heights -/
/-- `Runs` with the height of the evaluation. -/
inductive RunsN (prog : P → PassProg P V E) : Nat → PassProg P V E → Except E V → Prop where
  | ret (r) : RunsN prog 0 (.ret r) r
  | get {n m q k r r'} : RunsN prog n (prog q) r' → RunsN prog m (k r') r →
      RunsN prog (max (n + 1) m) (.get q k) r

def EvalN (prog : P → PassProg P V E) (n : Nat) (p : P) (r : Except E V) : Prop :=
  RunsN prog n (prog p) r

theorem Runs.height {t r} (h : Runs prog t r) : ∃ n, RunsN prog n t r := by
  induction h with
  | ret => exact ⟨0, .ret _⟩
  | get _ _ ih1 ih2 =>
    obtain ⟨n, h1⟩ := ih1
    obtain ⟨m, h2⟩ := ih2
    exact ⟨_, .get h1 h2⟩

theorem Eval.height {p r} (h : Eval prog p r) : ∃ n, EvalN prog n p r := Runs.height h

theorem RunsN.runs {n t r} (h : RunsN prog n t r) : Runs prog t r := by
  induction h with
  | ret => exact .ret _
  | get _ _ ih1 ih2 => exact .get ih1 ih2

theorem RunsN.det {n t r} (h : RunsN prog n t r) : ∀ {m s}, RunsN prog m t s → n = m ∧ r = s := by
  induction h with
  | ret => intro m s h'; cases h'; exact ⟨rfl, rfl⟩
  | get _ _ ih1 ih2 =>
    intro m s h'
    cases h' with
    | get h1' h2' =>
      obtain ⟨rfl, rfl⟩ := ih1 h1'
      obtain ⟨rfl, rfl⟩ := ih2 h2'
      exact ⟨rfl, rfl⟩

theorem EvalN.det {n p r} (h : EvalN prog n p r) {m s} (h' : EvalN prog m p s) : n = m ∧ r = s :=
  RunsN.det h h'

theorem reaches_height {t : PassProg P V E} {q : P} (hr : Reaches prog t q) {n r}
    (h : RunsN prog n t r) : ∃ m s, EvalN prog m q s ∧ m < n := by
  induction hr generalizing n r with
  | here q k =>
    cases h with
    | get h1 h2 => exact ⟨_, _, h1, by omega⟩
  | later he _ ih =>
    cases h with
    | get h1 h2 =>
      obtain ⟨m, he⟩ := he.height
      obtain ⟨rfl, rfl⟩ := he.det h1
      obtain ⟨m', s, h3, h4⟩ := ih h2
      exact ⟨m', s, h3, by omega⟩

theorem asks_height {p q : P} (ha : Asks prog p q) {n r} (h : EvalN prog n p r) :
    ∃ m s, EvalN prog m q s ∧ m < n := reaches_height ha h

/-- A pass that (transitively) requests itself has no value. -/
theorem no_eval_of_cycle {p : P} (hc : Relation.TransGen (Asks prog) p p) : ¬ ∃ r, Eval prog p r := by
  rintro ⟨r, h⟩
  obtain ⟨n, h⟩ := h.height
  have key : ∀ q, Relation.TransGen (Asks prog) p q → ∃ m s, EvalN prog m q s ∧ m < n := by
    intro q hq
    induction hq with
    | single ha => exact asks_height ha h
    | tail _ ha ih =>
      obtain ⟨m, s, h1, h2⟩ := ih
      obtain ⟨m', s', h3, h4⟩ := asks_height ha h1
      exact ⟨m', s', h3, by omega⟩
  obtain ⟨m, s, h1, h2⟩ := key p hc
  have := h.det h1
  omega

/-- Well-founded dependencies and well-behaved bodies give every pass a value. -/
theorem eval_exists (hwf : WellFounded (fun q p => Names (prog p) q))
    (hs : ∀ p, (prog p).NoStuck) (hf : ∀ p, (prog p).NoFail) (p : P) : ∃ r, Eval prog p r := by
  induction p using hwf.induction with
  | _ p ih =>
    have key : ∀ t : PassProg P V E, t.NoStuck → t.NoFail → (∀ q, Names t q → ∃ r, Eval prog q r) →
        ∃ r, Runs prog t r := by
      intro t
      induction t with
      | ret r => intro _ _ _; exact ⟨r, .ret r⟩
      | fail w => intro _ h; exact absurd h (by simp [PassProg.NoFail])
      | stuck => intro h; exact absurd h (by simp [PassProg.NoStuck])
      | get q k ihk =>
        intro h1 h2 h3
        obtain ⟨r', hr'⟩ := h3 q (.here q k)
        obtain ⟨r, hr⟩ := ihk r' (h1 r') (h2 r') (fun q' hq' => h3 q' (.later hq'))
        exact ⟨r, .get hr' hr⟩
    obtain ⟨r, hr⟩ := key (prog p) (hs p) (hf p) ih
    exact ⟨r, hr⟩

/-! ### The context -/
namespace PassContext
variable [Ord P] [TransOrd P] [LawfulEqOrd P]

/-- Entries present in `σ` are unchanged in `σ'`, and errors were only returned for others. -/
structure Le (σ σ' : PassContext P V E) : Prop where
  keep : ∀ p x, BMap.get? compare σ.passes p = some x → BMap.get? compare σ'.passes p = some x
  err : ∀ p e, .got p (.error e) ∈ σ'.log → .got p (.error e) ∈ σ.log ∨
    BMap.get? compare σ.passes p = none

theorem Le.refl (σ : PassContext P V E) : Le σ σ := ⟨fun _ _ h => h, fun _ _ h => Or.inl h⟩
theorem Le.trans {a b c : PassContext P V E} (h1 : Le a b) (h2 : Le b c) : Le a c := by
  refine ⟨fun p x h => h2.keep p x (h1.keep p x h), fun p e h => ?_⟩
  rcases h2.err p e h with h | h
  · exact h1.err p e h
  · right
    cases hg : BMap.get? compare a.passes p with
    | none => rfl
    | some x => rw [h1.keep p x hg] at h; cases h

/-- What the context's contents mean. -/
structure Inv (prog : P → PassProg P V E) (σ : PassContext P V E) : Prop where
  val : ∀ p v, BMap.get? compare σ.passes p = some (some v) → Eval prog p (.ok v)
  got : ∀ p v, .got p (.ok v) ∈ σ.log → BMap.get? compare σ.passes p = some (some v)
  gotErr : ∀ p e, .got p (.error e) ∈ σ.log → BMap.get? compare σ.passes p = some none
  ran : ∀ p, .ran p ∈ σ.log → BMap.get? compare σ.passes p ≠ none
  once : ∀ p l₁ l₂, σ.log = l₁ ++ .ran p :: l₂ → .ran p ∉ l₁ ∧ .ran p ∉ l₂

theorem inv_new : Inv prog (new : PassContext P V E) :=
  ⟨by simp [new], by simp [new], by simp [new], by simp [new], by simp [new]⟩

theorem once_append_got {l : List (PassEvent P V E)} {q : P} {r}
    (h : ∀ p l₁ l₂, l = l₁ ++ .ran p :: l₂ → .ran p ∉ l₁ ∧ .ran p ∉ l₂) :
    ∀ p l₁ l₂, l ++ [.got q r] = l₁ ++ .ran p :: l₂ → .ran p ∉ l₁ ∧ .ran p ∉ l₂ := by
  intro p l₁ l₂ heq
  rcases List.eq_nil_or_concat l₂ with rfl | ⟨l', x, rfl⟩
  · have := congrArg List.getLast? heq
    simp at this
  · have h2 : l ++ [.got q r] = (l₁ ++ .ran p :: l') ++ [x] := by simpa using heq
    have := List.append_inj' h2 rfl
    obtain ⟨h3, h4⟩ := this
    simp at h4
    obtain ⟨h5, h6⟩ := h p l₁ l' h3
    refine ⟨h5, ?_⟩
    simp [h6, ← h4]

theorem once_append_ran {l : List (PassEvent P V E)} {q : P} (hq : .ran q ∉ l)
    (h : ∀ p l₁ l₂, l = l₁ ++ .ran p :: l₂ → .ran p ∉ l₁ ∧ .ran p ∉ l₂) :
    ∀ p l₁ l₂, l ++ [.ran q] = l₁ ++ .ran p :: l₂ → .ran p ∉ l₁ ∧ .ran p ∉ l₂ := by
  intro p l₁ l₂ heq
  rcases List.eq_nil_or_concat l₂ with rfl | ⟨l', x, rfl⟩
  · have := List.append_inj' heq rfl
    obtain ⟨h3, h4⟩ := this
    simp at h4
    subst h4; subst h3
    exact ⟨hq, by simp⟩
  · have h2 : l ++ [.ran q] = (l₁ ++ .ran p :: l') ++ [x] := by simpa using heq
    have := List.append_inj' h2 rfl
    obtain ⟨h3, h4⟩ := this
    simp at h4
    obtain ⟨h5, h6⟩ := h p l₁ l' h3
    refine ⟨h5, ?_⟩
    subst h4
    have hp : .ran p ∈ l := by rw [h3]; simp
    simp only [List.concat_eq_append, List.mem_append, List.mem_singleton, not_or]
    refine ⟨h6, ?_⟩
    intro he
    exact hq (he ▸ hp)

theorem get_run_spec (fuel : Nat) :
    (∀ (σ : PassContext P V E) p σ' r, getPass fuel prog σ p = .ok (σ', r) → Inv prog σ →
      Inv prog σ' ∧ Le σ σ' ∧ Eval prog p r ∧
        (∀ v, r = .ok v → BMap.get? compare σ'.passes p = some (some v)) ∧
        (∀ e, r = .error e → BMap.get? compare σ'.passes p = some none)) ∧
    (∀ (σ : PassContext P V E) t σ' r, runProg fuel prog σ t = .ok (σ', r) → Inv prog σ →
      Inv prog σ' ∧ Le σ σ' ∧ Runs prog t r) := by
  induction fuel with
  | zero =>
    constructor
    · intro σ p σ' r h; simp [getPass] at h
    · intro σ t σ' r h hi
      cases t with
      | ret r' => simp [runProg] at h; obtain ⟨rfl, rfl⟩ := h; exact ⟨hi, Le.refl _, .ret _⟩
      | fail w => simp [runProg] at h
      | stuck => simp [runProg] at h
      | get q k => simp [runProg] at h
  | succ n ih =>
    constructor
    · intro σ p σ' r h hi
      rw [getPass] at h
      cases hg : BMap.get? compare σ.passes p with
      | some x =>
        cases x with
        | none => simp [hg] at h
        | some v =>
          simp only [hg, Res.ok.injEq, _root_.Prod.mk.injEq] at h
          obtain ⟨rfl, rfl⟩ := h
          refine ⟨⟨hi.val, ?_, ?_, ?_, ?_⟩, ⟨fun _ _ h => h, fun q e h => Or.inl (by simpa using h)⟩,
            hi.val p v hg, ?_, by simp⟩
          · intro q w hm
            rcases List.mem_append.1 hm with hm | hm
            · exact hi.got q w hm
            · simp at hm; obtain ⟨rfl, rfl⟩ := hm; exact hg
          · intro q e hm
            rcases List.mem_append.1 hm with hm | hm
            · exact hi.gotErr q e hm
            · simp at hm
          · intro q hm
            rcases List.mem_append.1 hm with hm | hm
            · exact hi.ran q hm
            · simp at hm
          · exact once_append_got hi.once
          · intro w hw; cases hw; exact hg
      | none =>
        simp only [hg] at h
        have hnr : .ran p ∉ σ.log := fun hm => hi.ran p hm hg
        have hi0 : Inv prog ⟨BMap.insert compare σ.passes p none, σ.log ++ [.ran p]⟩ := by
          refine ⟨?_, ?_, ?_, ?_, once_append_ran hnr hi.once⟩
          · intro q v hq
            simp only [BMap.get?_insert] at hq
            split at hq
            · simp at hq
            · exact hi.val q v hq
          · intro q v hm
            rcases List.mem_append.1 hm with hm | hm
            · have := hi.got q v hm
              simp only [BMap.get?_insert]
              split
              · rename_i hc
                rw [LawfulEqCmp.eq_of_compare hc, hg] at this; cases this
              · exact this
            · simp at hm
          · intro q v hm
            rcases List.mem_append.1 hm with hm | hm
            · have := hi.gotErr q v hm
              simp only [BMap.get?_insert]
              split
              · rfl
              · exact this
            · simp at hm
          · intro q hm
            simp only [BMap.get?_insert]
            split
            · simp
            · rename_i hne
              rcases List.mem_append.1 hm with hm | hm
              · exact hi.ran q hm
              · simp at hm; subst hm; exact absurd (cmp_self _) hne
        have hle0 : Le σ (⟨BMap.insert compare σ.passes p none, σ.log ++ [.ran p]⟩ :
            PassContext P V E) := by
          refine ⟨?_, fun q e h => Or.inl (by simpa using h)⟩
          intro q x hq
          simp only [BMap.get?_insert]
          split
          · rename_i hc
            rw [LawfulEqCmp.eq_of_compare hc, hg] at hq; cases hq
          · exact hq
        cases hr : runProg n prog ⟨BMap.insert compare σ.passes p none, σ.log ++ [.ran p]⟩
            (prog p) with
        | oof => simp [hr] at h
        | panic w => simp [hr] at h
        | ok x =>
          obtain ⟨σ1, r1⟩ := x
          obtain ⟨hi1, hle1, hruns⟩ := ih.2 _ _ _ _ hr hi0
          have hp1 : BMap.get? compare σ1.passes p = some none :=
            hle1.keep p none (by simp [BMap.get?_insert, cmp_self])
          cases r1 with
          | error e =>
            simp only [hr, Res.ok.injEq, _root_.Prod.mk.injEq] at h
            obtain ⟨rfl, rfl⟩ := h
            refine ⟨⟨hi1.val, ?_, ?_, ?_, ?_⟩, ⟨(hle0.trans hle1).keep, ?_⟩, hruns, by simp, ?_⟩
            · intro q w hm
              rcases List.mem_append.1 hm with hm | hm
              · exact hi1.got q w hm
              · simp at hm
            · intro q e' hm
              rcases List.mem_append.1 hm with hm | hm
              · exact hi1.gotErr q e' hm
              · simp at hm; obtain ⟨rfl, rfl⟩ := hm; exact hp1
            · intro q hm
              rcases List.mem_append.1 hm with hm | hm
              · exact hi1.ran q hm
              · simp at hm
            · exact once_append_got hi1.once
            · intro q e' hm
              rcases List.mem_append.1 hm with hm | hm
              · exact (hle0.trans hle1).err q e' hm
              · simp at hm; obtain ⟨rfl, rfl⟩ := hm; exact Or.inr hg
            · intro e' _; exact hp1
          | ok v =>
            simp only [hr, BMap.get?_insert, cmp_self, ↓reduceIte, Res.ok.injEq,
              _root_.Prod.mk.injEq] at h
            obtain ⟨rfl, rfl⟩ := h
            have hnotgot : ∀ w, .got p (.ok w) ∉ σ1.log := by
              intro w hm
              have := hi1.got p w hm
              rw [hp1] at this; cases this
            have hnoterr : ∀ w, .got p (.error w) ∉ σ1.log := by
              intro w hm
              rcases hle1.err p w hm with hm | hm
              · have hm' : .got p (.error w) ∈ σ.log := by simpa using hm
                have := hi.gotErr p w hm'
                rw [hg] at this; cases this
              · simp [BMap.get?_insert, cmp_self] at hm
            refine ⟨⟨?_, ?_, ?_, ?_, once_append_got hi1.once⟩, ⟨?_, ?_⟩, hruns, ?_, by simp⟩
            · intro q w hq
              simp only [BMap.get?_insert] at hq
              split at hq
              · rename_i hc
                cases hq
                rw [LawfulEqCmp.eq_of_compare hc]
                exact hruns
              · exact hi1.val q w hq
            · intro q w hm
              rcases List.mem_append.1 hm with hm | hm
              · have := hi1.got q w hm
                simp only [BMap.get?_insert]
                split
                · rename_i hc
                  rw [LawfulEqCmp.eq_of_compare hc, hp1] at this; cases this
                · exact this
              · simp at hm; obtain ⟨rfl, rfl⟩ := hm
                simp [BMap.get?_insert, cmp_self]
            · intro q w hm
              rcases List.mem_append.1 hm with hm | hm
              · have := hi1.gotErr q w hm
                simp only [BMap.get?_insert]
                split
                · rename_i hc
                  rw [LawfulEqCmp.eq_of_compare hc] at hm
                  exact absurd hm (hnoterr w)
                · exact this
              · simp at hm
            · intro q hm
              rcases List.mem_append.1 hm with hm | hm
              · simp only [BMap.get?_insert]
                split
                · simp
                · exact hi1.ran q hm
              · simp at hm
            · intro q x hq
              have h1 := (hle0.trans hle1).keep q x hq
              simp only [BMap.get?_insert]
              split
              · rename_i hc
                rw [LawfulEqCmp.eq_of_compare hc, hg] at hq; cases hq
              · exact h1
            · intro q e hm
              rcases List.mem_append.1 hm with hm | hm
              · exact (hle0.trans hle1).err q e hm
              · simp at hm
            · intro w hw; cases hw; simp [BMap.get?_insert, cmp_self]
    · intro σ t σ' r h hi
      cases t with
      | ret r' => simp [runProg] at h; obtain ⟨rfl, rfl⟩ := h; exact ⟨hi, Le.refl _, .ret _⟩
      | fail w => simp [runProg] at h
      | stuck => simp [runProg] at h
      | get q k =>
        rw [runProg] at h
        cases hg : getPass n prog σ q with
        | oof => simp [hg] at h
        | panic w => simp [hg] at h
        | ok x =>
          obtain ⟨σ1, r1⟩ := x
          simp only [hg] at h
          obtain ⟨a1, a2, a3, -⟩ := ih.1 _ _ _ _ hg hi
          obtain ⟨b1, b2, b3⟩ := ih.2 _ _ _ _ h a1
          exact ⟨b1, a2.trans b2, .get a3 b3⟩
end PassContext
end Bongo

/-! ### Fuel -/
namespace Bongo
open Std
namespace PassContext
variable {P V E : Type} {prog : P → PassProg P V E} [Ord P] [TransOrd P] [LawfulEqOrd P]

theorem get_run_mono (fuel : Nat) :
    (∀ (σ : PassContext P V E) p, getPass fuel prog σ p ≠ .oof → ∀ fuel', fuel ≤ fuel' →
      getPass fuel' prog σ p = getPass fuel prog σ p) ∧
    (∀ (σ : PassContext P V E) t, runProg fuel prog σ t ≠ .oof → ∀ fuel', fuel ≤ fuel' →
      runProg fuel' prog σ t = runProg fuel prog σ t) := by
  induction fuel with
  | zero =>
    constructor
    · intro σ p h; simp [getPass] at h
    · intro σ t h fuel' _
      cases t <;> simp [runProg] at h ⊢
  | succ n ih =>
    constructor
    · intro σ p h fuel' hle
      obtain ⟨m, rfl⟩ : ∃ m, fuel' = m + 1 := ⟨fuel' - 1, by omega⟩
      rw [getPass, getPass]
      rw [getPass] at h
      cases hg : BMap.get? compare σ.passes p with
      | some x => cases x <;> simp
      | none =>
        simp only [hg] at h ⊢
        have : runProg n prog ⟨BMap.insert compare σ.passes p none, σ.log ++ [.ran p]⟩ (prog p)
            ≠ .oof := by
          intro h0; simp [h0] at h
        rw [ih.2 _ _ this m (by omega)]
    · intro σ t h fuel' hle
      obtain ⟨m, rfl⟩ : ∃ m, fuel' = m + 1 := ⟨fuel' - 1, by omega⟩
      cases t with
      | ret r => simp [runProg]
      | fail w => simp [runProg]
      | stuck => simp [runProg]
      | get q k =>
        rw [runProg, runProg]
        rw [runProg] at h
        have h1 : getPass n prog σ q ≠ .oof := by intro h0; simp [h0] at h
        rw [ih.1 _ _ h1 m (by omega)]
        cases hg : getPass n prog σ q with
        | oof => rfl
        | panic w => rfl
        | ok x =>
          simp only [hg] at h ⊢
          exact ih.2 _ _ h m (by omega)

theorem getPass_mono {fuel fuel' : Nat} {σ : PassContext P V E} {p} {x}
    (h : getPass fuel prog σ p = x) (hx : x ≠ .oof) (hle : fuel ≤ fuel') :
    getPass fuel' prog σ p = x := by
  rw [← h]; exact (get_run_mono fuel).1 σ p (by rw [h]; exact hx) fuel' hle

theorem runProg_mono {fuel fuel' : Nat} {σ : PassContext P V E} {t} {x}
    (h : runProg fuel prog σ t = x) (hx : x ≠ .oof) (hle : fuel ≤ fuel') :
    runProg fuel' prog σ t = x := by
  rw [← h]; exact (get_run_mono fuel).2 σ t (by rw [h]; exact hx) fuel' hle

/-- Number of passes of `U` not in the context. -/
def absent (U : List P) (σ : PassContext P V E) : Nat :=
  (U.filter fun p => (BMap.get? compare σ.passes p).isNone).length

theorem absent_le {U : List P} {σ σ' : PassContext P V E} (h : Le σ σ') :
    absent U σ' ≤ absent U σ := by
  unfold absent
  rw [← List.countP_eq_length_filter, ← List.countP_eq_length_filter]
  apply List.countP_mono_left
  intro p _ hp
  cases hg : BMap.get? compare σ.passes p with
  | none => rfl
  | some x => simp [h.keep p x hg] at hp

theorem countP_lt {α : Type} {p q : α → Bool} {l : List α} (h : ∀ a ∈ l, p a → q a)
    {a : α} (ha : a ∈ l) (hq : q a) (hp : p a = false) : l.countP p < l.countP q := by
  induction l with
  | nil => simp at ha
  | cons b l ih =>
    rcases List.mem_cons.1 ha with rfl | ha
    · have : l.countP p ≤ l.countP q :=
        List.countP_mono_left fun x hx hpx => h x (List.mem_cons_of_mem _ hx) hpx
      simp [List.countP_cons, hq, hp]; omega
    · have := ih (fun x hx => h x (List.mem_cons_of_mem _ hx)) ha
      simp only [List.countP_cons]
      have hb := h b (List.mem_cons_self)
      cases hpb : p b <;> cases hqb : q b <;> simp_all <;> omega

theorem absent_lt {U : List P} {σ : PassContext P V E} {p : P} (hp : p ∈ U)
    (hg : BMap.get? compare σ.passes p = none) {l} :
    absent U (⟨BMap.insert compare σ.passes p none, l⟩ : PassContext P V E) < absent U σ := by
  unfold absent
  rw [← List.countP_eq_length_filter, ← List.countP_eq_length_filter]
  apply countP_lt (a := p) _ hp (by simp [hg]) (by simp [BMap.get?_insert, cmp_self])
  intro q _ hq
  simp only [BMap.get?_insert] at hq
  split at hq
  · simp at hq
  · exact hq

/-- Entering a pass keeps the invariant. -/
theorem Inv.enter {σ : PassContext P V E} (hi : Inv prog σ) {p : P}
    (hg : BMap.get? compare σ.passes p = none) :
    Inv prog ⟨BMap.insert compare σ.passes p none, σ.log ++ [.ran p]⟩ := by
  have hnr : .ran p ∉ σ.log := fun hm => hi.ran p hm hg
  refine ⟨?_, ?_, ?_, ?_, once_append_ran hnr hi.once⟩
  · intro q v hq
    simp only [BMap.get?_insert] at hq
    split at hq
    · simp at hq
    · exact hi.val q v hq
  · intro q v hm
    rcases List.mem_append.1 hm with hm | hm
    · have := hi.got q v hm
      simp only [BMap.get?_insert]
      split
      · rename_i hc
        rw [LawfulEqCmp.eq_of_compare hc, hg] at this; cases this
      · exact this
    · simp at hm
  · intro q v hm
    rcases List.mem_append.1 hm with hm | hm
    · have := hi.gotErr q v hm
      simp only [BMap.get?_insert]
      split
      · rfl
      · exact this
    · simp at hm
  · intro q hm
    simp only [BMap.get?_insert]
    split
    · simp
    · rename_i hne
      rcases List.mem_append.1 hm with hm | hm
      · exact hi.ran q hm
      · simp at hm; subst hm; exact absurd (cmp_self _) hne

/-- Requests always come to an end when finitely many passes are involved. -/
theorem get_run_terminates (U : List P) (hU : ∀ p ∈ U, ∀ q, Names (prog p) q → q ∈ U)
    (hs : ∀ p ∈ U, (prog p).NoStuck) (m : Nat) :
    (∀ σ : PassContext P V E, Inv prog σ → absent U σ ≤ m → ∀ p ∈ U, ∃ N, getPass N prog σ p ≠ .oof) ∧
    (∀ (t : PassProg P V E) (σ : PassContext P V E), Inv prog σ → absent U σ ≤ m → t.NoStuck →
      (∀ q, Names t q → q ∈ U) → ∃ N, runProg N prog σ t ≠ .oof) := by
  induction m with
  | zero =>
    have hget : ∀ σ : PassContext P V E, Inv prog σ → absent U σ ≤ 0 → ∀ p ∈ U,
        ∃ N, getPass N prog σ p ≠ .oof := by
      intro σ _ h0 p hp
      refine ⟨1, ?_⟩
      rw [getPass]
      cases hg : BMap.get? compare σ.passes p with
      | some x => cases x <;> simp
      | none =>
        have := absent_lt (σ := σ) (l := []) hp hg
        omega
    refine ⟨hget, ?_⟩
    intro t
    induction t with
    | ret r => intros; exact ⟨0, by simp [runProg]⟩
    | fail w => intros; exact ⟨0, by simp [runProg]⟩
    | stuck => intro _ _ _ h; exact absurd h (by simp [PassProg.NoStuck])
    | get q k ihk =>
      intro σ hi h0 hns hn
      obtain ⟨N1, h1⟩ := hget σ hi h0 q (hn q (.here q k))
      cases hg : getPass N1 prog σ q with
      | oof => exact absurd hg h1
      | panic w => exact ⟨N1 + 1, by rw [runProg, hg]; simp⟩
      | ok x =>
        obtain ⟨σ1, r1⟩ := x
        obtain ⟨a1, a2, -, -⟩ := (get_run_spec N1).1 _ _ _ _ hg hi
        obtain ⟨N2, h2⟩ := ihk r1 σ1 a1 (by have := absent_le (U := U) a2; omega) (hns r1)
          (fun q' hq' => hn q' (.later hq'))
        refine ⟨max N1 N2 + 1, ?_⟩
        rw [runProg, getPass_mono hg (by simp) (Nat.le_max_left _ _)]
        simp only
        rw [(get_run_mono N2).2 _ _ h2 _ (Nat.le_max_right _ _)]
        exact h2
  | succ m ih =>
    have hget : ∀ σ : PassContext P V E, Inv prog σ → absent U σ ≤ m + 1 → ∀ p ∈ U,
        ∃ N, getPass N prog σ p ≠ .oof := by
      intro σ hi h0 p hp
      cases hg : BMap.get? compare σ.passes p with
      | some x => exact ⟨1, by rw [getPass, hg]; cases x <;> simp⟩
      | none =>
        have hlt := absent_lt (σ := σ) (l := σ.log ++ [.ran p]) hp hg
        obtain ⟨N, hN⟩ := ih.2 (prog p) ⟨BMap.insert compare σ.passes p none, σ.log ++ [.ran p]⟩
          (hi.enter hg) (by omega) (hs p hp) (hU p hp)
        refine ⟨N + 1, ?_⟩
        rw [getPass, hg]
        simp only
        cases hr : runProg N prog ⟨BMap.insert compare σ.passes p none, σ.log ++ [.ran p]⟩
            (prog p) with
        | oof => exact absurd hr hN
        | panic w => simp
        | ok x =>
          obtain ⟨σ1, r1⟩ := x
          cases r1 with
          | error e => simp
          | ok v => simp [BMap.get?_insert, cmp_self]
    refine ⟨hget, ?_⟩
    intro t
    induction t with
    | ret r => intros; exact ⟨0, by simp [runProg]⟩
    | fail w => intros; exact ⟨0, by simp [runProg]⟩
    | stuck => intro _ _ _ h; exact absurd h (by simp [PassProg.NoStuck])
    | get q k ihk =>
      intro σ hi h0 hns hn
      obtain ⟨N1, h1⟩ := hget σ hi h0 q (hn q (.here q k))
      cases hg : getPass N1 prog σ q with
      | oof => exact absurd hg h1
      | panic w => exact ⟨N1 + 1, by rw [runProg, hg]; simp⟩
      | ok x =>
        obtain ⟨σ1, r1⟩ := x
        obtain ⟨a1, a2, -, -⟩ := (get_run_spec N1).1 _ _ _ _ hg hi
        obtain ⟨N2, h2⟩ := ihk r1 σ1 a1 (by have := absent_le (U := U) a2; omega) (hns r1)
          (fun q' hq' => hn q' (.later hq'))
        refine ⟨max N1 N2 + 1, ?_⟩
        rw [runProg, getPass_mono hg (by simp) (Nat.le_max_left _ _)]
        simp only
        rw [(get_run_mono N2).2 _ _ h2 _ (Nat.le_max_right _ _)]
        exact h2

/-- When no body panics by itself, the only panic is the recursion check. -/
theorem get_run_panic (hf : ∀ p, (prog p).NoFail) (fuel : Nat) :
    (∀ (σ : PassContext P V E) p w, getPass fuel prog σ p = .panic w → w = .passRecursion) ∧
    (∀ (σ : PassContext P V E) t w, t.NoFail → runProg fuel prog σ t = .panic w →
      w = .passRecursion) := by
  induction fuel with
  | zero =>
    constructor
    · intro σ p w h; simp [getPass] at h
    · intro σ t w hn h
      cases t <;> simp [runProg, PassProg.NoFail] at h hn
  | succ n ih =>
    constructor
    · intro σ p w h
      rw [getPass] at h
      cases hg : BMap.get? compare σ.passes p with
      | some x => cases x <;> simp [hg] at h; exact h.symm
      | none =>
        simp only [hg] at h
        cases hr : runProg n prog ⟨BMap.insert compare σ.passes p none, σ.log ++ [.ran p]⟩
            (prog p) with
        | oof => simp [hr] at h
        | panic w' => simp [hr] at h; subst h; exact ih.2 _ _ _ (hf p) hr
        | ok x =>
          obtain ⟨σ1, r1⟩ := x
          cases r1 with
          | error e => simp [hr] at h
          | ok v => simp [hr, BMap.get?_insert, cmp_self] at h
    · intro σ t w hn h
      cases t with
      | ret r => simp [runProg] at h
      | fail w => simp [PassProg.NoFail] at hn
      | stuck => simp [runProg] at h
      | get q k =>
        rw [runProg] at h
        cases hg : getPass n prog σ q with
        | oof => simp [hg] at h
        | panic w' => simp [hg] at h; subst h; exact ih.1 _ _ _ hg
        | ok x => simp only [hg] at h; exact ih.2 _ _ _ (hn _) h

/-- `p` carries the in-progress marker. -/
def Marked (σ : PassContext P V E) (p : P) : Prop := BMap.get? compare σ.passes p = some none

open Classical in
theorem marked_insert {σ : PassContext P V E} {p q : P} {x l} :
    Marked (⟨BMap.insert compare σ.passes p x, l⟩ : PassContext P V E) q ↔
      if q = p then x = none else Marked σ q := by
  unfold Marked
  simp only [BMap.get?_insert]
  by_cases h : q = p
  · subst h; simp [cmp_self]
  · have : compare q p ≠ .eq := fun hc => h (LawfulEqCmp.eq_of_compare hc)
    simp [h, this]

open Classical in
/-- A pass that has a value gets it, as long as no pass it could need is in progress. -/
theorem get_of_eval (hst : ∀ p, (prog p).Strict) {n : Nat} {t : PassProg P V E} {r}
    (h : RunsN prog n t r) : t.Strict → ∀ σ : PassContext P V E, Inv prog σ →
    (∀ q m s, Marked σ q → EvalN prog m q s → n ≤ m) →
    ∃ N σ', runProg N prog σ t = .ok (σ', r) ∧
      (∀ v, r = .ok v → ∀ q, Marked σ' q ↔ Marked σ q) := by
  induction h with
  | ret r => intro _ σ _ _; exact ⟨0, σ, by simp [runProg], fun _ _ _ => Iff.rfl⟩
  | @get n m q k r r' h1 h2 ih1 ih2 =>
    intro hs σ hi hm
    have hget : ∃ N σ', getPass N prog σ q = .ok (σ', r') ∧
        (∀ v, r' = .ok v → ∀ q, Marked σ' q ↔ Marked σ q) := by
      cases hg : BMap.get? compare σ.passes q with
      | some x =>
        cases x with
        | none =>
          have := hm q n r' hg h1
          omega
        | some v =>
          refine ⟨1, ⟨σ.passes, σ.log ++ [.got q (.ok v)]⟩, ?_, ?_⟩
          · rw [getPass, hg]
            simp only
            obtain ⟨n', hn'⟩ := (hi.val q v hg).height
            obtain ⟨-, rfl⟩ := hn'.det (m := n) (s := r') h1
            rfl
          · intro _ _ _; exact Iff.rfl
      | none =>
        obtain ⟨N, σ1, h3, h4⟩ := ih1 (hst q)
          ⟨BMap.insert compare σ.passes q none, σ.log ++ [.ran q]⟩ (hi.enter hg) (by
            intro q' m' s' hq' he'
            rw [marked_insert] at hq'
            split at hq'
            · rename_i heq
              subst heq
              have := EvalN.det (show EvalN prog n q' r' from h1) he'
              omega
            · have := hm q' m' s' hq' he'
              omega)
        cases r' with
        | error e =>
          exact ⟨N + 1, _, by rw [getPass, hg]; simp only; rw [h3], by simp⟩
        | ok v =>
          refine ⟨N + 1, ⟨BMap.insert compare σ1.passes q (some v), σ1.log ++ [.got q (.ok v)]⟩,
            by rw [getPass, hg]; simp only; rw [h3]; simp [BMap.get?_insert, cmp_self], ?_⟩
          intro _ _ q'
          rw [marked_insert]
          have h5 := h4 v rfl q'
          rw [marked_insert] at h5
          by_cases hq : q' = q
          · subst hq
            simp [Marked, hg]
          · simpa [hq] using h5
    obtain ⟨N1, σ1, h3, h4⟩ := hget
    cases r' with
    | error e =>
      obtain ⟨e', he'⟩ := hs.1 e
      rw [he'] at h2
      cases h2
      exact ⟨N1 + 1, σ1, by rw [runProg, h3]; simp only; rw [he', runProg], by simp⟩
    | ok v =>
      obtain ⟨a1, -, -, -⟩ := (get_run_spec N1).1 _ _ _ _ h3 hi
      obtain ⟨N2, σ2, h5, h6⟩ := ih2 (hs.2 _) σ1 a1 (by
        intro q' m' s' hq' he'
        have := hm q' m' s' ((h4 v rfl q').1 hq') he'
        omega)
      refine ⟨max N1 N2 + 1, σ2, ?_, ?_⟩
      · rw [runProg, getPass_mono h3 (by simp) (Nat.le_max_left _ _)]
        simp only
        rw [runProg_mono h5 (by simp) (Nat.le_max_right _ _)]
      · intro w hw q'
        rw [h6 w hw q', h4 v rfl q']

open Classical in
/-- The same for `get_pass`. -/
theorem getPass_of_eval (hst : ∀ p, (prog p).Strict) {p : P} {r} (h : Eval prog p r)
    {σ : PassContext P V E} (hi : Inv prog σ) (hm : ∀ q, ¬ Marked σ q) :
    ∃ N σ', getPass N prog σ p = .ok (σ', r) ∧ (∀ v, r = .ok v → ∀ q, ¬ Marked σ' q) := by
  obtain ⟨n, hn⟩ := h.height
  have hr : RunsN prog (max (n + 1) 0) (.get p fun r => .ret r) r := .get hn (.ret r)
  cases hg : BMap.get? compare σ.passes p with
  | some x =>
    cases x with
    | none => exact absurd hg (hm p)
    | some v =>
      obtain ⟨n', hn'⟩ := (hi.val p v hg).height
      obtain ⟨-, rfl⟩ := hn'.det hn
      exact ⟨1, ⟨σ.passes, σ.log ++ [.got p (.ok v)]⟩, by rw [getPass, hg], fun _ _ => hm⟩
  | none =>
    obtain ⟨N, σ1, h3, h4⟩ := get_of_eval hst hn (hst p)
      ⟨BMap.insert compare σ.passes p none, σ.log ++ [.ran p]⟩ (hi.enter hg) (by
        intro q' m' s' hq' he'
        rw [marked_insert] at hq'
        split at hq'
        · rename_i heq
          subst heq
          have := EvalN.det hn he'
          omega
        · exact absurd hq' (hm q'))
    cases r with
    | error e =>
      exact ⟨N + 1, _, by rw [getPass, hg]; simp only; rw [h3], by simp⟩
    | ok v =>
      refine ⟨N + 1, ⟨BMap.insert compare σ1.passes p (some v), σ1.log ++ [.got p (.ok v)]⟩,
        by rw [getPass, hg]; simp only; rw [h3]; simp [BMap.get?_insert, cmp_self], ?_⟩
      intro _ _ q'
      rw [marked_insert]
      have h5 := h4 v rfl q'
      rw [marked_insert] at h5
      by_cases hq : q' = p
      · subst hq
        simp
      · simp only [hq, ↓reduceIte] at h5 ⊢
        rw [h5]; exact hm q'

/-- Histories keep the invariant and the old entries. -/
theorem getPasses_spec {fuel : Nat} {ps : List P} : ∀ {σ σ' : PassContext P V E},
    getPasses fuel prog σ ps = .ok σ' → Inv prog σ → Inv prog σ' ∧ Le σ σ' := by
  induction ps with
  | nil => intro σ σ' h hi; simp [getPasses] at h; subst h; exact ⟨hi, Le.refl _⟩
  | cons p ps ih =>
    intro σ σ' h hi
    rw [getPasses] at h
    cases hg : getPass fuel prog σ p with
    | oof => simp [hg] at h
    | panic w => simp [hg] at h
    | ok x =>
      obtain ⟨σ1, r1⟩ := x
      simp only [hg] at h
      obtain ⟨a1, a2, -⟩ := (get_run_spec fuel).1 _ _ _ _ hg hi
      obtain ⟨b1, b2⟩ := ih h a1
      exact ⟨b1, a2.trans b2⟩
end PassContext
end Bongo
