import Verif.Proof.Pass
import Verif.Props.Firsts
/-!
# C24, C25, C26: the pass context
-/
set_option linter.unusedSectionVars false
namespace Bongo
open Std
open PassContext
variable {P V E : Type} [Ord P] [TransOrd P] [LawfulEqOrd P]

/-! ## C24 -/

/-- In every history of `get_pass` calls on one context, all successful calls for a pass (by the
owner or by other passes) return the same value, and `run_pass` of each pass is entered at most
once (the log has no two `ran p`). -/
theorem pass_computed_once (prog : P → PassProg P V E) (fuel : Nat) (ps : List P)
    (σ : PassContext P V E) (h : getPasses fuel prog .new ps = .ok σ) :
    (∀ p v v', .got p (.ok v) ∈ σ.log → .got p (.ok v') ∈ σ.log → v = v') ∧
    (∀ p l₁ l₂, σ.log = l₁ ++ .ran p :: l₂ → .ran p ∉ l₁ ∧ .ran p ∉ l₂) := by
  have hi := (getPasses_spec h inv_new).1
  refine ⟨?_, hi.once⟩
  intro p v v' h1 h2
  have a := hi.got p v h1
  have b := hi.got p v' h2
  rw [a] at b
  simpa using b

/-- Every value handed out, in any history, is what the pass computes when everything it requests
is computed from scratch. -/
theorem pass_value_meaning (prog : P → PassProg P V E) (fuel : Nat) (ps : List P)
    (σ : PassContext P V E) (h : getPasses fuel prog .new ps = .ok σ)
    (p : P) (r : Except E V) (σ' : PassContext P V E) (hg : getPass fuel prog σ p = .ok (σ', r)) :
    Eval prog p r :=
  ((get_run_spec fuel).1 _ _ _ _ hg (getPasses_spec h inv_new).1).2.2.1

/-- Once a pass has returned a value, asking for it again returns that value without running
anything, whatever happened in between. -/
theorem pass_value_shared (prog : P → PassProg P V E) (fuel : Nat) (ps qs : List P)
    (σ σ₁ σ₂ : PassContext P V E) (p : P) (v : V) (h : getPasses fuel prog .new ps = .ok σ)
    (hg : getPass fuel prog σ p = .ok (σ₁, .ok v)) (hq : getPasses fuel prog σ₁ qs = .ok σ₂) :
    ∀ n, getPass (n + 1) prog σ₂ p = .ok (⟨σ₂.passes, σ₂.log ++ [.got p (.ok v)]⟩, .ok v) := by
  intro n
  obtain ⟨h1, -, -, h2, -⟩ := (get_run_spec fuel).1 _ _ _ _ hg (getPasses_spec h inv_new).1
  have h3 := (getPasses_spec hq h1).2.keep p _ (h2 v rfl)
  rw [getPass, h3]

/-- Three passes: 1 requests 0; 2 requests 0 and 1. -/
def passExample : Nat → PassProg Nat Nat String
  | 0 => .ret (.ok 10)
  | 1 => .get 0 fun r => .ret (r.map (· + 1))
  | 2 => .get 0 fun r => .get 1 fun r' =>
      .ret (match r, r' with
        | .ok a, .ok b => .ok (a + b)
        | _, _ => .error "no")
  | _ => .ret (.error "unknown")

example : ∃ σ, getPasses 20 passExample .new [2, 1, 0, 2] = .ok σ ∧
    σ.log = [.ran 2, .ran 0, .got 0 (.ok 10), .ran 1, .got 0 (.ok 10), .got 1 (.ok 11),
      .got 2 (.ok 21), .got 1 (.ok 11), .got 0 (.ok 10), .got 2 (.ok 21)] :=
  ⟨_, rfl, rfl⟩

/-! ## C25 -/

/-- Requests always come to an end, whatever the dependencies: when finitely many passes are
involved and their own code terminates, every `get_pass` in every history returns or panics. -/
theorem pass_terminates (prog : P → PassProg P V E) (U : List P)
    (hU : ∀ p ∈ U, ∀ q, Names (prog p) q → q ∈ U) (hs : ∀ p ∈ U, (prog p).NoStuck)
    (fuel : Nat) (ps : List P) (σ : PassContext P V E) (h : getPasses fuel prog .new ps = .ok σ)
    (p : P) (hp : p ∈ U) : ∃ N, ∀ n, N ≤ n → getPass n prog σ p ≠ .oof := by
  obtain ⟨N, hN⟩ := (get_run_terminates U hU hs (absent U σ)).1 σ (getPasses_spec h inv_new).1
    (Nat.le_refl _) p hp
  refine ⟨N, fun n hn => ?_⟩
  rw [(get_run_mono N).1 _ _ hN n hn]
  exact hN

/-- C25, first half.  A pass that requests itself, directly or through others, makes `get_pass`
panic in every history, with the recursion message unless a pass body panics first. -/
theorem pass_cycle_panics (prog : P → PassProg P V E) (U : List P)
    (hU : ∀ p ∈ U, ∀ q, Names (prog p) q → q ∈ U) (hs : ∀ p ∈ U, (prog p).NoStuck)
    (fuel : Nat) (ps : List P) (σ : PassContext P V E) (h : getPasses fuel prog .new ps = .ok σ)
    (p : P) (hp : p ∈ U) (hc : Relation.TransGen (Asks prog) p p) :
    ∃ N w, ∀ n, N ≤ n → getPass n prog σ p = .panic w ∧
      ((∀ q, (prog q).NoFail) → w = .passRecursion) := by
  obtain ⟨N, hN⟩ := pass_terminates prog U hU hs fuel ps σ h p hp
  cases hg : getPass N prog σ p with
  | oof => exact absurd hg (hN N (Nat.le_refl _))
  | ok x =>
    obtain ⟨σ', r⟩ := x
    have := ((get_run_spec N).1 _ _ _ _ hg (getPasses_spec h inv_new).1).2.2.1
    exact absurd ⟨r, this⟩ (no_eval_of_cycle hc)
  | panic w =>
    refine ⟨N, w, fun n hn => ⟨getPass_mono hg (by simp) hn, ?_⟩⟩
    intro hf
    exact (get_run_panic hf N).1 _ _ _ hg

/-- Exactly what a first request does, when pass bodies hand on the errors they get with `?`: it
returns what the pass computes from scratch, and panics or diverges exactly when there is no such
result. -/
theorem pass_fresh_exact (prog : P → PassProg P V E) (hst : ∀ p, (prog p).Strict) (p : P)
    (r : Except E V) :
    (∃ N, ∀ n, N ≤ n → ∃ σ, getPass n prog .new p = .ok (σ, r)) ↔ Eval prog p r := by
  constructor
  · rintro ⟨N, h⟩
    obtain ⟨σ, h⟩ := h N (Nat.le_refl _)
    exact ((get_run_spec N).1 _ _ _ _ h inv_new).2.2.1
  · intro h
    obtain ⟨N, σ', h1, -⟩ := getPass_of_eval hst h inv_new (by intro q; simp [Marked, new])
    exact ⟨N, fun n hn => ⟨σ', getPass_mono h1 (by simp) hn⟩⟩

/-- C25, second half, for pass bodies that hand on errors with `?`: with acyclic dependencies a
first request never panics. -/
theorem pass_acyclic_no_panic_partial (prog : P → PassProg P V E)
    (hwf : WellFounded (fun q p => Names (prog p) q)) (hs : ∀ p, (prog p).NoStuck)
    (hf : ∀ p, (prog p).NoFail) (hst : ∀ p, (prog p).Strict) (p : P) :
    ∃ N σ r, (∀ n, N ≤ n → getPass n prog .new p = .ok (σ, r)) ∧ ∀ n w, getPass n prog .new p ≠ .panic w := by
  obtain ⟨r, hr⟩ := eval_exists hwf hs hf p
  obtain ⟨N, σ', h1, -⟩ := getPass_of_eval hst hr inv_new (by intro q; simp [Marked, new])
  refine ⟨N, σ', r, fun n hn => getPass_mono h1 (by simp) hn, ?_⟩
  intro n w hw
  have a := getPass_mono hw (by simp) (Nat.le_max_left n N)
  have b := getPass_mono h1 (by simp) (Nat.le_max_right n N)
  rw [a] at b
  cases b

/-- If moreover no pass fails, no request in any history panics. -/
theorem pass_acyclic_histories (prog : P → PassProg P V E)
    (hwf : WellFounded (fun q p => Names (prog p) q)) (hs : ∀ p, (prog p).NoStuck)
    (hf : ∀ p, (prog p).NoFail) (hst : ∀ p, (prog p).Strict)
    (hok : ∀ p e, ¬ Eval prog p (.error e)) (ps : List P) :
    ∃ N, ∀ n, N ≤ n → ∃ σ, getPasses n prog .new ps = .ok σ := by
  have key : ∀ (ps : List P) (σ : PassContext P V E), Inv prog σ → (∀ q, ¬ Marked σ q) →
      ∃ N, ∀ n, N ≤ n → ∃ σ', getPasses n prog σ ps = .ok σ' := by
    intro ps
    induction ps with
    | nil => intro σ _ _; exact ⟨0, fun n _ => ⟨σ, by simp [getPasses]⟩⟩
    | cons p ps ih =>
      intro σ hi hm
      obtain ⟨r, hr⟩ := eval_exists hwf hs hf p
      obtain ⟨N, σ', h1, h2⟩ := getPass_of_eval hst hr hi hm
      cases r with
      | error e => exact absurd hr (hok p e)
      | ok v =>
        obtain ⟨N', h3⟩ := ih σ' ((get_run_spec N).1 _ _ _ _ h1 hi).1 (h2 v rfl)
        refine ⟨max N N', fun n hn => ?_⟩
        obtain ⟨σ'', h4⟩ := h3 n (by omega)
        refine ⟨σ'', ?_⟩
        rw [getPasses, getPass_mono h1 (by simp) (show N ≤ n by omega)]
        exact h4
  exact key ps .new inv_new (by intro q; simp [Marked, new])

/-- Passes 0 and 1 request each other. -/
def passCycle : Nat → PassProg Nat Nat String
  | 0 => .get 1 fun r => .ret r
  | 1 => .get 0 fun r => .ret r
  | _ => .ret (.ok 5)

example : Relation.TransGen (Asks passCycle) 0 0 :=
  .tail (.single (Reaches.here 1 _)) (Reaches.here 0 _)
example : getPass 10 passCycle .new 0 = .panic .passRecursion := rfl
example : ∀ p ∈ [0, 1], ∀ q, Names (passCycle p) q → q ∈ [0, 1] := by
  intro p hp q hq
  simp at hp
  rcases hp with rfl | rfl <;> (cases hq with
    | here => simp
    | later h => cases h)

/-- C25, second half, is false without that restriction: pass 1 requests pass 0, which fails,
ignores the error and requests it again.  The dependencies are acyclic, but the recursion panic
fires on a fresh context. -/
def passRetry : Nat → PassProg Nat Nat String
  | 1 => .get 0 fun _ => .get 0 fun _ => .ret (.ok 1)
  | _ => .ret (.error "failed")

theorem pass_acyclic_panics :
    WellFounded (fun q p => Names (passRetry p) q) ∧ (∀ p, (passRetry p).NoStuck) ∧
    (∀ p, (passRetry p).NoFail) ∧ Eval passRetry 1 (.ok 1) ∧
    ∀ n, getPass (n + 10) passRetry .new 1 = .panic .passRecursion := by
  refine ⟨?_, ?_, ?_, .get (.ret _) (.get (.ret _) (.ret _)), fun n => rfl⟩
  · apply Subrelation.wf (r := (· < ·)) _ Nat.lt_wfRel.wf
    intro q p h
    match p with
    | 0 => cases h
    | 1 =>
      cases h with
      | here => exact Nat.one_pos
      | later h =>
        cases h with
        | here => exact Nat.one_pos
        | later h => cases h
    | n + 2 => cases h
  · intro p
    match p with
    | 0 => simp [passRetry, PassProg.NoStuck]
    | 1 => simp [passRetry, PassProg.NoStuck]
    | n + 2 => simp [passRetry, PassProg.NoStuck]
  · intro p
    match p with
    | 0 => simp [passRetry, PassProg.NoFail]
    | 1 => simp [passRetry, PassProg.NoFail]
    | n + 2 => simp [passRetry, PassProg.NoFail]

/-! ## C26 -/

/-- C26 is false: after a pass has failed, asking again panics with the recursion message, in
every history and for every pass. -/
theorem failed_pass_panics_again (prog : P → PassProg P V E) (fuel : Nat) (ps qs : List P)
    (σ σ₁ σ₂ : PassContext P V E) (p : P) (e : E) (h : getPasses fuel prog .new ps = .ok σ)
    (hg : getPass fuel prog σ p = .ok (σ₁, .error e)) (hq : getPasses fuel prog σ₁ qs = .ok σ₂) :
    ∀ n, getPass (n + 1) prog σ₂ p = .panic .passRecursion := by
  intro n
  obtain ⟨h1, -, -, -, h2⟩ := (get_run_spec fuel).1 _ _ _ _ hg (getPasses_spec h inv_new).1
  have h3 := (getPasses_spec hq h1).2.keep p _ (h2 e rfl)
  rw [getPass, h3]

/-- The hypotheses are met by the crate's own passes: the Nullable pass fails on an infinitely
ambiguous grammar, and asking again panics. -/
example : ∃ σ₁ e,
    getPass 50 (cratePasses 50 exampleAddr nullAmbiguous) .new .nullable = .ok (σ₁, .error e) ∧
    getPass 50 (cratePasses 50 exampleAddr nullAmbiguous) σ₁ .nullable = .panic .passRecursion :=
  ⟨_, _, rfl, rfl⟩

/-- What remains of C26: within one history a pass never fails in two different ways, and never
both fails and succeeds. -/
theorem pass_error_stable_partial (prog : P → PassProg P V E) (fuel : Nat) (ps : List P)
    (σ : PassContext P V E) (h : getPasses fuel prog .new ps = .ok σ) :
    ∀ p e v, .got p (.error e) ∈ σ.log → .got p (.ok v) ∉ σ.log := by
  have hi := (getPasses_spec h inv_new).1
  intro p e v h1 h2
  have a := hi.gotErr p e h1
  have b := hi.got p v h2
  rw [a] at b
  cases b

/-! ## The crate's passes on a fresh context -/
section
variable {T NT AK AV : Type} [Ord T] [TransOrd T] [LawfulEqOrd T] [Ord NT] [TransOrd NT]
  [LawfulEqOrd NT]

instance : TransOrd PassId where
  eq_swap := by intro a b; cases a <;> cases b <;> rfl
  isLE_trans := by intro a b c; cases a <;> cases b <;> cases c <;> decide
instance : LawfulEqOrd PassId where
  compare_self := by intro a; cases a <;> rfl
  eq_of_compare := by intro a b; cases a <;> cases b <;> decide

private theorem cmp_nullable_nullable : compare PassId.nullable PassId.nullable = .eq := rfl
private theorem cmp_nullable_firsts : compare PassId.nullable PassId.firsts = .lt := rfl
private theorem cmp_nullable_follows : compare PassId.nullable PassId.follows = .lt := rfl
private theorem cmp_firsts_nullable : compare PassId.firsts PassId.nullable = .gt := rfl
private theorem cmp_firsts_firsts : compare PassId.firsts PassId.firsts = .eq := rfl
private theorem cmp_firsts_follows : compare PassId.firsts PassId.follows = .lt := rfl
private theorem cmp_follows_nullable : compare PassId.follows PassId.nullable = .gt := rfl
private theorem cmp_follows_firsts : compare PassId.follows PassId.firsts = .gt := rfl
private theorem cmp_follows_follows : compare PassId.follows PassId.follows = .eq := rfl

/-- `get_pass::<Firsts>()` on a fresh context is the function that C19 and C20 speak about. -/
theorem crate_pass_firsts (fuel : Nat) (addr : NT → Nat → Nat) (g : Grammar T NT AK AV) (n : Nat) :
    match firstsPass fuel addr g with
    | .ok r => ∃ σ, getPass (n + 10) (cratePasses fuel addr g) .new .firsts =
        .ok (σ, r.map PassVal.firsts)
    | .panic w => getPass (n + 10) (cratePasses fuel addr g) .new .firsts = .panic w
    | .oof => getPass (n + 10) (cratePasses fuel addr g) .new .firsts = .oof := by
  unfold firstsPass
  cases hn : calculateNullables fuel addr g with
  | panic w => simp [getPass, runProg, new, cratePasses, BMap.get?_insert, hn, PassProg.ofRes,
          cmp_nullable_nullable, cmp_nullable_firsts, cmp_nullable_follows, cmp_firsts_nullable, cmp_firsts_firsts, cmp_firsts_follows, cmp_follows_nullable, cmp_follows_firsts, cmp_follows_follows]
  | oof => simp [getPass, runProg, new, cratePasses, BMap.get?_insert, hn, PassProg.ofRes,
          cmp_nullable_nullable, cmp_nullable_firsts, cmp_nullable_follows, cmp_firsts_nullable, cmp_firsts_firsts, cmp_firsts_follows, cmp_follows_nullable, cmp_follows_firsts, cmp_follows_follows]
  | ok r =>
    cases r with
    | error e => simp [getPass, runProg, new, cratePasses, BMap.get?_insert, hn, PassProg.ofRes,
          cmp_nullable_nullable, cmp_nullable_firsts, cmp_nullable_follows, cmp_firsts_nullable, cmp_firsts_firsts, cmp_firsts_follows, cmp_follows_nullable, cmp_follows_firsts, cmp_follows_follows, Firsts.runPass, Except.map]
    | ok i =>
      simp only
      cases hf : Firsts.runPass fuel g (.ok i) with
      | panic w => simp [getPass, runProg, new, cratePasses, BMap.get?_insert, hn, PassProg.ofRes,
          cmp_nullable_nullable, cmp_nullable_firsts, cmp_nullable_follows, cmp_firsts_nullable, cmp_firsts_firsts, cmp_firsts_follows, cmp_follows_nullable, cmp_follows_firsts, cmp_follows_follows, hf]
      | oof => simp [getPass, runProg, new, cratePasses, BMap.get?_insert, hn, PassProg.ofRes,
          cmp_nullable_nullable, cmp_nullable_firsts, cmp_nullable_follows, cmp_firsts_nullable, cmp_firsts_firsts, cmp_firsts_follows, cmp_follows_nullable, cmp_follows_firsts, cmp_follows_follows, hf]
      | ok r => cases r <;> simp [getPass, runProg, new, cratePasses, BMap.get?_insert, hn, PassProg.ofRes,
          cmp_nullable_nullable, cmp_nullable_firsts, cmp_nullable_follows, cmp_firsts_nullable, cmp_firsts_firsts, cmp_firsts_follows, cmp_follows_nullable, cmp_follows_firsts, cmp_follows_follows, hf, Except.map]

/-- `get_pass::<Follows>()` on a fresh context is the function that C21–C23 speak about. -/
theorem crate_pass_follows (fuel : Nat) (addr : NT → Nat → Nat) (g : Grammar T NT AK AV) (n : Nat) :
    match followsPass fuel addr g with
    | .ok r => ∃ σ, getPass (n + 10) (cratePasses fuel addr g) .new .follows =
        .ok (σ, r.map PassVal.follows)
    | .panic w => getPass (n + 10) (cratePasses fuel addr g) .new .follows = .panic w
    | .oof => getPass (n + 10) (cratePasses fuel addr g) .new .follows = .oof := by
  unfold followsPass firstsPass
  cases hn : calculateNullables fuel addr g with
  | panic w => simp [getPass, runProg, new, cratePasses, BMap.get?_insert, hn, PassProg.ofRes,
          cmp_nullable_nullable, cmp_nullable_firsts, cmp_nullable_follows, cmp_firsts_nullable, cmp_firsts_firsts, cmp_firsts_follows, cmp_follows_nullable, cmp_follows_firsts, cmp_follows_follows]
  | oof => simp [getPass, runProg, new, cratePasses, BMap.get?_insert, hn, PassProg.ofRes,
          cmp_nullable_nullable, cmp_nullable_firsts, cmp_nullable_follows, cmp_firsts_nullable, cmp_firsts_firsts, cmp_firsts_follows, cmp_follows_nullable, cmp_follows_firsts, cmp_follows_follows]
  | ok r =>
    cases r with
    | error e => simp [getPass, runProg, new, cratePasses, BMap.get?_insert, hn, PassProg.ofRes,
          cmp_nullable_nullable, cmp_nullable_firsts, cmp_nullable_follows, cmp_firsts_nullable, cmp_firsts_firsts, cmp_firsts_follows, cmp_follows_nullable, cmp_follows_firsts, cmp_follows_follows, Firsts.runPass, Follows.runPass, Except.map]
    | ok i =>
      simp only
      cases hf : Firsts.runPass fuel g (.ok i) with
      | panic w => simp [getPass, runProg, new, cratePasses, BMap.get?_insert, hn, PassProg.ofRes,
          cmp_nullable_nullable, cmp_nullable_firsts, cmp_nullable_follows, cmp_firsts_nullable, cmp_firsts_firsts, cmp_firsts_follows, cmp_follows_nullable, cmp_follows_firsts, cmp_follows_follows, hf]
      | oof => simp [getPass, runProg, new, cratePasses, BMap.get?_insert, hn, PassProg.ofRes,
          cmp_nullable_nullable, cmp_nullable_firsts, cmp_nullable_follows, cmp_firsts_nullable, cmp_firsts_firsts, cmp_firsts_follows, cmp_follows_nullable, cmp_follows_firsts, cmp_follows_follows, hf]
      | ok r =>
        cases r with
        | error e => simp [getPass, runProg, new, cratePasses, BMap.get?_insert, hn, PassProg.ofRes,
          cmp_nullable_nullable, cmp_nullable_firsts, cmp_nullable_follows, cmp_firsts_nullable, cmp_firsts_firsts, cmp_firsts_follows, cmp_follows_nullable, cmp_follows_firsts, cmp_follows_follows, hf, Follows.runPass, Except.map]
        | ok f =>
          simp only
          cases hfo : Follows.runPass fuel g (.ok f) with
          | panic w => simp [getPass, runProg, new, cratePasses, BMap.get?_insert, hn, PassProg.ofRes,
          cmp_nullable_nullable, cmp_nullable_firsts, cmp_nullable_follows, cmp_firsts_nullable, cmp_firsts_firsts, cmp_firsts_follows, cmp_follows_nullable, cmp_follows_firsts, cmp_follows_follows, hf, hfo]
          | oof => simp [getPass, runProg, new, cratePasses, BMap.get?_insert, hn, PassProg.ofRes,
          cmp_nullable_nullable, cmp_nullable_firsts, cmp_nullable_follows, cmp_firsts_nullable, cmp_firsts_firsts, cmp_firsts_follows, cmp_follows_nullable, cmp_follows_firsts, cmp_follows_follows, hf, hfo]
          | ok r => cases r <;> simp [getPass, runProg, new, cratePasses, BMap.get?_insert, hn, PassProg.ofRes,
          cmp_nullable_nullable, cmp_nullable_firsts, cmp_nullable_follows, cmp_firsts_nullable, cmp_firsts_firsts, cmp_firsts_follows, cmp_follows_nullable, cmp_follows_firsts, cmp_follows_follows, hf, hfo, Except.map]

end
end Bongo
