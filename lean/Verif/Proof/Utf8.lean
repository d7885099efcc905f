import Mathlib.Order.Compare
import Mathlib.Tactic.SplitIfs
import Verif.Model.Buffer
import Verif.Model.Utils
import Verif.Proof.Buffer
/-!
# UTF-8: the order of the bytes is the order of the characters
-/
open Std
namespace Bongo
abbrev byteCmp (a b : List UInt8) : Ordering := List.compareLex compare a b

theorem lex_lt_cons {x y : UInt8} {xs ys : List UInt8} :
    byteCmp (x :: xs) (y :: ys) = .lt ↔ x.toNat < y.toNat ∨ (x.toNat = y.toNat ∧ byteCmp xs ys = .lt) := by
  rw [byteCmp, List.compareLex_cons_cons, Ordering.then_eq_lt]
  have h : compare x y = compareOfLessAndEq x y := rfl
  rw [h, compareOfLessAndEq]
  have hlt := UInt8.lt_iff_toNat_lt (a := x) (b := y)
  have heq := UInt8.toNat_inj (a := x) (b := y)
  split_ifs <;> simp_all
  
theorem encode_lt {c d : Char} (h : c.toNat < d.toNat) (s t : List UInt8) :
    byteCmp (String.utf8EncodeChar c ++ s) (String.utf8EncodeChar d ++ t) = .lt := by
  have hc : c.val.toNat < 1114112 := by have := c.valid; rw [UInt32.isValidChar, Nat.isValidChar] at this; omega
  have hd : d.val.toNat < 1114112 := by have := d.valid; rw [UInt32.isValidChar, Nat.isValidChar] at this; omega
  simp only [Char.toNat] at h
  simp only [String.utf8EncodeChar]
  generalize c.val.toNat = m at *
  generalize d.val.toNat = n at *
  have hmd : ∀ k : Nat, k < 1114112 → k = 262144 * (k / 262144 % 8) + 4096 * (k / 4096 % 64) +
      64 * (k / 64 % 64) + k % 64 ∧ k / 262144 % 8 < 8 ∧ k / 4096 % 64 < 64 ∧ k / 64 % 64 < 64 ∧
      k % 64 < 64 ∧ k / 64 % 32 < 32 ∧ k / 4096 % 16 < 16 ∧ (k ≤ 2047 → k / 64 % 32 = k / 64 % 64) ∧
      (k ≤ 65535 → k / 4096 % 16 = k / 4096 % 64) := by intro k hk; omega
  have h1 := hmd m hc
  have h2 := hmd n hd
  generalize m / 262144 % 8 = a3 at *
  generalize m / 4096 % 64 = a2 at *
  generalize m / 64 % 64 = a1 at *
  generalize m % 64 = a0 at *
  generalize m / 64 % 32 = a1' at *
  generalize m / 4096 % 16 = a2' at *
  generalize n / 262144 % 8 = b3 at *
  generalize n / 4096 % 64 = b2 at *
  generalize n / 64 % 64 = b1 at *
  generalize n % 64 = b0 at *
  generalize n / 64 % 32 = b1' at *
  generalize n / 4096 % 16 = b2' at *
  have hmod : ∀ k : Nat, k < 256 → k % 256 = k := fun k hk => Nat.mod_eq_of_lt hk
  split_ifs <;> simp only [List.cons_append, List.nil_append, lex_lt_cons, UInt8.toNat_ofNat', Nat.reducePow] <;>
    omega

theorem append_same (l s t : List UInt8) : byteCmp (l ++ s) (l ++ t) = byteCmp s t := by
  induction l with
  | nil => rfl
  | cons a l ih => simp only [List.cons_append, byteCmp, List.compareLex_cons_cons] at ih ⊢; simp [ih]

theorem utf8_order : ∀ s t : List Char,
    strCmp s t =
      List.compareLex (fun x y : Char => compare x.toNat y.toNat) s t
  | [], [] => rfl
  | [], d :: t => by
    unfold strCmp utf8
    have : String.utf8EncodeChar d ≠ [] := by simp [String.utf8EncodeChar]; split_ifs <;> simp
    cases h : String.utf8EncodeChar d with
    | nil => exact absurd h this
    | cons x xs => simp [h, byteCmp, List.compareLex]
  | c :: s, [] => by
    unfold strCmp utf8
    have : String.utf8EncodeChar c ≠ [] := by simp [String.utf8EncodeChar]; split_ifs <;> simp
    cases h : String.utf8EncodeChar c with
    | nil => exact absurd h this
    | cons x xs => simp [h, byteCmp, List.compareLex]
  | c :: s, d :: t => by
    have ih := utf8_order s t
    unfold strCmp utf8 at ih ⊢
    rw [List.flatMap_cons, List.flatMap_cons, List.compareLex_cons_cons]
    change byteCmp _ _ = _
    rcases Nat.lt_trichotomy c.toNat d.toNat with h | h | h
    · rw [encode_lt h, Nat.compare_eq_lt.2 h]; rfl
    · have hcd : c = d := Char.ext (UInt32.toNat_inj.1 h)
      subst hcd
      rw [append_same, byteCmp, ih]; simp
    · have := encode_lt h (t.flatMap String.utf8EncodeChar) (s.flatMap String.utf8EncodeChar)
      rw [byteCmp, OrientedCmp.eq_swap (cmp := List.compareLex compare)]
      rw [byteCmp] at this
      rw [this, Nat.compare_eq_gt.2 h]; rfl

/-- Comparing character by character, against the order of lists. -/
theorem charLex : ∀ s t : List Char,
    (s < t ↔ List.compareLex (fun x y : Char => compare x.toNat y.toNat) s t = .lt) ∧
    (s = t ↔ List.compareLex (fun x y : Char => compare x.toNat y.toNat) s t = .eq) := by
  intro s
  induction s with
  | nil => intro t; cases t <;> simp [List.compareLex]
  | cons c s ih =>
    intro t
    cases t with
    | nil => simp [List.compareLex]
    | cons d t =>
      have hcd : c = d ↔ c.toNat = d.toNat :=
        ⟨fun h => h ▸ rfl, fun h => Char.ext (UInt32.toNat_inj.1 h)⟩
      rw [List.compareLex_cons_cons, List.cons_lt_cons_iff, Ordering.then_eq_lt, Ordering.then_eq_eq,
        List.cons.injEq, (ih t).1, (ih t).2, Nat.compare_eq_lt, Nat.compare_eq_eq, hcd]
      exact ⟨Iff.rfl, Iff.rfl⟩

/-- The first byte of a character is not a continuation byte, the others are. -/
theorem encode_shape (c : Char) : ∃ b bs, String.utf8EncodeChar c = b :: bs ∧
    bs.length + 1 = c.utf8Size ∧ (b.toNat < 128 ∨ 192 ≤ b.toNat) ∧
    ∀ x ∈ bs, 128 ≤ x.toNat ∧ x.toNat < 192 := by
  have hl := String.length_utf8EncodeChar c
  have hc : c.val.toNat < 1114112 := by
    have := c.valid; rw [UInt32.isValidChar, Nat.isValidChar] at this; omega
  revert hl
  simp only [String.utf8EncodeChar]
  generalize c.val.toNat = m at *
  split_ifs <;> intro hl <;> refine ⟨_, _, rfl, by simpa using hl, ?_, ?_⟩ <;>
    simp only [List.mem_cons, List.not_mem_nil, or_false, forall_eq_or_imp, forall_eq, UInt8.toNat_ofNat',
      Nat.reducePow, IsEmpty.forall_iff, implies_true] <;> omega

theorem utf8_cons (c : Char) (t : List Char) : utf8 (c :: t) = String.utf8EncodeChar c ++ utf8 t := rfl

theorem utf8_append (s t : List Char) : utf8 (s ++ t) = utf8 s ++ utf8 t := by
  simp [utf8]

theorem utf8_length (t : List Char) : (utf8 t).length = byteLen t := by
  induction t with
  | nil => rfl
  | cons c t ih =>
    rw [utf8_cons, List.length_append, ih, String.length_utf8EncodeChar]
    simp [byteLen]

/-- A byte offset at which a text can be cut: the end, or where a character starts. -/
theorem dropBytes_boundary : ∀ (t : List Char) (n : Nat), (dropBytes t n).isSome ↔
    n = (utf8 t).length ∨ ∃ b, (utf8 t)[n]? = some b ∧ (b.toNat < 128 ∨ 192 ≤ b.toNat)
  | [], 0 => by simp [dropBytes, utf8]
  | [], n + 1 => by simp [dropBytes, utf8]
  | c :: t, 0 => by
    obtain ⟨b, bs, h1, -, h3, -⟩ := encode_shape c
    simp only [dropBytes, Option.isSome_some, true_iff]
    right
    exact ⟨b, by rw [utf8_cons, h1]; rfl, h3⟩
  | c :: t, n + 1 => by
    obtain ⟨b, bs, h1, h2, h3, h4⟩ := encode_shape c
    rw [dropBytes]
    split_ifs with hn
    · rw [dropBytes_boundary t (n + 1 - c.utf8Size), utf8_cons, List.length_append,
        String.length_utf8EncodeChar, List.getElem?_append_right (by rw [String.length_utf8EncodeChar]; exact hn),
        String.length_utf8EncodeChar]
      constructor
      · rintro (h | h)
        · left; omega
        · right; exact h
      · rintro (h | h)
        · left; omega
        · right; exact h
    · have hlt : n < bs.length := by omega
      have hx : (utf8 (c :: t))[n + 1]? = some bs[n] := by
        rw [utf8_cons, h1, List.cons_append, List.getElem?_cons_succ,
          List.getElem?_append_left hlt, List.getElem?_eq_getElem hlt]
      rw [hx]
      simp only [Option.isSome_none, Bool.false_eq_true, false_iff, not_or, not_exists, not_and,
        Option.some.injEq]
      refine ⟨?_, ?_⟩
      · rw [utf8_cons, List.length_append, String.length_utf8EncodeChar]; omega
      · rintro x rfl
        have := h4 bs[n] (List.getElem_mem hlt)
        omega

theorem dropBytes_some : ∀ {t : List Char} {n : Nat} {r : List Char}, dropBytes t n = some r →
    ∃ p, t = p ++ r ∧ byteLen p = n
  | t, 0, r, h => by
    cases t <;> simp only [dropBytes, Option.some.injEq] at h <;> subst h <;> exact ⟨[], rfl, rfl⟩
  | [], n + 1, r, h => by simp [dropBytes] at h
  | c :: t, n + 1, r, h => by
    rw [dropBytes] at h
    split_ifs at h with hn
    obtain ⟨p, rfl, hp⟩ := dropBytes_some h
    exact ⟨c :: p, rfl, by simp only [byteLen, List.map_cons, List.sum_cons] at hp ⊢; omega⟩

theorem takeBytes_some : ∀ {t : List Char} {n : Nat} {r : List Char}, takeBytes t n = some r →
    ∃ q, t = r ++ q ∧ byteLen r = n
  | t, 0, r, h => by
    cases t <;> simp only [takeBytes, Option.some.injEq] at h <;> subst h <;> exact ⟨_, rfl, rfl⟩
  | [], n + 1, r, h => by simp [takeBytes] at h
  | c :: t, n + 1, r, h => by
    rw [takeBytes] at h
    split_ifs at h with hn
    rw [Option.map_eq_some_iff] at h
    obtain ⟨r, h, rfl⟩ := h
    obtain ⟨q, rfl, hp⟩ := takeBytes_some h
    exact ⟨q, rfl, by simp only [byteLen, List.map_cons, List.sum_cons] at hp ⊢; omega⟩

/-- A slice is a part of the text. -/
theorem sliceBytes_ok_iff {t : List Char} {a b : Nat} {s : List Char} : sliceBytes t a b = .ok s ↔
    ∃ p q, t = p ++ (s ++ q) ∧ byteLen p = a ∧ byteLen p + byteLen s = b := by
  constructor
  · intro h
    unfold sliceBytes at h
    split_ifs at h with hab
    split at h
    · rename_i x hx
      cases h
      rw [Option.bind_eq_some_iff] at hx
      obtain ⟨r, h1, h2⟩ := hx
      obtain ⟨p, rfl, hp⟩ := dropBytes_some h1
      obtain ⟨q, rfl, hq⟩ := takeBytes_some h2
      exact ⟨p, q, rfl, hp, by omega⟩
    · cases h
  · rintro ⟨p, q, rfl, rfl, rfl⟩
    exact slice_append p s q
end Bongo
