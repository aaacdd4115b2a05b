import Verif.Model.Config
import Verif.Lemmas.Json
import Verif.Lemmas.Rows
import Verif.Props.Util
import Verif.Props.PolicyCert
/-! Lemmas for C100 and C101. -/
namespace Fpki.Config

open Fpki.Json Fpki.Domain Fpki.Policy

/-! ## Digits -/

theorem digit_eq (b : Byte) : digit b = FastCsv.isDigit b := by
  exact forall_byte (P := fun b => digit b = FastCsv.isDigit b) (by decide +kernel) b

theorem dig : ∀ n < 10, digit (UInt8.ofNat (48 + n)) = true ∧ (UInt8.ofNat (48 + n)).toNat - 48 = n := by decide

theorem natText_eq (n : Nat) : natText n = Rows.decimal n := by
  induction n using Nat.strongRecOn with
  | ind n ih =>
    rw [natText, Rows.decimal]
    split
    · rfl
    · rw [ih (n / 10) (by omega)]

theorem natText_digits (n : Nat) : ∀ c ∈ natText n, digit c = true := by
  intro c hc
  rw [natText_eq] at hc
  rw [digit_eq]
  exact Rows.decimal_digits n c hc

theorem natText_lit (n : Nat) : ∃ b t, natText n = b :: t ∧ digit b = true ∧ (∀ c ∈ t, digit c = true) ∧ (b = 0x30 → t = []) := by
  induction n using Nat.strongRecOn with
  | ind n ih =>
    rw [natText]
    split
    · exact ⟨_, [], rfl, (dig n ‹_›).1, (fun c hc => by cases hc), fun _ => rfl⟩
    · rename_i h
      obtain ⟨b, t, e, hb, ht, h0⟩ := ih (n / 10) (by omega)
      refine ⟨b, t ++ [UInt8.ofNat (48 + n % 10)], by rw [e]; rfl, hb, ?_, ?_⟩
      · intro c hc
        rcases List.mem_append.1 hc with hc | hc
        · exact ht c hc
        · rw [List.mem_singleton.1 hc]; exact (dig (n % 10) (by omega)).1
      · intro hb0
        exfalso
        have ht0 := h0 hb0
        subst ht0
        have hv := Rows.digitsVal_decimal (n / 10)
        rw [← natText_eq, e, hb0] at hv
        have hz : Rows.digitsVal 0 [(0x30 : Byte)] = some 0 := by decide
        rw [hz] at hv
        have := Option.some.inj hv
        omega

theorem natText_int (n : Nat) : IntLit (natText n) := by
  obtain ⟨b, t, e, h⟩ := natText_lit n
  exact ⟨false, b, t, e, h⟩

theorem intText_int (i : Int) : IntLit (intText i) := by
  unfold intText
  obtain ⟨b, t, e, h⟩ := natText_lit i.natAbs
  split
  · exact ⟨true, b, t, by rw [e]; rfl, h⟩
  · exact ⟨false, b, t, e, h⟩

theorem parseInt64_intText (i : Int) (h1 : -(2 ^ 63) ≤ i) (h2 : i < 2 ^ 63) : Rows.parseInt64 (intText i) = some i := by
  unfold intText
  split
  · rename_i hi
    unfold Rows.parseInt64
    have h0 : natText i.natAbs ≠ [] := by rw [natText_eq]; exact Rows.decimal_ne_nil _
    simp only [List.head?_cons, List.tail_cons, or_true, if_true, h0, if_false]
    rw [natText_eq, Rows.digitsVal_decimal]
    dsimp only
    rw [if_pos (by omega)]
    congr 1
    omega
  · rw [natText_eq, Rows.parseInt64_decimal (by omega)]
    congr 1
    omega

/-! ## pad -/

theorem pad_length (w n : Nat) : (pad w n).length = w := by
  induction w generalizing n with
  | zero => rfl
  | succ w ih => simp [pad, ih]

theorem pad_digits (w n : Nat) : ∀ c ∈ pad w n, digit c = true := by
  induction w generalizing n with
  | zero => intro c hc; cases hc
  | succ w ih =>
    intro c hc
    rcases List.mem_append.1 hc with hc | hc
    · exact ih _ c hc
    · rw [List.mem_singleton.1 hc]; exact (dig (n % 10) (by omega)).1

theorem pad_value (w n : Nat) (h : n < 10 ^ w) : Rows.digitsVal 0 (pad w n) = some n := by
  induction w generalizing n with
  | zero =>
    have : n = 0 := by simpa using h
    subst this
    rfl
  | succ w ih =>
    have hd := dig (n % 10) (by omega)
    rw [pad, Rows.digitsVal_append _ _ (by rw [← digit_eq]; exact hd.1), ih (n / 10) (by rw [Nat.pow_succ] at h; omega), hd.2]
    simp only [Option.map_some, Option.some.injEq]
    omega

/-- The first digits are those of the quotient. -/
theorem pad_take (a b n : Nat) : (pad (a + b) n).take a = pad a (n / 10 ^ b) := by
  induction b generalizing n with
  | zero =>
    have := pad_length a n
    simp only [Nat.add_zero, Nat.pow_zero, Nat.div_one]
    rw [List.take_of_length_le (by omega)]
  | succ b ih =>
    show (pad (a + b) (n / 10) ++ [UInt8.ofNat (48 + n % 10)]).take a = _
    rw [List.take_append_of_le_length (by rw [pad_length]; omega), ih, Nat.div_div_eq_div_mul, Nat.pow_succ, Nat.mul_comm]

theorem pad_two (n : Nat) : pad 2 n = [UInt8.ofNat (48 + n / 10 % 10), UInt8.ofNat (48 + n % 10)] := rfl

theorem getnum_pad (fixed : Bool) (n : Nat) (h : n < 100) (t : Bytes) : getnum fixed (pad 2 n ++ t) = some (n, t) := by
  have h1 := dig (n / 10 % 10) (by omega)
  have h2 := dig (n % 10) (by omega)
  rw [pad_two]
  show getnum fixed (_ :: _ :: t) = _
  unfold getnum
  dsimp only
  rw [if_pos h1.1, if_pos h2.1, h1.2, h2.2]
  congr 2
  omega

/-! ## The number of decimals -/

theorem decimalLoop_cases (ns : Nat) (h : ns < 10 ^ 9) :
    decimalLoop 4 ns 0 = if ns = 0 then 0 else if ns % 10 ^ 6 = 0 then 3 else if ns % 10 ^ 3 = 0 then 6 else 9 := by
  have hm : ns % 10 ^ 6 % 10 ^ 3 = ns % 10 ^ 3 := by omega
  by_cases h0 : ns = 0
  · subst h0; rfl
  · rw [if_neg h0]
    unfold decimalLoop
    rw [if_pos (by omega)]
    unfold decimalLoop
    have e0 : (6 : Nat) - 0 = 6 := rfl
    rw [e0]
    by_cases h6 : ns % 10 ^ 6 = 0
    · rw [if_pos h6, if_neg (by omega)]
    · rw [if_neg h6, if_pos (by omega)]
      unfold decimalLoop
      have e3 : (6 : Nat) - (0 + 3) = 3 := rfl
      rw [e3, hm]
      by_cases h3 : ns % 10 ^ 3 = 0
      · rw [if_pos h3, if_neg (by omega)]
      · rw [if_neg h3, if_pos (by omega)]
        unfold decimalLoop
        have e6 : (6 : Nat) - (0 + 3 + 3) = 0 := rfl
        rw [e6, if_neg (by omega)]

end Fpki.Config
