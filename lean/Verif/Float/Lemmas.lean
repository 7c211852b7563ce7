import Verif.Float.Model
import Mathlib.Tactic.Linarith
import Mathlib.Tactic.Ring
import Mathlib.Tactic.FieldSimp
import Mathlib.Tactic.Positivity
import Mathlib.Tactic.NormNum
import Mathlib.Algebra.Order.Round

/-!
# Rounding to `f32`
-/

namespace EthTrie

theorem roundEven_int (n : ℤ) : roundEven n = n := by
  simp [roundEven]

theorem roundEven_err (q : ℚ) : |(roundEven q : ℚ) - q| ≤ 1 / 2 := by
  have h1 := Int.floor_le q
  have h2 := Int.lt_floor_add_one q
  unfold roundEven
  split_ifs <;> rw [abs_le] <;> constructor <;> push_cast <;> linarith

theorem roundEven_mono {a b : ℚ} (h : a ≤ b) : roundEven a ≤ roundEven b := by
  have hf : ⌊a⌋ ≤ ⌊b⌋ := Int.floor_le_floor h
  rcases hf.lt_or_eq with hl | he
  · have h1 : roundEven a ≤ ⌊a⌋ + 1 := by unfold roundEven; split_ifs <;> omega
    have h2 : ⌊b⌋ ≤ roundEven b := by unfold roundEven; split_ifs <;> omega
    omega
  · unfold roundEven
    rw [← he]
    split_ifs <;> first | omega | (exfalso; linarith)

/-- No integer is nearer. -/
theorem roundEven_near (q : ℚ) (n : ℤ) : |(roundEven q : ℚ) - q| ≤ |(n : ℚ) - q| := by
  rcases eq_or_ne n (roundEven q) with he | hne
  · rw [he]
  · have h1 := roundEven_err q
    have h2 : (1 : ℚ) ≤ |(n : ℚ) - roundEven q| := by
      have : (1 : ℤ) ≤ |n - roundEven q| := Int.one_le_abs (sub_ne_zero.mpr hne)
      exact_mod_cast this
    have h3 : |(n : ℚ) - roundEven q| ≤ |(n : ℚ) - q| + |(roundEven q : ℚ) - q| := by
      have := abs_sub_le (n : ℚ) q (roundEven q)
      rwa [abs_sub_comm q] at this
    linarith

namespace F32

theorem two_pos (e : ℤ) : (0 : ℚ) < 2 ^ e := zpow_pos (by norm_num) e

theorem two_le {a b : ℤ} (h : a ≤ b) : (2 : ℚ) ^ a ≤ 2 ^ b :=
  zpow_le_zpow_right₀ (by norm_num) h

theorem log_lt {q : ℚ} (hq : 0 < q) : q < 2 ^ (Int.log 2 q + 1) := by
  have := Int.lt_zpow_succ_log_self (b := 2) (by norm_num) q
  exact_mod_cast this

theorem le_log {q : ℚ} (hq : 0 < q) : 2 ^ Int.log 2 q ≤ q := by
  have := Int.zpow_log_le_self (b := 2) (by norm_num) hq
  exact_mod_cast this

/-- There are at most 24 bits before the last bit. -/
theorem lt_bits {q : ℚ} (hq : 0 < q) : q < 2 ^ (lastBit q + 24) :=
  lt_of_lt_of_le (log_lt hq) (two_le (by unfold lastBit; omega))

/-- There are exactly 24 bits, unless the number is tiny. -/
theorem bits_le {q : ℚ} (hq : 0 < q) (h : -149 < lastBit q) : 2 ^ (lastBit q + 23) ≤ q :=
  le_trans (two_le (by unfold lastBit at h ⊢; omega)) (le_log hq)

theorem roundRat_zero : roundRat 0 = 0 := by
  simp [roundRat, show roundEven 0 = 0 from by simpa using roundEven_int 0]

theorem lastBit_mono {a b : ℚ} (ha : 0 < a) (h : a ≤ b) : lastBit a ≤ lastBit b := by
  unfold lastBit
  have := Int.log_mono_right (b := 2) ha h
  omega

/-- An integer multiple of the last bit is not changed. -/
theorem roundRat_grid {q : ℚ} {e : ℤ} (n : ℤ) (he : lastBit q ≤ e) (h : q = n * 2 ^ e) :
    roundRat q = q := by
  obtain ⟨k, hk⟩ := Int.le.dest he
  have h1 : q / 2 ^ lastBit q = ((n * 2 ^ k : ℤ) : ℚ) := by
    rw [div_eq_iff (two_pos _).ne']
    conv_lhs => rw [h, ← hk, zpow_add₀ (by norm_num : (2 : ℚ) ≠ 0)]
    push_cast
    rw [zpow_natCast]
    ring
  unfold roundRat
  rw [h1, roundEven_int, ← h1, div_mul_cancel₀ _ (two_pos _).ne']

theorem le_bits_of_lt {q : ℚ} {e : ℤ} (hq : 0 < q) (he : -149 ≤ e) (h : q < 2 ^ (e + 24)) :
    lastBit q ≤ e := by
  unfold lastBit
  have : Int.log 2 q < e + 24 := by
    have h2 := lt_of_le_of_lt (le_log hq) h
    exact (zpow_lt_zpow_iff_right₀ (by norm_num)).mp h2
  omega

/-- Numbers of at most 24 bits are not changed. -/
theorem roundRat_bits {m : ℕ} {e : ℤ} (hm : m ≤ 2 ^ 24) (he : -149 ≤ e) :
    roundRat (m * 2 ^ e) = m * 2 ^ e := by
  rcases Nat.eq_zero_or_pos m with h0 | h0
  · simp [h0, roundRat_zero]
  · rcases hm.lt_or_eq with hl | heq
    · have hq : (0 : ℚ) < m * 2 ^ e := by
        have : (0 : ℚ) < m := by exact_mod_cast h0
        have := two_pos e
        positivity
      refine roundRat_grid (m : ℤ) (le_bits_of_lt hq he ?_) (by simp)
      rw [add_comm, zpow_add₀ (by norm_num)]
      refine mul_lt_mul_of_pos_right ?_ (two_pos e)
      exact_mod_cast hl
    · have e1 : ((m : ℕ) : ℚ) * 2 ^ e = ((2 ^ 23 : ℤ) : ℚ) * 2 ^ (e + 1) := by
        rw [heq, zpow_add₀ (by norm_num)]; push_cast; ring
      have hq : (0 : ℚ) < m * 2 ^ e := by
        have : (0 : ℚ) < m := by exact_mod_cast h0
        have := two_pos e
        positivity
      refine roundRat_grid (e := e + 1) (2 ^ 23 : ℤ) (le_bits_of_lt hq (by omega) ?_) e1
      rw [e1, show e + 1 + 24 = (e + 1) + 24 from rfl, zpow_add₀ (by norm_num) (e + 1) 24,
        mul_comm]
      refine mul_lt_mul_of_pos_left ?_ (two_pos _)
      norm_num

theorem roundRat_nat {n : ℕ} (h : n ≤ 2 ^ 24) : roundRat n = n := by
  have := roundRat_bits (e := 0) h (by norm_num)
  simpa using this

theorem roundRat_pow {e : ℤ} (h : -149 ≤ e) : roundRat (2 ^ e) = 2 ^ e := by
  have := roundRat_bits (m := 1) (e := e) (by norm_num) h
  simpa using this

theorem div_nonneg' {q : ℚ} (hq : 0 ≤ q) : 0 ≤ q / 2 ^ lastBit q :=
  div_nonneg hq (two_pos _).le

theorem roundRat_nonneg {q : ℚ} (hq : 0 ≤ q) : 0 ≤ roundRat q := by
  have := roundEven_mono (div_nonneg' hq)
  rw [show roundEven 0 = 0 from by simpa using roundEven_int 0] at this
  exact mul_nonneg (by exact_mod_cast this) (two_pos _).le

/-- The result has at most 24 bits. -/
theorem roundRat_le_bits {q : ℚ} (hq : 0 < q) : roundRat q ≤ 2 ^ (lastBit q + 24) := by
  have h1 : q / 2 ^ lastBit q ≤ ((2 ^ 24 : ℤ) : ℚ) := by
    rw [div_le_iff₀ (two_pos _)]
    refine le_trans (lt_bits hq).le (le_of_eq ?_)
    rw [zpow_add₀ (by norm_num)]; push_cast; ring
  have h2 := roundEven_mono h1
  rw [roundEven_int] at h2
  unfold roundRat
  rw [add_comm, zpow_add₀ (by norm_num)]
  refine mul_le_mul_of_nonneg_right ?_ (two_pos _).le
  exact_mod_cast h2

theorem le_roundRat_bits {q : ℚ} (hq : 0 < q) (h : -149 < lastBit q) :
    2 ^ (lastBit q + 23) ≤ roundRat q := by
  have h1 : ((2 ^ 23 : ℤ) : ℚ) ≤ q / 2 ^ lastBit q := by
    rw [le_div_iff₀ (two_pos _)]
    refine le_trans (le_of_eq ?_) (bits_le hq h)
    rw [zpow_add₀ (by norm_num)]; push_cast; ring
  have h2 := roundEven_mono h1
  rw [roundEven_int] at h2
  unfold roundRat
  rw [add_comm, zpow_add₀ (by norm_num)]
  refine mul_le_mul_of_nonneg_right ?_ (two_pos _).le
  exact_mod_cast h2

/-- Rounding is monotone. -/
theorem roundRat_mono {a b : ℚ} (ha : 0 ≤ a) (h : a ≤ b) : roundRat a ≤ roundRat b := by
  rcases ha.eq_or_lt with h0 | h0
  · rw [← h0, roundRat_zero]; exact roundRat_nonneg (h0 ▸ h)
  · have hb : 0 < b := lt_of_lt_of_le h0 h
    rcases (lastBit_mono h0 h).lt_or_eq with hl | he
    · refine le_trans (roundRat_le_bits h0) (le_trans (two_le ?_) (le_roundRat_bits hb ?_))
      · omega
      · have : -149 ≤ lastBit a := by unfold lastBit; omega
        omega
    · unfold roundRat
      rw [← he]
      refine mul_le_mul_of_nonneg_right ?_ (two_pos _).le
      have := roundEven_mono (div_le_div_of_nonneg_right h (two_pos (lastBit a)).le)
      exact_mod_cast this

theorem roundRat_err (q : ℚ) : |roundRat q - q| ≤ 2 ^ lastBit q / 2 := by
  have h := roundEven_err (q / 2 ^ lastBit q)
  have hp := two_pos (lastBit q)
  have e : roundRat q - q = (roundEven (q / 2 ^ lastBit q) - q / 2 ^ lastBit q) * 2 ^ lastBit q := by
    unfold roundRat
    rw [sub_mul, div_mul_cancel₀ _ hp.ne']
  rw [e, abs_mul, abs_of_pos hp]
  nlinarith

/-- The relative error for numbers that are not tiny. -/
theorem roundRat_rel {q : ℚ} (hq : 2 ^ (-126 : ℤ) ≤ q) : |roundRat q - q| ≤ q / 2 ^ 24 := by
  have h0 : 0 < q := lt_of_lt_of_le (two_pos _) hq
  refine le_trans (roundRat_err q) ?_
  have h1 : -126 ≤ Int.log 2 q := by
    have := lt_of_le_of_lt hq (log_lt h0)
    have := (zpow_lt_zpow_iff_right₀ (by norm_num : (1 : ℚ) < 2)).mp this
    omega
  have h2 : lastBit q = Int.log 2 q - 23 := by unfold lastBit; omega
  rw [h2, zpow_sub₀ (by norm_num)]
  have := le_log h0
  have h3 : (2 : ℚ) ^ (23 : ℤ) = 8388608 := by norm_num
  rw [h3, div_div, div_le_div_iff₀ (by norm_num) (by norm_num)]
  norm_num
  linarith

/-- No representable number is nearer. -/
theorem roundRat_near {q y : ℚ} (hq : 0 ≤ q) (hy : Rep y) : |roundRat q - q| ≤ |y - q| := by
  rcases hq.eq_or_lt with h0 | h0
  · rw [← h0, roundRat_zero]; simp
  · obtain ⟨m, e, hm, he, -, rfl⟩ := hy
    have grid : ∀ n : ℤ, |roundRat q - q| ≤ |n * 2 ^ lastBit q - q| := by
      intro n
      have h := roundEven_near (q / 2 ^ lastBit q) n
      have hp := two_pos (lastBit q)
      have e1 : ∀ x : ℚ, x * 2 ^ lastBit q - q = (x - q / 2 ^ lastBit q) * 2 ^ lastBit q := by
        intro x; rw [sub_mul, div_mul_cancel₀ _ hp.ne']
      unfold roundRat
      rw [e1, e1, abs_mul, abs_mul, abs_of_pos hp]
      exact mul_le_mul_of_nonneg_right h hp.le
    rcases le_or_gt (lastBit q) e with hl | hl
    · obtain ⟨k, hk⟩ := Int.le.dest hl
      have := grid (m * 2 ^ k)
      rw [show (((m * 2 ^ k : ℤ) : ℚ) * 2 ^ lastBit q) = m * 2 ^ e by
        rw [← hk, zpow_add₀ (by norm_num)]; push_cast; rw [zpow_natCast]; ring] at this
      exact this
    · have hb := bits_le h0 (by omega)
      have hg := grid (2 ^ 23)
      have e1 : ((2 ^ 23 : ℤ) : ℚ) * 2 ^ lastBit q = 2 ^ (lastBit q + 23) := by
        rw [zpow_add₀ (by norm_num)]; push_cast; ring
      rw [e1] at hg
      have hy : (m : ℚ) * 2 ^ e ≤ 2 ^ (lastBit q + 23) := by
        have h1 : (m : ℚ) ≤ 2 ^ 24 := by exact_mod_cast hm.le
        calc (m : ℚ) * 2 ^ e ≤ 2 ^ 24 * 2 ^ e := mul_le_mul_of_nonneg_right h1 (two_pos _).le
          _ = 2 ^ (e + 24) := by rw [add_comm, zpow_add₀ (by norm_num)]; norm_num
          _ ≤ _ := two_le (by omega)
      refine le_trans hg ?_
      rw [abs_sub_comm, abs_of_nonneg (by linarith), abs_sub_comm, abs_of_nonneg (by linarith)]
      linarith

/-- The result of rounding is representable, unless it is too large. -/
theorem rep_roundRat {q : ℚ} (hq : 0 ≤ q) (h : roundRat q < 2 ^ 128) : Rep (roundRat q) := by
  rcases hq.eq_or_lt with h0 | h0
  · rw [← h0, roundRat_zero]; exact ⟨0, 0, by norm_num, by norm_num, by norm_num, by simp⟩
  · have hlow : -149 ≤ lastBit q := by unfold lastBit; omega
    have hn : 0 ≤ roundEven (q / 2 ^ lastBit q) := by
      have := roundEven_mono (div_nonneg' hq)
      rwa [show roundEven 0 = 0 from by simpa using roundEven_int 0] at this
    obtain ⟨m, hm⟩ := Int.eq_ofNat_of_zero_le hn
    have hr : roundRat q = m * 2 ^ lastBit q := by unfold roundRat; rw [hm]; simp
    have hle : (m : ℚ) ≤ 2 ^ 24 := by
      have := roundRat_le_bits h0
      rw [hr, add_comm, zpow_add₀ (by norm_num)] at this
      have := le_of_mul_le_mul_right this (two_pos _)
      exact_mod_cast this
    have hle' : m ≤ 2 ^ 24 := by exact_mod_cast hle
    have hhi : lastBit q ≤ 104 := by
      by_contra hc
      have := le_roundRat_bits h0 (by omega)
      have h2 : (2 : ℚ) ^ (128 : ℕ) ≤ 2 ^ (lastBit q + 23) := by
        rw [← zpow_natCast]; exact two_le (by push_cast; omega)
      linarith
    rcases hle'.lt_or_eq with hl | he
    · exact ⟨m, lastBit q, hl, hlow, hhi, hr⟩
    · refine ⟨2 ^ 23, lastBit q + 1, by norm_num, by omega, ?_, ?_⟩
      · by_contra hc
        have : lastBit q = 104 := by omega
        rw [hr, he, this] at h
        norm_num at h
      · rw [hr, he, zpow_add₀ (by norm_num)]; push_cast; ring

/-! ### Operations -/

theorem round_fin {q : ℚ} (h : roundRat q < 2 ^ 128) : round q = .fin (roundRat q) := by
  unfold round; rw [if_pos h]

/-- Rounding does not overflow up to the largest power of two. -/
theorem round_ok {q : ℚ} (h0 : 0 ≤ q) (h : q ≤ 2 ^ (127 : ℤ)) : round q = .fin (roundRat q) := by
  refine round_fin (lt_of_le_of_lt (roundRat_mono h0 h) ?_)
  rw [roundRat_pow (by norm_num)]
  norm_num

theorem ofNat_eq {n : ℕ} (h : n < 2 ^ 64) : ofNat n = .fin (roundRat n) := by
  refine round_ok (by positivity) ?_
  have : (n : ℚ) ≤ 2 ^ 64 := by exact_mod_cast h.le
  refine le_trans this ?_
  norm_num

theorem roundRat_pos {n : ℕ} (h : n ≠ 0) : 1 ≤ roundRat n := by
  have h1 : (1 : ℚ) ≤ n := by exact_mod_cast Nat.one_le_iff_ne_zero.mpr h
  have := roundRat_mono (by norm_num) h1
  have h2 := roundRat_nat (n := 1) (by norm_num)
  push_cast at h2
  rwa [h2] at this

theorem roundRat_ne_zero {n : ℕ} : roundRat n = 0 ↔ n = 0 := by
  constructor
  · intro h
    by_contra hn
    have := roundRat_pos hn
    linarith
  · rintro rfl; simpa using roundRat_zero

end F32
end EthTrie
