import Verif.Float.Lemmas

/-!
# Quotients and percentages of counters
-/

namespace EthTrie
namespace F32

/-- The quotient of two counters, rounded. -/
theorem div_counters {a b : ℕ} (ha : a < 2 ^ 64) (hb : b < 2 ^ 64) :
    div (ofNat a) (ofNat b) = if b = 0 then if a = 0 then .nan else .inf
      else .fin (roundRat (roundRat a / roundRat b)) := by
  rw [ofNat_eq ha, ofNat_eq hb]
  simp only [div, roundRat_ne_zero]
  split_ifs with h0
  · rfl
  · rfl
  · have h1 := roundRat_pos h0
    refine round_ok (div_nonneg (roundRat_nonneg (by positivity)) (by linarith)) ?_
    have h2 : roundRat a ≤ 2 ^ (64 : ℤ) := by
      have h3 : (a : ℚ) ≤ 2 ^ (64 : ℤ) := by exact_mod_cast ha.le
      have := roundRat_mono (by positivity) h3
      rwa [roundRat_pow (by norm_num)] at this
    rw [div_le_iff₀ (by linarith)]
    have h4 : (2 : ℚ) ^ (64 : ℤ) ≤ 2 ^ (127 : ℤ) := two_le (by norm_num)
    nlinarith [two_pos 127]

theorem ofNat_100 : ofNat 100 = .fin 100 := by decide +kernel

/-- The percentage of two counters, rounded. -/
theorem perc_counters {a b : ℕ} (ha : a < 2 ^ 64) (hb : b < 2 ^ 64) :
    mul (div (ofNat a) (ofNat b)) (ofNat 100) = if b = 0 then if a = 0 then .nan else .inf
      else .fin (roundRat (roundRat (roundRat a / roundRat b) * 100)) := by
  rw [div_counters ha hb, ofNat_100]
  split_ifs with h0
  · rfl
  · rfl
  · have h1 := roundRat_pos h0
    have h2 : roundRat a ≤ 2 ^ (64 : ℤ) := by
      have h3 : (a : ℚ) ≤ 2 ^ (64 : ℤ) := by exact_mod_cast ha.le
      have := roundRat_mono (by positivity) h3
      rwa [roundRat_pow (by norm_num)] at this
    have hn : 0 ≤ roundRat a / roundRat b :=
      div_nonneg (roundRat_nonneg (by positivity)) (by linarith)
    have h3 : roundRat (roundRat a / roundRat b) ≤ 2 ^ (64 : ℤ) := by
      rw [← roundRat_pow (e := 64) (by norm_num)]
      refine roundRat_mono hn ?_
      rw [div_le_iff₀ (by linarith)]
      nlinarith [two_pos 64]
    refine round_ok (by have := roundRat_nonneg hn; linarith) ?_
    have : (2 : ℚ) ^ (64 : ℤ) * 100 ≤ 2 ^ (127 : ℤ) := by norm_num
    linarith

/-- Percentages are at most 100. -/
theorem perc_le {a b : ℕ} (h : a ≤ b) (hb : b ≠ 0) :
    0 ≤ roundRat (roundRat (roundRat a / roundRat b) * 100) ∧
      roundRat (roundRat (roundRat a / roundRat b) * 100) ≤ 100 := by
  have h1 := roundRat_pos hb
  have h2 : roundRat a ≤ roundRat b := roundRat_mono (by positivity) (by exact_mod_cast h)
  have hn : 0 ≤ roundRat a / roundRat b :=
    div_nonneg (roundRat_nonneg (by positivity)) (by linarith)
  have h3 : roundRat (roundRat a / roundRat b) ≤ 1 := by
    have := roundRat_mono hn (show roundRat a / roundRat b ≤ ((1 : ℕ) : ℚ) by
      rw [div_le_iff₀ (by linarith)]; simpa using h2)
    rw [roundRat_nat (n := 1) (by norm_num)] at this
    simpa using this
  have h4 := roundRat_nonneg hn
  refine ⟨roundRat_nonneg (by linarith), ?_⟩
  have := roundRat_mono (by linarith)
    (show roundRat (roundRat a / roundRat b) * 100 ≤ ((100 : ℕ) : ℚ) by push_cast; linarith)
  rw [roundRat_nat (n := 100) (by norm_num)] at this
  simpa using this

/-- `x` is `y` up to a factor between `1 - k / 2 ^ 24` and `1 + k / 2 ^ 24`. -/
def Close (k : ℚ) (x y : ℚ) : Prop := |x - y| ≤ y * (k / 2 ^ 24)

theorem close_nat (n : ℕ) : Close 1 (roundRat n) n := by
  unfold Close
  rcases Nat.eq_zero_or_pos n with h | h
  · subst h; simp [roundRat_zero]
  · have h1 : (1 : ℚ) ≤ n := by exact_mod_cast h
    have := roundRat_rel (q := n) (le_trans (by norm_num) h1)
    rw [mul_one_div]
    exact this

/-- The rounded quotient of two rounded counters. -/
theorem close_quot {a b : ℕ} (hb' : b < 2 ^ 64) (hb : b ≠ 0) :
    Close 4 (roundRat (roundRat a / roundRat b)) (a / b) := by
  rcases Nat.eq_zero_or_pos a with h0 | h0
  · subst h0; simp [Close, roundRat_zero]
  · have ca := close_nat a
    have cb := close_nat b
    have pa := roundRat_pos (n := a) (by omega)
    have pb := roundRat_pos hb
    have ha1 : (1 : ℚ) ≤ a := by exact_mod_cast h0
    have hb1 : (1 : ℚ) ≤ b := by exact_mod_cast Nat.pos_of_ne_zero hb
    have hb64 : (b : ℚ) ≤ 2 ^ 64 := by exact_mod_cast hb'.le
    unfold Close at ca cb
    rw [abs_le] at ca cb
    have hq : (2 : ℚ) ^ (-126 : ℤ) ≤ roundRat a / roundRat b := by
      rw [le_div_iff₀ (by linarith)]
      have h1 : roundRat b ≤ 2 * 2 ^ 64 := by norm_num at cb ⊢; linarith
      have h2 : (2 : ℚ) ^ (-126 : ℤ) * (2 * 2 ^ 64) ≤ 1 := by norm_num
      have := two_pos (-126)
      nlinarith
    have cq := roundRat_rel hq
    rw [abs_le] at cq
    have pq : 0 < roundRat a / roundRat b := div_pos (by linarith) (by linarith)
    generalize roundRat (roundRat a / roundRat b) = r at cq
    generalize hx : roundRat a / roundRat b = x at cq pq
    have ex : roundRat a = x * roundRat b := by rw [← hx]; field_simp
    generalize roundRat a = A at ca pa ex
    generalize roundRat b = B at cb pb ex
    subst ex
    generalize hy : (a : ℚ) / b = y
    have ey : (a : ℚ) = y * b := by rw [← hy]; field_simp
    have py : 0 < y := by rw [← hy]; positivity
    rw [ey] at ca
    -- `x` against `y`
    have hxy1 : x ≤ y * (1 + 5 / 2 / 2 ^ 24) := by
      by_contra hc
      have hc := not_le.mp hc
      have : y * (1 + 5 / 2 / 2 ^ 24) * (b * (1 - 1 / 2 ^ 24)) < y * b * (1 + 1 / 2 ^ 24) := by
        refine lt_of_lt_of_le ?_ (show x * B ≤ _ by linarith [ca.2])
        refine lt_of_lt_of_le (mul_lt_mul_of_pos_right hc (mul_pos (by linarith) (by norm_num))) ?_
        exact mul_le_mul_of_nonneg_left (by linarith [cb.1]) pq.le
      have hyb : 0 < y * b := by positivity
      have e : y * (1 + 5 / 2 / 2 ^ 24) * (b * (1 - 1 / 2 ^ 24)) =
        y * b * ((1 + 5 / 2 / 2 ^ 24) * (1 - 1 / 2 ^ 24)) := by ring
      rw [e] at this
      have := (mul_lt_mul_iff_right₀ hyb).mp this
      norm_num at this
    have hxy2 : y * (1 - 5 / 2 / 2 ^ 24) ≤ x := by
      by_contra hc
      have hc := not_le.mp hc
      have : y * b * (1 - 1 / 2 ^ 24) < y * (1 - 5 / 2 / 2 ^ 24) * (b * (1 + 1 / 2 ^ 24)) := by
        refine lt_of_le_of_lt (show _ ≤ x * B by linarith [ca.1]) ?_
        refine lt_of_le_of_lt (mul_le_mul_of_nonneg_left (show B ≤ b * (1 + 1 / 2 ^ 24) by linarith [cb.2]) pq.le) ?_
        exact mul_lt_mul_of_pos_right hc (by positivity)
      have hyb : 0 < y * b := by positivity
      have e : y * (1 - 5 / 2 / 2 ^ 24) * (b * (1 + 1 / 2 ^ 24)) =
        y * b * ((1 - 5 / 2 / 2 ^ 24) * (1 + 1 / 2 ^ 24)) := by ring
      rw [e] at this
      have := (mul_lt_mul_iff_right₀ hyb).mp this
      norm_num at this
    unfold Close
    rw [abs_le]
    norm_num at hxy1 hxy2 cq ⊢
    constructor <;> linarith [cq.1, cq.2]

/-- The rounded percentage of two rounded counters. -/
theorem close_perc {a b : ℕ} (hb' : b < 2 ^ 64) (hb : b ≠ 0) :
    Close 6 (roundRat (roundRat (roundRat a / roundRat b) * 100)) (100 * (a / b)) := by
  rcases Nat.eq_zero_or_pos a with h0 | h0
  · subst h0; simp [Close, roundRat_zero]
  · have cq := close_quot (a := a) hb' hb
    have ha1 : (1 : ℚ) ≤ a := by exact_mod_cast h0
    have hb1 : (1 : ℚ) ≤ b := by exact_mod_cast Nat.pos_of_ne_zero hb
    have hb64 : (b : ℚ) ≤ 2 ^ 64 := by exact_mod_cast hb'.le
    have hy : (1 : ℚ) / 2 ^ 64 ≤ a / b := by
      rw [div_le_div_iff₀ (by norm_num) (by linarith)]
      nlinarith
    generalize roundRat (roundRat a / roundRat b) = x at cq
    generalize (a : ℚ) / b = y at cq hy
    unfold Close at cq ⊢
    rw [abs_le] at cq
    have hx : (2 : ℚ) ^ (-126 : ℤ) ≤ x * 100 := by
      norm_num at cq hy ⊢; linarith [cq.1]
    have cr := roundRat_rel hx
    rw [abs_le] at cr ⊢
    generalize roundRat (x * 100) = z at cr
    norm_num at cr cq ⊢
    constructor <;> linarith [cr.1, cr.2, cq.1, cq.2]

/-- Small counters: the quotient is rounded correctly. -/
theorem quot_small {a b : ℕ} (ha : a ≤ 2 ^ 24) (hb : b ≤ 2 ^ 24) :
    roundRat (roundRat a / roundRat b) = roundRat (a / b) := by
  rw [roundRat_nat ha, roundRat_nat hb]

end F32
end EthTrie
