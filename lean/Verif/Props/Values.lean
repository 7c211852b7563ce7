import Verif.Trie.Values
import Verif.Trie.Sim

/-!
# Property C42: integers as values
-/

namespace EthTrie

open Spec

/-- `b` is the big-endian representation of `v` with `k` bytes. -/
def IsBE (k v : Nat) (b : Bytes) : Prop := b.length = k ∧ bytesVal b = v

/-- There is only one such representation. -/
theorem IsBE.unique {k v : Nat} {a b : Bytes} (ha : IsBE k v a) (hb : IsBE k v b) : a = b := by
  induction a generalizing k v b with
  | nil =>
    have h1 : 0 = k := ha.1
    have h2 := hb.1
    exact (List.eq_nil_of_length_eq_zero (by omega)).symm
  | cons x a ih =>
    cases b with
    | nil => have := ha.1; have := hb.1; simp at *; omega
    | cons y b =>
      have hl : a.length = b.length := by have := ha.1; have := hb.1; simp at *; omega
      have h := ha.2.trans hb.2.symm
      simp only [bytesVal_cons, hl] at h
      have h1 := bytesVal_lt a
      have h2 := bytesVal_lt b
      rw [hl] at h1
      have hxy : x.toNat = y.toNat := by
        rcases Nat.lt_trichotomy x.toNat y.toNat with g | g | g
        · have := Nat.mul_le_mul_right (256 ^ b.length) (show x.toNat + 1 ≤ y.toNat from g)
          rw [Nat.add_mul] at this; omega
        · exact g
        · have := Nat.mul_le_mul_right (256 ^ b.length) (show y.toNat + 1 ≤ x.toNat from g)
          rw [Nat.add_mul] at this; omega
      rw [hxy] at h
      have := UInt8.toNat_inj.1 hxy
      subst this
      rw [ih (k := a.length) (v := bytesVal a) (b := b) ⟨rfl, rfl⟩ ⟨hl.symm, by omega⟩]

theorem toBeBytes_isBE (k : Nat) : ∀ v, v < 256 ^ k → IsBE k v (toBeBytes k v) := by
  induction k with
  | zero => intro v h; simp at h; subst h; exact ⟨rfl, rfl⟩
  | succ k ih =>
    intro v h
    obtain ⟨h1, h2⟩ := ih (v / 256) (by rw [Nat.pow_succ] at h; exact Nat.div_lt_of_lt_mul (by omega))
    refine ⟨by simp [toBeBytes, h1], ?_⟩
    have : (UInt8.ofNat (v % 256)).toNat = v % 256 := by simp
    simp only [toBeBytes, bytesVal_append, h2, bytesVal_cons, bytesVal_nil, this,
      List.length_singleton, List.length_nil]
    omega

/-- C42 for the primitive types `u8`, `u16`, `u32`, `u64` (`k` = 1, 2, 4, 8). -/
theorem C42_prim (k v : Nat) (h : v < 2 ^ (8 * k)) : ∃ b, valOfPrim k v = .val b ∧ IsBE k v b :=
  ⟨_, rfl, toBeBytes_isBE k v (by rwa [Nat.pow_mul] at h)⟩

/-- Bytes and hashes are taken as they are. -/
theorem C42_bytes (b : Bytes) (h : H256) : (valOfBytes b).expectVal = .ok b ∧
    (valOfHash h).expectHash = .ok h := ⟨rfl, rfl⟩

/-- C42: the accessors `expect_val` and `expect_hash` return what was put in, and panic on the other
variant. -/
theorem C42_expect (x : ValOrHash) :
    (∀ h, x.expectHash = .ok h ↔ x = .hash h) ∧ (∀ b, x.expectVal = .ok b ↔ x = .val b) ∧
      (x.expectHash = .error .expectFailed ↔ ∃ b, x = .val b) ∧
      (x.expectVal = .error .expectFailed ↔ ∃ h, x = .hash h) := by
  cases x <;> simp [ValOrHash.expectHash, ValOrHash.expectVal]

example : (valOfBytes [1]).expectHash = .error .expectFailed ∧
    (valOfHash (Vector.replicate 32 7)).expectVal = .error .expectFailed := by decide +kernel

theorem writeWords_ok (n v : Nat) : ∀ (m : Nat) (buf : Bytes), m ≤ n → 8 * n ≤ buf.length →
    ∃ b, writeWords n v m buf = .ok (buf.take (8 * (n - m)) ++ b ++ buf.drop (8 * n)) ∧
      IsBE (8 * m) (v % 2 ^ (64 * m)) b := by
  intro m
  induction m with
  | zero =>
    intro buf _ _
    exact ⟨[], by simp [writeWords], by simp [IsBE, Nat.mod_one]⟩
  | succ m ih =>
    intro buf hm hl
    have hw := toBeBytes_isBE 8 (v / 2 ^ (64 * m) % 2 ^ 64) (Nat.mod_lt _ (by decide))
    obtain ⟨b, h1, h2⟩ := ih (buf.take (8 * (n - (m + 1))) ++
      toBeBytes 8 (v / 2 ^ (64 * m) % 2 ^ 64) ++ buf.drop (8 * (n - (m + 1)) + 8)) (by omega) (by
        simp only [List.length_append, hw.1, List.length_take, List.length_drop]; omega)
    refine ⟨toBeBytes 8 (v / 2 ^ (64 * m) % 2 ^ 64) ++ b, ?_, ?_, ?_⟩
    · simp only [writeWords, writeU64]
      rw [if_pos (by omega), R_bind_ok, h1]
      congr 1
      have e1 : (buf.take (8 * (n - (m + 1)))).length = 8 * (n - (m + 1)) := by
        rw [List.length_take]; omega
      rw [List.take_append_of_le_length (by rw [List.length_append, e1, hw.1]; omega),
        List.take_of_length_le (by rw [List.length_append, e1, hw.1]; omega),
        List.drop_append, List.drop_of_length_le (by rw [List.length_append, e1, hw.1]; omega),
        List.drop_drop, List.length_append, e1, hw.1]
      simp only [List.nil_append, List.append_assoc]
      congr 4
      omega
    · rw [List.length_append, hw.1, h2.1]; omega
    · rw [bytesVal_append, hw.2, h2.2, h2.1, show 64 * (m + 1) = 64 * m + 64 by omega, Nat.pow_add,
        Nat.mod_mul, show (256 : Nat) = 2 ^ 8 from rfl, ← Nat.pow_mul, show 8 * (8 * m) = 64 * m by omega]
      rw [Nat.mul_comm, Nat.add_comm]

theorem writeWords_short (n v : Nat) : ∀ (m : Nat) (buf : Bytes), 0 < m → m ≤ n →
    buf.length < 8 * n → writeWords n v m buf = .error .indexOutOfBounds := by
  intro m
  induction m with
  | zero => intro _ h; omega
  | succ m ih =>
    intro buf _ hm hl
    simp only [writeWords, writeU64]
    split
    · rw [R_bind_ok]
      refine ih _ (by omega) (by omega) ?_
      simp only [List.length_append, List.length_take, List.length_drop,
        (toBeBytes_isBE 8 (v / 2 ^ (64 * m) % 2 ^ 64) (Nat.mod_lt _ (by decide))).1]
      omega
    · rfl

theorem valOfEth_eq (P : Profile) (n v : Nat) (r : R Bytes)
    (hc : P.overflowChecks = false ∨ n = 4)
    (h : writeWords n v n (List.replicate 32 0) = r) : valOfEth P n v = r.map .val := by
  have hb : toBigEndian P n v (List.replicate 32 0) = r := by
    rcases hc with hc | rfl
    · simp only [toBigEndian, hc, h]; rfl
    · simp only [toBigEndian, rassert, List.length_replicate, h]
      cases P.overflowChecks <;> rfl
  rw [valOfEth, hb]
  cases r <;> rfl

/-- C42 for `U256`. -/
theorem C42_u256_partial (P : Profile) (v : Nat) (h : v < 2 ^ 256) :
    ∃ b, valOfEth P 4 v = .ok (.val b) ∧ IsBE 32 v b := by
  obtain ⟨b, h1, h2⟩ := writeWords_ok 4 v 4 (List.replicate 32 0) (by omega) (by simp)
  refine ⟨b, ?_, ?_⟩
  · have h3 : List.take (8 * (4 - 4)) (List.replicate 32 (0 : UInt8)) ++ b ++
        List.drop (8 * 4) (List.replicate 32 0) = b := by simp
    rw [h3] at h1
    exact valOfEth_eq P 4 v _ (.inr rfl) h1
  · rwa [Nat.mod_eq_of_lt h] at h2

/-- C42 is false for `U512`: converting any number panics. -/
theorem C42_false_u512 (P : Profile) (v : Nat) : ∃ e, valOfEth P 8 v = .error e := by
  obtain ⟨oc⟩ := P
  cases oc
  · exact ⟨.indexOutOfBounds, valOfEth_eq _ 8 v _ (.inl rfl)
      (writeWords_short 8 v 8 (List.replicate 32 0) (by omega) (by omega) (by simp))⟩
  · exact ⟨.assertFailed, by simp [valOfEth, toBigEndian, rassert]⟩

/-- C42 is false for `U128` in builds with debug assertions: converting any number panics. -/
theorem C42_false_u128_checked (v : Nat) : valOfEth .debug 2 v = .error .assertFailed := by
  simp [valOfEth, toBigEndian, rassert, Profile.debug]

/-- C42 is false for `U128` in other builds: the 16 bytes of the number are followed by 16 zeros. -/
theorem C42_false_u128_release (v : Nat) (h : v < 2 ^ 128) :
    ∃ b, valOfEth .release 2 v = .ok (.val (b ++ List.replicate 16 0)) ∧ IsBE 16 v b := by
  obtain ⟨b, h1, h2⟩ := writeWords_ok 2 v 2 (List.replicate 32 0) (by omega) (by simp)
  refine ⟨b, ?_, ?_⟩
  · have h3 : List.take (8 * (2 - 2)) (List.replicate 32 (0 : UInt8)) ++ b ++
        List.drop (8 * 2) (List.replicate 32 0) = b ++ List.replicate 16 0 := by simp
    rw [h3] at h1
    exact valOfEth_eq .release 2 v _ (.inl rfl) h1
  · rwa [Nat.mod_eq_of_lt h] at h2

/-- Concrete values. -/
example : valOfPrim 4 0x01020304 = .val [1, 2, 3, 4] := by decide +kernel
example : valOfEth .debug 4 0x0102 = .ok (.val (List.replicate 30 0 ++ [1, 2])) := by decide +kernel
example : valOfEth .release 2 0x0102 =
    .ok (.val (List.replicate 14 0 ++ [1, 2] ++ List.replicate 16 0)) := by decide +kernel

end EthTrie
