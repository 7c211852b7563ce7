import Mathlib.Data.Nat.Digits.Lemmas
import Verif.Trie.YP

/-!
# RLP can be read back
-/

namespace EthTrie
namespace Spec

/-! ### Lengths -/

theorem be_length_mono {a b : Nat} (h : a ≤ b) : (be a).length ≤ (be b).length := by
  simp only [be, List.length_map, List.length_reverse]
  exact Nat.le_length_digits_le 256 a b h

theorem be_length_le {n : Nat} (h : n < 2 ^ 64) : (be n).length ≤ 8 := by
  simp only [be, List.length_map, List.length_reverse]
  rw [Nat.digits_length_le_iff (by decide)]
  exact h

theorem be_length_pos {n : Nat} (h : 0 < n) : 0 < (be n).length := by
  simp only [be, List.length_map, List.length_reverse]
  rw [List.length_pos_iff]
  exact Nat.digits_ne_nil_iff_ne_zero.2 (by omega)

theorem bytesVal_digits (l : List Nat) (h : ∀ d ∈ l, d < 256) :
    bytesVal (l.reverse.map UInt8.ofNat) = Nat.ofDigits 256 l := by
  induction l with
  | nil => rfl
  | cons d l ih =>
    rw [List.reverse_cons, List.map_append, bytesVal_append, ih fun e he => h e (by simp [he]),
      Nat.ofDigits_cons]
    have : (UInt8.ofNat d).toNat = d := by
      rw [UInt8.toNat_ofNat']
      exact Nat.mod_eq_of_lt (h d (by simp))
    simp [bytesVal_cons, this]
    omega

theorem bytesVal_be (n : Nat) : bytesVal (be n) = n := by
  rw [be, bytesVal_digits _ fun d hd => Nat.digits_lt_base (by decide) hd, Nat.ofDigits_digits]

/-- How long the first item of a stream is. -/
def itemLen : Bytes → Nat
  | [] => 0
  | b :: r =>
    if b.toNat < 128 then 1
    else if b.toNat < 184 then 1 + (b.toNat - 128)
    else if b.toNat < 192 then 1 + (b.toNat - 183) + bytesVal (r.take (b.toNat - 183))
    else 1 + (b.toNat - 192)

/-- The encoding of a string, or of a short list. -/
inductive RlpItem : Bytes → Prop
  | str (x : Bytes) (h : x.length < 2 ^ 64) : RlpItem (rlpStr x)
  | list (p : Bytes) (h : p.length < 56) : RlpItem (UInt8.ofNat (192 + p.length) :: p)

theorem toNat_ofNat {n : Nat} (h : n < 256) : (UInt8.ofNat n).toNat = n := by
  rw [UInt8.toNat_ofNat']
  exact Nat.mod_eq_of_lt h

theorem RlpItem.len {x : Bytes} (h : RlpItem x) (r : Bytes) : itemLen (x ++ r) = x.length := by
  cases h with
  | list p h =>
    have := toNat_ofNat (n := 192 + p.length) (by omega)
    simp only [List.cons_append, itemLen, this, List.length_cons]
    rw [if_neg (by omega), if_neg (by omega), if_neg (by omega)]
    omega
  | str x h =>
    unfold rlpStr
    split
    · rename_i h1
      obtain ⟨b, rfl⟩ := List.length_eq_one_iff.1 h1.1
      have := h1.2
      simp only [bytesVal_cons, bytesVal_nil, List.length_nil, Nat.pow_zero] at this
      simp only [List.cons_append, itemLen, List.length_singleton]
      rw [if_pos (by omega)]
    · split
      · rename_i h1
        have := toNat_ofNat (n := 128 + x.length) (by omega)
        simp only [List.cons_append, itemLen, this, List.length_cons]
        rw [if_neg (by omega), if_pos (by omega)]
        omega
      · have h1 := be_length_le h
        have h2 := be_length_pos (n := x.length) (by omega)
        have := toNat_ofNat (n := 183 + (be x.length).length) (by omega)
        simp only [List.cons_append, itemLen, this, List.length_cons, List.length_append,
          List.append_assoc]
        rw [if_neg (by omega), if_neg (by omega), if_pos (by omega)]
        rw [show 183 + (be x.length).length - 183 = (be x.length).length by omega,
          List.take_left, bytesVal_be]
        omega

theorem RlpItem.pos {x : Bytes} (h : RlpItem x) : x ≠ [] := by
  cases h with
  | list p h => simp
  | str x h =>
    unfold rlpStr
    split
    · rename_i h1
      rintro rfl; simp at h1
    · split <;> simp

/-- Items can be separated. -/
theorem RlpItem.split {x y r r' : Bytes} (hx : RlpItem x) (hy : RlpItem y) (h : x ++ r = y ++ r') :
    x = y ∧ r = r' := by
  have := hx.len r
  rw [h, hy.len r'] at this
  exact List.append_inj h this.symm

/-- Sequences of items can be read back. -/
theorem items_inj : ∀ {xs ys : List Bytes}, (∀ x ∈ xs, RlpItem x) → (∀ y ∈ ys, RlpItem y) →
    xs.flatten = ys.flatten → xs = ys
  | [], [], _, _, _ => rfl
  | [], y :: ys, _, hy, h => by
    have := (hy y (by simp)).pos
    simp only [List.flatten_nil, List.flatten_cons] at h
    have := congrArg List.length h
    simp only [List.length_nil, List.length_append] at this
    exact absurd (List.eq_nil_of_length_eq_zero (by omega)) (hy y (by simp)).pos
  | x :: xs, [], hx, _, h => by
    have := congrArg List.length h
    simp only [List.flatten_cons, List.flatten_nil, List.length_nil, List.length_append] at this
    exact absurd (List.eq_nil_of_length_eq_zero (by omega)) (hx x (by simp)).pos
  | x :: xs, y :: ys, hx, hy, h => by
    simp only [List.flatten_cons] at h
    obtain ⟨rfl, h'⟩ := (hx x (by simp)).split (hy y (by simp)) h
    rw [items_inj (fun z hz => hx z (by simp [hz])) (fun z hz => hy z (by simp [hz])) h']

/-- The payload of a list can be read back, whatever its length is. -/
theorem rlpSeq_inj {xs ys : List Bytes} (h : rlpSeq xs = rlpSeq ys) : xs.flatten = ys.flatten := by
  unfold rlpSeq at h
  split at h <;> split at h
  · exact (List.cons.inj h).2
  · rename_i h1 h2
    have := congrArg List.length h
    have := be_length_pos (n := ys.flatten.length) (by omega)
    simp only [List.length_cons, List.length_append] at *
    omega
  · rename_i h1 h2
    have := congrArg List.length h
    have := be_length_pos (n := xs.flatten.length) (by omega)
    simp only [List.length_cons, List.length_append] at *
    omega
  · have hl := congrArg List.length h
    simp only [List.length_cons, List.length_append] at hl
    have he : xs.flatten.length = ys.flatten.length := by
      rcases Nat.lt_trichotomy xs.flatten.length ys.flatten.length with hlt | he | hlt
      · have := be_length_mono (Nat.le_of_lt hlt); omega
      · exact he
      · have := be_length_mono (Nat.le_of_lt hlt); omega
    have h2 := (List.cons.inj h).2
    rw [he] at h2
    exact (List.append_inj h2 rfl).2

/-- Strings can be read back. -/
theorem rlpStr_inj {x y : Bytes} (h : rlpStr x = rlpStr y) : x = y := by
  have single : ∀ {b : UInt8}, b.toNat < 128 → ∀ z : Bytes, ¬(z.length = 1 ∧ bytesVal z < 128) →
      rlpStr z ≠ [b] := by
    intro b hb z hz h
    unfold rlpStr at h
    rw [if_neg hz] at h
    split at h
    · rename_i h1
      have := toNat_ofNat (n := 128 + z.length) (by omega)
      have h2 := (List.cons.inj h).1
      rw [h2] at this
      omega
    · rename_i h1
      have := be_length_pos (n := z.length) (by omega)
      have h2 := congrArg List.length h
      simp only [List.length_cons, List.length_append, List.length_nil] at h2
      omega
  have key : ∀ {z : Bytes}, z.length = 1 ∧ bytesVal z < 128 → ∃ b : UInt8, z = [b] ∧ b.toNat < 128 := by
    intro z hz
    obtain ⟨b, rfl⟩ := List.length_eq_one_iff.1 hz.1
    refine ⟨b, rfl, ?_⟩
    have := hz.2
    simp only [bytesVal_cons, bytesVal_nil, List.length_nil, Nat.pow_zero] at this
    omega
  by_cases hx : x.length = 1 ∧ bytesVal x < 128
  · obtain ⟨b, rfl, hb⟩ := key hx
    by_cases hy : y.length = 1 ∧ bytesVal y < 128
    · unfold rlpStr at h
      rwa [if_pos hx, if_pos hy] at h
    · refine absurd ?_ (single hb y hy)
      rw [← h, rlpStr, if_pos hx]
  · by_cases hy : y.length = 1 ∧ bytesVal y < 128
    · obtain ⟨b, rfl, hb⟩ := key hy
      refine absurd ?_ (single hb x hx)
      rw [h, rlpStr, if_pos hy]
    · unfold rlpStr at h
      rw [if_neg hx, if_neg hy] at h
      split at h <;> split at h
      · exact (List.cons.inj h).2
      · rename_i h1 h2
        have := congrArg List.length h
        have := be_length_pos (n := y.length) (by omega)
        simp only [List.length_cons, List.length_append] at *
        omega
      · rename_i h1 h2
        have := congrArg List.length h
        have := be_length_pos (n := x.length) (by omega)
        simp only [List.length_cons, List.length_append] at *
        omega
      · have hl := congrArg List.length h
        simp only [List.length_cons, List.length_append] at hl
        have he : x.length = y.length := by
          rcases Nat.lt_trichotomy x.length y.length with hlt | he | hlt
          · have := be_length_mono (Nat.le_of_lt hlt); omega
          · exact he
          · have := be_length_mono (Nat.le_of_lt hlt); omega
        have h2 := (List.cons.inj h).2
        rw [he] at h2
        exact (List.append_inj h2 rfl).2

end Spec
end EthTrie
