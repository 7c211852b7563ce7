import Verif.Spec.Keys
import Verif.Rust

/-!
# Specification vocabulary: byte strings, hex-prefix encoding
-/

namespace EthTrie
namespace Spec

/-- The number denoted by a big-endian byte string. -/
def bytesVal (bs : Bytes) : Nat := bs.foldl (fun a b => a * 256 + b.toNat) 0

/-- The last `c` base-256 digits of `v`, most significant first. -/
def beBytes (v : Nat) : Nat → Bytes
  | 0 => []
  | c + 1 => beBytes (v / 256) c ++ [UInt8.ofNat (v % 256)]

/-- The nibbles of a byte string: high nibble first. -/
def nibblesOfBytes (bs : Bytes) : Key :=
  bs.flatMap fun b => [Fin.ofNat 16 (b.toNat / 16), Fin.ofNat 16 b.toNat]

/-- Pack pairs of nibbles into bytes (a trailing single nibble is ignored). -/
def pairs : Key → Bytes
  | a :: b :: r => UInt8.ofNat (16 * a.val + b.val) :: pairs r
  | _ => []

/-- Bytes of a nibble sequence; a sequence of odd length is padded with a zero nibble in front. -/
def bytesOfNibbles (l : Key) : Bytes :=
  if l.length % 2 = 0 then pairs l else pairs (0 :: l)

/-- Yellow paper, appendix C: hex-prefix encoding. -/
def HP (x : Key) (t : Bool) : Bytes :=
  let f := if t then 2 else 0
  if x.length % 2 = 0 then UInt8.ofNat (16 * f) :: pairs x
  else match x with
    | [] => []
    | x0 :: r => UInt8.ofNat (16 * (f + 1) + x0.val) :: pairs r

/-- Length of the longest common prefix. -/
def cpl : Key → Key → Nat
  | x :: xs, y :: ys => if x = y then cpl xs ys + 1 else 0
  | _, _ => 0

/-! ### Basic facts -/

@[simp] theorem bytesVal_nil : bytesVal [] = 0 := rfl

theorem foldl_bytesVal (l : Bytes) (a : Nat) :
    l.foldl (fun a b => a * 256 + b.toNat) a = a * 256 ^ l.length + bytesVal l := by
  unfold bytesVal
  induction l generalizing a with
  | nil => simp
  | cons d l ih =>
    simp only [List.foldl_cons, List.length_cons]
    rw [ih (a * 256 + d.toNat), ih (0 * 256 + d.toNat)]
    simp [Nat.pow_succ, Nat.add_mul, Nat.mul_assoc, Nat.mul_comm 256, Nat.add_assoc]

theorem bytesVal_append (a b : Bytes) :
    bytesVal (a ++ b) = bytesVal a * 256 ^ b.length + bytesVal b := by
  rw [bytesVal, List.foldl_append, foldl_bytesVal b]; rfl

theorem bytesVal_cons (d : UInt8) (l : Bytes) :
    bytesVal (d :: l) = d.toNat * 256 ^ l.length + bytesVal l := by
  have := bytesVal_append [d] l
  simpa [bytesVal] using this

theorem bytesVal_snoc (l : Bytes) (d : UInt8) : bytesVal (l ++ [d]) = bytesVal l * 256 + d.toNat := by
  simp [bytesVal_append, bytesVal_cons]

theorem bytesVal_lt (l : Bytes) : bytesVal l < 256 ^ l.length := by
  induction l with
  | nil => simp
  | cons d l ih =>
    rw [bytesVal_cons, List.length_cons, Nat.pow_succ]
    have := d.toNat_lt
    have h : d.toNat * 256 ^ l.length ≤ 255 * 256 ^ l.length := Nat.mul_le_mul_right _ (by omega)
    omega

@[simp] theorem beBytes_length (v c : Nat) : (beBytes v c).length = c := by
  induction c generalizing v with
  | zero => rfl
  | succ c ih => simp [beBytes, ih]

theorem bytesVal_beBytes (v c : Nat) : bytesVal (beBytes v c) = v % 256 ^ c := by
  induction c generalizing v with
  | zero => simp [beBytes, Nat.mod_one]
  | succ c ih =>
    rw [beBytes, bytesVal_snoc, ih, Nat.pow_succ, Nat.mul_comm (256 ^ c) 256, Nat.mod_mul]
    have : (UInt8.ofNat (v % 256)).toNat = v % 256 := by
      simp
    rw [this]; omega

theorem beBytes_bytesVal (l : Bytes) : beBytes (bytesVal l) l.length = l := by
  induction l using List.reverseRecOn with
  | nil => rfl
  | append_singleton l d ih =>
    simp only [List.length_append, List.length_singleton, beBytes, bytesVal_snoc]
    have hd := d.toNat_lt
    have h1 : (bytesVal l * 256 + d.toNat) / 256 = bytesVal l := by omega
    have h2 : (bytesVal l * 256 + d.toNat) % 256 = d.toNat := by omega
    rw [h1, h2, ih, UInt8.ofNat_toNat]

theorem bytesVal_inj {a b : Bytes} (hl : a.length = b.length) (hv : bytesVal a = bytesVal b) :
    a = b := by
  rw [← beBytes_bytesVal a, ← beBytes_bytesVal b, hl, hv]

theorem beBytes_add (v a b : Nat) : beBytes v (a + b) = beBytes (v / 256 ^ b) a ++ beBytes v b := by
  induction b generalizing v with
  | zero => simp [beBytes]
  | succ b ih =>
    rw [← Nat.add_assoc, beBytes, ih, Nat.div_div_eq_div_mul, ← Nat.pow_succ', beBytes,
      List.append_assoc]

theorem beBytes_drop (v a b : Nat) : (beBytes v (a + b)).drop a = beBytes v b := by
  rw [beBytes_add, List.drop_append, List.drop_of_length_le (by simp)]; simp

theorem beBytes_mod (v c : Nat) : beBytes (v % 256 ^ c) c = beBytes v c := by
  apply bytesVal_inj (by simp)
  rw [bytesVal_beBytes, bytesVal_beBytes, Nat.mod_mod]

theorem range_map_beBytes (v c : Nat) :
    (List.range c).map (fun i => UInt8.ofNat (v / 256 ^ (c - 1 - i) % 256)) = beBytes v c := by
  induction c generalizing v with
  | zero => rfl
  | succ c ih =>
    rw [List.range_succ, List.map_append, beBytes, ← ih (v / 256)]
    congr 1
    · apply List.map_congr_left
      intro i hi
      have hi := List.mem_range.1 hi
      rw [Nat.div_div_eq_div_mul, ← Nat.pow_succ']
      congr 4; omega
    · simp

@[simp] theorem nibblesOfBytes_nil : nibblesOfBytes [] = [] := rfl

theorem nibblesOfBytes_cons (b : UInt8) (bs : Bytes) : nibblesOfBytes (b :: bs) =
    Fin.ofNat 16 (b.toNat / 16) :: Fin.ofNat 16 b.toNat :: nibblesOfBytes bs := rfl

@[simp] theorem nibblesOfBytes_length (bs : Bytes) : (nibblesOfBytes bs).length = 2 * bs.length := by
  induction bs with
  | nil => rfl
  | cons b bs ih => rw [nibblesOfBytes_cons]; simp [ih]; omega

theorem value_nibblesOfBytes (bs : Bytes) : value (nibblesOfBytes bs) = bytesVal bs := by
  induction bs with
  | nil => rfl
  | cons b bs ih =>
    rw [nibblesOfBytes_cons, value_cons, value_cons, bytesVal_cons, ih]
    have hb := b.toNat_lt
    simp only [List.length_cons, nibblesOfBytes_length, Fin.val_ofNat]
    rw [Nat.mod_eq_of_lt (a := b.toNat / 16) (by omega), Nat.pow_succ, Nat.pow_mul]
    have : b.toNat = b.toNat / 16 * 16 + b.toNat % 16 := by omega
    generalize (16 ^ 2) ^ bs.length = p
    calc _ = (b.toNat / 16 * 16 + b.toNat % 16) * p + bytesVal bs := by
            rw [Nat.add_mul]
            simp [Nat.mul_assoc, Nat.mul_comm p 16, Nat.add_assoc]
      _ = _ := by rw [← this]

theorem pairs_nibblesOfBytes (bs : Bytes) : pairs (nibblesOfBytes bs) = bs := by
  induction bs with
  | nil => rfl
  | cons b bs ih =>
    rw [nibblesOfBytes_cons, pairs, ih]
    congr 1
    have hb := b.toNat_lt
    simp only [Fin.val_ofNat]
    have : 16 * (b.toNat / 16 % 16) + b.toNat % 16 = b.toNat := by omega
    rw [this, UInt8.ofNat_toNat]

theorem nibblesOfBytes_pairs : ∀ (l : Key), l.length % 2 = 0 → nibblesOfBytes (pairs l) = l
  | [], _ => rfl
  | [_], h => by simp at h
  | a :: b :: r, h => by
    rw [pairs, nibblesOfBytes_cons, nibblesOfBytes_pairs r (by simp only [List.length_cons] at h; omega)]
    have ha := a.isLt
    have hb := b.isLt
    have : (UInt8.ofNat (16 * a.val + b.val)).toNat = 16 * a.val + b.val := by
      simp; omega
    rw [this]
    congr 1
    · ext; simp; omega
    · congr 1; ext; simp

theorem pairs_length : ∀ (l : Key), (pairs l).length = l.length / 2
  | [] => rfl
  | [_] => by simp [pairs]
  | a :: b :: r => by
    rw [pairs]; simp [pairs_length r]; omega

theorem bytesVal_pairs (l : Key) (h : l.length % 2 = 0) : bytesVal (pairs l) = value l := by
  rw [← value_nibblesOfBytes, nibblesOfBytes_pairs l h]

theorem pairs_eq_beBytes (l : Key) (h : l.length % 2 = 0) :
    pairs l = beBytes (value l) (l.length / 2) := by
  rw [← bytesVal_pairs l h, ← pairs_length, beBytes_bytesVal]

/-! ### Common prefixes -/

theorem cpl_le_left : ∀ (a b : Key), cpl a b ≤ a.length
  | [], _ => by simp [cpl]
  | _ :: _, [] => by simp [cpl]
  | x :: xs, y :: ys => by
    rw [cpl]; split
    · simpa using cpl_le_left xs ys
    · simp

theorem cpl_comm : ∀ (a b : Key), cpl a b = cpl b a
  | [], [] => rfl
  | [], _ :: _ => rfl
  | _ :: _, [] => rfl
  | x :: xs, y :: ys => by
    rw [cpl, cpl, cpl_comm xs ys]
    by_cases h : x = y
    · simp [h]
    · simp [h, Ne.symm h]

theorem cpl_le_right (a b : Key) : cpl a b ≤ b.length := by
  rw [cpl_comm]; exact cpl_le_left b a

theorem take_cpl : ∀ (a b : Key), a.take (cpl a b) = b.take (cpl a b)
  | [], _ => by simp [cpl]
  | _ :: _, [] => by simp [cpl]
  | x :: xs, y :: ys => by
    rw [cpl]; split
    next h => subst h; simp [take_cpl xs ys]
    next => simp

theorem cpl_ne : ∀ (a b : Key) (ha : cpl a b < a.length) (hb : cpl a b < b.length),
    a[cpl a b] ≠ b[cpl a b]
  | [], _, ha, _ => by simp at ha
  | _ :: _, [], _, hb => by simp at hb
  | x :: xs, y :: ys, ha, hb => by
    by_cases h : x = y
    · subst h
      simp only [cpl, if_true] at ha hb ⊢
      simpa using cpl_ne xs ys (by simpa using ha) (by simpa using hb)
    · simp [cpl, h]

theorem cpl_append (p a b : Key) : cpl (p ++ a) (p ++ b) = p.length + cpl a b := by
  induction p with
  | nil => simp
  | cons x p ih => simp [cpl, ih]; omega

end Spec
end EthTrie
