import Mathlib.Data.List.Induction

/-!
# Specification vocabulary: keys as sequences of nibbles

Independent of the packed representation of `src/nibbles.rs`.
-/

namespace EthTrie

/-- A key: a finite sequence of nibbles, the front nibble first. -/
abbrev Key := List (Fin 16)

namespace Spec

/-- The number denoted by a sequence of base-16 digits, most significant first. -/
def value (l : Key) : Nat := l.foldl (fun a d => a * 16 + d.val) 0

/-- The last `c` base-16 digits of `v`, most significant first. -/
def digits (v : Nat) : Nat → Key
  | 0 => []
  | c + 1 => digits (v / 16) c ++ [Fin.ofNat 16 v]

theorem foldl_value (l : Key) (a : Nat) :
    l.foldl (fun a d => a * 16 + d.val) a = a * 16 ^ l.length + value l := by
  unfold value
  induction l generalizing a with
  | nil => simp
  | cons d l ih =>
    simp only [List.foldl_cons, List.length_cons]
    rw [ih (a * 16 + d), ih (0 * 16 + d)]
    simp [Nat.pow_succ, Nat.add_mul, Nat.mul_assoc, Nat.mul_comm 16, Nat.add_assoc]

@[simp] theorem value_nil : value [] = 0 := rfl

theorem value_append (a b : Key) : value (a ++ b) = value a * 16 ^ b.length + value b := by
  rw [value, List.foldl_append, foldl_value b]; rfl

theorem value_cons (d : Fin 16) (l : Key) : value (d :: l) = d.val * 16 ^ l.length + value l := by
  have := value_append [d] l
  simpa [value] using this

theorem value_snoc (l : Key) (d : Fin 16) : value (l ++ [d]) = value l * 16 + d.val := by
  simp [value_append, value_cons]

theorem value_lt (l : Key) : value l < 16 ^ l.length := by
  induction l with
  | nil => simp
  | cons d l ih =>
    rw [value_cons, List.length_cons, Nat.pow_succ]
    have := d.isLt
    have h : d.val * 16 ^ l.length ≤ 15 * 16 ^ l.length := Nat.mul_le_mul_right _ (by omega)
    omega

@[simp] theorem digits_length (v c : Nat) : (digits v c).length = c := by
  induction c generalizing v with
  | zero => rfl
  | succ c ih => simp [digits, ih]

theorem value_digits (v c : Nat) : value (digits v c) = v % 16 ^ c := by
  induction c generalizing v with
  | zero => simp [digits, Nat.mod_one]
  | succ c ih =>
    rw [digits, value_snoc, ih, Nat.pow_succ, Nat.mul_comm (16 ^ c) 16, Nat.mod_mul]
    simp [Fin.ofNat]; omega

theorem digits_value (l : Key) : digits (value l) l.length = l := by
  induction l using List.reverseRecOn with
  | nil => rfl
  | append_singleton l d ih =>
    simp only [List.length_append, List.length_singleton, digits, value_snoc]
    have h1 : (value l * 16 + d.val) / 16 = value l := by omega
    have h2 : Fin.ofNat 16 (value l * 16 + d.val) = d := by
      ext; simp [Fin.ofNat]
    rw [h1, h2, ih]

theorem value_inj {a b : Key} (hl : a.length = b.length) (hv : value a = value b) : a = b := by
  rw [← digits_value a, ← digits_value b, hl, hv]

theorem value_take (l : Key) (i : Nat) :
    value (l.take i) = value l / 16 ^ (l.length - i) := by
  have h1 := value_append (l.take i) (l.drop i)
  rw [List.take_append_drop, List.length_drop] at h1
  have h2 := value_lt (l.drop i)
  rw [List.length_drop] at h2
  rw [h1, Nat.mul_comm, Nat.mul_add_div (Nat.pow_pos (by decide)), Nat.div_eq_of_lt h2]; rfl

theorem value_drop (l : Key) (i : Nat) :
    value (l.drop i) = value l % 16 ^ (l.length - i) := by
  have h1 := value_append (l.take i) (l.drop i)
  rw [List.take_append_drop, List.length_drop] at h1
  have h2 := value_lt (l.drop i)
  rw [List.length_drop] at h2
  rw [h1, Nat.mul_comm, Nat.mul_add_mod, Nat.mod_eq_of_lt h2]

theorem value_getElem (l : Key) (i : Nat) (h : i < l.length) :
    (l[i]).val = value l / 16 ^ (l.length - 1 - i) % 16 := by
  have h1 := value_take l (i + 1)
  rw [List.take_succ_eq_append_getElem h, value_snoc] at h1
  have : l.length - 1 - i = l.length - (i + 1) := by omega
  rw [this, ← h1]; omega

end Spec
end EthTrie
