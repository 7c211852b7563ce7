import Mathlib.Order.Fin.Basic
import Verif.Spec.YP

/-!
# Specification: the order of iteration
-/

namespace EthTrie
namespace Spec

/-- Lexicographic order of nibble sequences in which a key comes after its extensions. -/
def Before : Key → Key → Prop
  | _ :: _, [] => True
  | d :: a, e :: b => d < e ∨ (d = e ∧ Before a b)
  | [], _ => False

theorem Before.irrefl : ∀ (a : Key), ¬ Before a a
  | [] => by simp [Before]
  | d :: a => by simp [Before, Before.irrefl a]

theorem Before.append_iff (p a b : Key) : Before (p ++ a) (p ++ b) ↔ Before a b := by
  induction p with
  | nil => rfl
  | cons d p ih => simp [Before, ih]

theorem Before.trans : ∀ {a b c : Key}, Before a b → Before b c → Before a c
  | _ :: _, [], c, _, h => by simp [Before] at h
  | _ :: _, _ :: _, [], _, _ => by simp [Before]
  | d :: a, e :: b, f :: c, h1, h2 => by
    simp only [Before] at h1 h2 ⊢
    rcases h1 with h1 | ⟨rfl, h1⟩
    · rcases h2 with h2 | ⟨rfl, _⟩
      · exact .inl (lt_trans h1 h2)
      · exact .inl h1
    · rcases h2 with h2 | ⟨rfl, h2⟩
      · exact .inl h2
      · exact .inr ⟨rfl, h1.trans h2⟩
  | [], _, _, h, _ => by simp [Before] at h

theorem Before.total : ∀ (a b : Key), a ≠ b → Before a b ∨ Before b a
  | [], [], h => absurd rfl h
  | [], _ :: _, _ => by simp [Before]
  | _ :: _, [], _ => by simp [Before]
  | d :: a, e :: b, h => by
    simp only [Before]
    rcases lt_trichotomy d e with h1 | rfl | h1
    · exact .inl (.inl h1)
    · rcases Before.total a b (by simpa using h) with h2 | h2
      · exact .inl (.inr ⟨rfl, h2⟩)
      · exact .inr (.inr ⟨rfl, h2⟩)
    · exact .inr (.inl h1)

/-- Entries in the order of iteration. -/
def Ordered (J : Entries) : Prop := J.Pairwise fun x y => Before x.1 y.1

theorem Ordered.nodup {J : Entries} (h : Ordered J) : (J.map Prod.fst).Nodup := by
  refine List.pairwise_map.2 (List.Pairwise.imp ?_ h)
  intro a b hab e
  rw [e] at hab
  exact Before.irrefl _ hab

end Spec
end EthTrie
