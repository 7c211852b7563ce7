import Verif.Trie.Checked
import Verif.Trie.IterSim

/-!
# Builds with and without overflow checks: iterators and whole programs
-/

namespace EthTrie

open Nibbles

section
variable {α : Type}

theorem advance_checked (t : Trie α) (k : Nibbles) (it : Iter α) :
    Checked (Iter.advance .debug t k it) (Iter.advance .release t k it) := by
  induction t generalizing k it with
  | empty a => exact .refl _
  | hash a h => exact .refl _
  | leaf a n v =>
    unfold Iter.advance
    chk [mergeNibbles_checked]
  | ext a n c ih =>
    unfold Iter.advance
    dsimp only
    chk [mergeNibbles_checked, ih]
  | branch a cs v ih =>
    unfold Iter.advance
    chk [pushNibbleBack_checked, ih]

theorem stepEntry_checked (it : Iter α) (e : IterEntry α) :
    Checked (it.stepEntry .debug e) (it.stepEntry .release e) := by
  unfold Iter.stepEntry
  chk [advance_checked, truncateBack_checked, mergeNibble_checked]

theorem next_checked (it : Iter α) : Checked (it.next .debug) (it.next .release) := by
  induction hw : it.weight using Nat.strong_induction_on generalizing it with
  | _ w ih =>
    obtain ⟨k, st⟩ := it
    cases st with
    | nil => exact .inl (by unfold Iter.next; rfl)
    | cons e rest =>
      rw [next_cons, next_cons]
      rcases stepEntry_checked (⟨k, rest⟩ : Iter α) e with h | h
      · cases hr : (⟨k, rest⟩ : Iter α).stepEntry .release e with
        | error x =>
          rw [hr] at h
          exact .inl (by simp only [h, hr])
        | ok x =>
          rw [hr] at h
          obtain ⟨o, it'⟩ := x
          simp only [h, hr]
          cases o with
          | some y => exact .refl _
          | none =>
            have hlt := stepEntry_weight .release _ _ _ _ hr
            refine ih _ ?_ it' rfl
            rw [← hw]
            simp only [Iter.weight, List.map_cons, List.sum_cons] at hlt ⊢
            omega
      · exact .inr (by simp only [h])

theorem collect_checked (it : Iter α) : Checked (it.collect .debug) (it.collect .release) := by
  induction hw : it.weight using Nat.strong_induction_on generalizing it with
  | _ w ih =>
    rw [collect_unfold, collect_unfold]
    rcases next_checked it with h | h
    · cases hr : it.next .release with
      | error x =>
        rw [hr] at h
        exact .inl (by simp only [h, hr])
      | ok x =>
        rw [hr] at h
        obtain ⟨o, it'⟩ := x
        simp only [h, hr]
        cases o with
        | none => exact .refl _
        | some y =>
          have hlt := next_weight .release _ _ _ hr
          rcases ih _ (hw ▸ hlt) it' rfl with h' | h'
          · exact .inl (by simp only [h'])
          · exact .inr (by simp only [h'])
    · exact .inr (by simp only [h])

theorem Trie.items_checked (t : Trie α) : EthTrie.Checked (t.items .debug) (t.items .release) :=
  collect_checked _

/-! ### Programs -/

variable {S : Type} [K : TrieKind α S] {kec : Bytes → H256}

omit K in
theorem Sys.on_checked (s : Sys α S) (i : Nat) {f g : Trie α → R (Sys α S × Obs)}
    (h : ∀ t, Checked (f t) (g t)) : Checked (s.on i f) (s.on i g) := by
  unfold Sys.on
  split
  · exact .refl _
  · exact h _

theorem Sys.exec_checked (s : Sys α S) (c : Cmd) : Checked (s.exec .debug kec c) (s.exec .release kec c) := by
  cases c with
  | new => exact .refl _
  | fromIter xs => exact .bind ((fromIter_checked _).checked _) fun _ => .refl _
  | clone i => exact .refl _
  | insert i k v => exact s.on_checked i fun t => .bind ((t.insert_checked _ _).checked _) fun _ => .refl _
  | extend i xs => exact s.on_checked i fun t => .bind ((t.extend_checked _).checked _) fun _ => .refl _
  | delete i k => exact s.on_checked i fun t => .bind ((t.delete_checked _).checked _) fun _ => .refl _
  | get i k => exact s.on_checked i fun t => .bind (t.get_checked _) fun _ => .refl _
  | hash i => exact s.on_checked i fun t => .bind (t.rootHash_checked.checked _) fun _ => .refl _
  | items i => exact s.on_checked i fun t => .bind t.items_checked fun _ => .refl _
  | eq i j => exact .refl _
  | subset i ks =>
    exact s.on_checked i fun t => .bind ((createTrieSubset_checked t _).checked _) fun _ => .refl _
  | subsets i kss =>
    exact s.on_checked i fun t => .bind ((createTrieSubsets_checked t _).checked _) fun _ => .refl _

theorem Sys.run_checked (s : Sys α S) (cs : List Cmd) :
    Checked (s.run .debug kec cs) (s.run .release kec cs) := by
  induction cs generalizing s with
  | nil => exact .refl _
  | cons c cs ih => exact .bind (s.exec_checked c) fun _ => .bind (ih _) fun _ => .refl _

/-! ### Caught panics -/

theorem extendUntil_checked (t : Trie α) (xs : List (Nibbles × ValOrHash)) (s : S)
    (h : (trieExtend .debug t xs).run s ≠ .error .overflow) :
    extendUntil .debug t xs s = extendUntil .release t xs s := by
  induction xs generalizing t s with
  | nil => rfl
  | cons x xs ih =>
    obtain ⟨k, v⟩ := x
    unfold extendUntil
    have hx : (trieExtend .debug t ((k, v) :: xs)).run s
        = (trieInsert .debug t k v).run s >>= fun r => (trieExtend .debug r.1 xs).run r.2 := by
      rw [trieExtend, Prog.bind_run]
      cases (trieInsert .debug t k v).run s <;> rfl
    rw [hx] at h
    rcases (trieInsert_checked t k v).run s with hi | ⟨hi, hs⟩
    · rw [hi] at h
      exact absurd rfl h
    · rw [← hi, ← hs]
      cases hr : (trieInsert .debug t k v).run s with
      | error e => rfl
      | ok r =>
        rw [hr] at h
        exact ih _ _ h

omit K in
theorem Sys.onS_checked (s : Sys α S) (i : Nat) {f : Trie α → R (Sys α S × Obs)} {f' g' : Trie α → Sys α S}
    (h : ∀ t, f t ≠ .error .overflow → f' t = g' t) (hn : s.on i f ≠ .error .overflow) :
    s.onS i f' = s.onS i g' := by
  unfold Sys.on at hn
  unfold Sys.onS
  split
  · rfl
  · rename_i t ht
    rw [ht] at hn
    exact h t hn

theorem stop_checked {β γ : Type} {p q : Prog α β} (h : p.Checked q) (s : S) {f : β × S → R γ}
    (hn : (p.run s >>= f) ≠ .error .overflow) : p.stop s = q.stop s := by
  rcases h.run s with h | h
  · rw [h] at hn
    exact absurd rfl hn
  · exact h.2

theorem Sys.afterPanic_checked (s : Sys α S) (c : Cmd) (h : s.exec .debug kec c ≠ .error .overflow) :
    s.afterPanic .debug kec c = s.afterPanic .release kec c := by
  cases c with
  | new => rfl
  | fromIter xs =>
    unfold Sys.afterPanic
    simp only
    rw [stop_checked (fromIter_checked _) _ h]
  | clone i => rfl
  | insert i k v =>
    refine s.onS_checked i (fun t ht => ?_) h
    rw [stop_checked (t.insert_checked _ _) _ ht]
  | extend i xs =>
    refine s.onS_checked i (fun t ht => ?_) h
    rw [extendUntil_checked t _ _ fun he => ht ?_]
    have : (t.extend .debug (packEntries xs)).run s.state = .error .overflow := by
      unfold Trie.extend
      rw [Prog.bind_run, he]
    rw [this]
    rfl
  | delete i k =>
    refine s.onS_checked i (fun t ht => ?_) h
    rw [stop_checked (t.delete_checked _) _ ht]
  | get i k => rfl
  | hash i =>
    refine s.onS_checked i (fun t ht => ?_) h
    rw [stop_checked t.rootHash_checked _ ht]
  | items i => rfl
  | eq i j => rfl
  | subset i ks =>
    refine s.onS_checked i (fun t ht => ?_) h
    rw [stop_checked (createTrieSubset_checked t _) _ ht]
  | subsets i kss =>
    refine s.onS_checked i (fun t ht => ?_) h
    rw [stop_checked (createTrieSubsets_checked t _) _ ht]

theorem Sys.execC_checked (s : Sys α S) (c : Cmd) (h : (s.execC .debug kec c).2 ≠ .error .overflow) :
    s.execC .debug kec c = s.execC .release kec c := by
  have hn : s.exec .debug kec c ≠ .error .overflow := by
    intro he
    apply h
    unfold Sys.execC
    rw [he]
  unfold Sys.execC
  rw [s.afterPanic_checked c hn]
  rcases s.exec_checked (kec := kec) c with he | he
  · rw [he]
  · exact absurd he hn

theorem Sys.runC_checked (s : Sys α S) (cs : List Cmd) (h : .error .overflow ∉ (s.runC .debug kec cs).2) :
    s.runC .debug kec cs = s.runC .release kec cs := by
  induction cs generalizing s with
  | nil => rfl
  | cons c cs ih =>
    simp only [Sys.runC, List.mem_cons, not_or] at h ⊢
    rw [← s.execC_checked c (Ne.symm h.1), ih _ h.2]

end
end EthTrie
