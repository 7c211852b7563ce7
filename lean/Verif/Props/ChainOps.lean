import Verif.Props.Chain

/-!
# C85: following a chain of blocks with lookups, insertions and deletions

As C84, with any calls in any order: values that are found, keys that are found to be absent, insertions and
deletions.  Whoever follows the chain looks at the partial trie before accepting that a key is absent or that a
deletion can be done there.
-/

namespace EthTrie

open Nibbles Spec LNode

namespace LNode

/-- No hash nodes and values shorter than `2 ^ 64` bytes. -/
def Full (l : LNode) : Prop := l.NoHashes ∧ l.SmallVals

theorem full_upd {cs : Fin 16 → LNode} {c : LNode} (d : Fin 16) (h : ∀ i, (cs i).Full) (hc : c.Full) :
    ∀ i, (upd cs d c i).Full := by
  intro i
  by_cases e : i = d
  · subst e; simpa using hc
  · simpa only [upd_other _ _ e] using h i

theorem full_branch {cs : Fin 16 → LNode} {v : Bytes} :
    (LNode.branch cs v).Full ↔ v.length < 2 ^ 64 ∧ ∀ i, (cs i).Full :=
  ⟨fun h => ⟨h.2.1, fun i => ⟨h.1 i, h.2.2 i⟩⟩, fun h => ⟨fun i => (h.2 i).1, h.1, fun i => (h.2 i).2⟩⟩

theorem full_collapse {n : Key} {c r : LNode} (hc : c.Full) (h : collapse n c = .ok r) : r.Full := by
  cases c <;> simp only [collapse] at h <;> cases h <;> exact hc

theorem full_tryCollapse {c r : LNode} (hc : c.Full) (h : tryCollapse c = .ok r) : r.Full := by
  cases c with
  | ext n c => exact full_collapse (c := c) hc h
  | _ => cases h; exact hc

theorem deleteRec_full : ∀ {l : LNode} {k : Key} {r : LNode} {x : Bytes}, l.Full →
    l.deleteRec k = .ok (some (r, x)) → r.Full := by
  intro l
  induction l with
  | empty => intro k r x _ h; cases h
  | hash y => intro k r x _ h; cases h
  | leaf n v =>
    intro k r x _ h
    simp only [deleteRec] at h
    split at h
    · cases h; exact ⟨trivial, trivial⟩
    · cases h
  | ext n c ih =>
    intro k r x hl h
    simp only [deleteRec] at h
    split at h
    · simp only [R_bind_eq_ok] at h
      obtain ⟨o, ho, h⟩ := h
      cases o with
      | none => cases h
      | some z =>
        obtain ⟨c', y⟩ := z
        simp only [R_bind_eq_ok] at h
        obtain ⟨r', hr, h⟩ := h
        cases h
        exact full_collapse (ih (k := k.drop n.length) (r := c') hl ho) hr
    · cases h
  | branch cs v ih =>
    intro k r x hl h
    have hl' := full_branch.1 hl
    cases k with
    | nil => cases h; exact full_branch.2 ⟨by simp, hl'.2⟩
    | cons d k =>
      simp only [deleteRec, R_bind_eq_ok] at h
      obtain ⟨o, ho, h⟩ := h
      cases o with
      | none => cases h
      | some z =>
        obtain ⟨c', y⟩ := z
        have hc' := ih d (hl'.2 d) ho
        simp only at h
        split at h
        · split at h
          · rename_i i _
            cases h
            exact hl'.2 i
          · cases h
        · simp only [R_bind_eq_ok] at h
          obtain ⟨c'', hr, h⟩ := h
          cases h
          exact full_branch.2 ⟨hl'.1, full_upd d hl'.2 (full_tryCollapse hc' hr)⟩

theorem delete_full {l : LNode} {k : Key} {r : LNode} {o : Option Bytes} (hl : l.Full)
    (h : l.delete k = .ok (r, o)) : r.Full := by
  simp only [delete, R_bind_eq_ok] at h
  obtain ⟨z, hz, h⟩ := h
  cases z with
  | none => cases h; exact hl
  | some z =>
    obtain ⟨c', y⟩ := z
    simp only [R_bind_eq_ok] at h
    obtain ⟨r', hr, h⟩ := h
    cases h
    exact full_tryCollapse (deleteRec_full hl hz) hr

end LNode

namespace Trie

variable {α : Type}

/-- The key leads to a hash node. -/
def ToHash (p : Trie α) (k : Key) : Prop := ∃ q u, p.NodeAt q u ∧ u.IsHash ∧ q <+: k

/-- Deleting `k` collapses a branch onto a hash node: the key leads to a leaf in a branch with exactly one other
child, and this child is a hash node. -/
def OntoHash (p : Trie α) (k : Key) : Prop :=
  ∃ q d j r a cs v b x c n w, k = q ++ d :: r ∧ p.NodeAt q (.branch a cs v) ∧ j ≠ d ∧
    (∀ l, (∀ b, cs l ≠ .empty b) → l = d ∨ l = j) ∧ cs d = .leaf c n w ∧ n.toList = r ∧ cs j = .hash b x

end Trie

/-- A call on a partial trie, with its answer. -/
inductive Answer where
  /-- the value `v` was found -/
  | value (k : Key) (v : Bytes)
  /-- the key was not found -/
  | absent (k : Key)
  | insert (k : Key) (v : Bytes)
  /-- the value `o` was deleted, if there was one -/
  | delete (k : Key) (o : Option Bytes)

namespace Answer

def key : Answer → Key
  | .value k _ => k
  | .absent k => k
  | .insert k _ => k
  | .delete k _ => k

/-- The call on trie `i`. -/
def cmd (i : Nat) : Answer → Cmd
  | .value k _ => .get i k
  | .absent k => .get i k
  | .insert k v => .insert i k (.val v)
  | .delete k _ => .delete i k

/-- The answer. -/
def obs : Answer → Obs
  | .value _ v => .val (some v)
  | .absent _ => .val none
  | .insert _ _ => .unit
  | .delete _ o => .val o

/-- What is looked at in the partial trie, and at the values, before the call.  (Without overflow checks a lookup
for a key that ends inside the trie can return a value that was never inserted, see C44.) -/
def Checked {α : Type} (P : Profile) (p : Trie α) : Answer → Prop
  | .value _ _ => True
  | .absent k => ¬ p.ToHash k ∧ (P.overflowChecks = true ∨ ∀ q u, p.NodeAt q u → q.length ≤ k.length)
  | .insert _ v => v.length < 2 ^ 64
  | .delete k _ => ¬ p.OntoHash k

end Answer

/-- The calls on trie `i` of `s` are checked, give these answers, and lead to `s'`. -/
def Taken {K : Kind} (P : Profile) (kec : Bytes → H256) (i : Nat) :
    Sys K.Ann K.State → List Answer → Sys K.Ann K.State → Prop
  | s, [], s' => s = s'
  | s, a :: as, s' => ∃ p s₁, s.hs[i]? = some p ∧ a.key.length ≤ 127 ∧ a.Checked P p ∧
      s.exec P kec (a.cmd i) = .ok (s₁, a.obs) ∧ Taken P kec i s₁ as s'

/-- What is received for a block and done with it. -/
structure Round where
  K : Kind
  M : Mode
  s : Sys K.Ann K.State
  i : Nat
  p : Trie K.Ann
  steps : List Answer

/-- The block is accepted after the root hash `h` and gives the root hash `h'`. -/
structure Round.Accepted (P : Profile) (kec : Bytes → H256) (b : Round) (h h' : H256) : Prop where
  safe : b.M.Safe
  live : Live b.K b.M P kec b.s
  get : b.s.hs[b.i]? = some b.p
  /-- the trie that is received is not just a hash, and has the root hash that was kept -/
  node : ¬ b.p.IsHash
  root : (b.p.rootHash P kec b.s.state).map (·.1) = .ok h
  small : b.p.SmallValues
  /-- the calls are done, and the new root hash is kept -/
  steps : ∃ s' p', Taken P kec b.i b.s b.steps s' ∧ s'.hs[b.i]? = some p' ∧
    (p'.rootHash P kec s'.state).map (·.1) = .ok h'

/-- All blocks are accepted, the first after `h`, and the last gives `h'`. -/
def AcceptedAll (P : Profile) (kec : Bytes → H256) (h : H256) : List Round → H256 → Prop
  | [], h' => h = h'
  | b :: bs, h' => ∃ x, b.Accepted P kec h x ∧ AcceptedAll P kec x bs h'

/-- With the full trie: all calls return the same answers, and the root hash at the end is `h'`; up to the first
block whose partial trie has a collision with the full trie. -/
def RightAll {K : Kind} (P : Profile) (kec : Bytes → H256) (i : Nat) (s : Sys K.Ann K.State) (h' : H256) :
    List Round → Prop
  | [] => ∃ t, s.hs[i]? = some t ∧ (t.rootHash P kec s.state).map (·.1) = .ok h'
  | b :: bs => ∃ t, s.hs[i]? = some t ∧
      ((∃ s', s.run P kec (b.steps.map (·.cmd i)) = .ok (s', b.steps.map (·.obs)) ∧ RightAll P kec i s' h' bs) ∨
        b.p.Collide kec t)

section

variable {K : Kind} {M : Mode} [M.Safe] {P : Profile} {kec : Bytes → H256} {i : Nat} {K' : Kind} {M' : Mode}
  [M'.Safe] {i' : Nat}

theorem Trie.Strands.onto {α β : Type} {p : Trie α} {t : Trie β} {k : Key} (h : p.Strands t k) : p.OntoHash k := by
  obtain ⟨q, d, j, r, a, cs, v, b, x, u, c, n, w, h1, h2, h3, h4, h5, h6, h7, _⟩ := h
  exact ⟨q, d, j, r, a, cs, v, b, x, c, n, w, h1, h2, h3, h4, h5, h6, h7⟩

/-- C85, one call: the full trie gives the same answer, and the partial trie is a view of it again. -/
theorem C85_step {s : Sys K.Ann K.State} {s' : Sys K'.Ann K'.State} {t : Trie K.Ann} {p : Trie K'.Ann}
    (h : Live K M P kec s) (hi : s.hs[i]? = some t) (h' : Live K' M' P kec s') (hi' : s'.hs[i']? = some p)
    (hw : p.ViewOf P kec t) (hn : t.NoHash) (hv : t.SmallValues) {a : Answer} (hk : a.key.length ≤ 127)
    (hc : a.Checked P p) {s₁' : Sys K'.Ann K'.State} (he : s'.exec P kec (a.cmd i') = .ok (s₁', a.obs)) :
    ∃ s₁ t₁ p₁, s.exec P kec (a.cmd i) = .ok (s₁, a.obs) ∧ Live K M P kec s₁ ∧ s₁.hs[i]? = some t₁ ∧
      Live K' M' P kec s₁' ∧ s₁'.hs[i']? = some p₁ ∧ p₁.ViewOf P kec t₁ ∧ t₁.NoHash ∧ t₁.SmallValues := by
  have hw' := (viewOf_iff (h'.plain (List.mem_of_getElem? hi')) (h.plain (List.mem_of_getElem? hi))).1 hw
  have get : ∀ {k : Key} {o : Option Bytes}, k.length ≤ 127 → s'.exec P kec (.get i' k) = .ok (s₁', .val o) →
      s₁' = s' ∧ p.get P (ofList k) = .ok o := by
    intro k o hk he
    simp only [Sys.exec, exec_on hi', R_bind_eq_ok] at he
    obtain ⟨o', h1, h2⟩ := he
    cases h2
    exact ⟨rfl, h1⟩
  have same : ∀ {k : Key} {o : Option Bytes}, t.get P (ofList k) = .ok o →
      s.exec P kec (.get i k) = .ok (s, .val o) := by
    intro k o h1
    simp only [Sys.exec, exec_on hi, h1, R_bind_ok, R_pure]
  cases a with
  | value k v =>
    replace hk : k.length ≤ 127 := hk
    obtain ⟨rfl, h1⟩ := get hk he
    refine ⟨s, t, p, same ?_, h, hi, h', hi', hw, hn, hv⟩
    rw [h'.get hi' hk] at h1
    rw [h.get hi hk]
    exact View.get_some hw' h1
  | absent k =>
    replace hk : k.length ≤ 127 := hk
    obtain ⟨rfl, h1⟩ := get hk he
    refine ⟨s, t, p, same ?_, h, hi, h', hi', hw, hn, hv⟩
    rw [h'.get hi' hk] at h1
    rw [h.get hi hk, ← h1]
    refine (View.get_eq hw' (fun q u hu hh hq => ?_) (hc.2.imp id fun hP q u hu => ?_)).symm
    · obtain ⟨x, h1, rfl⟩ := nodeAt_of_at hu
      exact hc.1 ⟨_, _, h1, (isHash_plain x).1 hh, hq⟩
    · obtain ⟨x, h1, rfl⟩ := nodeAt_of_at hu
      exact hP _ _ h1
  | insert k v =>
    replace hk : k.length ≤ 127 := hk
    have l' : Live K' M' P kec s₁' := .step h' (c := .insert i' k (.val v)) hk (by cases K' <;> cases M' <;> trivial) he
    simp only [Answer.cmd, Sys.exec, exec_on hi', R_bind_eq_ok] at he
    obtain ⟨⟨p₁, st'⟩, h1, h2⟩ := he
    cases h2
    obtain ⟨t₁, st, g1, g2, _⟩ := C33_insert h hi h' hi' hw hk h1
    have e1 : s.exec P kec (.insert i k (.val v)) = .ok (⟨st, s.hs.set i t₁⟩, .unit) := by
      simp only [Sys.exec, exec_on hi, g1, R_bind_ok, R_pure]
    have g3 := h.insert hi hk (.val v)
    rw [g1] at g3
    exact ⟨_, t₁, p₁, e1, .step h (c := .insert i k (.val v)) hk (by cases K <;> cases M <;> trivial) e1,
      Sys.set_get hi t₁, l', Sys.set_get hi' p₁, g2,
      noHashes_plain.1 (insert_noHashes (noHashes_plain.2 hn) g3.symm),
      smallVals_plain.1 (insert_smallVals hc (smallVals_plain.2 hv) g3.symm)⟩
  | delete k o =>
    replace hk : k.length ≤ 127 := hk
    have l' : Live K' M' P kec s₁' := .step h' (c := .delete i' k) hk (by cases K' <;> cases M' <;> trivial) he
    simp only [Answer.cmd, Sys.exec, exec_on hi', R_bind_eq_ok] at he
    obtain ⟨⟨⟨p₁, o'⟩, st'⟩, h1, h2⟩ := he
    cases h2
    obtain ⟨t₁, st, g1, g2, _⟩ := C34_partial h hi h' hi' hw hk (fun hs => hc hs.onto) h1
    have e1 : s.exec P kec (.delete i k) = .ok (⟨st, s.hs.set i t₁⟩, .val o') := by
      simp only [Sys.exec, exec_on hi, g1, R_bind_ok, R_pure]
    have g3 := h.delete hi hk
    rw [g1] at g3
    have g4 : t₁.plain.Full := delete_full ⟨noHashes_plain.2 hn, smallVals_plain.2 hv⟩ (LNode.deleteA_ok g3.symm)
    exact ⟨_, t₁, p₁, e1, .step h (c := .delete i k) hk (by cases K <;> cases M <;> trivial) e1,
      Sys.set_get hi t₁, l', Sys.set_get hi' p₁, g2, noHashes_plain.1 g4.1, smallVals_plain.1 g4.2⟩

/-- C85, one block. -/
theorem C85_steps : ∀ (as : List Answer) {s : Sys K.Ann K.State} {s' r' : Sys K'.Ann K'.State} {t : Trie K.Ann}
    {p : Trie K'.Ann}, Live K M P kec s → s.hs[i]? = some t → Live K' M' P kec s' → s'.hs[i']? = some p →
    p.ViewOf P kec t → t.NoHash → t.SmallValues → Taken P kec i' s' as r' →
    ∃ r t₁ p₁, s.run P kec (as.map (·.cmd i)) = .ok (r, as.map (·.obs)) ∧ Live K M P kec r ∧ r.hs[i]? = some t₁ ∧
      t₁.NoHash ∧ t₁.SmallValues ∧ r'.hs[i']? = some p₁ ∧
      (p₁.rootHash P kec r'.state).map (·.1) = (t₁.rootHash P kec r.state).map (·.1)
  | [], s, s', r', t, p, h, hi, h', hi', hw, hn, hv, ht => by
    cases ht
    exact ⟨s, t, p, rfl, h, hi, hn, hv, hi', C26_live h hi h' hi' hw⟩
  | a :: as, s, s', r', t, p, h, hi, h', hi', hw, hn, hv, ht => by
    obtain ⟨p₀, s₁', h1, h2, h3, h4, h5⟩ := ht
    rw [hi'] at h1
    cases h1
    obtain ⟨s₁, t₁, p₁, g1, g2, g3, g4, g5, g6, g7, g8⟩ := C85_step h hi h' hi' hw hn hv h2 h3 h4
    obtain ⟨r, t₂, p₂, k1, k2⟩ := C85_steps as g2 g3 g4 g5 g6 g7 g8 h5
    refine ⟨r, t₂, p₂, ?_, k2⟩
    simp only [List.map_cons, Sys.run, g1, R_bind_ok, k1]
    rfl

/-- C85: whoever sends the partial tries, if the blocks are accepted after the root hash of a full trie, then the
full trie gives all the answers that were accepted, and the last root hash is that of the full trie after all
calls; or a partial trie that was sent has a collision with the full trie at that time. -/
theorem C85_chain {bs : List Round} {s : Sys K.Ann K.State} {t : Trie K.Ann} {h' x : H256}
    (h : Live K M P kec s) (hi : s.hs[i]? = some t) (hn : t.NoHash) (hv : t.SmallValues)
    (hx : (t.rootHash P kec s.state).map (·.1) = .ok x) (ha : AcceptedAll P kec x bs h') :
    RightAll P kec i s h' bs := by
  induction bs generalizing s t x with
  | nil => cases ha; exact ⟨t, hi, hx⟩
  | cons b bs ih =>
    obtain ⟨y, hb, ha⟩ := ha
    have := hb.safe
    refine ⟨t, hi, ?_⟩
    rcases C47_view hb.live hb.get h hi hb.small hv hb.node hn (hb.root.trans hx.symm) with hw | hc
    · obtain ⟨s', p', h1, h2, h3⟩ := hb.steps
      obtain ⟨r, t₁, p₁, g1, g2, g3, g4, g5, g6, g7⟩ := C85_steps b.steps h hi hb.live hb.get hw hn hv h1
      rw [h2] at g6
      cases g6
      exact .inl ⟨r, g1, ih g2 g3 g4 g5 (g7.symm.trans h3) ha⟩
    · exact .inr hc

end

theorem Trie.nodeAt_length {α : Type} {t u : Trie α} {q : Key} (h : t.NodeAt q u) : ∀ {b : Nat},
    t.PathsAtMost b → q.length ≤ b := by
  induction h with
  | here t => intro b _; exact Nat.zero_le b
  | branch a cs v d q u h ih =>
    intro b hb
    have := ih (hb.2 d)
    have := hb.1
    simp only [List.length_cons]; omega
  | ext a n c q u h ih =>
    intro b hb
    have := ih hb.2
    have := hb.1
    simp only [List.length_append, toList_length] at *; omega

/-! ## Honest senders -/

namespace LNode

theorem bound_of_keys : ∀ {l : LNode} {b : Nat}, l.Canon → (∀ q, absL l q ≠ none → q.length ≤ b) → l.Bound b := by
  intro l
  induction l with
  | empty => intros; trivial
  | hash x => intros; trivial
  | leaf n v => intro b _ h; exact h n (by simp [absL])
  | ext n c ih =>
    intro b hc h
    have h1 : ∀ q, absL c q ≠ none → n.length + q.length ≤ b := fun q hq => by
      have := h (n ++ q) (by simpa [absL] using hq)
      simpa using this
    obtain ⟨q, hq⟩ := hc.2.2.exists_key (by rintro rfl; exact hc.2.1)
    have := h1 q hq
    exact ⟨by omega, ih hc.2.2 fun q hq => by have := h1 q hq; omega⟩
  | branch cs v ih =>
    intro b hc h
    have h1 : ∀ i q, absL (cs i) q ≠ none → q.length + 1 ≤ b := fun i q hq => h (i :: q) hq
    have h2 : ∃ i, cs i ≠ .empty := by
      rcases hc.2 with ⟨i, _, _, h, _⟩ | ⟨_, h⟩
      · exact ⟨i, h⟩
      · exact h
    obtain ⟨i, hi⟩ := h2
    obtain ⟨q, hq⟩ := (hc.1 i).exists_key hi
    have := h1 i q hq
    exact ⟨by omega, fun i => ih i (hc.1 i) fun q hq => by have := h1 i q hq; omega⟩

end LNode

namespace Answer

/-- The call as in C65. -/
def op : Answer → Op
  | .value k _ => .get k
  | .absent k => .get k
  | .insert k v => .insert k v
  | .delete k _ => .delete k

/-- The answer is right for the contents `m`. -/
def Fits (m : KMap) : Answer → Prop
  | .value k v => m k = some (.val v)
  | .absent k => m k = none
  | .insert _ v => v.length < 2 ^ 64
  | .delete k o => o = m.find k

/-- If all other keys after a part of a deleted key go on with the same digit, then one of the keys `ks` does. -/
def Siblings (ks : List Key) (m : KMap) : Answer → Prop
  | .delete k _ => ∀ q d j r, k = q ++ d :: r → j ≠ d → (∃ k', m k' ≠ none ∧ q ++ [j] <+: k') →
      (∀ k', m k' ≠ none → k' ≠ k → q <+: k' → q ++ [j] <+: k') → ∃ k' ∈ ks, q ++ [j] <+: k'
  | _ => True

end Answer

/-- The answers are right, for keys among `ks`, which contain siblings of deleted keys. -/
def Served (ks : List Key) : KMap → List Answer → Prop
  | _, [] => True
  | m, a :: as => a.key ∈ ks ∧ a.Fits m ∧ a.Siblings ks m ∧ Served ks (a.op.effect m) as

/-- How the contents of a partial trie for the keys `ks` are related to the contents `m`. -/
structure Serves (n : Nat) (ks : List Key) (m m' : KMap) : Prop where
  fixed : m'.FixedLen n
  keys : ∀ k ∈ ks, k.length = n ∧ m'.NoHashOn k ∧ m' k = m k
  cover : ∀ k, m k ≠ none → m' k ≠ none ∨ ∃ q x, q <+: k ∧ m' q = some (.hash x)
  under : ∀ q x, m' q = some (.hash x) → ∃ k, m k ≠ none ∧ q <+: k

theorem KMap.noHash_of_effect {m : KMap} {o : Op} {q : Key} {x : H256} (h : o.effect m q = some (.hash x)) :
    m q = some (.hash x) := Op.effects_hash [o] m h

theorem Serves.effect {n : Nat} {ks : List Key} {m m' : KMap} (h : Serves n ks m m') {o : Op} (ho : o.key ∈ ks) :
    Serves n ks (o.effect m) (o.effect m') where
  fixed := Op.effect_fixedLen h.fixed (h.keys _ ho).1
  keys k hk := ⟨(h.keys k hk).1, Op.effect_noHash (h.keys k hk).2.1 o,
    Op.effects_same [o] m m' k (h.keys k hk).2.2⟩
  cover k hk := by
    by_cases e : o.key = k
    · subst e
      left
      rw [Op.effects_same [o] m m' _ (h.keys _ ho).2.2 |> (show o.effect m' o.key = o.effect m o.key from ·)]
      exact hk
    · have h1 : ∀ m : KMap, o.effect m k = m k := fun m => Op.effects_other [o] m k (by simpa using e)
      rw [h1] at hk ⊢
      refine (h.cover k hk).imp id ?_
      rintro ⟨q, x, h2, h3⟩
      refine ⟨q, x, h2, ?_⟩
      rw [show o.effect m' q = m' q from Op.effects_other [o] m' q ?_, h3]
      rintro o' ho' rfl
      rw [List.mem_singleton.1 ho'] at h3
      exact (h.keys _ ho).2.1 _ x h3 List.prefix_rfl
  under q x hq := by
    have hq := KMap.noHash_of_effect hq
    obtain ⟨k, h1, h2⟩ := h.under q x hq
    refine ⟨k, ?_, h2⟩
    rw [show o.effect m k = m k from Op.effects_other [o] m k ?_]
    · exact h1
    · rintro o' ho' rfl
      rw [List.mem_singleton.1 ho'] at h2
      exact (h.keys _ ho).2.1 q x hq h2

section

variable {K : Kind} {M : Mode} [M.Safe] {P : Profile} {kec : Bytes → H256} {i : Nat}

theorem Serves.noOnto {α : Type} {p : Trie α} {n : Nat} {ks : List Key} {m : KMap} (h : Serves n ks m p.contents)
    {k : Key} {o : Option Bytes} (hk : k ∈ ks) (hs : (Answer.delete k o).Siblings ks m) : ¬ p.OntoHash k := by
  rintro ⟨q, d, j, r, a, cs, v, b, x, c, nb, w, rfl, h1, h2, h3, h4, h5, h6⟩
  have hl := (h.keys _ hk).1
  have hh := (h.keys _ hk).2.1
  have hb : ∀ z, p.contents (q ++ z) = absL (Trie.branch a cs v).plain z := fun z =>
    (congrFun h1.at.abs z).symm
  have hd : p.contents (q ++ d :: r) = some (.val w) := by
    rw [hb]
    show absL (cs d).plain r = _
    rw [h4]
    show (if r = nb.toList then _ else _) = _
    rw [if_pos h5.symm]
  have hj : p.contents (q ++ [j]) = some (.hash x) := by
    rw [hb]
    show absL (cs j).plain [] = _
    rw [h6]; rfl
  -- what begins with `q`
  have key : ∀ z, p.contents z ≠ none → q <+: z → z = q ++ d :: r ∨ q ++ [j] <+: z := by
    rintro _ hz ⟨z, rfl⟩
    cases z with
    | nil =>
      exfalso
      rw [hb] at hz
      have : p.contents (q ++ []) = some (.val v) := by
        rw [hb]
        show (if v = [] then none else some (ValOrHash.val v)) = _
        have : ¬ v = [] := fun e => hz (by subst e; rfl)
        rw [if_neg this]
      have := h.fixed.val _ _ this
      simp at this hl; omega
    | cons e z =>
      rw [hb] at hz
      replace hz : absL (cs e).plain z ≠ none := hz
      rcases h3 e (fun b eb => hz (by rw [eb]; rfl)) with rfl | rfl
      · left
        rw [h4] at hz
        have hz : (if z = nb.toList then some (ValOrHash.val w) else none) ≠ none := hz
        by_cases e : z = nb.toList
        · rw [e, h5]
        · rw [if_neg e] at hz; exact absurd rfl hz
      · exact .inr ⟨z, by simp⟩
  obtain ⟨k₀, g1, g2⟩ := h.under _ _ hj
  obtain ⟨k', g3, g4⟩ := hs q d j r rfl h2 ⟨k₀, g1, g2⟩ (by
    intro k₂ h7 h8 h9
    have : ∃ z, p.contents z ≠ none ∧ z <+: k₂ ∧ z ≠ q ++ d :: r := by
      rcases h.cover k₂ h7 with g | ⟨z, y, g, g'⟩
      · exact ⟨k₂, g, List.prefix_rfl, h8⟩
      · exact ⟨z, by rw [g']; simp, g, by rintro rfl; rw [hd] at g'; cases g'⟩
    obtain ⟨z, z1, z2, z3⟩ := this
    rcases List.prefix_or_prefix_of_prefix h9 z2 with g | g
    · rcases key z z1 g with g | g
      · exact absurd g z3
      · exact g.trans z2
    · exfalso
      obtain ⟨y, hy⟩ := Option.ne_none_iff_exists'.1 z1
      cases y with
      | val y =>
        have := h.fixed.val _ _ hy
        have := g.length_le
        simp at hl; omega
      | hash y => exact hh _ _ hy (g.trans (List.prefix_append _ _)))
  exact (h.keys _ g3).2.1 _ _ hj g4

theorem Serves.taken {n : Nat} (hn : n ≤ 64) {ks : List Key} : ∀ (as : List Answer) {s : Sys K.Ann K.State}
    {p : Trie K.Ann} {m : KMap}, Reached K M P kec s → s.hs[i]? = some p → Serves n ks m p.contents →
    Served ks m as → ∃ s', Taken P kec i s as s'
  | [], s, _, _, _, _, _, _ => ⟨s, rfl⟩
  | a :: as, s, p, m, h, hi, hp, hs => by
    obtain ⟨h1, h2, h3, h4⟩ := hs
    have hkey : a.op.key = a.key := by cases a <;> rfl
    have hcmd : a.op.on i = a.cmd i := by cases a <;> rfl
    obtain ⟨l1, l2, l3⟩ := hp.keys _ h1
    have hobs : a.op.reply p.contents = a.obs := by
      cases a with
      | value k v =>
        replace l3 : p.contents k = m k := l3
        simp only [Answer.op, Op.reply, Answer.obs, KMap.find, l3]; rw [h2]
      | absent k =>
        replace l3 : p.contents k = m k := l3
        simp only [Answer.op, Op.reply, Answer.obs, KMap.find, l3]; rw [h2]
      | insert k v => rfl
      | delete k o =>
        replace l3 : p.contents k = m k := l3
        simp only [Answer.op, Op.reply, Answer.obs, KMap.find, l3]; rw [h2]; rfl
    obtain ⟨s₁, d1, d2, d3⟩ := Reached.runOps (i := i) (by omega : n ≤ 127) [a.op] h (contents_get hi) hp.fixed
      (fun o ho => by rw [List.mem_singleton.1 ho, hkey]; exact ⟨l1, l2⟩) (fun _ _ _ => hn)
    have he : s.exec P kec (a.cmd i) = .ok (s₁, a.obs) := by
      simp only [List.map_cons, List.map_nil, Sys.run, hcmd, R_bind_eq_ok] at d1
      obtain ⟨⟨s₂, o⟩, e1, ⟨s₃, os⟩, e2, e3⟩ := d1
      cases e2
      simp only [R_pure, Op.replies, hobs] at e3
      cases e3
      exact e1
    obtain ⟨p₁, f1, f2⟩ := contents_some (s := s₁) (i := i) (m := a.op.effect p.contents) (by
      rw [d3, List.getElem?_set_self (by
        rw [Sys.contents, List.length_map]; exact (List.getElem?_eq_some_iff.1 hi).1)]; rfl)
    obtain ⟨s', hs'⟩ := Serves.taken hn as d2 f1 (by
      rw [f2]; exact hp.effect (by rw [hkey]; exact h1)) h4
    refine ⟨s', p, s₁, hi, by omega, ?_, he, hs'⟩
    cases a with
    | value k v => trivial
    | insert k v => exact h2
    | delete k o => exact hp.noOnto h1 h3
    | absent k =>
      refine ⟨?_, .inr fun q u hu => ?_⟩
      · rintro ⟨q, u, g1, g2, g3⟩
        cases u with
        | hash b x => exact l2 q x (at_hash.1 g1.at) g3
        | _ => cases g2
      · have hb := bound_of_keys (h.canon (List.mem_of_getElem? hi)).1 hp.fixed.le
        have := Trie.nodeAt_length hu ((plain_bound p).1 hb)
        simp only [Answer.key] at l1
        omega

/-- Blocks for the contents `m`: the keys the partial trie is made for, and the calls. -/
def HonestAll (n : Nat) : KMap → List (List Key × List Answer) → Prop
  | _, [] => True
  | m, (ks, as) :: bl => ks ≠ [] ∧ (∀ k ∈ ks, k.length = n) ∧ Served ks m as ∧
      HonestAll n (Op.effects m (as.map (·.op))) bl

theorem served_replies {ks : List Key} : ∀ {as : List Answer} {m : KMap}, Served ks m as →
    Op.replies m (as.map (·.op)) = as.map (·.obs)
  | [], _, _ => rfl
  | a :: as, m, h => by
    obtain ⟨_, h2, _, h4⟩ := h
    simp only [List.map_cons, Op.replies, served_replies h4]
    congr 1
    cases a with
    | value k v => simp only [Answer.op, Op.reply, Answer.obs, KMap.find]; rw [h2]
    | absent k => simp only [Answer.op, Op.reply, Answer.obs, KMap.find]; rw [h2]
    | insert k v => rfl
    | delete k o => simp only [Answer.op, Op.reply, Answer.obs]; rw [h2]

theorem served_keys {ks : List Key} : ∀ {as : List Answer} {m : KMap}, Served ks m as → ∀ a ∈ as, a.key ∈ ks
  | [], _, _, a, ha => by cases ha
  | b :: as, m, h, a, ha => by
    rcases List.mem_cons.1 ha with rfl | ha
    · exact h.1
    · exact served_keys h.2.2.2 a ha

/-- C85, honest senders: for keys of one length of up to 64 nibbles, if for every block the subset for keys that
contain those of its calls and siblings of the deleted ones is sent, then all blocks are accepted. -/
theorem C85_honest {n : Nat} (hn : n ≤ 64) : ∀ (bl : List (List Key × List Answer))
    {s : Sys K.Ann K.State} {t : Trie K.Ann} {x : H256}, Reached K M P kec s → s.hs[i]? = some t → t.NoHash →
    t.SmallValues → t.contents.FixedLen n → (t.rootHash P kec s.state).map (·.1) = .ok x →
    HonestAll n t.contents bl →
    ∃ bs h', bs.map (fun b => b.steps) = bl.map (·.2) ∧ AcceptedAll P kec x bs h'
  | [], s, t, x, _, _, _, _, _, _, _ => ⟨[], x, rfl, rfl⟩
  | (ks, as) :: bl, s, t, x, h, hi, hh, hv, hf, hx, ho => by
    obtain ⟨h0, h1, h2, h3⟩ := ho
    have hks : ∀ k ∈ ks, k.length = n ∧ t.contents.NoHashOn k := fun k hk =>
      ⟨h1 k hk, fun q z hq => absurd hq (noHash_contents hh q z)⟩
    have hks' : ∀ k ∈ ks, k.length ≤ 127 := fun k hk => by rw [h1 k hk]; omega
    obtain ⟨u, st, c1, c2, c3, c4⟩ := C65_covers h hi (by omega) hf hks (by
      cases K <;> cases M <;> simp only [permitted] <;> exact h0)
    have hw := C27_view h.live hi hks' (fun e => absurd e h0) c1
    have hil : i < s.hs.length := (List.getElem?_eq_some_iff.1 hi).1
    have hi1 : (s.hs ++ [u])[i]? = some t := by rw [List.getElem?_append_left hil, hi]
    have hu : (s.hs ++ [u])[s.hs.length]? = some u := last_get s.hs u
    have e1 := C26_live h.live hi c2.live hu hw
    have hvw := (viewOf_iff (c2.live.plain (List.mem_of_getElem? hu))
      (h.live.plain (List.mem_of_getElem? hi))).1 hw
    have hserves : Serves n ks t.contents u.contents := {
      fixed := cutOf_fixedLen c3 hf
      keys := fun k hk => ⟨h1 k hk, c4 k hk, cutOf_agree c3 (c4 k hk) k List.prefix_rfl⟩
      cover := fun k hk => by
        obtain ⟨v, hv⟩ := Option.ne_none_iff_exists'.1 hk
        rcases c3.cover k v hv with g | ⟨q, y, g1, g2⟩
        · exact .inl (by rw [g]; simp)
        · exact .inr ⟨q, y, g1, g2⟩
      under := fun q y hq => by
        rcases c3.keep q _ hq with g | ⟨J, g1, _, g3, _⟩
        · exact absurd g (noHash_contents hh q y)
        · cases J with
          | nil => exact absurd g3 (by simp [node, rlpStr])
          | cons z J =>
            refine ⟨q ++ z.1, ?_, List.prefix_append _ _⟩
            have := (g1.2 z.1 z.2).1 List.mem_cons_self
            exact fun e => by rw [KMap.sub, e] at this; cases this }
    obtain ⟨s₃, ht⟩ := Serves.taken hn as c2 hu hserves h2
    obtain ⟨r, t₁, p₁, g1, g2, g3, g4, g5, g6, g7⟩ := C85_steps as c2.live hi1 c2.live hu hw hh hv ht
    obtain ⟨s₂, d1, d2, d3⟩ := Reached.runOps (i := i) (by omega : n ≤ 127) (as.map (·.op)) c2
      (contents_get hi1) hf (fun o h4 => by
        obtain ⟨y, hy, rfl⟩ := List.mem_map.1 h4
        rw [show y.op.key = y.key by cases y <;> rfl]
        exact hks _ (served_keys h2 y hy)) (fun _ _ _ => hn)
    have ec : (as.map (·.op)).map (·.on i) = as.map (·.cmd i) := by
      rw [List.map_map]
      refine List.map_congr_left fun a _ => ?_
      cases a <;> rfl
    rw [ec, g1, served_replies h2] at d1
    cases d1
    have ct : t₁.contents = Op.effects t.contents (as.map (·.op)) := by
      have := contents_get g3
      rw [d3, List.getElem?_set_self (by simp [Sys.contents]; omega)] at this
      exact (Option.some.inj this).symm
    obtain ⟨bs, h', f1, f2⟩ := C85_honest hn bl d2 g3 g4 g5 (by
      rw [ct]
      exact effects_fixedLen _ hf fun o h4 => by
        obtain ⟨y, hy, rfl⟩ := List.mem_map.1 h4
        rw [show y.op.key = y.key by cases y <;> rfl]
        exact h1 _ (served_keys h2 y hy)) (g2.hash g3) (by rw [ct]; exact h3)
    refine ⟨⟨K, M, ⟨st, s.hs ++ [u]⟩, s.hs.length, u, as⟩ :: bs, h', by simp [f1],
      t₁.plain.rootHash kec, ?_, f2⟩
    exact {
      safe := ‹M.Safe›
      live := c2.live
      get := hu
      node := fun hhu => by
        obtain ⟨k, hk⟩ := List.exists_mem_of_ne_nil _ h0
        cases hux : u with
        | hash a z =>
          refine c4 k hk [] z ?_ List.nil_prefix
          rw [hux]; exact at_hash.1 (.here _)
        | _ => rw [hux] at hhu; cases hhu
      root := e1.trans hx
      small := smallVals_plain.1 (View.smallVals hvw (smallVals_plain.2 hv))
      steps := ⟨s₃, p₁, ht, g6, g7.trans (g2.hash g3)⟩ }

end

/-- Two blocks for a trie with keys of two nibbles. -/
example (K : Kind) (P : Profile) {x : H256}
    (hx : ((K.trie P fixedProg 0).rootHash P kec0 (K.after P fixedProg).state).map (·.1) = .ok x) :
    ∃ bs h', bs.map (fun b => b.steps) =
      [[.delete [1, 2] (some [7]), .absent [1, 2], .insert [4, 4] [5]], [.value [2, 3] [1], .value [4, 4] [5]]] ∧
      AcceptedAll P kec0 x bs h' := by
  have hn : (K.trie P fixedProg 0).hashless = true := by
    obtain ⟨P⟩ := P; cases K <;> cases P <;> decide +kernel
  have hl := fixedLists K P
  have h12 : (K.trie P fixedProg 0).contents [1, 2] = some (.val [7]) := (hl.2 _ _).1 (by simp)
  have h13 : (K.trie P fixedProg 0).contents [1, 3] = some (.val (List.replicate 40 8)) := (hl.2 _ _).1 (by simp)
  have h23 : (K.trie P fixedProg 0).contents [2, 3] = some (.val [1]) := (hl.2 _ _).1 (by simp)
  refine C85_honest (n := 2) (by decide) [([[1, 2], [1, 3], [4, 4]], _), ([[2, 3], [4, 4]], _)]
    (fixedReached K P) (fixedGet K P) (Trie.noHash_of hn) ?_ (fixedLen K P) hx ?_
  · obtain ⟨P⟩ := P; cases K <;> cases P <;> decide +kernel
  · refine ⟨by simp, by simp, ⟨by simp [Answer.key], ?_, ?_, by simp [Answer.key], ?_, trivial,
      by simp [Answer.key], by simp [Answer.Fits], trivial, trivial⟩, by simp, by simp,
      ⟨by simp [Answer.key], ?_, trivial, by simp [Answer.key], ?_, trivial, trivial⟩, trivial⟩
    · simp [Answer.Fits, KMap.find, h12]
    · rintro q d j r e hj ⟨k', hk', g1⟩ g2
      have h3 := g2 [1, 3] (by rw [h13]; simp) (by decide)
      match q, e with
      | [], e =>
        cases e
        obtain ⟨_, h3⟩ := h3 List.nil_prefix
        cases h3
        exact absurd rfl hj
      | [_], e =>
        cases e
        exact ⟨[1, 3], by simp, h3 ⟨[3], rfl⟩⟩
      | _ :: _ :: _, e => simp at e
    · simp [Answer.Fits, Answer.op, Op.effect, KMap.erase]
    · simp [Answer.Fits, Answer.op, Op.effects, Op.effect, KMap.put, KMap.erase, h23]
    · simp [Answer.Fits, Answer.op, Op.effects, Op.effect, KMap.put, KMap.erase]

/-! ## A case -/

namespace Trie

variable {α : Type}

/-- A computation for `ToHash`. -/
def toHashB : Trie α → Key → Bool
  | .hash _ _, _ => true
  | .branch _ cs _, d :: k => toHashB (cs d) k
  | .ext _ n c, k => n.toList.isPrefixOf k && toHashB c (k.drop n.toList.length)
  | _, _ => false

theorem toHashB_of {p : Trie α} {k : Key} (h : p.ToHash k) : p.toHashB k = true := by
  obtain ⟨q, u, h1, h2, h3⟩ := h
  induction h1 generalizing k with
  | here t => cases t <;> simp_all [IsHash, toHashB]
  | branch a cs v d q u h ih =>
    obtain ⟨r, rfl⟩ := h3
    exact ih h2 (List.prefix_append q r)
  | ext a n c q u h ih =>
    obtain ⟨r, rfl⟩ := h3
    have h4 := ih h2 (List.prefix_append q r)
    simp [toHashB, List.append_assoc, List.isPrefixOf_iff_prefix, h4]

def isHashB : Trie α → Bool
  | .hash _ _ => true
  | _ => false

def isEmptyB : Trie α → Bool
  | .empty _ => true
  | _ => false

/-- A computation for `OntoHash` (which does not look at the end of the key). -/
def ontoHashB : Trie α → Key → Bool
  | .branch _ cs _, d :: k => ontoHashB (cs d) k || (List.finRange 16).any fun j =>
      decide (j ≠ d) && (cs j).isHashB && (List.finRange 16).all fun l => decide (l = d ∨ l = j) || (cs l).isEmptyB
  | .ext _ n c, k => n.toList.isPrefixOf k && ontoHashB c (k.drop n.toList.length)
  | _, _ => false

theorem ontoHashB_of {p : Trie α} {k : Key} (h : p.OntoHash k) : p.ontoHashB k = true := by
  obtain ⟨q, d, j, r, a, cs, v, b, x, c, n, w, rfl, h1, h2, h3, h4, h5, h6⟩ := h
  generalize hu : Trie.branch a cs v = u at h1
  induction h1 with
  | here t =>
    subst hu
    simp only [List.nil_append, ontoHashB, Bool.or_eq_true, List.any_eq_true, List.mem_finRange, true_and,
      Bool.and_eq_true, decide_eq_true_eq, List.all_eq_true, forall_const]
    refine .inr ⟨j, ⟨h2, by rw [h6]; rfl⟩, fun l => ?_⟩
    by_cases hl : l = d ∨ l = j
    · exact .inl hl
    · right
      cases hx : cs l with
      | empty b => rfl
      | _ => exact absurd (h3 l fun b e => by rw [hx] at e; cases e) hl
  | branch a cs v d q u h ih =>
    simp only [List.cons_append, ontoHashB, ih hu, Bool.true_or]
  | ext a n c q u h ih =>
    simp [ontoHashB, List.append_assoc, List.isPrefixOf_iff_prefix, ih hu]

end Trie

/-- The checks as a computation. -/
def Answer.checkB {α : Type} (p : Trie α) : Answer → Bool
  | .value _ _ => true
  | .absent k => !p.toHashB k && decide (p.PathsAtMost k.length)
  | .insert _ v => decide (v.length < 2 ^ 64)
  | .delete k _ => !p.ontoHashB k

theorem Answer.checked_of {α : Type} {P : Profile} {p : Trie α} {a : Answer} (h : a.checkB p = true) :
    a.Checked P p := by
  cases a with
  | value k v => trivial
  | absent k =>
    simp only [checkB, Bool.and_eq_true, Bool.not_eq_true', decide_eq_true_eq] at h
    refine ⟨fun e => ?_, .inr fun q u hu => Trie.nodeAt_length hu h.2⟩
    rw [Trie.toHashB_of e] at h; exact absurd h.1 (by decide)
  | insert k v =>
    simp only [checkB, decide_eq_true_eq] at h
    exact h
  | delete k o =>
    intro e
    simp only [checkB, Trie.ontoHashB_of e] at h
    exact absurd h (by decide)

/-- The calls and checks as a computation. -/
def takeAll {K : Kind} (P : Profile) (kec : Bytes → H256) (i : Nat) :
    Sys K.Ann K.State → List Answer → Option (Sys K.Ann K.State)
  | s, [] => some s
  | s, a :: as =>
    match s.hs[i]? with
    | none => none
    | some p =>
      if a.key.length ≤ 127 ∧ a.checkB p = true then
        match s.exec P kec (a.cmd i) with
        | .error _ => none
        | .ok (s₁, o) => if o = a.obs then takeAll P kec i s₁ as else none
      else none

theorem taken_of {K : Kind} {P : Profile} {kec : Bytes → H256} {i : Nat} : ∀ {as : List Answer}
    {s s' : Sys K.Ann K.State}, takeAll P kec i s as = some s' → Taken P kec i s as s'
  | [], s, s', h => Option.some.inj h
  | a :: as, s, s', h => by
    unfold takeAll at h
    split at h
    · cases h
    · rename_i p hp
      split at h
      · rename_i hc
        split at h
        · cases h
        · rename_i s₁ o he
          split at h
          · rename_i ho
            subst ho
            exact ⟨p, s₁, hp, hc.1, Answer.checked_of hc.2, he, taken_of h⟩
          · cases h
      · cases h

/-- The new root hash. -/
def Round.newRoot (P : Profile) (kec : Bytes → H256) (b : Round) : Option H256 :=
  match takeAll P kec b.i b.s b.steps with
  | none => none
  | some s' =>
    match s'.hs[b.i]? with
    | none => none
    | some p' =>
      match p'.rootHash P kec s'.state with
      | .error _ => none
      | .ok (h, _) => some h

theorem Round.steps_of {P : Profile} {kec : Bytes → H256} {b : Round} {h' : H256}
    (h : b.newRoot P kec = some h') : ∃ s' p', Taken P kec b.i b.s b.steps s' ∧ s'.hs[b.i]? = some p' ∧
    (p'.rootHash P kec s'.state).map (·.1) = .ok h' := by
  unfold newRoot at h
  split at h
  · cases h
  · rename_i s' h1
    split at h
    · cases h
    · rename_i p' h2
      split at h
      · cases h
      · rename_i x st h3
        cases h
        exact ⟨s', p', taken_of h1, h2, by rw [h3]; rfl⟩

/-- A subset without `[2, 1]`. -/
def roundProg₁ : List Cmd := [.fromIter chainXs, .subset 0 [[1, 1], [1, 2], [3]]]

/-- A subset of the trie after the first block. -/
def roundProg₂ : List Cmd := [.fromIter chainXs, .insert 0 [4, 4] (.val [5, 6, 7]), .delete 0 [3], .subset 0 [[2, 1], [4, 4]]]

def round₁ (K : Kind) (P : Profile) : Round :=
  ⟨K, .noEmptySubset, K.after P roundProg₁, 1, K.trie P roundProg₁ 1, [.value [1, 1] (List.replicate 40 1),
    .absent [4, 4], .insert [4, 4] [5, 6, 7], .value [4, 4] [5, 6, 7], .delete [3] (some [7]), .delete [3, 3] none, .absent [3, 3]]⟩

def round₂ (K : Kind) (P : Profile) : Round :=
  ⟨K, .noEmptySubset, K.after P roundProg₂, 1, K.trie P roundProg₂ 1, [.delete [2, 1] (some (List.replicate 40 3)),
    .value [4, 4] [5, 6, 7]]⟩

theorem roundAccepted₁ (K : Kind) (P : Profile) :
    (round₁ K P).Accepted P kec0 (Vector.replicate 32 85) (Vector.replicate 32 88) where
  safe := inferInstanceAs (Mode.Safe .noEmptySubset)
  live := by
    refine Kind.after_live ?_ ?_ ?_
    · obtain ⟨P⟩ := P; cases K <;> cases P <;> decide +kernel
    · intro c hc
      simp only [roundProg₁, List.mem_cons, List.not_mem_nil, or_false] at hc
      rcases hc with rfl | rfl <;> simp only [Cmd.Short] <;> decide
    · cases K <;> simp [roundProg₁, round₁, permitted]
  get := Kind.trie_get (by obtain ⟨P⟩ := P; cases K <;> cases P <;> decide +kernel)
  node := by
    have h : (K.trie P roundProg₁ 1).isHashB = false := by
      obtain ⟨P⟩ := P; cases K <;> cases P <;> decide +kernel
    intro hh
    simp only [round₁] at hh
    cases hx : K.trie P roundProg₁ 1 <;> simp_all [Trie.IsHash, Trie.isHashB]
  root := by obtain ⟨P⟩ := P; cases K <;> cases P <;> decide +kernel
  small := by obtain ⟨P⟩ := P; cases K <;> cases P <;> decide +kernel
  steps := Round.steps_of (by obtain ⟨P⟩ := P; cases K <;> cases P <;> decide +kernel)

theorem roundAccepted₂ (K : Kind) (P : Profile) :
    (round₂ K P).Accepted P kec0 (Vector.replicate 32 88) (Vector.replicate 32 55) where
  safe := inferInstanceAs (Mode.Safe .noEmptySubset)
  live := by
    refine Kind.after_live ?_ ?_ ?_
    · obtain ⟨P⟩ := P; cases K <;> cases P <;> decide +kernel
    · intro c hc
      simp only [roundProg₂, List.mem_cons, List.not_mem_nil, or_false] at hc
      rcases hc with rfl | rfl | rfl | rfl <;> simp only [Cmd.Short] <;> decide
    · cases K <;> simp [roundProg₂, round₂, permitted]
  get := Kind.trie_get (by obtain ⟨P⟩ := P; cases K <;> cases P <;> decide +kernel)
  node := by
    have h : (K.trie P roundProg₂ 1).isHashB = false := by
      obtain ⟨P⟩ := P; cases K <;> cases P <;> decide +kernel
    intro hh
    simp only [round₂] at hh
    cases hx : K.trie P roundProg₂ 1 <;> simp_all [Trie.IsHash, Trie.isHashB]
  root := by obtain ⟨P⟩ := P; cases K <;> cases P <;> decide +kernel
  small := by obtain ⟨P⟩ := P; cases K <;> cases P <;> decide +kernel
  steps := Round.steps_of (by obtain ⟨P⟩ := P; cases K <;> cases P <;> decide +kernel)

/-- Two blocks with keys that are found to be absent and deletions, from a hashed and a standard trie. -/
example (K : Kind) (P : Profile) : RightAll P kec0 0 (K.after P [.fromIter chainXs])
    (Vector.replicate 32 55) [round₁ .hashed P, round₂ .standard P] := by
  have hn : (K.trie P [.fromIter chainXs] 0).hashless = true := by
    obtain ⟨P⟩ := P; cases K <;> cases P <;> decide +kernel
  refine C85_chain (M := .noEmptySubset) (t := K.trie P [.fromIter chainXs] 0) (x := Vector.replicate 32 85)
    (Kind.after_live ?_ ?_ ?_) (Kind.trie_get ?_) (Trie.noHash_of hn) ?_ ?_
    ⟨_, roundAccepted₁ .hashed P, _, roundAccepted₂ .standard P, rfl⟩
  · obtain ⟨P⟩ := P; cases K <;> cases P <;> decide +kernel
  · intro c hc
    simp only [List.mem_cons, List.not_mem_nil, or_false] at hc
    subst hc
    simp only [Cmd.Short]; decide
  · cases K <;> simp [permitted]
  all_goals obtain ⟨P⟩ := P; cases K <;> cases P <;> decide +kernel

end EthTrie
