import Verif.Debug.TrieText
import Verif.Debug.Text
import Verif.Serde.Lemmas
import Verif.Spec.ReadFrom

/-!
# The `Debug` text of a trie determines the trie
-/

namespace EthTrie

open Nibbles Spec

/-- All keys in the nodes are well-formed. -/
def Trie.KeysFit {α : Type} : Trie α → Prop
  | .empty _ => True
  | .hash _ _ => True
  | .branch _ cs _ => ∀ i, (cs i).KeysFit
  | .ext _ n c => n.Fits ∧ c.KeysFit
  | .leaf _ n _ => n.Fits

/-- The `Debug` text of a key. -/
def keyDebug (n : Nibbles) : Text :=
  t!"Nibbles { count: " ++ showNat n.count ++ t!", packed: \"" ++ keyText n ++ t!"\" }"

theorem debug_ok {P : Profile} {n : Nibbles} (hn : n.Fits) : n.debug P = .ok (keyDebug n) := by
  rw [Nibbles.debug, show_ok hn]; rfl

/-- The text of a wrapper. -/
def wrapText (cached : Bool) (o : Option H256) (node : Text) : Text :=
  if cached then t!"HashedPartialTrie { node: " ++ node ++ t!", hash: RwLock { data: " ++ debugCell o ++
    t!" } }"
  else t!"StandardTrie(" ++ node ++ t!")"

/-- The `Debug` text of a trie. -/
def Trie.text (cached : Bool) : Trie (Option H256) → Text
  | .empty a => wrapText cached a t!"Empty"
  | .hash a h => wrapText cached a (t!"Hash(" ++ debugH256 h ++ t!")")
  | .branch a cs v => wrapText cached a (t!"Branch { children: " ++
      debugList (List.ofFn fun i => (cs i).text cached) ++ t!", value: " ++ debugBytes v ++ t!" }")
  | .ext a n c => wrapText cached a (t!"Extension { nibbles: " ++ keyDebug n ++ t!", child: " ++
      c.text cached ++ t!" }")
  | .leaf a n v => wrapText cached a (t!"Leaf { nibbles: " ++ keyDebug n ++ t!", value: " ++ debugBytes v ++
      t!" }")

section
variable {α S : Type} [K : TrieKind α S] {P : Profile} {cached : Bool}

theorem debugWrap_run (a : α) (x : Text) (s : S) :
    (debugWrap cached a x).run s = .ok (wrapText cached (K.cacheGet a s) x, s) := by
  unfold debugWrap wrapText
  cases cached <;> rfl

theorem debug_run (t : Trie α) (ht : t.KeysFit) (s : S) :
    (t.debug cached P).run s = .ok ((t.caches fun a => K.cacheGet a s).text cached, s) := by
  induction t with
  | empty a => exact debugWrap_run _ _ _
  | hash a h => exact debugWrap_run _ _ _
  | leaf a n v =>
    show ((Prog.lift (n.debug P)) >>= _).run s = _
    rw [debug_ok ht]
    exact debugWrap_run _ _ _
  | ext a n c ih =>
    show ((Prog.lift (n.debug P)) >>= fun k => (Trie.debug cached P c) >>= _).run s = _
    rw [debug_ok ht.1]
    show ((Trie.debug cached P c) >>= _).run s = _
    rw [Prog.bind_run, ih ht.2]
    exact debugWrap_run _ _ _
  | branch a cs v ih =>
    show ((Prog.collect 16 fun i => Trie.debug cached P (cs i)) >>= _).run s = _
    rw [Prog.bind_run, collect_run s 16 _ _ fun i => ih i (ht i)]
    exact debugWrap_run _ _ _

end

/-! ### Unique readability -/

theorem keyDebug_inj {a b : Nibbles} (ha : a.Fits) (hb : b.Fits) {x y : Text}
    (h : keyDebug a ++ x = keyDebug b ++ y) : a = b ∧ x = y := by
  simp only [keyDebug, List.append_assoc, List.cons_append, List.nil_append, List.cons.injEq, true_and] at h
  obtain ⟨-, h⟩ := cut (showNat_not (by decide) _) (showNat_not (by decide) _) h
  simp only [List.cons.injEq, true_and] at h
  obtain ⟨h1, h2⟩ := cut (keyText_not (by decide) (by decide) a) (keyText_not (by decide) (by decide) b) h
  simp only [List.cons.injEq, true_and] at h2
  exact ⟨keyText_inj ha hb h1, h2⟩

theorem hex_not (h : H256) : ')' ∉ hexEncode false h.toList := hexEncode_not (by decide) _

theorem debugH256_inj {a b : H256} {x y : Text}
    (h : debugH256 a ++ ')' :: x = debugH256 b ++ ')' :: y) : a = b ∧ x = y := by
  simp only [debugH256, List.append_assoc, List.cons_append, List.nil_append, List.cons.injEq, true_and] at h
  obtain ⟨h1, h2⟩ := cut (hex_not a) (hex_not b) h
  exact ⟨Vector.toList_inj.1 (hexEncode_inj h1), h2⟩

theorem debugCell_inj {a b : Option H256} {x y : Text}
    (h : debugCell a ++ x = debugCell b ++ y) : a = b ∧ x = y := by
  cases a <;> cases b <;>
    simp only [debugCell, List.append_assoc, List.cons_append, List.nil_append, List.cons.injEq, true_and] at h
  · exact ⟨rfl, h⟩
  · exact absurd h.1 (by decide)
  · exact absurd h.1 (by decide)
  · obtain ⟨h1, h2⟩ := debugH256_inj h
    exact ⟨by rw [h1], h2⟩

theorem joinBytes_not (v : Bytes) : ']' ∉ joinTexts (v.map fun b => showNat b.toNat) := by
  induction v with
  | nil => simp [joinTexts]
  | cons b v ih =>
    cases v with
    | nil => exact showNat_not (by decide) _
    | cons c v =>
      simp only [List.map_cons, joinTexts, List.mem_append, not_or] at ih ⊢
      exact ⟨⟨showNat_not (by decide) _, by decide⟩, ih⟩

theorem joinBytes_ne (b : UInt8) (v : Bytes) : joinTexts ((b :: v).map fun b => showNat b.toNat) ≠ [] := by
  have h : showNat b.toNat ≠ [] := List.ne_nil_of_length_pos Nat.length_toDigits_pos
  cases v with
  | nil => exact h
  | cons c v => simp [joinTexts]

theorem joinBytes_inj {v w : Bytes} (h : joinTexts (v.map fun b => showNat b.toNat) =
    joinTexts (w.map fun b => showNat b.toNat)) : v = w := by
  induction v generalizing w with
  | nil =>
    cases w with
    | nil => rfl
    | cons b w => exact absurd h.symm (joinBytes_ne b w)
  | cons b v ih =>
    cases w with
    | nil => exact absurd h (joinBytes_ne b v)
    | cons c w =>
      have hb : ∀ {b c : UInt8}, showNat b.toNat = showNat c.toNat → b = c := fun h =>
        UInt8.toNat_inj.1 (showNat_inj h)
      have hn : ∀ b : UInt8, ',' ∉ showNat b.toNat := fun b => showNat_not (by decide) _
      cases v with
      | nil =>
        cases w with
        | nil => rw [hb h]
        | cons d w =>
          refine absurd ?_ (hn b)
          rw [show showNat b.toNat = _ from h]
          simp [joinTexts]
      | cons d v =>
        cases w with
        | nil =>
          refine absurd ?_ (hn c)
          rw [show showNat c.toNat = _ from h.symm]
          simp [joinTexts]
        | cons e w =>
          simp only [List.map_cons, joinTexts, List.append_assoc, List.cons_append, List.nil_append] at h
          obtain ⟨h1, h2⟩ := cut (hn b) (hn c) h
          rw [hb h1, ih (w := e :: w) (List.cons.inj h2).2]

theorem debugBytes_inj {v w : Bytes} {x y : Text} (h : debugBytes v ++ x = debugBytes w ++ y) :
    v = w ∧ x = y := by
  simp only [debugBytes, debugList, List.append_assoc, List.cons_append, List.nil_append, List.cons.injEq,
    true_and] at h
  obtain ⟨h1, h2⟩ := cut (joinBytes_not v) (joinBytes_not w) h
  exact ⟨joinBytes_inj h1, h2⟩

theorem joinTexts_inj : ∀ (n : Nat) (f g : Fin n → Text) (x y : Text),
    (∀ i x y, f i ++ x = g i ++ y → f i = g i ∧ x = y) →
    joinTexts (List.ofFn f) ++ x = joinTexts (List.ofFn g) ++ y → (∀ i, f i = g i) ∧ x = y := by
  intro n
  induction n with
  | zero => intro f g x y _ h; exact ⟨fun i => i.elim0, by simpa [joinTexts] using h⟩
  | succ n ih =>
    intro f g x y hf h
    cases n with
    | zero =>
      simp only [List.ofFn_succ, List.ofFn_zero, joinTexts] at h
      obtain ⟨h1, h2⟩ := hf 0 _ _ h
      exact ⟨fun i => Fin.cases h1 (fun i => i.elim0) i, h2⟩
    | succ n =>
      rw [List.ofFn_succ, List.ofFn_succ (f := g), List.ofFn_succ, List.ofFn_succ (f := fun i => g i.succ)] at h
      simp only [joinTexts, List.append_assoc] at h
      obtain ⟨h1, h2⟩ := hf 0 _ _ h
      simp only [List.cons_append, List.nil_append, List.cons.injEq, true_and] at h2
      obtain ⟨h3, h4⟩ := ih (fun i => f i.succ) (fun i => g i.succ) x y (fun i => hf i.succ) (by
        rw [List.ofFn_succ, List.ofFn_succ (f := fun i => g i.succ)]; exact h2)
      exact ⟨fun i => Fin.cases h1 h3 i, h4⟩

theorem wrapText_inj {cached : Bool} {a b : Option H256} {p q : Text} {x y : Text}
    (hc : cached = false → a = none ∧ b = none)
    (hpq : ∀ x y, p ++ x = q ++ y → p = q ∧ x = y)
    (h : wrapText cached a p ++ x = wrapText cached b q ++ y) : a = b ∧ p = q ∧ x = y := by
  cases cached with
  | false =>
    simp only [wrapText, List.append_assoc, List.cons_append, List.nil_append, List.cons.injEq, true_and,
      Bool.false_eq_true, if_false] at h
    obtain ⟨h1, h2⟩ := hpq _ _ h
    obtain ⟨rfl, rfl⟩ := hc rfl
    exact ⟨rfl, h1, (List.cons.inj h2).2⟩
  | true =>
    simp only [wrapText, List.append_assoc, List.cons_append, List.nil_append, List.cons.injEq, true_and,
      if_true] at h
    obtain ⟨h1, h2⟩ := hpq _ _ h
    simp only [List.cons.injEq, true_and] at h2
    obtain ⟨h3, h4⟩ := debugCell_inj h2
    simp only [List.cons.injEq, true_and] at h4
    exact ⟨h3, h1, h4⟩

theorem wrapText_head {cached : Bool} {a b : Option H256} {p q : Text} {x y : Text}
    (h : wrapText cached a p ++ x = wrapText cached b q ++ y) : ∃ x' y', p ++ x' = q ++ y' := by
  cases cached with
  | false =>
    simp only [wrapText, List.append_assoc, List.cons_append, List.nil_append, List.cons.injEq, true_and,
      Bool.false_eq_true, if_false] at h
    exact ⟨_, _, h⟩
  | true =>
    simp only [wrapText, List.append_assoc, List.cons_append, List.nil_append, List.cons.injEq, true_and,
      if_true] at h
    exact ⟨_, _, h⟩

theorem text_inj {α β : Type} {cached : Bool} {f : α → Option H256} {g : β → Option H256}
    (hf : cached = false → ∀ a, f a = none) (hg : cached = false → ∀ b, g b = none) (t : Trie α) :
    ∀ (u : Trie β) (x y : Text), t.KeysFit → u.KeysFit →
      (t.caches f).text cached ++ x = (u.caches g).text cached ++ y →
      t.caches f = u.caches g ∧ x = y := by
  have hc : ∀ a b, cached = false → f a = none ∧ g b = none := fun a b h => ⟨hf h a, hg h b⟩
  induction t with
  | empty a =>
    intro u x y _ _ h
    cases u with
    | empty b =>
      obtain ⟨h1, -, h2⟩ := wrapText_inj (hc a b) (fun x y h => ⟨rfl, List.append_cancel_left h⟩) h
      exact ⟨by simp only [Trie.caches, h1], h2⟩
    | _ => obtain ⟨x', y', h'⟩ := wrapText_head h; simp at h'
  | hash a k =>
    intro u x y _ _ h
    cases u with
    | hash b l =>
      obtain ⟨h1, h2, h3⟩ := wrapText_inj (hc a b) (fun x y h => by
        simp only [List.append_assoc, List.cons_append, List.nil_append, List.cons.injEq, true_and] at h
        obtain ⟨e, h⟩ := debugH256_inj h
        exact ⟨by rw [e], h⟩) h
      simp only [List.append_assoc, List.cons_append, List.nil_append, List.cons.injEq, true_and] at h2
      exact ⟨by simp only [Trie.caches, h1, (debugH256_inj h2).1], h3⟩
    | _ => obtain ⟨x', y', h'⟩ := wrapText_head h; simp at h'
  | leaf a k v =>
    intro u x y ht hu h
    cases u with
    | leaf b l w =>
      have key : ∀ x y : Text, t!"Leaf { nibbles: " ++ keyDebug k ++ t!", value: " ++ debugBytes v ++ t!" }" ++ x =
          t!"Leaf { nibbles: " ++ keyDebug l ++ t!", value: " ++ debugBytes w ++ t!" }" ++ y →
          k = l ∧ v = w ∧ x = y := by
        intro x y h
        simp only [List.append_assoc, List.cons_append, List.nil_append, List.cons.injEq, true_and] at h
        obtain ⟨e1, h⟩ := keyDebug_inj ht hu h
        simp only [List.cons.injEq, true_and] at h
        obtain ⟨e2, h⟩ := debugBytes_inj h
        simp only [List.cons.injEq, true_and] at h
        exact ⟨e1, e2, h⟩
      obtain ⟨h1, h2, h3⟩ := wrapText_inj (hc a b) (fun x y h => by
        obtain ⟨e1, e2, e3⟩ := key x y h
        exact ⟨by rw [e1, e2], e3⟩) h
      obtain ⟨e1, e2, -⟩ := key [] [] (by rw [h2])
      exact ⟨by simp only [Trie.caches, h1, e1, e2], h3⟩
    | _ => obtain ⟨x', y', h'⟩ := wrapText_head h; simp at h'
  | ext a k c ih =>
    intro u x y ht hu h
    cases u with
    | ext b l d =>
      have key : ∀ x y : Text, t!"Extension { nibbles: " ++ keyDebug k ++ t!", child: " ++
            (c.caches f).text cached ++ t!" }" ++ x =
          t!"Extension { nibbles: " ++ keyDebug l ++ t!", child: " ++ (d.caches g).text cached ++ t!" }" ++ y →
          k = l ∧ c.caches f = d.caches g ∧ x = y := by
        intro x y h
        simp only [List.append_assoc, List.cons_append, List.nil_append, List.cons.injEq, true_and] at h
        obtain ⟨e1, h⟩ := keyDebug_inj ht.1 hu.1 h
        simp only [List.cons.injEq, true_and] at h
        obtain ⟨e2, h⟩ := ih d _ _ ht.2 hu.2 h
        simp only [List.cons.injEq, true_and] at h
        exact ⟨e1, e2, h⟩
      obtain ⟨h1, h2, h3⟩ := wrapText_inj (hc a b) (fun x y h => by
        obtain ⟨e1, e2, e3⟩ := key x y h
        exact ⟨by rw [e1, e2], e3⟩) h
      obtain ⟨e1, e2, -⟩ := key [] [] (by rw [h2])
      exact ⟨by simp only [Trie.caches, h1, e1, e2], h3⟩
    | _ => obtain ⟨x', y', h'⟩ := wrapText_head h; simp at h'
  | branch a cs v ih =>
    intro u x y ht hu h
    cases u with
    | branch b ds w =>
      have key : ∀ x y : Text, t!"Branch { children: " ++
            debugList (List.ofFn fun i => ((cs i).caches f).text cached) ++ t!", value: " ++ debugBytes v ++
            t!" }" ++ x =
          t!"Branch { children: " ++ debugList (List.ofFn fun i => ((ds i).caches g).text cached) ++
            t!", value: " ++ debugBytes w ++ t!" }" ++ y →
          (∀ i, (cs i).caches f = (ds i).caches g) ∧ v = w ∧ x = y := by
        intro x y h
        simp only [debugList, List.append_assoc, List.cons_append, List.nil_append, List.cons.injEq,
          true_and] at h
        have inj : ∀ i x y, ((cs i).caches f).text cached ++ x = ((ds i).caches g).text cached ++ y →
            (cs i).caches f = (ds i).caches g ∧ x = y := fun i x y h => ih i (ds i) x y (ht i) (hu i) h
        obtain ⟨e1, h⟩ := joinTexts_inj 16 _ _ _ _ (fun i x y h => by
          obtain ⟨e1, e2⟩ := inj i x y h
          exact ⟨by rw [e1], e2⟩) h
        simp only [List.cons.injEq, true_and] at h
        obtain ⟨e2, h⟩ := debugBytes_inj h
        simp only [List.cons.injEq, true_and] at h
        exact ⟨fun i => (inj i [] [] (by rw [e1 i])).1, e2, h⟩
      obtain ⟨h1, h2, h3⟩ := wrapText_inj (hc a b) (fun x y h => by
        obtain ⟨e1, e2, e3⟩ := key x y h
        refine ⟨?_, e3⟩
        simp only [e1, e2]) h
      obtain ⟨e1, e2, -⟩ := key [] [] (by rw [h2])
      exact ⟨by simp only [Trie.caches, h1, e1, e2], h3⟩
    | _ => obtain ⟨x', y', h'⟩ := wrapText_head h; simp at h'

end EthTrie
