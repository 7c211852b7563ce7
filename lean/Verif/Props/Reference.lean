import Mathlib.Data.List.Sort
import Verif.Hash.Inj
import Verif.Props.Hashing
import Verif.Props.KeyConv
import Verif.Props.MapOps

/-!
# Properties C86, C87: tries are sorted tables

The reference is a program of a few lines: a table is a list of rows in increasing order of the
bytes of their keys.  Nothing of the tries is used in it except the root of the Yellow Paper
(`Verif/Spec/YP.lean`) and the conversion of a key to nibbles.
-/

namespace EthTrie

open Spec KMap Nibbles

/-! ## The reference -/

/-- Keys that a program uses: the bytes of none of them are the beginning of those of another. -/
structure Coding (ι : Type) where
  /-- the bytes of a key -/
  bytes : ι → Bytes
  /-- the key in the crate -/
  key : ι → Nibbles
  key_eq : ∀ a, key a = ofList (nibblesOfBytes (bytes a))
  length_le : ∀ a, (bytes a).length ≤ 32
  free : ∀ a b, bytes a <+: bytes b → a = b

/-- Rows of a table, in increasing order of the bytes of the keys. -/
abbrev Table (ι : Type) := List (ι × Bytes)

section
variable {ι : Type} [DecidableEq ι] (C : Coding ι)

namespace Coding

/-- Write a row. -/
def write (a : ι) (v : Bytes) : Table ι → Table ι
  | [] => [(a, v)]
  | (b, w) :: t =>
    if a = b then (a, v) :: t
    else if C.bytes a < C.bytes b then (a, v) :: (b, w) :: t
    else (b, w) :: write a v t

/-- Write rows one after the other. -/
def writeAll (t : Table ι) : List (ι × Bytes) → Table ι
  | [] => t
  | (a, v) :: xs => writeAll (C.write a v t) xs

/-- The rows as entries of a trie. -/
def entries (t : Table ι) : Entries := t.map fun x => (nibblesOfBytes (C.bytes x.1), .val x.2)

end Coding

/-- Remove a row. -/
def Table.remove (a : ι) (t : Table ι) : Table ι := t.filter fun x => x.1 ≠ a

/-- Look a row up. -/
def Table.look (a : ι) : Table ι → Option Bytes
  | [] => none
  | (b, w) :: t => if b = a then some w else look a t

/-- Calls with such keys. -/
inductive KCall (ι : Type) where
  | new
  | fromIter (xs : List (ι × Bytes))
  | clone (i : Nat)
  | insert (i : Nat) (a : ι) (v : Bytes)
  | extend (i : Nat) (xs : List (ι × Bytes))
  | delete (i : Nat) (a : ι)
  | get (i : Nat) (a : ι)
  | hash (i : Nat)
  | items (i : Nat)
  | eq (i j : Nat)

namespace KCall

/-- The call in the crate (`src/partial_trie.rs:41-109`). -/
def cmd : KCall ι → Cmd
  | .new => .new
  | .fromIter xs => .fromIter (xs.map fun x => ((C.key x.1).toList, .val x.2))
  | .clone i => .clone i
  | .insert i a v => .insert i (C.key a).toList (.val v)
  | .extend i xs => .extend i (xs.map fun x => ((C.key x.1).toList, .val x.2))
  | .delete i a => .delete i (C.key a).toList
  | .get i a => .get i (C.key a).toList
  | .hash i => .hash i
  | .items i => .items i
  | .eq i j => .eq i j

/-- The call on tables. -/
def on (kec : Bytes → H256) (ts : List (Table ι)) : KCall ι → Obs × List (Table ι)
  | .new => (.unit, ts ++ [[]])
  | .fromIter xs => (.unit, ts ++ [C.writeAll [] xs])
  | .clone i => match ts[i]? with
    | none => (.noHandle, ts)
    | some t => (.unit, ts ++ [t])
  | .insert i a v => match ts[i]? with
    | none => (.noHandle, ts)
    | some t => (.unit, ts.set i (C.write a v t))
  | .extend i xs => match ts[i]? with
    | none => (.noHandle, ts)
    | some t => (.unit, ts.set i (C.writeAll t xs))
  | .delete i a => match ts[i]? with
    | none => (.noHandle, ts)
    | some t => (.val (t.look a), ts.set i (t.remove a))
  | .get i a => match ts[i]? with
    | none => (.noHandle, ts)
    | some t => (.val (t.look a), ts)
  | .hash i => match ts[i]? with
    | none => (.noHandle, ts)
    | some t => (.root (trieRoot kec (C.entries t)), ts)
  | .items i => match ts[i]? with
    | none => (.noHandle, ts)
    | some t => (.items (t.map fun x => (C.key x.1, .val x.2)), ts)
  | .eq i j => match ts[i]?, ts[j]? with
    | some t, some u => (.bool (decide (t = u)), ts)
    | _, _ => (.noHandle, ts)

/-- What the calls of a program return on tables. -/
def runOn (kec : Bytes → H256) : List (Table ι) → List (KCall ι) → List Obs
  | _, [] => []
  | ts, c :: cs => (c.on C kec ts).1 :: runOn kec (c.on C kec ts).2 cs

end KCall
end

/-! ## Tables and finite maps -/

theorem byte_lt {b c : UInt8} : b < c ↔ Fin.ofNat 16 (b.toNat / 16) < Fin.ofNat 16 (c.toNat / 16) ∨
    (Fin.ofNat 16 (b.toNat / 16) = Fin.ofNat 16 (c.toNat / 16) ∧
      Fin.ofNat 16 b.toNat < Fin.ofNat 16 c.toNat) := by
  have := b.toNat_lt
  have := c.toNat_lt
  simp only [UInt8.lt_iff_toNat_lt, Fin.lt_def, Fin.ext_iff, Fin.val_ofNat]
  omega

theorem byte_eq {b c : UInt8} (h1 : Fin.ofNat 16 (b.toNat / 16) = Fin.ofNat 16 (c.toNat / 16))
    (h2 : Fin.ofNat 16 b.toNat = Fin.ofNat 16 c.toNat) : b = c := by
  have := b.toNat_lt
  have := c.toNat_lt
  simp only [Fin.ext_iff, Fin.val_ofNat] at h1 h2
  apply UInt8.toNat_inj.1
  omega

theorem prefix_bytes : ∀ {a b : Bytes}, nibblesOfBytes a <+: nibblesOfBytes b → a <+: b
  | [], _, _ => List.nil_prefix
  | x :: a, [], h => by simp [nibblesOfBytes_cons] at h
  | x :: a, y :: b, h => by
    rw [nibblesOfBytes_cons, nibblesOfBytes_cons] at h
    simp only [List.cons_prefix_cons] at h ⊢
    exact ⟨byte_eq h.1 h.2.1, prefix_bytes h.2.2⟩

/-- The order of bytes is the order of iteration. -/
theorem before_bytes : ∀ (a b : Bytes), ¬ a <+: b → ¬ b <+: a →
    (Before (nibblesOfBytes a) (nibblesOfBytes b) ↔ a < b)
  | [], b, h, _ => absurd List.nil_prefix h
  | _ :: _, [], _, h => absurd List.nil_prefix h
  | x :: a, y :: b, h, h' => by
    rw [nibblesOfBytes_cons, nibblesOfBytes_cons, List.cons_lt_cons_iff, byte_lt]
    simp only [Before]
    by_cases e : x = y
    · subst e
      rw [before_bytes a b (fun hh => h (List.cons_prefix_cons.2 ⟨rfl, hh⟩))
        fun hh => h' (List.cons_prefix_cons.2 ⟨rfl, hh⟩)]
      simp
    · constructor
      · rintro (h1 | ⟨h1, h2 | ⟨h2, h3⟩⟩)
        · exact .inl (.inl h1)
        · exact .inl (.inr ⟨h1, h2⟩)
        · exact absurd (byte_eq h1 h2) e
      · rintro ((h1 | ⟨h1, h2⟩) | ⟨h1, h3⟩)
        · exact .inl h1
        · exact .inr ⟨h1, .inl h2⟩
        · exact absurd h1 e

section
variable {ι : Type} {C : Coding ι}

namespace Coding

/-- The nibbles of a key. -/
def nibs (C : Coding ι) (a : ι) : Key := nibblesOfBytes (C.bytes a)

theorem key_toList (a : ι) : (C.key a).toList = C.nibs a := by
  rw [C.key_eq]
  exact toList_ofList (by have := C.length_le a; simp; omega)

theorem nibs_length (a : ι) : (C.nibs a).length ≤ 64 := by
  have := C.length_le a
  simp [nibs]
  omega

theorem nibs_free {a b : ι} (h : C.nibs a <+: C.nibs b) : a = b := C.free a b (prefix_bytes h)

theorem nibs_inj {a b : ι} (h : C.nibs a = C.nibs b) : a = b := nibs_free (by rw [h])

theorem before_iff {a b : ι} (h : a ≠ b) : Before (C.nibs a) (C.nibs b) ↔ C.bytes a < C.bytes b :=
  before_bytes _ _ (fun h1 => h (C.free _ _ h1)) fun h1 => h (C.free _ _ h1).symm

/-- The keys of the program. -/
def Keys (C : Coding ι) (k : Key) : Prop := ∃ a, k = C.nibs a

theorem keys_free : PrefixFree C.Keys := by
  rintro _ _ ⟨a, rfl⟩ ⟨b, rfl⟩ h
  rw [nibs_free h]

theorem keys_short (k : Key) (h : C.Keys k) : k.length ≤ 64 := by
  obtain ⟨a, rfl⟩ := h
  exact nibs_length a

/-- The keys are increasing. -/
def Sorted (C : Coding ι) (t : Table ι) : Prop := t.Pairwise fun x y => Before (C.nibs x.1) (C.nibs y.1)

/-- The table has the contents of a finite map. -/
def Holds (C : Coding ι) (t : Table ι) (m : KMap) : Prop :=
  C.Sorted t ∧ ∀ k e, (k, e) ∈ C.entries t ↔ m k = some e

variable {t u : Table ι} {m : KMap}

theorem Sorted.ordered (ht : C.Sorted t) : Ordered (C.entries t) := List.pairwise_map.2 ht

theorem Holds.lists (ht : C.Holds t m) : Lists (C.entries t) m := ⟨ht.1.ordered.nodup, ht.2⟩

theorem mem_entries {k : Key} {e : ValOrHash} :
    (k, e) ∈ C.entries t ↔ ∃ a v, (a, v) ∈ t ∧ k = C.nibs a ∧ e = .val v := by
  simp only [entries, List.mem_map, Prod.mk.injEq, Prod.exists]
  exact ⟨fun ⟨a, b, h1, h2, h3⟩ => ⟨a, b, h1, h2.symm, h3.symm⟩,
    fun ⟨a, b, h1, h2, h3⟩ => ⟨a, b, h1, h2.symm, h3.symm⟩⟩

theorem holds_nil : C.Holds [] KMap.empty :=
  ⟨List.Pairwise.nil, fun k e => by simp [entries, KMap.empty]⟩

/-- The entries in the order of iteration are the rows. -/
theorem Holds.ordered (ht : C.Holds t m) {J : Entries} (hJ : Lists J m) (ho : Ordered J) :
    J = C.entries t := by
  have hp : J.Perm (C.entries t) :=
    (List.perm_ext_iff_of_nodup hJ.1.of_map ht.lists.1.of_map).2 fun ⟨k, e⟩ => by rw [hJ.2, ht.2]
  refine List.Perm.eq_of_pairwise (le := fun x y : Key × ValOrHash => Before x.1 y.1)
    (fun a b _ _ h1 h2 => ?_) ho ht.1.ordered hp
  exact absurd (h1.trans h2) (Before.irrefl _)

theorem entries_inj : ∀ {t u : Table ι}, C.entries t = C.entries u → t = u
  | [], [], _ => rfl
  | (a, b) :: t, (c, d) :: u, e => by
    simp only [entries, List.map_cons, List.cons.injEq, Prod.mk.injEq, ValOrHash.val.injEq] at e
    rw [nibs_inj e.1.1, e.1.2, entries_inj (t := t) (u := u) e.2]

theorem Holds.eq_iff {m' : KMap} (ht : C.Holds t m) (hu : C.Holds u m') : t = u ↔ m = m' := by
  constructor
  · rintro rfl
    exact ht.lists.ext hu.lists (List.Perm.refl _)
  · rintro rfl
    exact entries_inj (hu.ordered ht.lists ht.1.ordered)

/-- The root does not depend on the order of the entries. -/
theorem Holds.root (ht : C.Holds t m) (kec : Bytes → H256) {J : Entries} (hJ : Lists J m) :
    trieRoot kec J = trieRoot kec (C.entries t) := by
  have hm : m = KMap.empty.putAll (C.entries t) :=
    ht.lists.ext (lists_putAll _ ht.lists.1) (List.Perm.refl _)
  have hcs : ∀ c ∈ [Cmd.fromIter (C.entries t)], c.Over C.Keys := by
    intro c hc
    rw [List.mem_singleton.1 hc]
    rintro ⟨k, e⟩ hx
    obtain ⟨a, v, -, rfl, rfl⟩ := mem_entries.1 hx
    exact ⟨⟨a, rfl⟩, v, rfl⟩
  obtain ⟨s, os, -, h2, h3⟩ := Reached.run (M := .noEmptySubset) [Cmd.fromIter (C.entries t)]
    (.start (K := .standard) (P := .release) (kec := kec))
    (over_supportedRun keys_free (fun k hk => (keys_short k hk).trans (by omega)) _
      (fun m h => by cases h) hcs (fun _ _ _ => keys_short) nofun)
    fun c hc => over_permitted (hcs c hc)
  have h4 := steps_effect h2 hcs
  have hi : s.contents[0]? = some m := by rw [h4, hm]; rfl
  simp only [Sys.contents, List.getElem?_map, Option.map_eq_some_iff] at hi
  obtain ⟨x, hx, rfl⟩ := hi
  have h5 := C21_root h3 hx hJ
  rw [C21_root h3 hx ht.lists] at h5
  simpa using h5.symm

variable [DecidableEq ι] {a : ι} {v : Bytes}

theorem mem_write {x : ι × Bytes} : ∀ (t : Table ι), C.Sorted t →
    (x ∈ C.write a v t ↔ x = (a, v) ∨ (x ∈ t ∧ x.1 ≠ a))
  | [], _ => by simp [write]
  | (b, w) :: t, ht => by
    have hlt := (List.pairwise_cons.1 ht).1
    have ih := mem_write (x := x) t (List.pairwise_cons.1 ht).2
    rw [write]
    split
    · rename_i e
      subst e
      simp only [List.mem_cons]
      constructor
      · rintro (rfl | h1)
        · exact .inl rfl
        · refine .inr ⟨.inr h1, fun e => ?_⟩
          have := hlt x h1
          rw [e] at this
          exact Before.irrefl _ this
      · rintro (rfl | ⟨rfl | h1, h2⟩)
        · exact .inl rfl
        · exact absurd rfl h2
        · exact .inr h1
    · rename_i hne
      split
      · rename_i hl
        simp only [List.mem_cons]
        constructor
        · rintro (rfl | rfl | h1)
          · exact .inl rfl
          · exact .inr ⟨.inl rfl, fun e => hne e.symm⟩
          · refine .inr ⟨.inr h1, fun e => ?_⟩
            have := ((before_iff hne).2 hl).trans (hlt x h1)
            rw [e] at this
            exact Before.irrefl _ this
        · rintro (rfl | ⟨rfl | h1, h2⟩)
          · exact .inl rfl
          · exact .inr (.inl rfl)
          · exact .inr (.inr h1)
      · rw [List.mem_cons, ih, List.mem_cons]
        constructor
        · rintro (rfl | rfl | ⟨h1, h2⟩)
          · exact .inr ⟨.inl rfl, fun e => hne e.symm⟩
          · exact .inl rfl
          · exact .inr ⟨.inr h1, h2⟩
        · rintro (rfl | ⟨rfl | h1, h2⟩)
          · exact .inr (.inl rfl)
          · exact .inl rfl
          · exact .inr (.inr ⟨h1, h2⟩)

theorem sorted_write : ∀ (t : Table ι), C.Sorted t → C.Sorted (C.write a v t)
  | [], _ => by simp [write, Sorted]
  | (b, w) :: t, ht => by
    obtain ⟨hlt, ht'⟩ := List.pairwise_cons.1 ht
    rw [write]
    split
    · rename_i e
      subst e
      exact List.pairwise_cons.2 ⟨hlt, ht'⟩
    · rename_i hne
      split
      · rename_i hl
        have hl := (before_iff hne).2 hl
        refine List.pairwise_cons.2 ⟨fun x hx => ?_, ht⟩
        rcases List.mem_cons.1 hx with rfl | hx
        · exact hl
        · exact hl.trans (hlt x hx)
      · rename_i hl
        refine List.pairwise_cons.2 ⟨fun x hx => ?_, sorted_write t ht'⟩
        rcases (mem_write t ht').1 hx with rfl | ⟨hx, _⟩
        · exact (Before.total _ _ fun e => hne (nibs_inj e).symm).resolve_right
            fun h => hl ((before_iff hne).1 h)
        · exact hlt x hx

theorem Holds.write (ht : C.Holds t m) (a : ι) (v : Bytes) :
    C.Holds (C.write a v t) (m.put (C.nibs a) (.val v)) := by
  refine ⟨sorted_write t ht.1, fun k e => ?_⟩
  rw [mem_entries]
  simp only [mem_write t ht.1, KMap.put]
  by_cases hk : k = C.nibs a
  · rw [if_pos hk]
    constructor
    · rintro ⟨b, w, h1 | ⟨_, h1⟩, h2, rfl⟩
      · cases h1; rfl
      · exact absurd (nibs_inj (h2.symm.trans hk)) h1
    · intro h1
      cases h1
      exact ⟨a, v, .inl rfl, hk, rfl⟩
  · rw [if_neg hk, ← ht.2, mem_entries]
    constructor
    · rintro ⟨b, w, h1 | ⟨h1, _⟩, h2, h3⟩
      · cases h1; exact absurd h2 hk
      · exact ⟨b, w, h1, h2, h3⟩
    · rintro ⟨b, w, h1, h2, h3⟩
      refine ⟨b, w, .inr ⟨h1, fun e => ?_⟩, h2, h3⟩
      subst e
      exact hk h2

theorem Holds.writeAll : ∀ (xs : List (ι × Bytes)) {t : Table ι} {m : KMap}, C.Holds t m →
    C.Holds (C.writeAll t xs) (m.putAll (xs.map fun x => (C.nibs x.1, .val x.2)))
  | [], _, _, ht => ht
  | (a, v) :: xs, _, _, ht => Holds.writeAll xs (ht.write a v)

theorem Holds.remove (ht : C.Holds t m) (a : ι) : C.Holds (t.remove a) (m.erase (C.nibs a)) := by
  refine ⟨ht.1.filter _, fun k e => ?_⟩
  rw [mem_entries]
  simp only [Table.remove, List.mem_filter, decide_eq_true_eq, KMap.erase]
  by_cases hk : k = C.nibs a
  · rw [if_pos hk]
    constructor
    · rintro ⟨b, w, ⟨_, h1⟩, h2, _⟩
      exact absurd (nibs_inj (h2.symm.trans hk)) h1
    · nofun
  · rw [if_neg hk, ← ht.2, mem_entries]
    constructor
    · rintro ⟨b, w, ⟨h1, _⟩, h2, h3⟩
      exact ⟨b, w, h1, h2, h3⟩
    · rintro ⟨b, w, h1, h2, h3⟩
      refine ⟨b, w, ⟨h1, fun e => ?_⟩, h2, h3⟩
      have e : b = a := e
      subst e
      exact hk h2

theorem look_mem : ∀ (t : Table ι), t.look a = some v → (a, v) ∈ t
  | (b, w) :: t, e => by
    rw [Table.look] at e
    split at e
    · rename_i e'
      cases e; subst e'
      exact List.mem_cons_self
    · exact List.mem_cons_of_mem _ (look_mem t e)

theorem look_none : ∀ (t : Table ι), t.look a = none → (a, v) ∉ t
  | [], _ => by simp
  | (b, w) :: t, e => by
    rw [Table.look] at e
    split at e
    · cases e
    · rename_i hne
      intro hm
      rcases List.mem_cons.1 hm with e' | e'
      · cases e'; exact hne rfl
      · exact look_none t e e'

theorem Holds.look (ht : C.Holds t m) (a : ι) : m.find (C.nibs a) = t.look a := by
  rw [KMap.find]
  cases e : t.look a with
  | some v => rw [(ht.2 _ _).1 (mem_entries.2 ⟨a, v, look_mem t e, rfl, rfl⟩)]
  | none =>
    cases e' : m (C.nibs a) with
    | none => rfl
    | some x =>
      obtain ⟨b, w, h1, h2, -⟩ := mem_entries.1 ((ht.2 _ _).2 e')
      cases nibs_inj h2
      exact absurd h1 (look_none t e)

end Coding
end

/-! ## C86 -/

section
variable {ι : Type} [DecidableEq ι] (C : Coding ι)

omit [DecidableEq ι] in
theorem KCall.cmd_over (c : KCall ι) : (c.cmd C).Over C.Keys := by
  cases c <;> simp only [KCall.cmd, Cmd.Over, Coding.key_toList] <;>
    first
    | trivial
    | exact ⟨⟨_, rfl⟩, _, rfl⟩
    | exact ⟨_, rfl⟩
    | (intro x hx
       obtain ⟨y, -, rfl⟩ := List.mem_map.1 hx
       exact ⟨⟨_, rfl⟩, _, rfl⟩)

theorem forall₂_snoc {α β : Type} {R : α → β → Prop} : ∀ {l : List α} {r : List β} {a : α} {b : β},
    List.Forall₂ R l r → R a b → List.Forall₂ R (l ++ [a]) (r ++ [b])
  | _, _, _, _, .nil, h => .cons h .nil
  | _, _, _, _, .cons h1 h2, h => .cons h1 (forall₂_snoc h2 h)

theorem forall₂_set {α β : Type} {R : α → β → Prop} {a : α} {b : β} (h : R a b) :
    ∀ {l : List α} {r : List β} (i : Nat), List.Forall₂ R l r → List.Forall₂ R (l.set i a) (r.set i b)
  | _, _, _, .nil => .nil
  | _, _, 0, .cons _ h2 => .cons h h2
  | _, _, i + 1, .cons h1 h2 => .cons h1 (forall₂_set h i h2)

theorem pairs_get {α β : Type} {R : α → β → Prop} : ∀ {l : List α} {r : List β} (i : Nat),
    List.Forall₂ R l r → (l[i]? = none ∧ r[i]? = none) ∨ ∃ a b, l[i]? = some a ∧ r[i]? = some b ∧ R a b
  | _, _, _, .nil => .inl ⟨rfl, rfl⟩
  | _, _, 0, .cons h _ => .inr ⟨_, _, rfl, rfl, h⟩
  | _, _, i + 1, .cons _ h2 => pairs_get i h2

/-- One call. -/
theorem KCall.step (kec : Bytes → H256) (c : KCall ι) {ts : List (Table ι)} {ms ms' : List KMap} {o : Obs}
    (ht : List.Forall₂ C.Holds ts ms) (hs : Step kec ms (c.cmd C) o ms') :
    o = (c.on C kec ts).1 ∧ List.Forall₂ C.Holds (c.on C kec ts).2 ms' := by
  cases c with
  | new =>
    obtain ⟨rfl, rfl⟩ := hs
    exact ⟨rfl, forall₂_snoc ht Coding.holds_nil⟩
  | fromIter xs =>
    obtain ⟨rfl, rfl⟩ := hs
    simp only [Coding.key_toList]
    exact ⟨rfl, forall₂_snoc ht (.writeAll xs Coding.holds_nil)⟩
  | eq i j =>
    simp only [KCall.cmd, Step, onMap, KCall.on] at hs ⊢
    rcases pairs_get i ht with ⟨h1, h2⟩ | ⟨t, m, h1, h2, h3⟩
    · simp only [h1, h2] at hs ⊢
      obtain ⟨rfl, rfl⟩ := hs
      exact ⟨rfl, ht⟩
    · rcases pairs_get j ht with ⟨g1, g2⟩ | ⟨u, m', g1, g2, g3⟩
      · simp only [h1, h2, g1, g2] at hs ⊢
        obtain ⟨rfl, rfl⟩ := hs
        exact ⟨rfl, ht⟩
      · simp only [h1, h2, g1, g2] at hs ⊢
        obtain ⟨⟨b, rfl, hb⟩, rfl⟩ := hs
        refine ⟨?_, ht⟩
        rw [← h3.eq_iff g3] at hb
        rw [Obs.bool.injEq, Bool.eq_iff_iff, hb, decide_eq_true_eq]
  | clone i | insert i _ _ | extend i _ | delete i _ | get i _ | hash i | items i =>
    simp only [KCall.cmd, Step, onMap, KCall.on, Coding.key_toList] at hs ⊢
    rcases pairs_get i ht with ⟨h1, h2⟩ | ⟨t, m, h1, h2, h3⟩
    · simp only [h1, h2] at hs ⊢
      obtain ⟨rfl, rfl⟩ := hs
      exact ⟨rfl, ht⟩
    · simp only [h1, h2] at hs ⊢
      first
      | (obtain ⟨⟨J, hJ, hoJ, rfl⟩, rfl⟩ := hs
         refine ⟨?_, ht⟩
         rw [h3.ordered hJ hoJ]
         simp only [packEntries, Coding.entries, List.map_map, Function.comp_def, C.key_eq])
      | (obtain ⟨⟨J, hJ, rfl⟩, rfl⟩ := hs
         exact ⟨by rw [h3.root kec hJ], ht⟩)
      | (obtain ⟨rfl, rfl⟩ := hs
         first
         | exact ⟨rfl, forall₂_snoc ht h3⟩
         | exact ⟨rfl, forall₂_set (h3.write _ _) i ht⟩
         | exact ⟨rfl, forall₂_set (.writeAll _ h3) i ht⟩
         | exact ⟨by rw [h3.look], forall₂_set (h3.remove _) i ht⟩
         | exact ⟨by rw [h3.look], ht⟩)

theorem KCall.steps (kec : Bytes → H256) : ∀ (cs : List (KCall ι)) {ts : List (Table ι)}
    {ms ms' : List KMap} {os : List Obs}, List.Forall₂ C.Holds ts ms →
    Steps kec ms (cs.map (KCall.cmd C)) os ms' → os = KCall.runOn C kec ts cs
  | [], _, _, _, _, _, .nil _ => rfl
  | c :: cs, _, _, _, _, ht, .cons h hs => by
    obtain ⟨rfl, h1⟩ := c.step C kec ht h
    rw [KCall.runOn, KCall.steps kec cs h1 hs]

/-- Every program, if its lookups can be followed in builds with overflow checks. -/
theorem KCall.run_eq (K : Kind) (P : Profile) (kec : Bytes → H256) (cs : List (KCall ι))
    (hp : P.overflowChecks = true → PathsOK kec [] (cs.map (KCall.cmd C))) :
    K.obs P kec (cs.map (KCall.cmd C)) = .ok (KCall.runOn C kec [] cs) := by
  have hcs : ∀ c ∈ cs.map (KCall.cmd C), c.Over C.Keys := by
    intro c hc
    obtain ⟨d, -, rfl⟩ := List.mem_map.1 hc
    exact d.cmd_over C
  obtain ⟨s, os, h1, h2, -⟩ := Reached.run (M := .noEmptySubset) (cs.map (KCall.cmd C))
    (.start (K := K) (P := P) (kec := kec))
    (over_supportedRun Coding.keys_free (fun k hk => (Coding.keys_short k hk).trans (by omega)) _
      (fun m h => by cases h) hcs (fun _ _ _ => Coding.keys_short) hp)
    fun c hc => over_permitted (hcs c hc)
  rw [Kind.obs, Kind.run, h1, ← KCall.steps C kec cs .nil h2]
  rfl

end

theorem over_imp {S T : Key → Prop} (h : ∀ k, S k → T k) : ∀ {c : Cmd}, c.Over S → c.Over T
  | .fromIter _, hc => fun x hx => ⟨h _ (hc x hx).1, (hc x hx).2⟩
  | .extend _ _, hc => fun x hx => ⟨h _ (hc x hx).1, (hc x hx).2⟩
  | .insert _ _ _, hc => ⟨h _ hc.1, hc.2⟩
  | .delete _ _, hc => h _ hc
  | .get _ _, hc => h _ hc
  | .subset _ _, hc => hc.elim
  | .subsets _ _, hc => hc.elim
  | .new, _ | .clone _, _ | .hash _, _ | .items _, _ | .eq _ _, _ => trivial

/-- 32-byte hashes as keys, made by `Nibbles::from_h256_be` (`src/nibbles.rs:734-736`). -/
def hashKeys : Coding H256 where
  bytes h := h.toList
  key := fromH256BE
  key_eq := fromH256BE_eq
  length_le h := by simp
  free a b h := Vector.toList_inj.1 (h.eq_of_length (by simp))

/-- C86: a program over any number of tries whose keys are made from 32-byte hashes returns exactly
what it returns on sorted tables, for both trie types and both build profiles, and never panics. -/
theorem C86_reference (K : Kind) (P : Profile) (kec : Bytes → H256) (cs : List (KCall H256)) :
    K.obs P kec (cs.map (KCall.cmd hashKeys)) = .ok (KCall.runOn hashKeys kec [] cs) := by
  refine KCall.run_eq hashKeys K P kec cs fun _ => over_fixed (n := 64) (by omega) _ (fun m h => by cases h) ?_
  intro c hc
  obtain ⟨d, -, rfl⟩ := List.mem_map.1 hc
  refine over_imp ?_ (d.cmd_over hashKeys)
  rintro _ ⟨a, rfl⟩
  simp [Coding.nibs, hashKeys]

/-- Three keys: two differ in the last nibble only. -/
def hA : H256 := Vector.replicate 32 0x11
def hB : H256 := (Vector.replicate 32 0x11).set 31 0x12
def hC : H256 := (Vector.replicate 32 0x11).set 0 0xf0

/-- Rows are written out of order, overwritten and removed; a clone keeps its row. -/
def refProg : List (KCall H256) :=
  [.fromIter [(hC, [3]), (hA, [1])], .insert 0 hB [2], .insert 0 hA [4], .clone 0, .delete 0 hC, .get 0 hC,
   .get 1 hC, .items 1, .eq 0 1, .insert 0 hC [3], .eq 0 1, .hash 0, .get 5 hA]

theorem refProg_runs : KCall.runOn hashKeys kec0 [] refProg =
    [.unit, .unit, .unit, .unit, .val (some [3]), .val none, .val (some [3]),
     .items [(fromH256BE hA, .val [4]), (fromH256BE hB, .val [2]), (fromH256BE hC, .val [3])], .bool false,
     .unit, .bool true, .root (Vector.replicate 32 83), .noHandle] := by decide +kernel

example (K : Kind) (P : Profile) : K.obs P kec0 (refProg.map (KCall.cmd hashKeys)) = .ok
    [.unit, .unit, .unit, .unit, .val (some [3]), .val none, .val (some [3]),
     .items [(fromH256BE hA, .val [4]), (fromH256BE hB, .val [2]), (fromH256BE hC, .val [3])], .bool false,
     .unit, .bool true, .root (Vector.replicate 32 83), .noHandle] := by
  rw [C86_reference, refProg_runs]

/-! ## C87 -/

theorem rlpStr_short {x : Bytes} (hx : x.length < 56) : (rlpStr x = x ∧ x.length = 1 ∧ bytesVal x < 128) ∨
    (rlpStr x = UInt8.ofNat (128 + x.length) :: x ∧ ¬ (x.length = 1 ∧ bytesVal x < 128)) := by
  rw [rlpStr]
  by_cases h : x.length = 1 ∧ bytesVal x < 128
  · rw [if_pos h]; exact .inl ⟨rfl, h⟩
  · rw [if_neg h, if_pos hx]; exact .inr ⟨rfl, h⟩

/-- The first byte says how many bytes there are. -/
theorem rlpStr_head {x y : Bytes} (hx : x.length < 56) (hy : y.length < 56)
    (h : (rlpStr x).head? = (rlpStr y).head?) : (rlpStr x).length = (rlpStr y).length := by
  have key : ∀ {x y : Bytes}, x.length = 1 ∧ bytesVal x < 128 → y.length < 56 →
      x.head? = some (UInt8.ofNat (128 + y.length)) → False := by
    intro x y ⟨h1, h2⟩ h3 h4
    obtain ⟨b, rfl⟩ := List.length_eq_one_iff.1 h1
    simp only [List.head?_cons, Option.some.injEq] at h4
    subst h4
    simp only [bytesVal_cons, bytesVal_nil, List.length_nil, UInt8.toNat_ofNat'] at h2
    omega
  rcases rlpStr_short hx with ⟨e1, h1⟩ | ⟨e1, h1⟩ <;> rcases rlpStr_short hy with ⟨e2, h2⟩ | ⟨e2, h2⟩ <;>
    rw [e1, e2] at h ⊢
  · omega
  · exact (key h1 hy h).elim
  · exact (key h2 hx h.symm).elim
  · simp only [List.head?_cons, Option.some.injEq] at h
    have := congrArg UInt8.toNat h
    simp only [UInt8.toNat_ofNat'] at this
    simp only [List.length_cons]
    omega

theorem rlpStr_ne (x : Bytes) : rlpStr x ≠ [] := by
  rw [rlpStr]
  split
  · rintro rfl; simp_all
  · split <;> simp

theorem head_of_prefix {α : Type} {a b : List α} (h : a <+: b) (ha : a ≠ []) : a.head? = b.head? := by
  obtain ⟨c, rfl⟩ := h
  cases a with
  | nil => exact absurd rfl ha
  | cons x a => rfl

/-- The RLP of an index: its bytes without leading zeros. -/
def indexBytes (i : UInt64) : Bytes := rlpStr (be i.toNat)

theorem index_short (i : UInt64) : (be i.toNat).length ≤ 8 := be_length_le i.toNat_lt

theorem indexBytes_head {i j : UInt64} (h : (indexBytes i).head? = (indexBytes j).head?) :
    (indexBytes i).length = (indexBytes j).length :=
  rlpStr_head (by have := index_short i; omega) (by have := index_short j; omega) h

/-- Indexes as keys, as in tries of transactions, receipts and withdrawals: the RLP of the index is
made a key by `Nibbles::from_bytes_be` (`src/nibbles.rs:213-247`). -/
def indexKeys : Coding UInt64 where
  bytes := indexBytes
  key i := ofList (nibblesOfBytes (indexBytes i))
  key_eq _ := rfl
  length_le i := by
    have h := index_short i
    rcases rlpStr_short (x := be i.toNat) (by omega) with ⟨e, _⟩ | ⟨e, _⟩ <;> rw [indexBytes, e] <;> simp <;>
      omega
  free a b h := by
    have h1 := h.eq_of_length (indexBytes_head (head_of_prefix h (rlpStr_ne _)))
    have h2 := congrArg bytesVal (rlpStr_inj h1)
    rw [bytesVal_be, bytesVal_be] at h2
    exact UInt64.toNat_inj.1 h2

/-- The conversion never fails. -/
theorem C87_key (i : UInt64) : fromBytesBE (indexBytes i) = .ok (indexKeys.key i) := by
  have := indexKeys.length_le i
  exact fromBytesBE_ok (rlpStr_ne _) (this.trans (by omega))

/-- C87 in builds without overflow checks: a program over any number of tries whose keys are made
from the RLP of indexes returns exactly what it returns on sorted tables, and never panics. -/
theorem C87_release (K : Kind) (P : Profile) (hP : P.overflowChecks = false) (kec : Bytes → H256)
    (cs : List (KCall UInt64)) :
    K.obs P kec (cs.map (KCall.cmd indexKeys)) = .ok (KCall.runOn indexKeys kec [] cs) :=
  KCall.run_eq indexKeys K P kec cs (by simp [hP])

/-- All lookups are in tables that have index 0 or no index of 128 or more. -/
def LooksOK (kec : Bytes → H256) : List (Table UInt64) → List (KCall UInt64) → Prop
  | _, [] => True
  | ts, c :: cs => (∀ i a t, c = .get i a → ts[i]? = some t →
      (∃ v, (0, v) ∈ t) ∨ ∀ x ∈ t, x.1.toNat < 128) ∧ LooksOK kec (c.on indexKeys kec ts).2 cs

theorem index_small {i : UInt64} (h : i.toNat < 128) : (indexBytes i).length = 1 := by
  have hl : (be i.toNat).length ≤ 1 := by
    refine (be_length_mono (b := 255) (by omega)).trans ?_
    decide +kernel
  rcases rlpStr_short (x := be i.toNat) (by omega) with ⟨e, h1, _⟩ | ⟨e, h1⟩ <;> rw [indexBytes, e]
  · exact h1
  · rw [bytesVal_be] at h1
    simp only [List.length_cons]
    omega

theorem index_nibble {i : UInt64} (h : 128 ≤ i.toNat) : (indexKeys.nibs i).head? = some 8 := by
  have h8 := index_short i
  rcases rlpStr_short (x := be i.toNat) (by omega) with ⟨e, h1, h2⟩ | ⟨e, h1⟩
  · rw [bytesVal_be] at h2
    omega
  · simp only [Coding.nibs, indexKeys, indexBytes, e, nibblesOfBytes_cons, UInt8.toNat_ofNat']
    have : (128 + (be i.toNat).length) % 2 ^ 8 / 16 = 8 := by omega
    rw [this]
    rfl

theorem index_pathOK {t : Table UInt64} {m : KMap} (ht : indexKeys.Holds t m)
    (h0 : (∃ v, (0, v) ∈ t) ∨ ∀ x ∈ t, x.1.toNat < 128) (a : UInt64) : m.PathOK (indexKeys.nibs a) := by
  intro _ q p hq hqp hl ⟨d, r, hr⟩ hall
  exfalso
  have stored : ∀ k, m k ≠ none → ∃ i v, (i, v) ∈ t ∧ k = indexKeys.nibs i := by
    intro k hk
    obtain ⟨e, he⟩ := Option.ne_none_iff_exists'.1 hk
    obtain ⟨i, v, h1, h2, -⟩ := Coding.mem_entries.1 ((ht.2 _ _).2 he)
    exact ⟨i, v, h1, h2⟩
  obtain ⟨i, v, hi, e⟩ := stored _ hr
  have hpi : p <+: indexKeys.nibs i := e ▸ hall _ hr (List.prefix_append _ _)
  have hpl := hpi.length_le
  have hlen : ∀ j, (indexKeys.nibs j).length = 2 * (indexBytes j).length := fun j => by
    simp [Coding.nibs, indexKeys]
  have hqi : q <+: indexKeys.nibs i := hqp.trans hpi
  have hne : ∀ j : UInt64, 1 ≤ (indexBytes j).length := fun j => by
    have := rlpStr_ne (be j.toNat)
    rw [indexBytes]
    cases h : rlpStr (be j.toNat) with
    | nil => exact absurd h this
    | cons => simp
  have h1a := hne a
  rw [hlen] at hl hpl
  by_cases hq2 : 2 ≤ q.length
  · -- the first bytes agree
    have hhead : (indexBytes a).head? = (indexBytes i).head? := by
      obtain ⟨c1, e1⟩ := hq
      obtain ⟨c2, e2⟩ := hqi
      cases ha : indexBytes a with
      | nil => simp [ha] at h1a
      | cons x xs =>
        cases hi' : indexBytes i with
        | nil => have := hne i; simp [hi'] at this
        | cons y ys =>
          match q, hq2 with
          | q1 :: q2 :: q', _ =>
            simp only [Coding.nibs, indexKeys, ha, hi', nibblesOfBytes_cons, List.cons_append,
              List.cons.injEq] at e1 e2
            have := byte_eq (e1.1.symm.trans e2.1) (e1.2.1.symm.trans e2.2.1)
            simp [this]
    have := indexBytes_head hhead
    omega
  · have hbig : 128 ≤ i.toNat := by
      by_contra hs
      have := index_small (i := i) (by omega)
      omega
    rcases h0 with ⟨w, h0⟩ | h0
    · have h00 : m (indexKeys.nibs 0) ≠ none := by
        rw [(ht.2 _ _).1 (Coding.mem_entries.2 ⟨0, w, h0, rfl, rfl⟩)]
        simp
      have hz : indexKeys.nibs 0 = [8, 0] := by decide +kernel
      have hq0 : q <+: indexKeys.nibs 0 := by
        rw [hz]
        clear hall hq hqp hr e
        rcases q with _ | ⟨x, _ | ⟨y, q⟩⟩
        · exact List.nil_prefix
        · have := head_of_prefix hqi (by simp)
          rw [index_nibble hbig] at this
          simp only [List.head?_cons, Option.some.injEq] at this
          subst this
          simp
        · simp at hq2
      have := (hall _ h00 hq0).length_le
      rw [hz] at this
      simp only [List.length_cons, List.length_nil] at this
      omega
    · have := h0 _ hi
      simp only at this
      omega

theorem index_pathsOK (kec : Bytes → H256) : ∀ (cs : List (KCall UInt64)) {ts : List (Table UInt64)}
    {ms : List KMap}, List.Forall₂ indexKeys.Holds ts ms → LooksOK kec ts cs →
    PathsOK kec ms (cs.map (KCall.cmd indexKeys))
  | [], _, _, _, _ => trivial
  | c :: cs, ts, ms, ht, hl => by
    refine ⟨fun i k m e hm => ?_, fun o ms' hs => index_pathsOK kec cs (c.step indexKeys kec ht hs).2 hl.2⟩
    cases c with
    | get j a =>
      simp only [KCall.cmd, Cmd.get.injEq, Coding.key_toList] at e
      obtain ⟨rfl, rfl⟩ := e
      rcases pairs_get j ht with ⟨_, h2⟩ | ⟨t, m', h1, h2, h3⟩
      · rw [h2] at hm; cases hm
      · rw [h2] at hm; cases hm
        exact index_pathOK h3 (hl.1 j a t rfl h1) a
    | _ => simp [KCall.cmd] at e

/-- C87 in all builds: the same, if all lookups are in tries that have index 0 or no index of 128 or
more.  Tries that are filled from index 0 on always are such tries. -/
theorem C87_checked (K : Kind) (P : Profile) (kec : Bytes → H256) (cs : List (KCall UInt64))
    (hl : LooksOK kec [] cs) :
    K.obs P kec (cs.map (KCall.cmd indexKeys)) = .ok (KCall.runOn indexKeys kec [] cs) :=
  KCall.run_eq indexKeys K P kec cs fun _ => index_pathsOK kec cs .nil hl

/-- C87: without index 0, the lookup of an absent index can panic in builds with overflow checks. -/
theorem C87_false : ∀ (K : Kind) (kec : Bytes → H256),
    K.obs .debug kec ([.fromIter [(256, [1]), (257, [2])], .get 0 0].map (KCall.cmd indexKeys)) =
      .error .overflow := by
  intro K kec; cases K <;> kernel_rfl

/-- In other builds it returns nothing. -/
example (K : Kind) : K.obs .release kec0
    ([.fromIter [(256, [1]), (257, [2])], .get 0 0].map (KCall.cmd indexKeys)) = .ok [.unit, .val none] := by
  rw [C87_release K .release rfl]
  decide +kernel

/-- Indexes of one, two and three bytes; the order of iteration is that of the encodings, in which 0
comes after 127. -/
def indexProg : List (KCall UInt64) :=
  [.new, .insert 0 0 [7], .insert 0 300 [9], .insert 0 128 [8], .insert 0 127 [6], .insert 0 1 [5], .get 0 2,
   .get 0 300, .get 0 129, .delete 0 128, .get 0 128, .items 0, .hash 0]

theorem indexProg_looks : LooksOK kec0 [] indexProg := by
  refine ⟨nofun, nofun, nofun, nofun, nofun, nofun, ?_, ?_, ?_, nofun, ?_, nofun, nofun, trivial⟩ <;>
  · rintro i a t ⟨⟩ h
    refine .inl ⟨[7], ?_⟩
    cases h
    decide +kernel

theorem indexProg_runs : KCall.runOn indexKeys kec0 [] indexProg =
    [.unit, .unit, .unit, .unit, .unit, .unit, .val none, .val (some [9]), .val none, .val (some [8]),
     .val none, .items [(⟨2, 0x01⟩, .val [5]), (⟨2, 0x7f⟩, .val [6]), (⟨2, 0x80⟩, .val [7]),
       (⟨6, 0x82012c⟩, .val [9])], .root (Vector.replicate 32 46)] := by decide +kernel

example (K : Kind) (P : Profile) : K.obs P kec0 (indexProg.map (KCall.cmd indexKeys)) = .ok
    [.unit, .unit, .unit, .unit, .unit, .unit, .val none, .val (some [9]), .val none, .val (some [8]),
     .val none, .items [(⟨2, 0x01⟩, .val [5]), (⟨2, 0x7f⟩, .val [6]), (⟨2, 0x80⟩, .val [7]),
       (⟨6, 0x82012c⟩, .val [9])], .root (Vector.replicate 32 46)] := by
  rw [C87_checked K P kec0 _ indexProg_looks, indexProg_runs]


end EthTrie
