import Verif.Props.Reference
import Verif.Props.Replay

/-!
# Property C88: subsets are as good as clones

Programs with 32-byte hashes as keys (`Verif/Props/Reference.lean`) that also make subsets.  Which keys
may be used with a subset is a matter of the program only, whatever the tries contain.
-/

namespace EthTrie

open Spec KMap Nibbles

/-- Calls with hashes as keys, subsets included. -/
inductive LCall where
  | call (c : KCall H256)
  /-- `create_trie_subset(&t, hs)` -/
  | subset (i : Nat) (hs : List H256)

/-- The keys that may be used: all keys with full tries, those that it was made for with a subset. -/
abbrev Perm := Option (List H256)

/-- May the key be used? -/
def Perm.Allows : Perm → H256 → Prop
  | none, _ => True
  | some hs, a => a ∈ hs

namespace LCall

/-- The call in the crate (`src/partial_trie.rs:41-109, src/trie_subsets.rs:206-223`). -/
def cmd : LCall → Cmd
  | .call c => c.cmd hashKeys
  | .subset i hs => .subset i (hs.map fun a => (fromH256BE a).toList)

/-- A subset is replaced by a clone. -/
def asClone : LCall → KCall H256
  | .call c => c
  | .subset i _ => .clone i

/-- The keys that may be used after the call. -/
def perms (ps : List Perm) : LCall → List Perm
  | .call .new => ps ++ [none]
  | .call (.fromIter _) => ps ++ [none]
  | .call (.clone i) => match ps[i]? with
    | none => ps
    | some p => ps ++ [p]
  | .subset i hs => match ps[i]? with
    | none => ps
    | some _ => ps ++ [some hs]
  | _ => ps

/-- A call that uses allowed keys only.  With subsets: lookups, insertions (one or several), hashes,
clones and further subsets. -/
def OK (ps : List Perm) : LCall → Prop
  | .call (.get i a) => ∀ p, ps[i]? = some p → p.Allows a
  | .call (.insert i a _) => ∀ p, ps[i]? = some p → p.Allows a
  | .call (.delete i _) => ∀ p, ps[i]? = some p → p = none
  | .call (.extend i xs) => ∀ p, ps[i]? = some p → ∀ x ∈ xs, p.Allows x.1
  | .call (.items i) => ∀ p, ps[i]? = some p → p = none
  | .call (.eq i j) => ∀ p, ps[i]? = some p ∨ ps[j]? = some p → p = none
  | .subset i hs => hs ≠ [] ∧ ∀ p, ps[i]? = some p → ∀ a ∈ hs, p.Allows a
  | _ => True

/-- A program that uses allowed keys only. -/
def AllOK : List Perm → List LCall → Prop
  | _, [] => True
  | ps, c :: cs => c.OK ps ∧ AllOK (c.perms ps) cs

end LCall

/-! ## The proof -/

/-- A trie that stands for a table. -/
structure Stands (kec : Bytes → H256) (z : Table H256 × Perm) (m : KMap) : Prop where
  cut : ∃ f, hashKeys.Holds z.1 f ∧ CutOf kec f m ∧ (z.2 = none → m = f)
  open_ : ∀ a, z.2.Allows a → m.NoHashOn (hashKeys.nibs a)

theorem hashKeys_length (a : H256) : (hashKeys.nibs a).length = 64 := by simp [Coding.nibs, hashKeys]

section
variable {kec : Bytes → H256} {t : Table H256} {p : Perm} {m f : KMap}

theorem Coding.Holds.val {ι : Type} {C : Coding ι} {t : Table ι} (h : C.Holds t m) {k : Key} {e : ValOrHash}
    (hk : m k = some e) : ∃ a v, (a, v) ∈ t ∧ k = C.nibs a ∧ e = .val v :=
  Coding.mem_entries.1 ((h.2 _ _).2 hk)

theorem Coding.Holds.in_ {ι : Type} {C : Coding ι} {t : Table ι} (h : C.Holds t m) : m.In C.Keys := by
  intro k e hk
  obtain ⟨a, v, -, rfl, rfl⟩ := h.val hk
  exact ⟨⟨a, rfl⟩, v, rfl⟩

theorem Coding.Holds.noHashOn {ι : Type} {C : Coding ι} {t : Table ι} (h : C.Holds t m) (k : Key) :
    m.NoHashOn k := by
  intro q x hq
  obtain ⟨a, v, -, -, e⟩ := h.val hq
  cases e

theorem holds_fixedLen (h : hashKeys.Holds t m) : m.FixedLen 64 := by
  constructor
  · intro q hq
    obtain ⟨e, he⟩ := Option.ne_none_iff_exists'.1 hq
    obtain ⟨a, v, -, rfl, -⟩ := h.val he
    rw [hashKeys_length]
  · intro q x hq
    obtain ⟨a, v, -, rfl, -⟩ := h.val hq
    exact hashKeys_length a

theorem Stands.full (h : hashKeys.Holds t m) : Stands kec (t, none) m :=
  ⟨⟨m, h, ⟨fun _ _ h => .inl h, fun _ _ h => .inl h⟩, fun _ => rfl⟩, fun _ _ => h.noHashOn _⟩

theorem Stands.holds {z : Table H256 × Perm} (h : Stands kec z m) (hp : z.2 = none) : hashKeys.Holds z.1 m := by
  obtain ⟨f, h1, -, h2⟩ := h.cut
  rw [h2 hp]; exact h1

theorem Stands.fixedLen {z : Table H256 × Perm} (h : Stands kec z m) : m.FixedLen 64 := by
  obtain ⟨f, h1, h2, -⟩ := h.cut
  exact cutOf_fixedLen h2 (holds_fixedLen h1)

theorem Stands.look {z : Table H256 × Perm} (h : Stands kec z m) {a : H256} (ha : z.2.Allows a) :
    m.find (hashKeys.nibs a) = z.1.look a := by
  obtain ⟨f, h1, h2, -⟩ := h.cut
  rw [← h1.look, KMap.find, KMap.find, cutOf_agree h2 (h.open_ a ha) _ List.prefix_rfl]

theorem Stands.write {z : Table H256 × Perm} (h : Stands kec z m) {a : H256} (ha : z.2.Allows a) (v : Bytes) :
    Stands kec (hashKeys.write a v z.1, z.2) (m.put (hashKeys.nibs a) (.val v)) := by
  obtain ⟨f, h1, h2, h3⟩ := h.cut
  refine ⟨⟨_, h1.write a v, ?_, fun hp => by rw [h3 hp]⟩, fun b hb => ?_⟩
  · refine cutOf_effects (os := [.insert (hashKeys.nibs a) v]) h2 ?_ ?_
    · intro o ho
      rw [List.mem_singleton.1 ho]
      exact h.open_ a ha
    · intro q x hq
      rcases h2.keep q _ hq with g | ⟨_, _, g, _, _⟩
      · exact .inl g
      · refine .inr (joint_mono (fun r hr => ?_) g)
        simp only [Op.effects, Op.effect, KMap.put]
        split
        · simp
        · exact hr
  · exact Op.effect_noHash (h.open_ b hb) (.insert (hashKeys.nibs a) v)

theorem Stands.writeAll : ∀ (xs : List (H256 × Bytes)) {t : Table H256} {m : KMap}, Stands kec (t, p) m →
    (∀ x ∈ xs, p.Allows x.1) → PutsOK m (xs.map fun x => (hashKeys.nibs x.1, ValOrHash.val x.2)) ∧
      Stands kec (hashKeys.writeAll t xs, p) (m.putAll (xs.map fun x => (hashKeys.nibs x.1, ValOrHash.val x.2)))
  | [], _, _, h, _ => ⟨trivial, h⟩
  | (a, v) :: xs, _, _, h, hx => by
    have ha := hx _ List.mem_cons_self
    obtain ⟨h1, h2⟩ := Stands.writeAll xs (h.write ha v) fun x hx' => hx x (List.mem_cons_of_mem _ hx')
    exact ⟨⟨(hashKeys_length a).le.trans (by omega), fixedLen_insertOK h.fixedLen (hashKeys_length a) (h.open_ a ha) v, h1⟩, h2⟩

/-- A full trie with the contents of the table. -/
theorem Coding.Holds.trie {ι : Type} {C : Coding ι} {t : Table ι} (h : C.Holds t f) (kec : Bytes → H256) :
    ∃ (s : Sys Kind.standard.Ann Kind.standard.State) (x : Trie Kind.standard.Ann),
      Reached .standard .noEmptySubset .release kec s ∧ s.hs[0]? = some x ∧ x.contents = f := by
  have hm : f = KMap.empty.putAll (C.entries t) :=
    h.lists.ext (lists_putAll _ h.lists.1) (List.Perm.refl _)
  have hcs : ∀ c ∈ [Cmd.fromIter (C.entries t)], c.Over C.Keys := by
    intro c hc
    rw [List.mem_singleton.1 hc]
    rintro ⟨k, e⟩ hx
    obtain ⟨a, v, -, rfl, rfl⟩ := Coding.mem_entries.1 hx
    exact ⟨⟨a, rfl⟩, v, rfl⟩
  obtain ⟨s, os, -, h2, h3⟩ := Reached.run (M := .noEmptySubset) [Cmd.fromIter (C.entries t)]
    (.start (K := .standard) (P := .release) (kec := kec))
    (over_supportedRun Coding.keys_free (fun k hk => (Coding.keys_short k hk).trans (by omega)) _
      (fun m h => by cases h) hcs (fun _ _ _ => Coding.keys_short) nofun)
    fun c hc => over_permitted (hcs c hc)
  have h4 := steps_effect h2 hcs
  have hi : s.contents[0]? = some f := by rw [h4, hm]; rfl
  obtain ⟨x, hx, e⟩ := contents_some hi
  exact ⟨s, x, h3, hx, e⟩

variable {K : Kind} {P : Profile} {s : Sys K.Ann K.State} {i : Nat}

theorem Stands.root {z : Table H256 × Perm} (h : Stands kec z m) (hr : Reached K .noEmptySubset P kec s)
    (hi : s.contents[i]? = some m) {J : Entries} (hJ : Lists J m) :
    trieRoot kec J = trieRoot kec (hashKeys.entries z.1) := by
  obtain ⟨f, h1, h2, -⟩ := h.cut
  obtain ⟨s0, x, g1, g2, rfl⟩ := h1.trie kec
  obtain ⟨y, g3, rfl⟩ := contents_some hi
  have := C64_root g1 g2 hr g3 h2
  rw [C21_root hr g3 hJ, C21_root g1 g2 h1.lists] at this
  simpa using this

theorem Stands.subset {z : Table H256 × Perm} (h : Stands kec z m) (hr : Reached K .noEmptySubset P kec s)
    (hi : s.contents[i]? = some m) {hs : List H256} (ha : ∀ a ∈ hs, z.2.Allows a) (hne : hs ≠ []) :
    ∃ s' m', s.exec P kec (.subset i (hs.map hashKeys.nibs)) = .ok (s', .unit) ∧
      s'.contents = s.contents ++ [m'] ∧ Reached K .noEmptySubset P kec s' ∧ Stands kec (z.1, some hs) m' := by
  obtain ⟨x, hx, rfl⟩ := contents_some hi
  have hp : permitted K .noEmptySubset (.subset i (hs.map hashKeys.nibs)) := by
    cases K <;> simp [permitted, hne]
  obtain ⟨u, st, h1, h2, h3, h4⟩ := C65_covers hr hx (by omega) h.fixedLen (ks := hs.map hashKeys.nibs)
    (by
      intro k hk
      obtain ⟨a, h1, rfl⟩ := List.mem_map.1 hk
      exact ⟨hashKeys_length a, h.open_ a (ha a h1)⟩) hp
  refine ⟨_, u.contents, ?_, ?_, h2, ?_, ?_⟩
  · simp only [Sys.exec, exec_on hx, h1]
    rfl
  · simp [Sys.contents]
  · obtain ⟨f, g1, g2, -⟩ := h.cut
    refine ⟨f, g1, ?_, nofun⟩
    obtain ⟨s0, y, e1, e2, rfl⟩ := g1.trie kec
    have hu : (s.hs ++ [u])[s.hs.length]? = some u := by simp
    have hx' : (s.hs ++ [u])[i]? = some x := by
      rw [List.getElem?_append_left (List.getElem?_eq_some_iff.1 hx).1, hx]
    have cy := (e1.canon (List.mem_of_getElem? e2)).1
    have cx := (h2.canon (List.mem_of_getElem? hx')).1
    have cu := (h2.canon (List.mem_of_getElem? hu)).1
    exact (LNode.view_iff_cutOf cu cy).1 (((LNode.view_iff_cutOf cu cx).2 h3).trans ((LNode.view_iff_cutOf cx cy).2 g2))
  · intro a h5
    exact h4 _ (List.mem_map_of_mem h5)

theorem set_same {α : Type} {a : α} : ∀ {l : List α} {i : Nat}, l[i]? = some a → l.set i a = l
  | _ :: _, 0, h => by cases h; rfl
  | _ :: l, i + 1, h => by rw [List.set_cons_succ, set_same (l := l) (by simpa using h)]

/-- One call. -/
theorem LCall.step (c : LCall) {zs : List (Table H256 × Perm)} (hr : Reached K .noEmptySubset P kec s)
    (hz : List.Forall₂ (Stands kec) zs s.contents) (hc : c.OK (zs.map (·.2))) :
    ∃ s' zs', s.exec P kec c.cmd = .ok (s', (c.asClone.on hashKeys kec (zs.map (·.1))).1) ∧
      Reached K .noEmptySubset P kec s' ∧ List.Forall₂ (Stands kec) zs' s'.contents ∧
      zs'.map (·.1) = (c.asClone.on hashKeys kec (zs.map (·.1))).2 ∧ zs'.map (·.2) = c.perms (zs.map (·.2)) := by
  -- a call for which there is no trie
  have none_ : ∀ i : Nat, zs[i]? = none → s.contents[i]? = none → ∀ (c : Cmd) (o : Obs) (ts : List (Table H256)) ps,
      Supported P s.contents c → permitted K .noEmptySubset c →
      (∀ o' ms, Step kec s.contents c o' ms → o' = .noHandle ∧ ms = s.contents) → o = .noHandle →
      ts = zs.map (·.1) → ps = zs.map (·.2) →
      ∃ s' zs', s.exec P kec c = .ok (s', o) ∧ Reached K .noEmptySubset P kec s' ∧
        List.Forall₂ (Stands kec) zs' s'.contents ∧ zs'.map (·.1) = ts ∧ zs'.map (·.2) = ps := by
    rintro i - - c _ _ _ hs hp hst rfl rfl rfl
    obtain ⟨s', o, h1, h2, h3⟩ := hr.exec hs hp
    obtain ⟨rfl, e⟩ := hst _ _ h2
    exact ⟨s', zs, h1, h3, by rw [e]; exact hz, rfl, rfl⟩
  have short : ∀ a, (hashKeys.nibs a).length ≤ 127 := fun a => by rw [hashKeys_length]; omega
  have rows : ∀ xs : List (H256 × Bytes), ∀ x ∈ xs.map (fun x => (hashKeys.nibs x.1, ValOrHash.val x.2)),
      hashKeys.Keys x.1 ∧ ∃ v, x.2 = .val v := by
    intro xs x hx
    obtain ⟨y, -, rfl⟩ := List.mem_map.1 hx
    exact ⟨⟨_, rfl⟩, _, rfl⟩
  have k127 : ∀ k, hashKeys.Keys k → k.length ≤ 127 := fun k hk => (Coding.keys_short k hk).trans (by omega)
  have hkey : ∀ a, (fromH256BE a).toList = hashKeys.nibs a := Coding.key_toList (C := hashKeys)
  cases c with
  | subset i hs =>
    obtain ⟨hne, ha⟩ := hc
    simp only [LCall.cmd, LCall.asClone, KCall.on, LCall.perms, hkey, List.getElem?_map] at ha ⊢
    rcases pairs_get i hz with ⟨h1, h2⟩ | ⟨z, m, h1, h2, h3⟩
    · simp only [h1, Option.map_none]
      refine none_ i h1 h2 _ _ _ _ ?_ ?_ ?_ rfl rfl rfl
      · refine ⟨fun k hk => ?_, fun _ m hm => by rw [h2] at hm; cases hm⟩
        obtain ⟨a, -, rfl⟩ := List.mem_map.1 hk
        exact short a
      · cases K <;> simp [permitted, hne]
      · intro o ms hs
        simpa only [Step, onMap, h2] using hs
    · simp only [h1, Option.map_some] at ha ⊢
      obtain ⟨s', m', g1, g2, g3, g4⟩ := h3.subset hr h2 (ha _ rfl) hne
      exact ⟨s', zs ++ [(z.1, some hs)], g1, g3, by rw [g2]; exact forall₂_snoc hz g4, by simp, by simp⟩
  | call c =>
    cases c with
    | new =>
      obtain ⟨s', o, h1, ⟨rfl, e⟩, h3⟩ := hr.exec (c := .new) trivial (by cases K <;> trivial)
      exact ⟨s', zs ++ [([], none)], h1, h3, by rw [e]; exact forall₂_snoc hz (.full Coding.holds_nil),
        by simp [LCall.asClone, KCall.on], by simp [LCall.perms]⟩
    | fromIter xs =>
      simp only [LCall.cmd, KCall.cmd, LCall.asClone, KCall.on, LCall.perms, Coding.key_toList]
      obtain ⟨s', o, h1, ⟨rfl, e⟩, h3⟩ := hr.exec
        (c := .fromIter (xs.map fun x => (hashKeys.nibs x.1, ValOrHash.val x.2)))
        (In.putsOK Coding.keys_free k127 _ in_empty (rows xs)) (by cases K <;> trivial)
      exact ⟨s', zs ++ [(hashKeys.writeAll [] xs, none)], h1, h3,
        by rw [e]; exact forall₂_snoc hz (.full (.writeAll xs Coding.holds_nil)), by simp, by simp⟩
    | eq i j =>
      simp only [LCall.OK, List.getElem?_map] at hc
      simp only [LCall.cmd, KCall.cmd, LCall.asClone, KCall.on, LCall.perms, List.getElem?_map]
      obtain ⟨s', o, h1, h2, h3⟩ := hr.exec (c := .eq i j) trivial (by cases K <;> trivial)
      simp only [Step, onMap] at h2
      rcases pairs_get i hz with ⟨g1, g2⟩ | ⟨z, m, g1, g2, g3⟩
      · simp only [g1, g2, Option.map_none] at h2 ⊢
        obtain ⟨rfl, e⟩ := h2
        exact ⟨s', zs, h1, h3, by rw [e]; exact hz, rfl, rfl⟩
      · rcases pairs_get j hz with ⟨k1, k2⟩ | ⟨z', m', k1, k2, k3⟩
        · simp only [g1, g2, k1, k2, Option.map_none, Option.map_some] at h2 ⊢
          obtain ⟨rfl, e⟩ := h2
          exact ⟨s', zs, h1, h3, by rw [e]; exact hz, rfl, rfl⟩
        · simp only [g1, g2, k1, k2, Option.map_some] at h2 hc ⊢
          obtain ⟨⟨b, rfl, hb⟩, e⟩ := h2
          refine ⟨s', zs, ?_, h3, by rw [e]; exact hz, rfl, rfl⟩
          rw [← (g3.holds (hc _ (.inl rfl))).eq_iff (k3.holds (hc _ (.inr rfl)))] at hb
          rw [h1]
          congr 3
          rw [Bool.eq_iff_iff, hb, decide_eq_true_eq]
    | clone i =>
      simp only [LCall.cmd, KCall.cmd, LCall.asClone, KCall.on, LCall.perms, List.getElem?_map]
      obtain ⟨s', o, h1, h2, h3⟩ := hr.exec (c := .clone i) trivial (by cases K <;> trivial)
      simp only [Step, onMap] at h2
      rcases pairs_get i hz with ⟨g1, g2⟩ | ⟨z, m, g1, g2, g3⟩
      · simp only [g1, g2, Option.map_none] at h2 ⊢
        obtain ⟨rfl, e⟩ := h2
        exact ⟨s', zs, h1, h3, by rw [e]; exact hz, rfl, rfl⟩
      · simp only [g1, g2, Option.map_some] at h2 ⊢
        obtain ⟨rfl, e⟩ := h2
        exact ⟨s', zs ++ [z], h1, h3, by rw [e]; exact forall₂_snoc hz g3, by simp, by simp⟩
    | hash i =>
      simp only [LCall.cmd, KCall.cmd, LCall.asClone, KCall.on, LCall.perms, List.getElem?_map]
      obtain ⟨s', o, h1, h2, h3⟩ := hr.exec (c := .hash i) trivial (by cases K <;> trivial)
      simp only [Step, onMap] at h2
      rcases pairs_get i hz with ⟨g1, g2⟩ | ⟨z, m, g1, g2, g3⟩
      · simp only [g1, g2, Option.map_none] at h2 ⊢
        obtain ⟨rfl, e⟩ := h2
        exact ⟨s', zs, h1, h3, by rw [e]; exact hz, rfl, rfl⟩
      · simp only [g1, g2, Option.map_some] at h2 ⊢
        obtain ⟨⟨J, hJ, rfl⟩, e⟩ := h2
        exact ⟨s', zs, by rw [h1, g3.root hr g2 hJ], h3, by rw [e]; exact hz, rfl, rfl⟩
    | items i =>
      simp only [LCall.OK, List.getElem?_map] at hc
      simp only [LCall.cmd, KCall.cmd, LCall.asClone, KCall.on, LCall.perms, List.getElem?_map]
      obtain ⟨s', o, h1, h2, h3⟩ := hr.exec (c := .items i)
        (by
          intro m hm k hk
          rcases pairs_get i hz with ⟨g1, g2⟩ | ⟨z, m', g1, g2, g3⟩
          · rw [g2] at hm; cases hm
          · rw [g2] at hm; cases hm; exact g3.fixedLen.le k hk) (by cases K <;> trivial)
      simp only [Step, onMap] at h2
      rcases pairs_get i hz with ⟨g1, g2⟩ | ⟨z, m, g1, g2, g3⟩
      · simp only [g1, g2, Option.map_none] at h2 ⊢
        obtain ⟨rfl, e⟩ := h2
        exact ⟨s', zs, h1, h3, by rw [e]; exact hz, rfl, rfl⟩
      · simp only [g1, g2, Option.map_some] at h2 hc ⊢
        obtain ⟨⟨J, hJ, ho, rfl⟩, e⟩ := h2
        refine ⟨s', zs, ?_, h3, by rw [e]; exact hz, rfl, rfl⟩
        rw [h1, (g3.holds (hc _ rfl)).ordered hJ ho]
        simp only [packEntries, Coding.entries, List.map_map, Function.comp_def, hashKeys.key_eq]
    | get i a =>
      simp only [LCall.OK, List.getElem?_map] at hc
      simp only [LCall.cmd, KCall.cmd, LCall.asClone, KCall.on, LCall.perms, List.getElem?_map, Coding.key_toList]
      obtain ⟨s', o, h1, h2, h3⟩ := hr.exec (c := .get i (hashKeys.nibs a))
        (by
          refine ⟨short a, fun m hm => ?_⟩
          rcases pairs_get i hz with ⟨g1, g2⟩ | ⟨z, m', g1, g2, g3⟩
          · rw [g2] at hm; cases hm
          · rw [g2] at hm; cases hm; exact fixedLen_getOK P g3.fixedLen (hashKeys_length a))
        (by cases K <;> trivial)
      simp only [Step, onMap] at h2
      rcases pairs_get i hz with ⟨g1, g2⟩ | ⟨z, m, g1, g2, g3⟩
      · simp only [g1, g2, Option.map_none] at h2 ⊢
        obtain ⟨rfl, e⟩ := h2
        exact ⟨s', zs, h1, h3, by rw [e]; exact hz, rfl, rfl⟩
      · simp only [g1, g2, Option.map_some] at h2 hc ⊢
        obtain ⟨rfl, e⟩ := h2
        exact ⟨s', zs, by rw [h1, g3.look (hc _ rfl)], h3, by rw [e]; exact hz, rfl, rfl⟩
    | insert i a v =>
      simp only [LCall.OK, List.getElem?_map] at hc
      simp only [LCall.cmd, KCall.cmd, LCall.asClone, KCall.on, LCall.perms, List.getElem?_map, Coding.key_toList]
      obtain ⟨s', o, h1, h2, h3⟩ := hr.exec (c := .insert i (hashKeys.nibs a) (.val v))
        (by
          refine ⟨short a, fun m hm => ?_⟩
          rcases pairs_get i hz with ⟨g1, g2⟩ | ⟨z, m', g1, g2, g3⟩
          · rw [g2] at hm; cases hm
          · rw [g2] at hm; cases hm
            exact fixedLen_insertOK g3.fixedLen (hashKeys_length a) (g3.open_ a (hc _ (by rw [g1]; rfl))) v)
        (by cases K <;> trivial)
      simp only [Step, onMap] at h2
      rcases pairs_get i hz with ⟨g1, g2⟩ | ⟨z, m, g1, g2, g3⟩
      · simp only [g1, g2, Option.map_none] at h2 ⊢
        obtain ⟨rfl, e⟩ := h2
        exact ⟨s', zs, h1, h3, by rw [e]; exact hz, rfl, rfl⟩
      · simp only [g1, g2, Option.map_some] at h2 hc ⊢
        obtain ⟨rfl, e⟩ := h2
        refine ⟨s', zs.set i (hashKeys.write a v z.1, z.2), h1, h3,
          by rw [e]; exact forall₂_set (g3.write (hc _ rfl) v) i hz, by rw [List.map_set], ?_⟩
        rw [List.map_set]
        exact set_same (by rw [List.getElem?_map, g1]; rfl)
    | extend i xs =>
      simp only [LCall.OK, List.getElem?_map] at hc
      simp only [LCall.cmd, KCall.cmd, LCall.asClone, KCall.on, LCall.perms, List.getElem?_map, Coding.key_toList]
      obtain ⟨s', o, h1, h2, h3⟩ := hr.exec
        (c := .extend i (xs.map fun x => (hashKeys.nibs x.1, ValOrHash.val x.2)))
        (by
          refine ⟨fun x hx => k127 _ (rows xs x hx).1, fun m hm => ?_⟩
          rcases pairs_get i hz with ⟨g1, g2⟩ | ⟨z, m', g1, g2, g3⟩
          · rw [g2] at hm; cases hm
          · rw [g2] at hm; cases hm
            exact (Stands.writeAll xs g3 (hc _ (by rw [g1]; rfl))).1)
        (by cases K <;> trivial)
      simp only [Step, onMap] at h2
      rcases pairs_get i hz with ⟨g1, g2⟩ | ⟨z, m, g1, g2, g3⟩
      · simp only [g1, g2, Option.map_none] at h2 ⊢
        obtain ⟨rfl, e⟩ := h2
        exact ⟨s', zs, h1, h3, by rw [e]; exact hz, rfl, rfl⟩
      · simp only [g1, g2, Option.map_some] at h2 hc ⊢
        obtain ⟨rfl, e⟩ := h2
        refine ⟨s', zs.set i (hashKeys.writeAll z.1 xs, z.2), h1, h3,
          by rw [e]; exact forall₂_set (Stands.writeAll xs g3 (hc _ rfl)).2 i hz, by rw [List.map_set], ?_⟩
        rw [List.map_set]
        exact set_same (by rw [List.getElem?_map, g1]; rfl)
    | delete i a =>
      simp only [LCall.OK, List.getElem?_map] at hc
      simp only [LCall.cmd, KCall.cmd, LCall.asClone, KCall.on, LCall.perms, List.getElem?_map, Coding.key_toList]
      obtain ⟨s', o, h1, h2, h3⟩ := hr.exec (c := .delete i (hashKeys.nibs a))
        (by
          refine ⟨short a, fun m hm => ?_⟩
          rcases pairs_get i hz with ⟨g1, g2⟩ | ⟨z, m', g1, g2, g3⟩
          · rw [g2] at hm; cases hm
          · rw [g2] at hm; cases hm
            exact ⟨fixedLen_deleteOK g3.fixedLen (hashKeys_length a)
              ((g3.holds (hc _ (by rw [g1]; rfl))).noHashOn _), fun k hk => g3.fixedLen.le k hk⟩)
        (by cases K <;> trivial)
      simp only [Step, onMap] at h2
      rcases pairs_get i hz with ⟨g1, g2⟩ | ⟨z, m, g1, g2, g3⟩
      · simp only [g1, g2, Option.map_none] at h2 ⊢
        obtain ⟨rfl, e⟩ := h2
        exact ⟨s', zs, h1, h3, by rw [e]; exact hz, rfl, rfl⟩
      · simp only [g1, g2, Option.map_some] at h2 hc ⊢
        obtain ⟨rfl, e⟩ := h2
        have hz2 := hc _ rfl
        refine ⟨s', zs.set i (z.1.remove a, none), by rw [h1, (g3.holds hz2).look], h3,
          by rw [e]; exact forall₂_set (.full ((g3.holds hz2).remove a)) i hz, by rw [List.map_set], ?_⟩
        rw [List.map_set]
        exact set_same (by rw [List.getElem?_map, g1, ← hz2]; rfl)

theorem LCall.run : ∀ (cs : List LCall) {s : Sys K.Ann K.State} {zs : List (Table H256 × Perm)},
    Reached K .noEmptySubset P kec s → List.Forall₂ (Stands kec) zs s.contents →
    LCall.AllOK (zs.map (·.2)) cs →
    ∃ s', s.run P kec (cs.map LCall.cmd) =
      .ok (s', KCall.runOn hashKeys kec (zs.map (·.1)) (cs.map LCall.asClone))
  | [], s, _, _, _, _ => ⟨s, rfl⟩
  | c :: cs, s, zs, hr, hz, hc => by
    obtain ⟨s₁, zs', h1, h2, h3, h4, h5⟩ := c.step hr hz hc.1
    obtain ⟨s₂, h6⟩ := LCall.run cs h2 h3 (by rw [h5]; exact hc.2)
    refine ⟨s₂, ?_⟩
    simp only [List.map_cons, Sys.run, h1, R_bind_ok, h6, KCall.runOn, h4]
    rfl

end

/-! ## C88 -/

/-- C88: with 32-byte hashes as keys, a program that makes subsets and uses them with the keys that they
were made for, for lookups, insertions, hashes, clones and further subsets, returns exactly what it returns
on tables if every subset is a copy of the whole table.  In particular, all root hashes are those of
the full data, and no call panics. -/
theorem C88_reference (K : Kind) (P : Profile) (kec : Bytes → H256) (cs : List LCall) (hc : LCall.AllOK [] cs) :
    K.obs P kec (cs.map LCall.cmd) = .ok (KCall.runOn hashKeys kec [] (cs.map LCall.asClone)) := by
  obtain ⟨s, h⟩ := LCall.run cs (.start (K := K) (P := P) (kec := kec)) (zs := []) .nil hc
  rw [Kind.obs, Kind.run, h]
  rfl

/-- C88: it returns what the program returns with clones in place of the subsets, for any trie types and
build profiles. -/
theorem C88_clone (K K' : Kind) (P P' : Profile) (kec : Bytes → H256) (cs : List LCall)
    (hc : LCall.AllOK [] cs) : K.obs P kec (cs.map LCall.cmd) =
      K'.obs P' kec ((cs.map LCall.asClone).map (KCall.cmd hashKeys)) := by
  rw [C88_reference K P kec cs hc, C86_reference]

/-- A subset for two keys, one of them absent; both are written, a subset of the subset is made, and the
roots are compared with those of the full trie after the same writes. -/
def lightProg : List LCall :=
  [.call (.fromIter [(hC, [3]), (hA, [1])]), .subset 0 [hA, hB], .call (.get 1 hB),
   .call (.extend 1 [(hB, [9]), (hB, [2])]),
   .subset 1 [hA], .call (.insert 2 hA [4]), .call (.get 2 hA), .call (.get 1 hA), .call (.hash 2),
   .call (.insert 0 hA [4]), .call (.insert 0 hB [2]), .call (.delete 0 hC), .call (.insert 0 hC [3]),
   .call (.hash 0)]

theorem lightProg_ok : LCall.AllOK [] lightProg := by
  simp [lightProg, LCall.AllOK, LCall.OK, LCall.perms, Perm.Allows]

theorem lightProg_runs : KCall.runOn hashKeys kec0 [] (lightProg.map LCall.asClone) =
    [.unit, .unit, .val none, .unit, .unit, .unit, .val (some [4]), .val (some [1]),
     .root (Vector.replicate 32 83), .unit, .unit, .val (some [3]), .unit, .root (Vector.replicate 32 83)] := by
  decide +kernel

example (K : Kind) (P : Profile) : K.obs P kec0 (lightProg.map LCall.cmd) = .ok
    [.unit, .unit, .val none, .unit, .unit, .unit, .val (some [4]), .val (some [1]),
     .root (Vector.replicate 32 83), .unit, .unit, .val (some [3]), .unit, .root (Vector.replicate 32 83)] := by
  rw [C88_reference K P kec0 _ lightProg_ok, lightProg_runs]

/-- Other keys are not found. -/
theorem C88_other (K : Kind) (P : Profile) : K.obs P kec0
    ([.call (.fromIter [(hC, [3]), (hA, [1])]), .subset 0 [hA], .call (.get 1 hC)].map LCall.cmd) =
      .ok [.unit, .unit, .val none] := by
  obtain ⟨_ | _⟩ := P <;> cases K <;> kernel_rfl

end EthTrie
