import Verif.Props.Cases
import Verif.Trie.EmptyVal

/-!
# Properties C12 – C15, C43 – C45: tries as finite maps

`Step`/`Steps` (`Verif/Spec/Program.lean`) say what calls must return and how they must change the
contents, on finite maps.  `Reached` and `Live` states (`Verif/Sys/Main.lean`, `Live.lean`) are the
states of programs over any number of tries; `Trie.contents` is what a trie stores.
-/

namespace EthTrie

open Spec KMap LNode Nibbles

/-! ## C12 -/

/-- C12 for keys of a fixed length (at most 127 nibbles, or 64 if the program deletes or
enumerates), any trie type and build profile, any number of tries: no call
panics and all calls return what they return on finite maps. -/
theorem C12_fixed_length (K : Kind) (P : Profile) (kec : Bytes → H256) (n : Nat) (hn : n ≤ 127)
    (cs : List Cmd) (hcs : ∀ c ∈ cs, c.Over fun k => k.length = n)
    (hd : ∀ c ∈ cs, c.Merges → n ≤ 64) :
    ∃ s os, K.run P kec cs = .ok (s, os) ∧ Steps kec [] cs os s.contents := by
  obtain ⟨s, os, h1, h2, _⟩ := Reached.run (M := .noEmptySubset) cs
    (.start (K := K) (P := P) (kec := kec))
    (over_supportedRun (prefixFree_fixed n) (fun k hk => by omega) cs (fun m h => by cases h) hcs
      (fun c hc hm k hk => by have := hd c hc hm; omega)
      fun _ => over_fixed hn cs (fun m h => by cases h) hcs) fun c hc => over_permitted (hcs c hc)
  exact ⟨s, os, h1, h2⟩

/-- C12 for arbitrary prefix-free key sets in builds without overflow checks. -/
theorem C12_prefix_free_release (K : Kind) (P : Profile) (hP : P.overflowChecks = false)
    (kec : Bytes → H256) (S : Key → Prop) (hS : PrefixFree S) (hl : ∀ k, S k → k.length ≤ 127)
    (cs : List Cmd) (hcs : ∀ c ∈ cs, c.Over S)
    (hd : ∀ c ∈ cs, c.Merges → ∀ k, S k → k.length ≤ 64) :
    ∃ s os, K.run P kec cs = .ok (s, os) ∧ Steps kec [] cs os s.contents := by
  obtain ⟨s, os, h1, h2, _⟩ := Reached.run (M := .noEmptySubset) cs
    (.start (K := K) (P := P) (kec := kec))
    (over_supportedRun hS hl cs (fun m h => by cases h) hcs hd (by simp [hP])) fun c hc => over_permitted (hcs c hc)
  exact ⟨s, os, h1, h2⟩

/-- C12 for arbitrary prefix-free key sets in builds with overflow checks.  Missing: lookups of
absent keys that are shorter than the common prefix of several stored keys (`PathOK`); they panic,
see `C12_false_checked`. -/
theorem C12_prefix_free_partial (K : Kind) (P : Profile) (kec : Bytes → H256) (S : Key → Prop)
    (hS : PrefixFree S) (hl : ∀ k, S k → k.length ≤ 127) (cs : List Cmd)
    (hcs : ∀ c ∈ cs, c.Over S) (hd : ∀ c ∈ cs, c.Merges → ∀ k, S k → k.length ≤ 64)
    (hp : PathsOK kec [] cs) :
    ∃ s os, K.run P kec cs = .ok (s, os) ∧ Steps kec [] cs os s.contents := by
  obtain ⟨s, os, h1, h2, _⟩ := Reached.run (M := .noEmptySubset) cs
    (.start (K := K) (P := P) (kec := kec))
    (over_supportedRun hS hl cs (fun m h => by cases h) hcs hd fun _ => hp) fun c hc => over_permitted (hcs c hc)
  exact ⟨s, os, h1, h2⟩

/-- Keys of different lengths that are prefix-free. -/
def exKeys (k : Key) : Prop := k = [1, 2] ∨ k = [1, 3, 4] ∨ k = [2]

theorem exKeys_free : PrefixFree exKeys := by
  rintro a b (rfl | rfl | rfl) (rfl | rfl | rfl) h <;> first | rfl | (exfalso; revert h; decide)

theorem exKeys_short (n : Nat) (hn : 3 ≤ n) : ∀ k, exKeys k → k.length ≤ n := by
  rintro k (rfl | rfl | rfl) <;> simp <;> omega

/-- The last lookup is of an absent key. -/
def exFree : List Cmd := [.fromIter [([1, 2], .val [7]), ([1, 3, 4], .val [8])], .get 0 [1, 3, 4], .get 0 [2]]

theorem exFree_over : ∀ c ∈ exFree ++ [.delete 0 [2]], c.Over exKeys := by
  simp only [exFree, List.cons_append, List.nil_append, List.forall_mem_cons, Cmd.Over, exKeys]
  exact ⟨⟨⟨.inl trivial, _, rfl⟩, ⟨.inr (.inl trivial), _, rfl⟩, nofun⟩, by simp⟩

example (K : Kind) (kec : Bytes → H256) : ∃ s os, K.run .release kec (exFree ++ [.delete 0 [2]]) =
    .ok (s, os) ∧ Steps kec [] (exFree ++ [.delete 0 [2]]) os s.contents :=
  C12_prefix_free_release K .release rfl kec exKeys exKeys_free (exKeys_short 127 (by omega)) _
    exFree_over fun _ _ _ => exKeys_short 64 (by omega)

example (K : Kind) (P : Profile) (kec : Bytes → H256) : ∃ s os, K.run P kec exFree = .ok (s, os) ∧
    Steps kec [] exFree os s.contents := by
  refine C12_prefix_free_partial K P kec exKeys exKeys_free (exKeys_short 127 (by omega)) _
    (fun c hc => exFree_over c (List.mem_append_left _ hc)) (fun _ _ _ => exKeys_short 64 (by omega)) ⟨fun _ _ _ h => by simp at h, fun o ms' hs => ?_⟩
  have hL := lists_putAll [([1, 2], .val [7]), ([1, 3, 4], .val [8])] (by decide)
  obtain ⟨-, rfl⟩ := hs
  refine ⟨fun i k m h hm => ?_, fun o ms' hs => ?_⟩
  · cases h; cases hm
    exact hL.pathOK_of (by decide +kernel)
  · obtain ⟨-, rfl⟩ := hs
    refine ⟨fun i k m h hm => ?_, fun o ms' hs => trivial⟩
    cases h; cases hm
    exact hL.pathOK_of (by decide +kernel)

/-- The most general form: every supported and permitted call in a reached state does what the
specification says, whatever the lengths of the keys. -/
theorem C12_supported_call {K : Kind} {M : Mode} [M.Safe] {P : Profile} {kec : Bytes → H256}
    {s : Sys K.Ann K.State} (h : Reached K M P kec s) (c : Cmd) (hs : Supported P s.contents c)
    (hp : permitted K M c) :
    ∃ s' o, s.exec P kec c = .ok (s', o) ∧ Step kec s.contents c o s'.contents ∧
      Reached K M P kec s' := h.exec hs hp

/-- Below `0x1` there is an entry, and `0x15` is stored with entries beside it. -/
example (K : Kind) (P : Profile) : ∃ s' o, (caseS K P).exec P kec0 (.insert 0 [1, 6] (.val [3])) = .ok (s', o) ∧
    Step kec0 (caseS K P).contents (.insert 0 [1, 6] (.val [3])) o s'.contents ∧
    Reached K .noEmptySubset P kec0 s' := by
  refine C12_supported_call (caseReached K P) _ ⟨by decide, fun m hm => ?_⟩ (by cases K <;> trivial)
  rw [caseContents (by decide) hm]
  exact (caseLists₀ K P).insertOK_of (by decide +kernel)

/-- The keys `0x12a`, `0x12b` and `0x3` are prefix-free, but looking up `0x3` panics in builds with
overflow checks. -/
theorem C12_false_checked : ∃ S : Key → Prop, PrefixFree S ∧ (∀ k, S k → k.length ≤ 64) ∧
    ∃ cs : List Cmd, (∀ c ∈ cs, c.Over S) ∧
      ∀ (K : Kind) (kec : Bytes → H256), K.obs .debug kec cs = .error .overflow := by
  refine ⟨fun k => k = [1, 2, 10] ∨ k = [1, 2, 11] ∨ k = [3], ?_, ?_,
    [.new, .insert 0 [1, 2, 10] (.val [7]), .insert 0 [1, 2, 11] (.val [8]), .get 0 [3]], ?_, ?_⟩
  · rintro a b (rfl | rfl | rfl) (rfl | rfl | rfl) h <;> first | rfl | (exfalso; revert h; decide)
  · rintro k (rfl | rfl | rfl) <;> decide
  · simp [Cmd.Over]
  · intro K kec; cases K <;> kernel_rfl

/-- A program with two tries and keys of two nibbles. -/
def exProg : List Cmd :=
  [.new, .insert 0 [1, 2] (.val [7]), .insert 0 [1, 3] (.val [8, 9]), .insert 0 [4, 2] (.val []),
    .clone 0, .delete 1 [1, 2], .get 1 [1, 2], .get 0 [1, 2], .eq 0 1, .get 0 [4, 2], .delete 0 [9, 9]]

example : ∀ c ∈ exProg, c.Over fun k => k.length = 2 := by simp [exProg, Cmd.Over]

example : ∀ K : Kind, ∀ P : Profile, K.obs P kec0 exProg = .ok [.unit, .unit, .unit, .unit, .unit,
    .val (some [7]), .val none, .val (some [7]), .bool false, .val (some []), .val none] := by
  intro K ⟨P⟩; cases K <;> cases P <;> decide +kernel

/-! ## C13 -/

/-- C13 fails: the only stored key is `0x1234`, yet `get(0x12)` and `get(0x123456)` return its
value. -/
theorem C13_false : ∀ (K : Kind) (P : Profile) (kec : Bytes → H256),
    K.obs P kec [.new, .insert 0 [1, 2, 3, 4] (.val [7]), .get 0 [1, 2], .get 0 [1, 2, 3, 4, 5, 6]] =
      .ok [.unit, .unit, .val (some [7]), .val (some [7])] := by
  intro K ⟨P⟩ kec; cases K <;> cases P <;> kernel_rfl

/-- What `get` returns in builds with overflow checks, for all keys: it panics exactly on keys that
stop inside a run of nibbles shared by several entries; otherwise it returns exactly the values
described by `Shown`. -/
theorem C13_exact_checked {K : Kind} {M : Mode} {P : Profile} {kec : Bytes → H256}
    {s : Sys K.Ann K.State} (h : Reached K M P kec s) (hP : P.overflowChecks = true)
    {i : Nat} {t : Trie K.Ann} (hi : s.hs[i]? = some t) (k : Key) (hk : k.length ≤ 127) :
    (t.contents.StopsInside k ∧ t.get P (ofList k) = .error .overflow) ∨
    (¬ t.contents.StopsInside k ∧ ∃ r, t.get P (ofList k) = .ok r ∧
      ∀ v, r = some v ↔ t.contents.Shown k v) := by
  rw [h.live.get hi hk]
  exact get_exact hP t.plain k (h.canon (List.mem_of_getElem? hi)).1

/-- The lookup of `0x2` panics, the one of `0x121` shows the value of `0x12`. -/
example (K : Kind) : (caseT K .debug 0).get .debug (ofList [2]) = .error .overflow ∧
    (caseT K .debug 0).contents.StopsInside [2] ∧ (caseT K .debug 0).contents.Shown [1, 2, 1] [8] := by
  have e1 : (caseT K .debug 0).get .debug (ofList [2]) = .error .overflow := by cases K <;> decide +kernel
  have e2 : (caseT K .debug 0).get .debug (ofList [1, 2, 1]) = .ok (some [8]) := by cases K <;> decide +kernel
  refine ⟨e1, ?_, ?_⟩
  · rcases C13_exact_checked (caseReached K .debug) rfl (caseGet K _ (i := 0) (by decide)) [2] (by decide) with h | h
    · exact h.1
    · obtain ⟨-, r, h, -⟩ := h
      rw [e1] at h; cases h
  · rcases C13_exact_checked (caseReached K .debug) rfl (caseGet K _ (i := 0) (by decide)) [1, 2, 1] (by decide) with h | h
    · rw [e2] at h; cases h.2
    · obtain ⟨-, r, h, h'⟩ := h
      rw [e2] at h; cases h
      exact (h' [8]).1 rfl

/-- What `get` returns without overflow checks, for all keys. -/
theorem C13_exact_release {K : Kind} {M : Mode} {P : Profile} {kec : Bytes → H256}
    {s : Sys K.Ann K.State} (h : Reached K M P kec s) (hP : P.overflowChecks = false)
    {i : Nat} {t : Trie K.Ann} (hi : s.hs[i]? = some t) (k : Key) (hk : k.length ≤ 127) :
    ∃ r, t.get P (ofList k) = .ok r ∧
      ∀ v, r = some v ↔ t.contents.Shown k v ∨ t.contents.ZeroRun k v := by
  rw [h.live.get hi hk]
  exact get_exact_release hP t.plain k (h.canon (List.mem_of_getElem? hi)).1

example (K : Kind) : ∃ r, (caseT K .release 0).get .release (ofList [2]) = .ok r ∧ ∀ v, r = some v ↔
    (caseT K .release 0).contents.Shown [2] v ∨ (caseT K .release 0).contents.ZeroRun [2] v :=
  C13_exact_release (caseReached K .release) rfl (caseGet K _ (by decide)) [2] (by decide)

/-- C13 holds for the lookups described by `GetOK`, in particular when no stored key is a proper
prefix of the key or the other way round.  Missing: the lookups of `C13_false` and `C44_false`. -/
theorem C13_partial {K : Kind} {M : Mode} {P : Profile} {kec : Bytes → H256}
    {s : Sys K.Ann K.State} (h : Reached K M P kec s)
    {i : Nat} {t : Trie K.Ann} (hi : s.hs[i]? = some t) (k : Key) (hk : k.length ≤ 127)
    (hok : t.contents.GetOK P k) :
    t.get P (ofList k) = .ok (t.contents.find k) := by
  rw [h.live.get hi hk]
  exact get_abs P t.plain k (h.canon (List.mem_of_getElem? hi)).1 hok

/-- The absent key `0x16` next to stored ones, and the stored key `0x1` above others. -/
example (K : Kind) (P : Profile) :
    (caseT K P 0).get P (ofList [1, 6]) = .ok ((caseT K P 0).contents.find [1, 6]) ∧
    (caseT K P 0).get P (ofList [1]) = .ok ((caseT K P 0).contents.find [1]) :=
  ⟨C13_partial (caseReached K P) (caseGet K P (by decide)) _ (by decide)
      ((caseLists₀ K P).getOK_of (by obtain ⟨P⟩ := P; cases P <;> decide +kernel)),
    C13_partial (caseReached K P) (caseGet K P (by decide)) _ (by decide)
      ((caseLists₀ K P).getOK_of (by obtain ⟨P⟩ := P; cases P <;> decide +kernel))⟩

/-- In builds with overflow checks a returned value is always stored under a key that extends the
requested one or is extended by it. -/
theorem C13_comparable {K : Kind} {M : Mode} {P : Profile} {kec : Bytes → H256}
    {s : Sys K.Ann K.State} (h : Reached K M P kec s) (hP : P.overflowChecks = true)
    {i : Nat} {t : Trie K.Ann} (hi : s.hs[i]? = some t) (k : Key) (hk : k.length ≤ 127) (v : Bytes)
    (hv : t.get P (ofList k) = .ok (some v)) :
    ∃ q, t.contents q = some (.val v) ∧ (q <+: k ∨ k <+: q) := by
  rcases C13_exact_checked h hP hi k hk with ⟨_, h1⟩ | ⟨_, r, h1, h2⟩
  · rw [hv] at h1; cases h1
  · rw [hv] at h1
    cases h1
    rcases (h2 v).1 rfl with h3 | ⟨q, h3, _⟩ | ⟨q, hq, h3, _⟩
    · exact ⟨k, h3, .inl List.prefix_rfl⟩
    · exact ⟨_, h3, .inr (List.prefix_append _ _)⟩
    · exact ⟨q, h3, .inl hq⟩

example (K : Kind) : ∃ q, (caseT K .debug 0).contents q = some (.val [8]) ∧ (q <+: [1, 2, 1] ∨ [1, 2, 1] <+: q) :=
  C13_comparable (caseReached K .debug) rfl (caseGet K _ (by decide)) _ (by decide) _
    (by cases K <;> decide +kernel)

/-! ## C44 -/

/-- C44 fails: `0x100` is stored above `0x1001`; without overflow checks `get(0x12)` finds it
through the extension `0x00` below the first nibble. -/
theorem C44_false : ∀ (K : Kind) (kec : Bytes → H256),
    K.obs .release kec [.new, .insert 0 [1, 0, 0] (.val [7]), .insert 0 [1, 0, 0, 1] (.val [8]),
      .insert 0 [2] (.val [9]), .get 0 [1, 2]] =
      .ok [.unit, .unit, .unit, .unit, .val (some [7])] := by
  intro K kec
  rw [K.obs_eq _ _ (by simp [Cmd.Short]) (.inl (by simp))]
  kernel_rfl

/-- C44 holds for keys that are neither prefixes nor extensions of a stored key and do not leave off
before a run of zeros; `C13_exact_release` says exactly what is returned otherwise. -/
theorem C44_partial {K : Kind} {M : Mode} {P : Profile} {kec : Bytes → H256}
    {s : Sys K.Ann K.State} (h : Reached K M P kec s) (hP : P.overflowChecks = false)
    {i : Nat} {t : Trie K.Ann} (hi : s.hs[i]? = some t) (k : Key) (hk : k.length ≤ 127)
    (h1 : ∀ q v, t.contents q = some (.val v) → (q <+: k ∨ k <+: q) → q = k)
    (h2 : ∀ q j v, q <+: k → k.length < q.length + j → 
      t.contents (q ++ List.replicate j 0) ≠ some (.val v)) (v : Bytes)
    (hv : t.get P (ofList k) = .ok (some v)) : t.contents k = some (.val v) := by
  obtain ⟨r, h3, h4⟩ := C13_exact_release h hP hi k hk
  rw [hv] at h3
  cases h3
  rcases (h4 v).1 rfl with (h5 | ⟨q, h5, _⟩ | ⟨q, hq, h5, _⟩) | ⟨q, j, hq, hl, _, _, h5, _⟩
  · exact h5
  · have := h1 _ v h5 (.inr (List.prefix_append _ _))
    rw [this] at h5; exact h5
  · have := h1 _ v h5 (.inl hq)
    rw [this] at h5; exact h5
  · exact absurd h5 (h2 q j v hq hl)

example (K : Kind) : (caseT K .release 0).contents [2, 5, 6, 7] = some (.val [2]) := by
  have hL := caseLists₀ K .release
  refine C44_partial (caseReached K .release) rfl (caseGet K _ (by decide)) [2, 5, 6, 7] (by decide) ?_ ?_ _
    (by cases K <;> decide +kernel)
  · exact fun q v h => (by decide : ∀ x ∈ caseXs, x.1 <+: [2, 5, 6, 7] ∨ [2, 5, 6, 7] <+: x.1 →
      x.1 = [2, 5, 6, 7]) _ ((hL.2 _ _).2 h)
  · intro q j v hq hl h
    refine (by decide : ∀ x ∈ caseXs, x.1.getLast? ≠ some 0) _ ((hL.2 _ _).2 h) ?_
    have := hq.length_le
    cases j with
    | zero => omega
    | succ j => rw [List.replicate_succ', ← List.append_assoc, List.getLast?_append]; rfl

/-! ## C14 -/

/-- C14 fails: with `0x1234` and `0x1235` stored, `insert(0x12, v)` stores `v` under `0x123`;
`get(0x12)` panics in builds with overflow checks and finds nothing without them. -/
theorem C14_false : ∀ (K : Kind) (P : Profile) (kec : Bytes → H256),
    K.obs P kec [.new, .insert 0 [1, 2, 3, 4] (.val [7]), .insert 0 [1, 2, 3, 5] (.val [8]),
      .insert 0 [1, 2] (.val [9]), .get 0 [1, 2, 3]] =
      .ok [.unit, .unit, .unit, .unit, .val (some [9])] ∧
    K.obs P kec [.new, .insert 0 [1, 2, 3, 4] (.val [7]), .insert 0 [1, 2, 3, 5] (.val [8]),
      .insert 0 [1, 2] (.val [9]), .get 0 [1, 2]] =
      if P.overflowChecks then .error .overflow else .ok [.unit, .unit, .unit, .unit, .val none] := by
  intro K ⟨P⟩ kec
  rw [K.obs_eq _ _ (by simp [Cmd.Short]) (.inl (by simp)),
    K.obs_eq _ _ (by simp [Cmd.Short]) (.inl (by simp))]
  cases P <;> and_intros <;> kernel_rfl

/-- C14 for the insertions described by `InsertOK`: the call does not panic, and afterwards the
contents are the old ones with the new entry.  Missing: the insertions of `C14_false` (a key
that ends strictly inside a run of nibbles common to several entries), of keys below an empty
value, and insertions through hash nodes, which panic (C20). -/
theorem C14_partial {K : Kind} {M : Mode} {P : Profile} {kec : Bytes → H256}
    {s : Sys K.Ann K.State} (h : Reached K M P kec s)
    {i : Nat} {t : Trie K.Ann} (hi : s.hs[i]? = some t) (k : Key) (hk : k.length ≤ 127)
    (v : Bytes) (hok : t.contents.InsertOK k (.val v)) :
    ∃ t' st, t.insert P (ofList k) (.val v) s.state = .ok (t', st) ∧
      (∀ q, t'.contents q = if q = k then some (.val v) else t.contents q) ∧
      t'.get P (ofList k) = .ok (some v) ∧
      ∀ q, q.length ≤ 127 → q ≠ k → t'.contents.GetOK P q →
        t'.get P (ofList q) = .ok (t.contents.find q) := by
  obtain ⟨t', st, h1, h2, h3⟩ := h.insert hi hk hok
  have hi' := Sys.set_get hi t'
  have hc : ∀ q, t'.contents q = if q = k then some (.val v) else t.contents q := by
    intro q; rw [h3]; rfl
  refine ⟨t', st, h1, hc, ?_, fun q hq hne hgq => ?_⟩
  · have hkk : t'.contents k ≠ none := by simp [hc]
    rw [h2.get (s := ⟨st, s.hs.set i t'⟩) hi' hk ⟨fun e => absurd e hkk, fun e => absurd e hkk,
      fun _ e => absurd e hkk, fun _ e => absurd e hkk⟩]
    simp [find, hc]
  · rw [h2.get (s := ⟨st, s.hs.set i t'⟩) hi' hq hgq]
    simp [find, hc, hne]

/-! ## C15 -/

/-- C15 fails: with `0x1`, `0x12` and `0x13` stored, `delete(0x12)` loses the value of `0x1`. -/
theorem C15_false_lost : ∀ (K : Kind) (P : Profile) (kec : Bytes → H256),
    K.obs P kec [.new, .insert 0 [1] (.val [7]), .insert 0 [1, 2] (.val [8]),
      .insert 0 [1, 3] (.val [9]), .delete 0 [1, 2], .items 0] =
      .ok [.unit, .unit, .unit, .unit, .val (some [8]), .items (packEntries [([1, 3], .val [9])])] := by
  intro K ⟨P⟩ kec; cases K <;> cases P <;> kernel_rfl

/-- C15 fails: with `0x1` and `0x12` stored, `delete(0x12)` panics. -/
theorem C15_false_panic : ∀ (K : Kind) (P : Profile) (kec : Bytes → H256),
    K.obs P kec [.new, .insert 0 [1] (.val [7]), .insert 0 [1, 2] (.val [8]), .delete 0 [1, 2]] =
      .error .expectFailed := by
  intro K ⟨P⟩ kec; cases K <;> cases P <;> kernel_rfl

/-- C15 fails: with `0x12`, `0x123` and `0x124` stored, `delete(0x1)` returns and removes the value
of `0x12`. -/
theorem C15_false_prefix : ∀ (K : Kind) (P : Profile) (kec : Bytes → H256),
    K.obs P kec [.new, .insert 0 [1, 2] (.val [7]), .insert 0 [1, 2, 3] (.val [8]),
      .insert 0 [1, 2, 4] (.val [9]), .delete 0 [1], .items 0] =
      .ok [.unit, .unit, .unit, .unit, .val (some [7]),
        .items (packEntries [([1, 2, 3], .val [8]), ([1, 2, 4], .val [9])])] := by
  intro K ⟨P⟩ kec; cases K <;> cases P <;> kernel_rfl

/-- C15 fails: with `0x12` and `0x13` stored, deleting the absent key `0x1` returns `Some([])`
instead of `None`. -/
theorem C15_false_absent : ∀ (K : Kind) (P : Profile) (kec : Bytes → H256),
    K.obs P kec [.new, .insert 0 [1, 2] (.val [7]), .insert 0 [1, 3] (.val [8]), .delete 0 [1]] =
      .ok [.unit, .unit, .unit, .val (some [])] := by
  intro K ⟨P⟩ kec; cases K <;> cases P <;> kernel_rfl

/-- C15 for the deletions described by `DeleteOK`: the stored value is returned and exactly the
given key is removed.  Missing: the deletions of the four counterexamples, and tries with keys of
more than 64 nibbles. -/
theorem C15_partial {K : Kind} {M : Mode} {P : Profile} {kec : Bytes → H256}
    {s : Sys K.Ann K.State} (h : Reached K M P kec s)
    {i : Nat} {t : Trie K.Ann} (hi : s.hs[i]? = some t) (k : Key) (hk : k.length ≤ 127)
    (hok : t.contents.DeleteOK k) (hsh : t.contents.Short) :
    ∃ t' st, t.delete P (ofList k) s.state = .ok ((t', t.contents.find k), st) ∧
      (∀ q, t'.contents q = if q = k then none else t.contents q) ∧
      (t.contents k = none → t'.beq t = true) := by
  obtain ⟨t', st, h1, h2, h3⟩ := h.delete hi hk hok hsh
  refine ⟨t', st, h1, fun q => by rw [h3]; rfl, fun hm => ?_⟩
  rw [beq_iff_contents h2 h (List.mem_of_getElem? (Sys.set_get hi t')) (List.mem_of_getElem? hi), h3]
  exact erase_absent hm

/-- Hypotheses of `C14_partial` and `C15_partial` with a stored prefix: contents `0x1`, `0x12`,
`0x13`, `0x14`; the keys `0x15` and `0x12`. -/
def exContents : KMap := fun k =>
  if k = [1] then some (.val [7]) else if k = [1, 2] then some (.val [8])
  else if k = [1, 3] then some (.val [9]) else if k = [1, 4] then some (.val [10]) else none

theorem exContents_some {q : Key} {v : ValOrHash} (h : exContents q = some v) :
    (q = [1] ∧ v = .val [7]) ∨ (q = [1, 2] ∧ v = .val [8]) ∨ (q = [1, 3] ∧ v = .val [9]) ∨
      (q = [1, 4] ∧ v = .val [10]) := by
  unfold exContents at h
  split at h
  · cases h; exact .inl ⟨by assumption, rfl⟩
  · split at h
    · cases h; exact .inr (.inl ⟨by assumption, rfl⟩)
    · split at h
      · cases h; exact .inr (.inr (.inl ⟨by assumption, rfl⟩))
      · split at h
        · cases h; exact .inr (.inr (.inr ⟨by assumption, rfl⟩))
        · cases h

theorem exContents_below {q : Key} (h : exContents.Below q) : q = [] ∨ q = [1] := by
  obtain ⟨d, r, hr⟩ := h
  obtain ⟨v, hv⟩ := Option.ne_none_iff_exists'.1 hr
  have : (q ++ d :: r).length ≤ 2 ∧ (q ++ d :: r).take 1 = [1] := by
    rcases exContents_some hv with ⟨e, _⟩ | ⟨e, _⟩ | ⟨e, _⟩ | ⟨e, _⟩ <;> rw [e] <;> decide
  match q, this with
  | [], _ => exact .inl rfl
  | [a], h => right; simpa using h.2
  | a :: b :: q, h => simp at h

example : exContents.InsertOK [1, 5] (.val [3]) where
  noHash q x h := by rcases exContents_some h with ⟨_, e⟩ | ⟨_, e⟩ | ⟨_, e⟩ | ⟨_, e⟩ <;> cases e
  noEmpty q h := by rcases exContents_some h with ⟨_, e⟩ | ⟨_, e⟩ | ⟨_, e⟩ | ⟨_, e⟩ <;> cases e
  nonempty h := by simp
  val x _ := by
    refine .inr (.inl fun h => ?_)
    rcases exContents_below h with e | e <;> cases e
  hash h e := by cases e

example : exContents.DeleteOK [1, 2] where
  noHash q x h := by rcases exContents_some h with ⟨_, e⟩ | ⟨_, e⟩ | ⟨_, e⟩ | ⟨_, e⟩ <;> cases e
  absent h := by cases h
  branch _ := by
    refine .inl fun h => ?_
    rcases exContents_below h with e | e <;> cases e
  parent _ q d r e hq _ := by
    obtain ⟨v, hv⟩ := Option.ne_none_iff_exists'.1 hq
    have : q = [1] := by
      rcases exContents_some hv with ⟨e', _⟩ | ⟨e', _⟩ | ⟨e', _⟩ | ⟨e', _⟩ <;> subst e' <;> simp at e ⊢
    subst this
    have hd : d = 2 := by simp at e; exact e.1.symm
    subst hd
    exact ⟨3, 4, [], [], by decide, by decide, by decide, by simp [exContents], by simp [exContents]⟩

/-- The insertion of `0x16` next to other entries below `0x1`. -/
example (K : Kind) (P : Profile) : ∃ t' st, (caseT K P 0).insert P (ofList [1, 6]) (.val [3]) (caseS K P).state =
      .ok (t', st) ∧ (∀ q, t'.contents q = if q = [1, 6] then some (.val [3]) else (caseT K P 0).contents q) ∧
      t'.get P (ofList [1, 6]) = .ok (some [3]) ∧ ∀ q, q.length ≤ 127 → q ≠ [1, 6] → t'.contents.GetOK P q →
        t'.get P (ofList q) = .ok ((caseT K P 0).contents.find q) :=
  C14_partial (caseReached K P) (caseGet K P (by decide)) _ (by decide) _
    ((caseLists₀ K P).insertOK_of (by decide +kernel))

/-- The deletion of `0x12`, where `0x1` is stored too. -/
example (K : Kind) (P : Profile) : ∃ t' st, (caseT K P 0).delete P (ofList [1, 2]) (caseS K P).state =
      .ok ((t', (caseT K P 0).contents.find [1, 2]), st) ∧
      (∀ q, t'.contents q = if q = [1, 2] then none else (caseT K P 0).contents q) ∧
      ((caseT K P 0).contents [1, 2] = none → t'.beq (caseT K P 0) = true) :=
  C15_partial (caseReached K P) (caseGet K P (by decide)) _ (by decide)
    ((caseLists₀ K P).deleteOK_of (by decide +kernel)) ((caseLists₀ K P).short_of (by decide))

/-- These contents are those of a reached state; deleting `0x12` there keeps `0x1`. -/
example : ∀ K : Kind, ∀ P : Profile,
    K.obs P kec0 [.fromIter [([1], .val [7]), ([1, 2], .val [8]), ([1, 3], .val [9]),
      ([1, 4], .val [10])], .delete 0 [1, 2], .items 0] =
    .ok [.unit, .val (some [8]), .items (packEntries [([1, 3], .val [9]), ([1, 4], .val [10]),
      ([1], .val [7])])] := by
  intro K ⟨P⟩; cases K <;> cases P <;> decide +kernel

/-! ## C43 -/

/-- C43 fails: in the empty trie the empty value is found afterwards; on the stored key `0x1` with
`0x12` and `0x13` below it, it is not. -/
theorem C43_false : ∀ (K : Kind) (P : Profile) (kec : Bytes → H256),
    K.obs P kec [.new, .insert 0 [1] (.val []), .get 0 [1]] =
      .ok [.unit, .unit, .val (some [])] ∧
    K.obs P kec [.new, .insert 0 [1, 2] (.val [7]), .insert 0 [1, 3] (.val [8]),
      .insert 0 [1] (.val []), .get 0 [1]] =
      .ok [.unit, .unit, .unit, .unit, .val none] := by
  intro K ⟨P⟩ kec; cases K <;> cases P <;> (try and_intros) <;> kernel_rfl

/-- C43, what is true: after a successful `insert(k, [])` the lookup of `k` returns `Some([])`
exactly if nothing is stored under keys that properly extend `k`. -/
theorem C43_partial {K : Kind} {M : Mode} {P : Profile} {kec : Bytes → H256}
    {s : Sys K.Ann K.State} (h : Reached K M P kec s)
    {i : Nat} {t : Trie K.Ann} (hi : s.hs[i]? = some t) (k : Key) (hk : k.length ≤ 127)
    {t' : Trie K.Ann} {st : K.State} (hins : t.insert P (ofList k) (.val []) s.state = .ok (t', st)) :
    t'.get P (ofList k) = .ok (some []) ↔ ¬ t.contents.Below k := by
  have hp : permitted K M (.insert i k (.val [])) := by cases K <;> cases M <;> trivial
  have hl : Live K M P kec ⟨st, s.hs.set i t'⟩ := .step h.live (c := .insert i k (.val [])) (o := .unit)
    hk hp (by simp only [Sys.exec, exec_on hi, hins]; rfl)
  have h1 := h.live.insert hi hk (.val [])
  rw [hins] at h1
  rw [hl.get (s := ⟨st, s.hs.set i t'⟩) (Sys.set_get hi t') hk]
  exact insert_empty_get P t.plain k _ (h.canon (List.mem_of_getElem? hi)).1 h1.symm

/-- An empty value on `0x12`, below which there is nothing. -/
example (K : Kind) (P : Profile) : ∃ t' st, (caseT K P 0).insert P (ofList [1, 2]) (.val []) (caseS K P).state =
    .ok (t', st) ∧ t'.get P (ofList [1, 2]) = .ok (some []) := by
  have hL := caseLists₀ K P
  obtain ⟨t', st, h, -⟩ := C14_partial (caseReached K P) (caseGet K P (by decide)) _ (by decide) []
    (hL.insertOK_of (k := [1, 2]) (by decide +kernel))
  refine ⟨t', st, h, (C43_partial (caseReached K P) (caseGet K P (by decide)) _ (by decide) h).2 fun hb => ?_⟩
  exact absurd ((hL.below_iff _).1 hb) (by decide)

/-! ## C45 -/

theorem extendL_append (l : LNode) (xs ys : List (Key × ValOrHash)) :
    PSys.extendL l (xs ++ ys) = PSys.extendL l xs >>= fun l' => PSys.extendL l' ys := by
  induction xs generalizing l with
  | nil => rfl
  | cons x xs ih =>
    obtain ⟨k, v⟩ := x
    simp only [List.cons_append, PSys.extendL]
    cases l.insert k v with
    | error e => rfl
    | ok l' => exact ih l'

/-- C45: `extend` by `xs ++ ys` is `extend` by `xs` and then by `ys`: the same trie (up to caches) or
the same panic, for arbitrary entries. -/
theorem C45_append {K : Kind} {M : Mode} {P : Profile} {kec : Bytes → H256}
    {s : Sys K.Ann K.State} (h : Live K M P kec s) {i : Nat} {t : Trie K.Ann}
    (hi : s.hs[i]? = some t) (xs ys : List (Key × ValOrHash))
    (hx : ∀ x ∈ xs ++ ys, x.1.length ≤ 127) :
    (t.extend P (packEntries (xs ++ ys)) s.state).map (fun r => r.1.plain) =
    (t.extend P (packEntries xs) s.state >>= fun r => r.1.extend P (packEntries ys) r.2).map
      (fun r => r.1.plain) := by
  have hx1 : ∀ x ∈ xs, x.1.length ≤ 127 := fun x hm => hx x (List.mem_append_left _ hm)
  have hx2 : ∀ x ∈ ys, x.1.length ≤ 127 := fun x hm => hx x (List.mem_append_right _ hm)
  rw [h.extend hi hx, extendL_append]
  have h1 := h.extend hi hx1
  cases hr : t.extend P (packEntries xs) s.state with
  | error e =>
    rw [hr] at h1
    rw [← h1]; rfl
  | ok r =>
    obtain ⟨t', st⟩ := r
    rw [hr] at h1
    have hp : permitted K M (.extend i xs) := by cases K <;> cases M <;> trivial
    have hl : Live K M P kec ⟨st, s.hs.set i t'⟩ := .step h (c := .extend i xs) (o := .unit)
      hx1 hp (by simp only [Sys.exec, exec_on hi, hr]; rfl)
    have h2 := hl.extend (s := ⟨st, s.hs.set i t'⟩) (Sys.set_get hi t') hx2
    rw [← h1]
    exact h2.symm

/-- The second entry replaces the first one. -/
example (K : Kind) (P : Profile) :
    ((caseT K P 2).extend P (packEntries [([1, 6], .val [1]), ([1, 6], .val [2])]) (caseS K P).state).map
      (fun r => r.1.plain) =
    ((caseT K P 2).extend P (packEntries [([1, 6], .val [1])]) (caseS K P).state >>= fun r =>
      r.1.extend P (packEntries [([1, 6], .val [2])]) r.2).map (fun r => r.1.plain) :=
  C45_append (caseLive K P) (caseGet K P (by decide)) [([1, 6], .val [1])] [([1, 6], .val [2])] (by decide)

/-- C45: `extend` by one entry is `insert`. -/
theorem C45_single {K : Kind} (P : Profile) (t : Trie K.Ann) (k : Nibbles) (v : ValOrHash)
    (st : K.State) : t.extend P [(k, v)] st = t.insert P k v st := by
  simp only [Trie.extend, Trie.insert, trieExtend, Prog.bind_run]
  cases (trieInsert P t k v).run st <;> rfl

/-- C45: `from_iter` is `extend` of the empty trie. -/
theorem C45_from_iter {K : Kind} (P : Profile) (xs : List (Nibbles × ValOrHash)) (st : K.State) :
    (fromIter P xs : Prog K.Ann (Trie K.Ann)) st =
      (do let (t, st') ← (newEmpty : Prog K.Ann (Trie K.Ann)) st
          t.extend P xs st') := rfl

theorem putAll_last (xs : List (Key × ValOrHash)) (m : KMap) (k : Key) :
    m.putAll xs k = match (xs.filter fun x => decide (x.1 = k)).getLast? with
      | some x => some x.2
      | none => m k := by
  induction xs generalizing m with
  | nil => rfl
  | cons x xs ih =>
    obtain ⟨q, v⟩ := x
    rw [KMap.putAll, ih]
    by_cases h : q = k
    · subst h
      simp only [decide_true, List.filter_cons_of_pos, List.getLast?_cons]
      cases (xs.filter fun x => decide (x.1 = q)).getLast? with
      | none => simp [KMap.put]
      | some y => rfl
    · simp only [h, decide_false, Bool.false_eq_true, not_false_eq_true, List.filter_cons_of_neg]
      cases (xs.filter fun x => decide (x.1 = k)).getLast? with
      | none => simp [KMap.put, Ne.symm h]
      | some y => rfl

/-- C45: after a supported `extend` the last entry for a key wins. -/
theorem C45_last_wins {K : Kind} {M : Mode} {P : Profile} {kec : Bytes → H256}
    {s : Sys K.Ann K.State} (h : Reached K M P kec s) {i : Nat} {t : Trie K.Ann}
    (hi : s.hs[i]? = some t) (xs : List (Key × ValOrHash)) (hx : ∀ x ∈ xs, x.1.length ≤ 127)
    (hok : t.contents.PutsOK xs) :
    ∃ t' st, t.extend P (packEntries xs) s.state = .ok (t', st) ∧ ∀ k,
      t'.contents k = match (xs.filter fun x => decide (x.1 = k)).getLast? with
        | some x => some x.2
        | none => t.contents k := by
  obtain ⟨t', st, h1, _, h2⟩ := h.extend hi hx hok
  exact ⟨t', st, h1, fun k => by rw [h2, putAll_last]⟩

example : ∀ K : Kind, ∀ P : Profile,
    K.obs P kec0 [.fromIter [([1, 2], .val [7]), ([1, 3], .val [8]), ([1, 2], .val [9])], .items 0] =
      .ok [.unit, .items (packEntries [([1, 2], .val [9]), ([1, 3], .val [8])])] := by
  intro K ⟨P⟩; cases K <;> cases P <;> decide +kernel

/-- The same for entries that are added to other ones; `0x16` is stored twice. -/
example (K : Kind) (P : Profile) : ∃ t' st, (caseT K P 0).extend P
      (packEntries [([1, 6], .val [1]), ([1, 6], .val [2])]) (caseS K P).state = .ok (t', st) ∧
      ∀ k, t'.contents k = match ([([1, 6], .val [1]), ([1, 6], .val [2])].filter
          fun x : Key × ValOrHash => decide (x.1 = k)).getLast? with
        | some x => some x.2
        | none => (caseT K P 0).contents k := by
  have hL := caseLists₀ K P
  refine C45_last_wins (caseReached K P) (caseGet K P (by decide)) _ (by decide)
    ⟨by decide, hL.insertOK_of (by decide +kernel), by decide,
      (hL.put (by decide) _).insertOK_of (by decide +kernel), trivial⟩

end EthTrie
