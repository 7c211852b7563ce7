import Verif.Props.Commute

/-!
# C81: changes can be rolled back

Before a key is changed its value is looked up (`delete` returns it).  Putting the values back in reverse
order gives the trie back.
-/

namespace EthTrie

open Spec KMap LNode Nibbles

namespace Op

/-- The calls, with a lookup before every insertion. -/
def journal (os : List Op) : List Op := os.flatMap fun
  | .insert k v => [.get k, .insert k v]
  | o => [o]

/-- The call that puts back what a call returned. -/
def restore : Op × Obs → Option Op
  | (.get k, .val (some x)) | (.delete k, .val (some x)) => some (.insert k x)
  | (.get k, .val none) | (.delete k, .val none) => some (.delete k)
  | _ => none

/-- Put everything back in reverse order. -/
def rollback (os : List Op) (rs : List Obs) : List Op := ((os.zip rs).filterMap restore).reverse

variable {m : KMap}

theorem effects_append : ∀ (os os' : List Op) (m : KMap), effects m (os ++ os') = effects (effects m os) os'
  | [], _, _ => rfl
  | o :: os, os', m => effects_append os os' (o.effect m)

theorem replies_append : ∀ (os os' : List Op) (m : KMap),
    replies m (os ++ os') = replies m os ++ replies (effects m os) os'
  | [], _, _ => rfl
  | o :: os, os', m => congrArg (_ :: ·) (replies_append os os' (o.effect m))

theorem replies_length : ∀ (os : List Op) (m : KMap), (replies m os).length = os.length
  | [], _ => rfl
  | o :: os, m => congrArg (· + 1) (replies_length os (o.effect m))

theorem rollback_append (os os' : List Op) (m : KMap) :
    rollback (os ++ os') (replies m (os ++ os')) =
      rollback os' (replies (effects m os) os') ++ rollback os (replies m os) := by
  rw [rollback, replies_append, List.zip_append (replies_length os m).symm, List.filterMap_append,
    List.reverse_append]
  rfl

theorem erase_self {k : Key} (h : m k = none) : m.erase k = m := by
  funext q; by_cases hq : q = k <;> simp_all [KMap.erase]

theorem erase_put_self {k : Key} {v : ValOrHash} (h : m k = none) : (m.put k v).erase k = m := by
  funext q; by_cases hq : q = k <;> simp_all [KMap.erase, put]

theorem put_self {k : Key} {v : ValOrHash} (h : m k = some v) : m.put k v = m := by
  funext q; by_cases hq : q = k <;> simp_all [put]

theorem put_put {k : Key} {v w : ValOrHash} (h : m k = some v) : (m.put k w).put k v = m := by
  funext q; by_cases hq : q = k <;> simp_all [put]

theorem put_erase {k : Key} {v : ValOrHash} (h : m k = some v) : (m.erase k).put k v = m := by
  funext q; by_cases hq : q = k <;> simp_all [put, KMap.erase]

theorem undo_journal : ∀ (os : List Op) {m : KMap}, (∀ o ∈ os, ∀ x, m o.key ≠ some (.hash x)) →
    effects (effects m (journal os)) (rollback (journal os) (replies m (journal os))) = m
  | [], _, _ => rfl
  | o :: os, m, ho => by
    have hj : journal (o :: os) = journal [o] ++ journal os := by
      simp [journal]
    have hn : ∀ o' ∈ os, ∀ x, effects m (journal [o]) o'.key ≠ some (.hash x) := by
      intro o' h' x
      have := ho o' (List.mem_cons_of_mem _ h') x
      cases o with
      | get k => exact this
      | insert k v =>
        simp only [journal, List.flatMap_cons, List.flatMap_nil, List.append_nil, effects, effect, put]
        split
        · nofun
        · exact this
      | delete k =>
        simp only [journal, List.flatMap_cons, List.flatMap_nil, List.append_nil, effects, effect, KMap.erase]
        split
        · nofun
        · exact this
    rw [hj, rollback_append, effects_append, effects_append, undo_journal os hn]
    have h1 := ho o List.mem_cons_self
    cases o with
    | get k =>
      simp only [key] at h1
      cases hk : m k with
      | none => simp [journal, effects, effect, replies, reply, find, hk, rollback, restore, erase_self]
      | some v =>
        cases v with
        | hash x => exact absurd hk (h1 x)
        | val x => simp [journal, effects, effect, replies, reply, find, hk, rollback, restore, put_self]
    | insert k w =>
      simp only [key] at h1
      have hr : restore (.insert k w, .unit) = none := rfl
      cases hk : m k with
      | none => simp [journal, effects, effect, replies, reply, find, hk, rollback, restore, erase_put_self,
          List.filterMap_cons, hr]
      | some v =>
        cases v with
        | hash x => exact absurd hk (h1 x)
        | val x => simp [journal, effects, effect, replies, reply, find, hk, rollback, restore, put_put,
          List.filterMap_cons, hr]
    | delete k =>
      simp only [key] at h1
      cases hk : m k with
      | none => simp [journal, effects, effect, replies, reply, find, hk, rollback, restore, erase_self]
      | some v =>
        cases v with
        | hash x => exact absurd hk (h1 x)
        | val x => simp [journal, effects, effect, replies, reply, find, hk, rollback, restore, put_erase]

theorem mem_journal {os : List Op} {o : Op} (h : o ∈ journal os) : ∃ o' ∈ os, o'.key = o.key := by
  obtain ⟨o', h1, h2⟩ := List.mem_flatMap.1 h
  refine ⟨o', h1, ?_⟩
  cases o' with
  | insert k v =>
    simp only [List.mem_cons, List.not_mem_nil, or_false] at h2
    rcases h2 with rfl | rfl <;> rfl
  | get k => rw [List.mem_singleton.1 h2]
  | delete k => rw [List.mem_singleton.1 h2]

theorem restore_key {x : Op × Obs} {o : Op} (h : restore x = some o) : o.key = x.1.key := by
  unfold restore at h
  split at h <;> cases h <;> rfl

theorem mem_rollback {os : List Op} {rs : List Obs} {o : Op} (h : o ∈ rollback os rs) :
    ∃ o' ∈ os, o'.key = o.key := by
  obtain ⟨x, h1, h2⟩ := List.mem_filterMap.1 (List.mem_reverse.1 h)
  exact ⟨x.1, (List.of_mem_zip h1).1, (restore_key h2).symm⟩

theorem AllOK.append {P : Profile} : ∀ (os os' : List Op) (m : KMap), AllOK P m (os ++ os') →
    AllOK P m os ∧ AllOK P (effects m os) os'
  | [], _, _, h => ⟨trivial, h⟩
  | o :: os, os', m, h => ⟨⟨h.1, (AllOK.append os os' _ h.2).1⟩, (AllOK.append os os' _ h.2).2⟩

end Op

section

variable {K : Kind} {M : Mode} [M.Safe] {P : Profile} {kec : Bytes → H256} {s : Sys K.Ann K.State}
  {i : Nat} {t : Trie K.Ann}

/-- C81 where the calls, there and back, are supported: they return, the trie is equal to what it was, has
the same hash, and all other tries have their contents.  Missing: calls that are not supported, see
`C81_false`. -/
theorem C81_partial (h : Reached K M P kec s) (hi : s.hs[i]? = some t) {os : List Op}
    (hh : ∀ o ∈ os, ∀ x, t.contents o.key ≠ some (.hash x))
    (hok : Op.AllOK P t.contents (Op.journal os ++
      Op.rollback (Op.journal os) (Op.replies t.contents (Op.journal os)))) :
    ∃ s₁ rs s₂ rs₂ t₂, s.run P kec ((Op.journal os).map (·.on i)) = .ok (s₁, rs) ∧
      s₁.run P kec ((Op.rollback (Op.journal os) rs).map (·.on i)) = .ok (s₂, rs₂) ∧
      s₂.hs[i]? = some t₂ ∧ t₂.beq t = true ∧
      (t₂.rootHash P kec s₂.state).map (·.1) = (t.rootHash P kec s.state).map (·.1) ∧
      s₂.contents = s.contents := by
  obtain ⟨h1, h2⟩ := Op.AllOK.append _ _ _ hok
  obtain ⟨s₁, a1, a2, a3⟩ := Reached.runOK _ h (contents_get hi) h1
  have hl : i < s.contents.length := (List.getElem?_eq_some_iff.1 (contents_get hi)).1
  obtain ⟨s₂, b1, b2, b3⟩ := Reached.runOK _ a2 (i := i) (m := Op.effects t.contents (Op.journal os))
    (by rw [a3, List.getElem?_set_self hl]) h2
  rw [Op.undo_journal os hh, a3, List.set_set] at b3
  have hs : s.contents.set i t.contents = s.contents := by
    obtain ⟨hl, he⟩ := List.getElem?_eq_some_iff.1 (contents_get hi)
    rw [← he, List.set_getElem_self]
  rw [hs] at b3
  obtain ⟨t₂, c1, c2⟩ := contents_some (s := s₂) (i := i) (m := t.contents) (by rw [b3, contents_get hi])
  exact ⟨s₁, _, s₂, _, t₂, a1, b1, c1, (C16_histories b2 h c1 hi c2).1, (C16_histories b2 h c1 hi c2).2, b3⟩

theorem Op.effects_fixedLen {n : Nat} : ∀ (os : List Op) {m : KMap}, m.FixedLen n →
    (∀ o ∈ os, o.key.length = n) → (effects m os).FixedLen n
  | [], _, h, _ => h
  | o :: os, _, h, ho => effects_fixedLen os (effect_fixedLen h (ho o List.mem_cons_self))
      fun o' h' => ho o' (List.mem_cons_of_mem _ h')

/-- C81 for keys of one length (such as hashed addresses) that meet no hash, in full or partial tries. -/
theorem C81_fixed_length (h : Reached K M P kec s) (hi : s.hs[i]? = some t) {os : List Op} {n : Nat}
    (hn : n ≤ 64) (hf : t.contents.FixedLen n)
    (hu : ∀ o ∈ os, o.key.length = n ∧ t.contents.NoHashOn o.key) :
    ∃ s₁ rs s₂ rs₂ t₂, s.run P kec ((Op.journal os).map (·.on i)) = .ok (s₁, rs) ∧
      s₁.run P kec ((Op.rollback (Op.journal os) rs).map (·.on i)) = .ok (s₂, rs₂) ∧
      s₂.hs[i]? = some t₂ ∧ t₂.beq t = true ∧
      (t₂.rootHash P kec s₂.state).map (·.1) = (t.rootHash P kec s.state).map (·.1) ∧
      s₂.contents = s.contents := by
  refine C81_partial h hi (fun o ho x hx => (hu o ho).2 _ x hx List.prefix_rfl)
    (Op.allOK_fixed hn _ hf fun o ho => ?_)
  rcases List.mem_append.1 ho with ho | ho
  · obtain ⟨o', h1, e⟩ := Op.mem_journal ho
    exact e ▸ hu o' h1
  · obtain ⟨o', h1, e⟩ := Op.mem_rollback ho
    obtain ⟨o'', h2, e'⟩ := Op.mem_journal h1
    exact e ▸ e' ▸ hu o'' h2

end

theorem exPart_case (K : Kind) (P : Profile) : Reached K .noEmptySubset P kec0 (K.after P exPart) ∧
    (K.after P exPart).hs[1]? = some (K.trie P exPart 1) ∧ (K.trie P exPart 1).contents.FixedLen 2 ∧
    ∀ k, [1] <+: k → (K.trie P exPart 1).contents.NoHashOn k := by
  have hL := (K.trie P exPart 1).lists
  have hk : ((K.trie P exPart 1).plain.items []).map (fun x => (x.1, x.2.isVal)) =
      [([1, 2], true), ([1, 3], true), ([2], false)] := by
    obtain ⟨P⟩ := P; cases K <;> cases P <;> decide +kernel
  have hmem : ∀ q v, (K.trie P exPart 1).contents q = some v →
      (q, v.isVal) ∈ [([1, 2], true), ([1, 3], true), (([2] : Key), false)] := fun q v h => by
    rw [← hk]; exact List.mem_map.2 ⟨(q, v), (hL.2 q v).2 h, rfl⟩
  refine ⟨.of (exPartLive K P) (by obtain ⟨P⟩ := P; cases K <;> cases P <;> decide +kernel),
    Kind.trie_get (by obtain ⟨P⟩ := P; cases K <;> cases P <;> decide +kernel),
    ⟨fun q hq => ?_, fun q x hq => ?_⟩, ?_⟩
  · obtain ⟨v, hv⟩ := Option.ne_none_iff_exists'.1 hq
    exact (by decide : ∀ x ∈ [([1, 2], true), ([1, 3], true), (([2] : Key), false)], x.1.length ≤ 2) _
      (hmem q v hv)
  · exact (by decide : ∀ x ∈ [([1, 2], true), ([1, 3], true), (([2] : Key), false)], x.2 = true →
      x.1.length = 2) _ (hmem q _ hq) rfl
  · intro k hk q x hq hp
    have : q = [2] := (by decide : ∀ x ∈ [([1, 2], true), ([1, 3], true), (([2] : Key), false)], x.2 = false →
      x.1 = [2]) _ (hmem q _ hq) rfl
    obtain ⟨r, rfl⟩ := hk
    rw [this] at hp
    simp at hp

/-- Entries below `0x1` are changed, deleted and made; other entries are below a hash. -/
example (K : Kind) (P : Profile) : let os : List Op := [.insert [1, 4] [3], .delete [1, 2], .insert [1, 3] [],
      .delete [1, 5], .insert [1, 2] [6]]
    ∃ s₁ rs s₂ rs₂ t₂, (K.after P exPart).run P kec0 ((Op.journal os).map (·.on 1)) = .ok (s₁, rs) ∧
      s₁.run P kec0 ((Op.rollback (Op.journal os) rs).map (·.on 1)) = .ok (s₂, rs₂) ∧
      s₂.hs[1]? = some t₂ ∧ t₂.beq (K.trie P exPart 1) = true ∧
      (t₂.rootHash P kec0 s₂.state).map (·.1) =
        ((K.trie P exPart 1).rootHash P kec0 (K.after P exPart).state).map (·.1) ∧
      s₂.contents = (K.after P exPart).contents := by
  intro os
  obtain ⟨hR, hg, hf, hu⟩ := exPart_case K P
  refine C81_fixed_length hR hg (n := 2) (by decide) hf ?_
  simp only [os, List.forall_mem_cons, Op.key]
  exact ⟨⟨rfl, hu _ ⟨_, rfl⟩⟩, ⟨rfl, hu _ ⟨_, rfl⟩⟩, ⟨rfl, hu _ ⟨_, rfl⟩⟩, ⟨rfl, hu _ ⟨_, rfl⟩⟩,
    ⟨rfl, hu _ ⟨_, rfl⟩⟩, nofun⟩

/-- `0x16` is made next to entries below the stored key `0x1`, and `0x12` is deleted. -/
example (K : Kind) (P : Profile) : let os : List Op := [.insert [1, 6] [3], .delete [1, 2]]
    ∃ s₁ rs s₂ rs₂ t₂, (caseS K P).run P kec0 ((Op.journal os).map (·.on 0)) = .ok (s₁, rs) ∧
      s₁.run P kec0 ((Op.rollback (Op.journal os) rs).map (·.on 0)) = .ok (s₂, rs₂) ∧
      s₂.hs[0]? = some t₂ ∧ t₂.beq (caseT K P 0) = true ∧
      (t₂.rootHash P kec0 s₂.state).map (·.1) = ((caseT K P 0).rootHash P kec0 (caseS K P).state).map (·.1) ∧
      s₂.contents = (caseS K P).contents := by
  intro os
  have h0 := caseLists₀ K P
  have h1 := h0.put (k := [1, 6]) (by decide) (.val [3])
  have h2 := h1.erase [1, 2]
  have h3 := h2.put (k := [1, 2]) (by decide +kernel) (.val [8])
  have n6 : (caseT K P 0).contents [1, 6] = none := h0.none_of (by decide)
  have s2 : (caseT K P 0).contents [1, 2] = some (.val [8]) := (h0.2 _ _).1 (by decide)
  have e : Op.rollback (Op.journal os) (Op.replies (caseT K P 0).contents (Op.journal os)) =
      [.insert [1, 2] [8], .delete [1, 6]] := by
    have f1 : (caseT K P 0).contents.find [1, 6] = none := by rw [find, n6]
    have f2 : ((caseT K P 0).contents.put [1, 6] (.val [3])).find [1, 2] = some [8] := by
      rw [find, put, if_neg (by decide), s2]
    simp only [os, Op.journal, List.flatMap_cons, List.flatMap_nil, List.append_nil, List.cons_append,
      List.nil_append, Op.replies, Op.reply, Op.effect, f1, f2]
    rfl
  refine C81_partial (caseReached K P) (caseGet K P (by decide)) ?_ ?_
  · simp only [os, List.forall_mem_cons, Op.key, n6, s2]
    exact ⟨nofun, nofun, nofun⟩
  · rw [e]
    refine ⟨⟨by decide, h0.getOK_of ?_⟩, ⟨by decide, h0.insertOK_of (by decide +kernel)⟩,
      ⟨by decide, h1.deleteOK_of (by decide +kernel), h1.short_of (by decide)⟩,
      ⟨by decide, h2.insertOK_of (by decide +kernel)⟩,
      ⟨by decide, h3.deleteOK_of (by decide +kernel), h3.short_of (by decide +kernel)⟩, trivial⟩
    obtain ⟨P⟩ := P; cases P <;> decide +kernel

/-- With `0x1`, `0x12` and `0x13` stored, `0x12` is deleted and put back: `0x1` is lost. -/
theorem C81_false : ∀ (K : Kind) (P : Profile) (kec : Bytes → H256),
    K.obs P kec [.fromIter [([1], .val [7]), ([1, 2], .val [8]), ([1, 3], .val [9])], .clone 0,
      .delete 0 [1, 2], .insert 0 [1, 2] (.val [8]), .get 0 [1], .get 1 [1], .eq 0 1] =
      .ok [.unit, .unit, .val (some [8]), .unit, .val none, .val (some [7]), .bool false] := by
  intro K ⟨P⟩ kec; cases K <;> cases P <;> kernel_rfl

end EthTrie
