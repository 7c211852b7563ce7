import Verif.Props.Contents
import Verif.Props.Replay

/-!
# C80: calls with different keys may be reordered

Two sequences of calls on a trie that contain the same calls for every single key, in the same order, but
interleave the calls for different keys differently.
-/

namespace EthTrie

open Spec KMap LNode Nibbles

namespace Op

/-- The calls with the key `k`, in order. -/
def only (k : Key) (os : List Op) : List Op := os.filter fun o => o.key = k

/-- The calls with the key `k` together with what they returned. -/
def onlyReplies (k : Key) (os : List Op) (rs : List Obs) : List (Op × Obs) :=
  (os.zip rs).filter fun x => x.1.key = k

/-- The call is supported by a trie with contents `m`. -/
def OK (P : Profile) (m : KMap) : Op → Prop
  | .get k => k.length ≤ 127 ∧ GetOK P m k
  | .insert k v => k.length ≤ 127 ∧ InsertOK m k (.val v)
  | .delete k => k.length ≤ 127 ∧ DeleteOK m k ∧ m.Short

/-- The calls are supported one after the other. -/
def AllOK (P : Profile) (m : KMap) : List Op → Prop
  | [] => True
  | o :: os => o.OK P m ∧ AllOK P (o.effect m) os

variable {m m' : KMap} {k : Key}

theorem effect_other {o : Op} (h : o.key ≠ k) : o.effect m k = m k := by
  cases o with
  | get q => rfl
  | insert q v => exact if_neg (Ne.symm h)
  | delete q => exact if_neg (Ne.symm h)

theorem effect_congr (o : Op) (h : m k = m' k) : o.effect m k = o.effect m' k := by
  cases o with
  | get q => exact h
  | insert q v => simp only [effect, put]; split <;> [rfl; exact h]
  | delete q => simp only [effect, KMap.erase]; split <;> [rfl; exact h]

theorem reply_congr {o : Op} (h : m o.key = m' o.key) : o.reply m = o.reply m' := by
  cases o with
  | insert q v => rfl
  | _ => simp only [key] at h; simp only [reply, find, h]

theorem effects_only : ∀ (os : List Op) {m m' : KMap}, m k = m' k →
    effects m os k = effects m' (only k os) k
  | [], _, _, h => h
  | o :: os, m, m', h => by
    by_cases hk : o.key = k
    · have : only k (o :: os) = o :: only k os := List.filter_cons_of_pos (by simpa using hk)
      rw [this]
      exact effects_only os (effect_congr o h)
    · have : only k (o :: os) = only k os := List.filter_cons_of_neg (by simpa using hk)
      rw [this]
      exact effects_only os ((effect_other hk).trans h)

theorem replies_only : ∀ (os : List Op) {m m' : KMap}, m k = m' k →
    onlyReplies k os (replies m os) = (only k os).zip (replies m' (only k os))
  | [], _, _, _ => rfl
  | o :: os, m, m', h => by
    by_cases hk : o.key = k
    · have : only k (o :: os) = o :: only k os := List.filter_cons_of_pos (by simpa using hk)
      rw [this, onlyReplies, replies, List.zip_cons_cons, List.filter_cons_of_pos (by simpa using hk),
        replies, List.zip_cons_cons, (reply_congr (by rw [hk]; exact h) : o.reply m = o.reply m')]
      exact congrArg _ (replies_only os (effect_congr o h))
    · have : only k (o :: os) = only k os := List.filter_cons_of_neg (by simpa using hk)
      rw [this, onlyReplies, replies, List.zip_cons_cons, List.filter_cons_of_neg (by simpa using hk)]
      exact replies_only os ((effect_other hk).trans h)

theorem effects_reorder {os os' : List Op} (h : ∀ k, only k os = only k os') (m : KMap) :
    effects m os = effects m os' :=
  funext fun k => by rw [effects_only os rfl, h k, ← effects_only os' rfl]

theorem replies_reorder {os os' : List Op} (h : ∀ k, only k os = only k os') (m : KMap) (k : Key) :
    onlyReplies k os (replies m os) = onlyReplies k os' (replies m os') := by
  rw [replies_only os rfl, h k, ← replies_only os' rfl]

end Op

section

variable {K K' : Kind} {M M' : Mode} [M.Safe] [M'.Safe] {P P' : Profile} {kec : Bytes → H256}
  {s : Sys K.Ann K.State} {s' : Sys K'.Ann K'.State} {i i' : Nat} {t : Trie K.Ann} {t' : Trie K'.Ann}

/-- Supported calls on a handle. -/
theorem Reached.runOK : ∀ (os : List Op) {s : Sys K.Ann K.State} {m : KMap}, Reached K M P kec s →
    s.contents[i]? = some m → Op.AllOK P m os →
    ∃ s', s.run P kec (os.map (·.on i)) = .ok (s', Op.replies m os) ∧ Reached K M P kec s' ∧
      s'.contents = s.contents.set i (Op.effects m os)
  | [], s, m, h, hi, _ => ⟨s, rfl, h, by
      obtain ⟨hl, rfl⟩ := List.getElem?_eq_some_iff.1 hi
      rw [Op.effects, List.set_getElem_self]⟩
  | o :: os, s, m, h, hi, ho => by
    have hsup : Supported P s.contents (o.on i) := by
      cases o with
      | get k => exact ⟨ho.1.1, fun m' hm => by rw [hi] at hm; cases hm; exact ho.1.2⟩
      | insert k v => exact ⟨ho.1.1, fun m' hm => by rw [hi] at hm; cases hm; exact ho.1.2⟩
      | delete k => exact ⟨ho.1.1, fun m' hm => by rw [hi] at hm; cases hm; exact ho.1.2⟩
    obtain ⟨s1, r, e1, e2, e3⟩ := h.exec hsup (permitted_op o)
    have e4 : r = o.reply m ∧ s1.contents = s.contents.set i (o.effect m) := by
      have hget : s.contents = s.contents.set i m := by
        obtain ⟨hl, rfl⟩ := List.getElem?_eq_some_iff.1 hi
        rw [List.set_getElem_self]
      cases o <;> simp only [Op.on, Step, onMap, hi] at e2
      · exact ⟨e2.1, by rw [e2.2]; exact hget⟩
      · exact e2
      · exact e2
    obtain ⟨rfl, e5⟩ := e4
    have hl : i < s.contents.length := (List.getElem?_eq_some_iff.1 hi).1
    obtain ⟨s2, g1, g2, g3⟩ := Reached.runOK os e3 (m := o.effect m) (by
      rw [e5, List.getElem?_set_self hl]) ho.2
    refine ⟨s2, ?_, g2, ?_⟩
    · simp only [List.map_cons, Sys.run, e1, R_bind_ok, g1]; rfl
    · rw [g3, e5, List.set_set]; rfl

/-- C80 where the calls of both sequences are supported (keys and contents of any form, partial tries
included).  The two tries have the same contents at the start; they may be the same trie, or of different
types and in different programs.  No call panics; the tries are equal in the end and have the same hash;
and for every key, the calls with this key return the same in both sequences.  Missing: calls that are not
supported, see `C80_false`. -/
theorem C80_partial (h : Reached K M P kec s) (hi : s.hs[i]? = some t) (h' : Reached K' M' P' kec s')
    (hi' : s'.hs[i']? = some t') (hc : t.contents = t'.contents) {os os' : List Op}
    (ho : ∀ k, Op.only k os = Op.only k os') (h1 : Op.AllOK P t.contents os)
    (h2 : Op.AllOK P' t'.contents os') :
    ∃ s₁ s₁' t₁ t₁' rs rs', s.run P kec (os.map (·.on i)) = .ok (s₁, rs) ∧
      s'.run P' kec (os'.map (·.on i')) = .ok (s₁', rs') ∧
      s₁.hs[i]? = some t₁ ∧ s₁'.hs[i']? = some t₁' ∧ t₁.beq t₁' = true ∧
      (t₁.rootHash P kec s₁.state).map (·.1) = (t₁'.rootHash P' kec s₁'.state).map (·.1) ∧
      rs.length = os.length ∧ rs'.length = os'.length ∧
      ∀ k, Op.onlyReplies k os rs = Op.onlyReplies k os' rs' := by
  obtain ⟨s₁, a1, a2, a3⟩ := Reached.runOK os h (contents_get hi) h1
  obtain ⟨s₁', b1, b2, b3⟩ := Reached.runOK os' h' (contents_get hi') h2
  have hl : i < s.contents.length := (List.getElem?_eq_some_iff.1 (contents_get hi)).1
  have hl' : i' < s'.contents.length := (List.getElem?_eq_some_iff.1 (contents_get hi')).1
  obtain ⟨t₁, c1, c2⟩ := contents_some (s := s₁) (i := i) (m := Op.effects t.contents os) (by
    rw [a3, List.getElem?_set_self hl])
  obtain ⟨t₁', d1, d2⟩ := contents_some (s := s₁') (i := i') (m := Op.effects t'.contents os') (by
    rw [b3, List.getElem?_set_self hl'])
  have he := C16_histories a2 b2 c1 d1 (by rw [c2, d2, ← hc, Op.effects_reorder ho])
  have hlen : ∀ (os : List Op) (m : KMap), (Op.replies m os).length = os.length := by
    intro os
    induction os with
    | nil => exact fun _ => rfl
    | cons o os ih => exact fun m => congrArg (· + 1) (ih _)
  exact ⟨s₁, s₁', t₁, t₁', _, _, a1, b1, c1, d1, he.1, he.2, hlen _ _, hlen _ _,
    fun k => by rw [← hc]; exact Op.replies_reorder ho _ k⟩

end

theorem Spec.Lists.erase {J : Entries} {m : KMap} (hJ : Lists J m) (k : Key) :
    Lists (J.filter fun x => x.1 ≠ k) (m.erase k) := by
  refine ⟨(List.filter_sublist.map _).nodup hJ.1, fun q w => ?_⟩
  simp only [List.mem_filter, KMap.erase]
  by_cases hq : q = k
  · simp [hq]
  · simp [hq, hJ.2 q w]

/-- The same calls in two orders, with an entry `0x1` above the keys. -/
def exOps : List Op := [.insert [1, 6] [3], .delete [1, 2], .get [1, 3], .insert [1, 2] [4]]

def exOps' : List Op := [.get [1, 3], .delete [1, 2], .insert [1, 2] [4], .insert [1, 6] [3]]

theorem exOps_only (k : Key) : Op.only k exOps = Op.only k exOps' := by
  by_cases h1 : k = [1, 6]
  · subst h1; rfl
  by_cases h2 : k = [1, 2]
  · subst h2; rfl
  by_cases h3 : k = [1, 3]
  · subst h3; rfl
  simp [Op.only, exOps, exOps', Op.key, Ne.symm h1, Ne.symm h2, Ne.symm h3]

example (P P' : Profile) : ∃ s₁ s₁' t₁ t₁' rs rs',
      (caseS .standard P).run P kec0 (exOps.map (·.on 0)) = .ok (s₁, rs) ∧
      (caseS .hashed P').run P' kec0 (exOps'.map (·.on 0)) = .ok (s₁', rs') ∧
      s₁.hs[0]? = some t₁ ∧ s₁'.hs[0]? = some t₁' ∧ t₁.beq t₁' = true ∧
      (t₁.rootHash P kec0 s₁.state).map (·.1) = (t₁'.rootHash P' kec0 s₁'.state).map (·.1) ∧
      rs.length = exOps.length ∧ rs'.length = exOps'.length ∧
      ∀ k, Op.onlyReplies k exOps rs = Op.onlyReplies k exOps' rs' := by
  have h0 := caseLists₀ .standard P
  have h0' := caseLists₀ .hashed P'
  have h1 := h0.put (k := [1, 6]) (by decide) (.val [3])
  have h2 := h1.erase [1, 2]
  have h1' := h0'.erase [1, 2]
  have h2' := h1'.put (k := [1, 2]) (by decide +kernel) (.val [4])
  refine C80_partial (caseReached _ P) (caseGet _ P (by decide)) (caseReached _ P')
    (caseGet _ P' (by decide)) (h0.ext h0' (.refl _)) exOps_only
    ⟨⟨by decide, h0.insertOK_of (by decide +kernel)⟩,
      ⟨by decide, h1.deleteOK_of (by decide +kernel), h1.short_of (by decide)⟩,
      ⟨by decide, h2.getOK_of ?_⟩, ⟨by decide, h2.insertOK_of (by decide +kernel)⟩, trivial⟩
    ⟨⟨by decide, h0'.getOK_of ?_⟩,
      ⟨by decide, h0'.deleteOK_of (by decide +kernel), h0'.short_of (by decide)⟩,
      ⟨by decide, h1'.insertOK_of (by decide +kernel)⟩, ⟨by decide, h2'.insertOK_of (by decide +kernel)⟩,
      trivial⟩
  · obtain ⟨P⟩ := P; cases P <;> decide +kernel
  · obtain ⟨P'⟩ := P'; cases P' <;> decide +kernel

/-- All stored keys belong to `S`, and hashes are stored only under keys that are not in `A`. -/
structure KMap.Inside (S A : Key → Prop) (m : KMap) : Prop where
  mem : ∀ q, m q ≠ none → S q
  val : ∀ q h, m q = some (.hash h) → ¬ A q

section

variable {S A : Key → Prop} {m : KMap} {P : Profile}

theorem Op.effect_inside (h : m.Inside S A) {o : Op} (ho : S o.key) : (o.effect m).Inside S A := by
  cases o with
  | get k => exact h
  | insert k v =>
    constructor
    · intro q hq
      simp only [effect, KMap.put] at hq
      split at hq
      · next e => rw [e]; exact ho
      · exact h.mem q hq
    · intro q x hq
      simp only [effect, KMap.put] at hq
      split at hq
      · cases hq
      · exact h.val q x hq
  | delete k =>
    constructor
    · intro q hq
      simp only [effect, KMap.erase] at hq
      split at hq
      · exact absurd rfl hq
      · exact h.mem q hq
    · intro q x hq
      simp only [effect, KMap.erase] at hq
      split at hq
      · cases hq
      · exact h.val q x hq

theorem Op.allOK_inside (hS : PrefixFree S) (hA : ∀ k, A k → S k) (hl : ∀ k, S k → k.length ≤ 64) :
    ∀ (os : List Op) {m : KMap}, m.Inside S A → (∀ o ∈ os, A o.key ∧ ∀ k, o ≠ .get k) → AllOK P m os
  | [], _, _, _ => trivial
  | o :: os, m, h, ho => by
    obtain ⟨ha, hg⟩ := ho o List.mem_cons_self
    have hno : ¬ m.Below o.key := by
      rintro ⟨d, r, hb⟩
      have := congrArg List.length (hS _ _ (hA _ ha) (h.mem _ hb) (List.prefix_append _ _))
      simp at this
    have hh : m.NoHashOn o.key := fun q x hq hp =>
      h.val q x hq (hS _ _ (h.mem q (by simp [hq])) (hA _ ha) hp ▸ ha)
    refine ⟨?_, allOK_inside hS hA hl os (effect_inside h (hA _ ha)) fun o' ho' =>
      ho o' (List.mem_cons_of_mem _ ho')⟩
    have hk := hl _ (hA _ ha)
    cases o with
    | get k => exact absurd rfl (hg k)
    | insert k v =>
      simp only [key] at hno hh hk ha
      exact ⟨by omega, hh, fun q hq hp => hS _ _ (h.mem q (by simp [hq])) (hA _ ha) hp,
        fun hb => absurd hb hno, fun _ _ => .inr (.inl hno), fun _ e => by cases e⟩
    | delete k =>
      simp only [key] at hno hh hk ha
      refine ⟨by omega, ⟨hh, fun _ => .inl hno, fun _ => .inl hno, fun _ q d r e hq _ => ?_⟩,
        fun q hq => hl q (h.mem q hq)⟩
      have := congrArg List.length (hS _ _ (h.mem q hq) (hA _ ha) ⟨_, e.symm⟩)
      rw [e] at this
      simp at this

end

section

variable {K K' : Kind} {M M' : Mode} [M.Safe] [M'.Safe] {P P' : Profile} {kec : Bytes → H256}
  {s : Sys K.Ann K.State} {s' : Sys K'.Ann K'.State} {i i' : Nat} {t : Trie K.Ann} {t' : Trie K'.Ann}

/-- C80 for changes of full or partial tries where, of all keys stored and used, none is a prefix of
another (and no used key is stored as a hash): whatever the order, no call panics, and the tries are equal
in the end and have the same hash. -/
theorem C80_prefix_free (h : Reached K M P kec s) (hi : s.hs[i]? = some t) (h' : Reached K' M' P' kec s')
    (hi' : s'.hs[i']? = some t') (hc : t.contents = t'.contents) {os os' : List Op}
    (ho : ∀ k, Op.only k os = Op.only k os') (hg : ∀ o ∈ os, ∀ k, o ≠ .get k)
    {S : Key → Prop} (hS : PrefixFree S) (hl : ∀ k, S k → k.length ≤ 64)
    (hm : ∀ q, t.contents q ≠ none → S q) (hu : ∀ o ∈ os, S o.key ∧ ∀ x, t.contents o.key ≠ some (.hash x)) :
    ∃ s₁ s₁' t₁ t₁' rs rs', s.run P kec (os.map (·.on i)) = .ok (s₁, rs) ∧
      s'.run P' kec (os'.map (·.on i')) = .ok (s₁', rs') ∧
      s₁.hs[i]? = some t₁ ∧ s₁'.hs[i']? = some t₁' ∧ t₁.beq t₁' = true ∧
      (t₁.rootHash P kec s₁.state).map (·.1) = (t₁'.rootHash P' kec s₁'.state).map (·.1) ∧
      rs.length = os.length ∧ rs'.length = os'.length ∧
      ∀ k, Op.onlyReplies k os rs = Op.onlyReplies k os' rs' := by
  have hmem : ∀ o ∈ os', o ∈ os := fun o h1 => by
    have h2 : o ∈ Op.only o.key os' := List.mem_filter.2 ⟨h1, by simp⟩
    rw [← ho] at h2
    exact (List.mem_filter.1 h2).1
  have hin : t.contents.Inside S fun k => ∃ o ∈ os, o.key = k :=
    ⟨hm, fun q x hq ⟨o, h1, e⟩ => (hu o h1).2 x (e ▸ hq)⟩
  have hA : ∀ k, (∃ o ∈ os, o.key = k) → S k := by rintro _ ⟨o, h1, rfl⟩; exact (hu o h1).1
  exact C80_partial h hi h' hi' hc ho
    (Op.allOK_inside hS hA hl os hin fun o h1 => ⟨⟨o, h1, rfl⟩, hg o h1⟩)
    (Op.allOK_inside hS hA hl os' (hc ▸ hin) fun o h1 => ⟨⟨o, hmem o h1, rfl⟩, hg o (hmem o h1)⟩)

end

theorem Op.allOK_fixed {P : Profile} {n : Nat} (hn : n ≤ 64) : ∀ (os : List Op) {m : KMap}, m.FixedLen n →
    (∀ o ∈ os, o.key.length = n ∧ m.NoHashOn o.key) → AllOK P m os
  | [], _, _, _ => trivial
  | o :: os, m, h, ho => by
    obtain ⟨h1, h2⟩ := ho o List.mem_cons_self
    refine ⟨?_, allOK_fixed hn os (effect_fixedLen h h1) fun o' ho' =>
      ⟨(ho o' (List.mem_cons_of_mem _ ho')).1, effect_noHash (ho o' (List.mem_cons_of_mem _ ho')).2 o⟩⟩
    cases o with
    | get k => exact ⟨by simp only [key] at h1; omega, fixedLen_getOK P h h1⟩
    | insert k v => exact ⟨by simp only [key] at h1; omega, fixedLen_insertOK h h1 h2 v⟩
    | delete k =>
      exact ⟨by simp only [key] at h1; omega, fixedLen_deleteOK h h1 h2, fun q hq => (h.le q hq).trans hn⟩

section

variable {K K' : Kind} {M M' : Mode} [M.Safe] [M'.Safe] {P P' : Profile} {kec : Bytes → H256}
  {s : Sys K.Ann K.State} {s' : Sys K'.Ann K'.State} {i i' : Nat} {t : Trie K.Ann} {t' : Trie K'.Ann}

/-- C80 for keys of one length (such as hashed addresses) that meet no hash, in full or partial tries,
lookups included. -/
theorem C80_fixed_length (h : Reached K M P kec s) (hi : s.hs[i]? = some t) (h' : Reached K' M' P' kec s')
    (hi' : s'.hs[i']? = some t') (hc : t.contents = t'.contents) {os os' : List Op}
    (ho : ∀ k, Op.only k os = Op.only k os') {n : Nat} (hn : n ≤ 64) (hf : t.contents.FixedLen n)
    (hu : ∀ o ∈ os, o.key.length = n ∧ t.contents.NoHashOn o.key) :
    ∃ s₁ s₁' t₁ t₁' rs rs', s.run P kec (os.map (·.on i)) = .ok (s₁, rs) ∧
      s'.run P' kec (os'.map (·.on i')) = .ok (s₁', rs') ∧
      s₁.hs[i]? = some t₁ ∧ s₁'.hs[i']? = some t₁' ∧ t₁.beq t₁' = true ∧
      (t₁.rootHash P kec s₁.state).map (·.1) = (t₁'.rootHash P' kec s₁'.state).map (·.1) ∧
      rs.length = os.length ∧ rs'.length = os'.length ∧
      ∀ k, Op.onlyReplies k os rs = Op.onlyReplies k os' rs' := by
  have hmem : ∀ o ∈ os', o ∈ os := fun o h1 => by
    have h2 : o ∈ Op.only o.key os' := List.mem_filter.2 ⟨h1, by simp⟩
    rw [← ho] at h2
    exact (List.mem_filter.1 h2).1
  exact C80_partial h hi h' hi' hc ho (Op.allOK_fixed hn os hf hu)
    (Op.allOK_fixed hn os' (hc ▸ hf) fun o h1 => hc ▸ hu o (hmem o h1))

end

/-- A partial trie; below `0x2` there is a hash. -/
def exPart : List Cmd := [.fromIter [([1, 2], .val [8]), ([1, 3], .val [9]), ([2, 5], .val (List.replicate 40 1)),
  ([2, 6], .val [2])], .subset 0 [[1, 2]]]

theorem exPartLive (K : Kind) (P : Profile) : Live K .noEmptySubset P kec0 (K.after P exPart) := by
  refine Kind.after_live ?_ ?_ ?_
  · obtain ⟨P⟩ := P; cases K <;> cases P <;> decide +kernel
  · simp only [exPart, List.forall_mem_cons, Cmd.Short]
    exact ⟨by decide, by decide, nofun⟩
  · cases K <;> simp [exPart, permitted]

/-- All three entries below `0x1` are changed or new. -/
example (K : Kind) (P : Profile) : let os : List Op := [.insert [1, 4] [3], .delete [1, 2], .delete [1, 3]]
    let os' : List Op := [.delete [1, 3], .delete [1, 2], .insert [1, 4] [3]]
    ∃ s₁ s₁' t₁ t₁' rs rs', (K.after P exPart).run P kec0 (os.map (·.on 1)) = .ok (s₁, rs) ∧
      (K.after P exPart).run P kec0 (os'.map (·.on 1)) = .ok (s₁', rs') ∧
      s₁.hs[1]? = some t₁ ∧ s₁'.hs[1]? = some t₁' ∧ t₁.beq t₁' = true ∧
      (t₁.rootHash P kec0 s₁.state).map (·.1) = (t₁'.rootHash P kec0 s₁'.state).map (·.1) ∧
      rs.length = os.length ∧ rs'.length = os'.length ∧
      ∀ k, Op.onlyReplies k os rs = Op.onlyReplies k os' rs' := by
  intro os os'
  have hL := (K.trie P exPart 1).lists
  have hk : ((K.trie P exPart 1).plain.items []).map (fun x => (x.1, x.2.isVal)) =
      [([1, 2], true), ([1, 3], true), ([2], false)] := by
    obtain ⟨P⟩ := P; cases K <;> cases P <;> decide +kernel
  have hR : Reached K .noEmptySubset P kec0 (K.after P exPart) :=
    .of (exPartLive K P) (by obtain ⟨P⟩ := P; cases K <;> cases P <;> decide +kernel)
  have hg : (K.after P exPart).hs[1]? = some (K.trie P exPart 1) :=
    Kind.trie_get (by obtain ⟨P⟩ := P; cases K <;> cases P <;> decide +kernel)
  have hmem : ∀ q v, (K.trie P exPart 1).contents q = some v →
      (q, v.isVal) ∈ [([1, 2], true), ([1, 3], true), (([2] : Key), false)] := fun q v h => by
    rw [← hk]; exact List.mem_map.2 ⟨(q, v), (hL.2 q v).2 h, rfl⟩
  refine C80_prefix_free hR hg hR hg rfl (S := (· ∈ [[1, 2], [1, 3], [1, 4], [2]])) (fun k => ?_) (by simp [os])
    (fun a b ha hb => (by decide : ∀ a ∈ [[1, 2], [1, 3], [1, 4], ([2] : Key)], ∀ b ∈ [[1, 2], [1, 3], [1, 4], ([2] : Key)],
      a <+: b → a = b) a ha b hb) (by decide) (fun q hq => ?_) ?_
  · by_cases h1 : k = [1, 4]
    · subst h1; rfl
    by_cases h2 : k = [1, 2]
    · subst h2; rfl
    by_cases h3 : k = [1, 3]
    · subst h3; rfl
    simp [Op.only, os, os', Op.key, Ne.symm h1, Ne.symm h2, Ne.symm h3]
  · obtain ⟨v, hv⟩ := Option.ne_none_iff_exists'.1 hq
    have := hmem q v hv
    simp only [List.mem_cons, Prod.mk.injEq, List.not_mem_nil, or_false] at this ⊢
    tauto
  · have key : ∀ k ∈ [[1, 2], [1, 3], [1, 4]], ∀ x, (K.trie P exPart 1).contents k ≠ some (.hash x) := by
      intro k hk x hx
      have := hmem k _ hx
      simp only [ValOrHash.isVal] at this
      exact (by decide : ∀ k ∈ [[1, 2], [1, 3], ([1, 4] : Key)],
        (k, false) ∉ [([1, 2], true), ([1, 3], true), (([2] : Key), false)]) k hk this
    simp only [os, List.forall_mem_cons, Op.key]
    exact ⟨⟨by decide, key _ (by decide)⟩, ⟨by decide, key _ (by decide)⟩, ⟨by decide, key _ (by decide)⟩, nofun⟩

/-- The same partial trie has the fixed length 2, except for the hash. -/
example (K : Kind) (P : Profile) : let os : List Op := [.insert [1, 4] [3], .get [1, 5], .delete [1, 2], .get [1, 4]]
    let os' : List Op := [.delete [1, 2], .insert [1, 4] [3], .get [1, 4], .get [1, 5]]
    ∃ s₁ s₁' t₁ t₁' rs rs', (K.after P exPart).run P kec0 (os.map (·.on 1)) = .ok (s₁, rs) ∧
      (K.after P exPart).run P kec0 (os'.map (·.on 1)) = .ok (s₁', rs') ∧
      s₁.hs[1]? = some t₁ ∧ s₁'.hs[1]? = some t₁' ∧ t₁.beq t₁' = true ∧
      (t₁.rootHash P kec0 s₁.state).map (·.1) = (t₁'.rootHash P kec0 s₁'.state).map (·.1) ∧
      rs.length = os.length ∧ rs'.length = os'.length ∧
      ∀ k, Op.onlyReplies k os rs = Op.onlyReplies k os' rs' := by
  intro os os'
  have hL := (K.trie P exPart 1).lists
  have hk : ((K.trie P exPart 1).plain.items []).map (fun x => (x.1, x.2.isVal)) =
      [([1, 2], true), ([1, 3], true), ([2], false)] := by
    obtain ⟨P⟩ := P; cases K <;> cases P <;> decide +kernel
  have hR : Reached K .noEmptySubset P kec0 (K.after P exPart) :=
    .of (exPartLive K P) (by obtain ⟨P⟩ := P; cases K <;> cases P <;> decide +kernel)
  have hg : (K.after P exPart).hs[1]? = some (K.trie P exPart 1) :=
    Kind.trie_get (by obtain ⟨P⟩ := P; cases K <;> cases P <;> decide +kernel)
  have hmem : ∀ q v, (K.trie P exPart 1).contents q = some v →
      (q, v.isVal) ∈ [([1, 2], true), ([1, 3], true), (([2] : Key), false)] := fun q v h => by
    rw [← hk]; exact List.mem_map.2 ⟨(q, v), (hL.2 q v).2 h, rfl⟩
  refine C80_fixed_length hR hg hR hg rfl (fun k => ?_) (n := 2) (by decide) ⟨fun q hq => ?_, fun q x hq => ?_⟩ ?_
  · by_cases h1 : k = [1, 4]
    · subst h1; rfl
    by_cases h2 : k = [1, 2]
    · subst h2; rfl
    by_cases h3 : k = [1, 5]
    · subst h3; rfl
    simp [Op.only, os, os', Op.key, Ne.symm h1, Ne.symm h2, Ne.symm h3]
  · obtain ⟨v, hv⟩ := Option.ne_none_iff_exists'.1 hq
    exact (by decide : ∀ x ∈ [([1, 2], true), ([1, 3], true), (([2] : Key), false)], x.1.length ≤ 2) _
      (hmem q v hv)
  · exact (by decide : ∀ x ∈ [([1, 2], true), ([1, 3], true), (([2] : Key), false)], x.2 = true →
      x.1.length = 2) _ (hmem q _ hq) rfl
  · have key : ∀ k, [1] <+: k → (K.trie P exPart 1).contents.NoHashOn k := by
      intro k hk q x hq hp
      have : q = [2] := (by decide : ∀ x ∈ [([1, 2], true), ([1, 3], true), (([2] : Key), false)], x.2 = false →
        x.1 = [2]) _ (hmem q _ hq) rfl
      obtain ⟨r, rfl⟩ := hk
      rw [this] at hp
      simp at hp
    simp only [os, List.forall_mem_cons, Op.key]
    exact ⟨⟨rfl, key _ ⟨_, rfl⟩⟩, ⟨rfl, key _ ⟨_, rfl⟩⟩, ⟨rfl, key _ ⟨_, rfl⟩⟩, ⟨rfl, key _ ⟨_, rfl⟩⟩, nofun⟩

/-- The keys of the two changes are `0x12` and `0x14`.  In one order the entry `0x1` is lost. -/
theorem C80_false : ∀ (K : Kind) (P : Profile) (kec : Bytes → H256),
    K.obs P kec [.fromIter [([1], .val [7]), ([1, 2], .val [8]), ([1, 3], .val [9])], .clone 0,
      .delete 0 [1, 2], .insert 0 [1, 4] (.val [5]), .get 0 [1],
      .insert 1 [1, 4] (.val [5]), .delete 1 [1, 2], .get 1 [1], .eq 0 1] =
      .ok [.unit, .unit, .val (some [8]), .unit, .val none, .unit, .val (some [8]), .val (some [7]),
        .bool false] := by
  intro K ⟨P⟩ kec; cases K <;> cases P <;> kernel_rfl

end EthTrie
