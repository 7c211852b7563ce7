import Verif.Props.Cut
import Verif.Spec.Replay

/-!
# Property C65: work on a partial trie instead of the full one

A partial trie is sent to someone who has not got the full one, and who makes the same lookups,
insertions and deletions.  All answers are those of the full trie.  So is the root hash at the end, if no
deletion leaves a replaced sub-trie at a place where no node begins any more.
-/

namespace EthTrie

open Spec KMap LNode Nibbles

section

variable {kec : Bytes → H256} {m m' : KMap} {n : Nat} {k : Key}

/-- A key that meets no hash in the partial contents sees the full ones. -/
theorem cutOf_agree (h : CutOf kec m m') (hk : m'.NoHashOn k) : Agree m m' k := by
  intro q hq
  cases h1 : m' q with
  | some v =>
    rcases h.keep q v h1 with g | ⟨J, _, _, _, rfl⟩
    · rw [g]
    · exact absurd hq (hk q _ h1)
  | none =>
    cases h2 : m q with
    | none => rfl
    | some v =>
      rcases h.cover q v h2 with g | ⟨r, x, hr, g⟩
      · rw [g] at h1; cases h1
      · exact absurd (hr.trans hq) (hk r x g)

theorem cutOf_noHash (h : CutOf kec m m') (hk : m'.NoHashOn k) : m.NoHashOn k := by
  intro q x hm hq
  rw [← cutOf_agree h hk q hq] at hm
  exact hk q x hm hq

theorem cutOf_fixedLen (h : CutOf kec m m') (hf : m.FixedLen n) : m'.FixedLen n := by
  constructor
  · intro q hq
    obtain ⟨v, hv⟩ := Option.ne_none_iff_exists'.1 hq
    rcases h.keep q v hv with g | ⟨J, hJ, _, hl, rfl⟩
    · exact hf.le q (by rw [g]; simp)
    · cases J with
      | nil => exact absurd hl (by simp [node, rlpStr])
      | cons x J =>
        have := hf.le (q ++ x.1) (by
          have h2 := (hJ.2 x.1 x.2).1 List.mem_cons_self
          rw [KMap.sub] at h2; rw [h2]; simp)
        rw [List.length_append] at this; omega
  · intro q x hq
    rcases h.keep q _ hq with g | ⟨J, _, _, _, e⟩
    · exact hf.val q x g
    · cases e

theorem fixedLen_not_below (hf : m.FixedLen n) (hk : k.length = n) : ¬ m.Below k := by
  rintro ⟨d, r, h⟩
  have := hf.le _ h
  rw [List.length_append, List.length_cons] at this; omega

theorem fixedLen_insertOK (hf : m.FixedLen n) (hk : k.length = n) (hh : m.NoHashOn k) (v : Bytes) :
    InsertOK m k (.val v) where
  noHash := hh
  noEmpty q h1 h2 := h2.eq_of_length (by rw [hf.val q _ h1, hk])
  nonempty h := absurd h (fixedLen_not_below hf hk)
  val _ _ := .inr (.inl (fixedLen_not_below hf hk))
  hash _ e := by cases e

theorem fixedLen_deleteOK (hf : m.FixedLen n) (hk : k.length = n) (hh : m.NoHashOn k) : DeleteOK m k where
  noHash := hh
  absent _ := .inl (fixedLen_not_below hf hk)
  branch _ := .inl (fixedLen_not_below hf hk)
  parent _ q d r e hq _ := by
    exfalso
    obtain ⟨v, hv⟩ := Option.ne_none_iff_exists'.1 hq
    cases v with
    | val x =>
      have := hf.val q x hv
      rw [e, List.length_append, List.length_cons] at hk; omega
    | hash x => exact hh q x hv (by rw [e]; exact List.prefix_append _ _)

theorem fixedLen_getOK (P : Profile) (hf : m.FixedLen n) (hk : k.length = n) : GetOK P m k where
  leaf h q x h1 h2 := by
    rw [h2.eq_of_length (by rw [hf.val q _ h1, hk]), h] at h1; cases h1
  inside h := by
    rintro ⟨q, x, h1, _⟩
    have := hf.val _ x h1
    rw [List.length_append] at this
    rw [List.length_eq_zero_iff.1 (by omega : q.length = 0), List.append_nil, h] at h1; cases h1
  short _ _ q p _ _ h3 h4 h5 := by
    exfalso
    obtain ⟨d, r, h⟩ := h4
    have h6 := (h5 _ h (List.prefix_append _ _)).length_le
    have := hf.le _ h
    omega
  zeros _ _ q j x _ h2 h3 := by
    have := hf.val _ x h3
    rw [List.length_append, List.length_replicate] at this; omega

namespace Op

theorem effect_fixedLen (hf : m.FixedLen n) {o : Op} (hk : o.key.length = n) : (o.effect m).FixedLen n := by
  cases o with
  | get k => exact hf
  | insert k v =>
    constructor
    · intro q hq
      simp only [effect, KMap.put] at hq
      split at hq
      · next e => rw [e]; exact hk.le
      · exact hf.le q hq
    · intro q x hq
      simp only [effect, KMap.put] at hq
      split at hq
      · next e => rw [e]; exact hk
      · exact hf.val q x hq
  | delete k =>
    constructor
    · intro q hq
      simp only [effect, KMap.erase] at hq
      split at hq
      · exact absurd rfl hq
      · exact hf.le q hq
    · intro q x hq
      simp only [effect, KMap.erase] at hq
      split at hq
      · cases hq
      · exact hf.val q x hq

theorem effect_noHash (hh : m.NoHashOn k) (o : Op) : (o.effect m).NoHashOn k := by
  intro q x hq
  cases o with
  | get _ => exact hh q x hq
  | insert _ _ =>
    simp only [effect, KMap.put] at hq
    split at hq
    · cases hq
    · exact hh q x hq
  | delete _ =>
    simp only [effect, KMap.erase] at hq
    split at hq
    · cases hq
    · exact hh q x hq

/-- Calls change only their own entries. -/
theorem effects_other : ∀ (os : List Op) (m : KMap) (q : Key), (∀ o ∈ os, o.key ≠ q) →
    effects m os q = m q
  | [], _, _, _ => rfl
  | o :: os, m, q, h => by
    rw [effects, effects_other os _ q fun o' ho => h o' (List.mem_cons_of_mem _ ho)]
    have := h o List.mem_cons_self
    cases o <;> simp only [key] at this
    · rfl
    · simp only [effect, KMap.put]; rw [if_neg (Ne.symm this)]
    · simp only [effect, KMap.erase]; rw [if_neg (Ne.symm this)]

/-- What calls do to an entry depends on this entry only. -/
theorem effects_same : ∀ (os : List Op) (m m' : KMap) (q : Key), m' q = m q →
    effects m' os q = effects m os q
  | [], _, _, _, h => h
  | o :: os, m, m', q, h => by
    rw [effects, effects]
    refine effects_same os _ _ q ?_
    cases o <;> simp only [effect, KMap.put, KMap.erase, h]

theorem replies_same : ∀ (os : List Op) (m m' : KMap), (∀ o ∈ os, m' o.key = m o.key) →
    replies m' os = replies m os
  | [], _, _, _ => rfl
  | o :: os, m, m', h => by
    rw [replies, replies]
    congr 1
    · have := h o List.mem_cons_self
      cases o <;> simp only [key] at this <;> simp only [reply, KMap.find, this]
    · exact replies_same os _ _ fun o' ho =>
        effects_same [o] m m' o'.key (h o' (List.mem_cons_of_mem _ ho))

/-- Calls other than deletions remove nothing. -/
theorem effects_keeps : ∀ (os : List Op) (m : KMap), (∀ o ∈ os, o.Keeps) → ∀ q, m q ≠ none →
    effects m os q ≠ none
  | [], _, _, _, h => h
  | o :: os, m, hk, q, h => by
    rw [effects]
    refine effects_keeps os _ (fun o' ho => hk o' (List.mem_cons_of_mem _ ho)) q ?_
    have := hk o List.mem_cons_self
    cases o with
    | get _ => exact h
    | insert _ _ =>
      simp only [effect, KMap.put]
      split
      · simp
      · exact h
    | delete _ => exact absurd this (by simp [Keeps])

theorem effects_val : ∀ (os : List Op) (m : KMap) {k : Key} {v : Bytes}, effects m os k = some (.val v) →
    (∀ k v, m k = some (.val v) → v.length < 2 ^ 64) → (∀ k v, Op.insert k v ∈ os → v.length < 2 ^ 64) →
    v.length < 2 ^ 64
  | [], _, _, _, h, hm, _ => hm _ _ h
  | o :: os, m, k, v, h, hm, ho => by
    refine effects_val os (o.effect m) h (fun q x hq => ?_) fun k v h => ho k v (List.mem_cons_of_mem _ h)
    cases o with
    | get _ => exact hm q x hq
    | insert k w =>
      simp only [effect, KMap.put] at hq
      split at hq
      · cases hq; exact ho k x List.mem_cons_self
      · exact hm q x hq
    | delete _ =>
      simp only [effect, KMap.erase] at hq
      split at hq
      · cases hq
      · exact hm q x hq

theorem effects_hash : ∀ (os : List Op) (m : KMap) {k : Key} {x : H256}, effects m os k = some (.hash x) →
    m k = some (.hash x)
  | [], _, _, _, h => h
  | o :: os, m, k, x, h => by
    have := effects_hash os (o.effect m) h
    cases o with
    | get _ => exact this
    | insert _ _ =>
      simp only [effect, KMap.put] at this
      split at this
      · cases this
      · exact this
    | delete _ =>
      simp only [effect, KMap.erase] at this
      split at this
      · cases this
      · exact this

end Op

theorem joint_mono (h : ∀ q, m q ≠ none → m' q ≠ none) {q : Key} (hj : m.Joint q) : m'.Joint q := by
  have hF : ∀ q, m.Forks q → m'.Forks q := by
    rintro q ⟨d, e, r, s, h1, h2, h3⟩
    exact ⟨d, e, r, s, h1, h _ h2, h _ h3⟩
  rcases hj with (e | ⟨q', d, e, h1⟩) | h1 | ⟨h1, d, r, h2⟩
  · exact .inl (.inl e)
  · exact .inl (.inr ⟨q', d, e, h1.imp (h _) (hF _)⟩)
  · exact .inr (.inl (hF _ h1))
  · exact .inr (.inr ⟨h _ h1, d, r, h _ h2⟩)

/-- After the same calls on keys that meet no hash, partial contents are still partial contents if nodes
still begin where hashes are. -/
theorem cutOf_effects (h : CutOf kec m m') {os : List Op} (ho : ∀ o ∈ os, m'.NoHashOn o.key)
    (hj : ∀ q x, m' q = some (.hash x) → m q = some (.hash x) ∨ (Op.effects m os).Joint q) :
    CutOf kec (Op.effects m os) (Op.effects m' os) := by
  have hs : ∀ q, (∃ o ∈ os, o.key = q) → Op.effects m' os q = Op.effects m os q := by
    rintro q ⟨o, h1, rfl⟩
    exact Op.effects_same os m m' _ (cutOf_agree h (ho o h1) _ List.prefix_rfl)
  have hno : ∀ q, ¬ (∃ o ∈ os, o.key = q) → ∀ m : KMap, Op.effects m os q = m q := fun q hq m =>
    Op.effects_other os m q fun o h1 h2 => hq ⟨o, h1, h2⟩
  constructor
  · intro q v hv
    by_cases hq : ∃ o ∈ os, o.key = q
    · left; rw [← hs q hq]; exact hv
    · rw [hno q hq] at hv ⊢
      rcases h.keep q v hv with g | ⟨J, h1, h2, h3, rfl⟩
      · exact .inl g
      · rcases hj q _ hv with g | g
        · exact .inl g
        · refine .inr ⟨J, ?_, g, h3, rfl⟩
          have : (Op.effects m os).sub q = m.sub q := by
            funext r
            simp only [KMap.sub]
            refine hno _ ?_ _
            rintro ⟨o, h4, h5⟩
            exact ho o h4 q _ hv (by rw [h5]; exact List.prefix_append _ _)
          rw [this]; exact h1
  · intro q v hv
    by_cases hq : ∃ o ∈ os, o.key = q
    · left; rw [hs q hq]; exact hv
    · rw [hno q hq] at hv ⊢
      rcases h.cover q v hv with g | ⟨r, x, h1, h2⟩
      · exact .inl g
      · refine .inr ⟨r, x, h1, ?_⟩
        rw [hno r ?_, h2]
        rintro ⟨o, h4, rfl⟩
        exact ho o h4 _ x h2 List.prefix_rfl

end

section

variable {K : Kind} {M : Mode} [M.Safe] {P : Profile} {kec : Bytes → H256} {s : Sys K.Ann K.State}
  {i : Nat} {t : Trie K.Ann}

omit [M.Safe] in
theorem permitted_op (o : Op) : permitted K M (o.on i) := by
  cases K <;> cases M <;> cases o <;> trivial

omit [M.Safe] in
theorem contents_get (hi : s.hs[i]? = some t) : s.contents[i]? = some t.contents := by
  rw [Sys.contents, List.getElem?_map, hi]; rfl

omit [M.Safe] in
theorem contents_some {m : KMap} (hi : s.contents[i]? = some m) : ∃ t, s.hs[i]? = some t ∧ t.contents = m := by
  rw [Sys.contents, List.getElem?_map] at hi
  cases h : s.hs[i]? with
  | none => rw [h] at hi; cases hi
  | some t => rw [h] at hi; exact ⟨t, rfl, Option.some.inj hi⟩

/-- Calls on fixed-length keys that meet no hash. -/
theorem Reached.runOps {n : Nat} (hn : n ≤ 127) : ∀ (os : List Op)
    {s : Sys K.Ann K.State} {m : KMap}, Reached K M P kec s → s.contents[i]? = some m → m.FixedLen n →
    (∀ o ∈ os, o.key.length = n ∧ m.NoHashOn o.key) → (∀ o ∈ os, ¬ o.Keeps → n ≤ 64) →
    ∃ s', s.run P kec (os.map (·.on i)) = .ok (s', Op.replies m os) ∧ Reached K M P kec s' ∧
      s'.contents = s.contents.set i (Op.effects m os)
  | [], s, m, h, hi, _, _, _ => ⟨s, rfl, h, by
      obtain ⟨hl, rfl⟩ := List.getElem?_eq_some_iff.1 hi
      rw [Op.effects, List.set_getElem_self]⟩
  | o :: os, s, m, h, hi, hf, ho, hd => by
    obtain ⟨h1, h2⟩ := ho o List.mem_cons_self
    have hsup : Supported P s.contents (o.on i) := by
      cases o with
      | get k =>
        refine ⟨by simp only [Op.key] at h1; omega, fun m' hm => ?_⟩
        rw [hi] at hm; cases hm; exact fixedLen_getOK P hf h1
      | insert k v =>
        refine ⟨by simp only [Op.key] at h1; omega, fun m' hm => ?_⟩
        rw [hi] at hm; cases hm; exact fixedLen_insertOK hf h1 h2 v
      | delete k =>
        refine ⟨by simp only [Op.key] at h1; omega, fun m' hm => ?_⟩
        rw [hi] at hm; cases hm
        exact ⟨fixedLen_deleteOK hf h1 h2, fun q hq => (hf.le q hq).trans (hd _ List.mem_cons_self id)⟩
    obtain ⟨s1, r, e1, e2, e3⟩ := h.exec hsup (permitted_op o)
    have e4 : r = o.reply m ∧ s1.contents = s.contents.set i (o.effect m) := by
      have hget : s.contents = s.contents.set i m := by
        obtain ⟨hl, rfl⟩ := List.getElem?_eq_some_iff.1 hi
        rw [List.set_getElem_self]
      cases o <;> simp only [Op.on, Step, onMap, hi] at e2
      · exact ⟨e2.1, by rw [e2.2]; exact hget⟩
      · exact e2
      · exact e2
    obtain ⟨rfl, e5⟩ := e4
    have hl : i < s.contents.length := (List.getElem?_eq_some_iff.1 hi).1
    obtain ⟨s2, g1, g2, g3⟩ := Reached.runOps hn os e3 (m := o.effect m) (by
      rw [e5, List.getElem?_set_self hl]) (Op.effect_fixedLen hf h1) (fun o' ho' =>
      ⟨(ho o' (List.mem_cons_of_mem _ ho')).1, Op.effect_noHash (ho o' (List.mem_cons_of_mem _ ho')).2 o⟩)
      fun o' ho' => hd o' (List.mem_cons_of_mem _ ho')
    refine ⟨s2, ?_, g2, ?_⟩
    · simp only [List.map_cons, Sys.run, e1, R_bind_ok, g1]; rfl
    · rw [g3, e5, List.set_set]; rfl

variable {K' : Kind} {M' : Mode} [M'.Safe] {P' : Profile} {s' : Sys K'.Ann K'.State}
  {i' : Nat} {p : Trie K'.Ann}

/-- C65: whatever program made a partial trie, calls on keys that meet no hash in it return what they
return on the full trie; and if in the end nodes begin in the full trie wherever sub-tries were
replaced, the root hashes are equal. -/
theorem C65_replay (h : Reached K M P kec s) (hi : s.hs[i]? = some t) (h' : Reached K' M' P' kec s')
    (hi' : s'.hs[i']? = some p) (hc : CutOf kec t.contents p.contents) {n : Nat} (hn : n ≤ 127)
    (hf : t.contents.FixedLen n) {os : List Op}
    (ho : ∀ o ∈ os, o.key.length = n ∧ p.contents.NoHashOn o.key) (hd : ∀ o ∈ os, ¬ o.Keeps → n ≤ 64) :
    ∃ s₁ s₁' t₁ p₁, s.run P kec (os.map (·.on i)) = .ok (s₁, Op.replies t.contents os) ∧
      s'.run P' kec (os.map (·.on i')) = .ok (s₁', Op.replies t.contents os) ∧
      s₁.hs[i]? = some t₁ ∧ s₁'.hs[i']? = some p₁ ∧ t₁.contents = Op.effects t.contents os ∧
      p₁.contents = Op.effects p.contents os ∧
      ((∀ q x, p.contents q = some (.hash x) → t.contents q = some (.hash x) ∨ t₁.contents.Joint q) →
        (p₁.rootHash P' kec s₁'.state).map (·.1) = (t₁.rootHash P kec s₁.state).map (·.1)) := by
  obtain ⟨s₁, a1, a2, a3⟩ := Reached.runOps hn os h (contents_get hi) hf (fun o h1 =>
    ⟨(ho o h1).1, cutOf_noHash hc (ho o h1).2⟩) hd
  obtain ⟨s₁', b1, b2, b3⟩ := Reached.runOps hn os h' (contents_get hi') (cutOf_fixedLen hc hf) ho hd
  have hl : i < s.contents.length := (List.getElem?_eq_some_iff.1 (contents_get hi)).1
  have hl' : i' < s'.contents.length := (List.getElem?_eq_some_iff.1 (contents_get hi')).1
  obtain ⟨t₁, c1, c2⟩ := contents_some (s := s₁) (i := i) (m := Op.effects t.contents os) (by
    rw [a3, List.getElem?_set_self hl])
  obtain ⟨p₁, d1, d2⟩ := contents_some (s := s₁') (i := i') (m := Op.effects p.contents os) (by
    rw [b3, List.getElem?_set_self hl'])
  refine ⟨s₁, s₁', t₁, p₁, a1, ?_, c1, d1, c2, d2, fun hj => ?_⟩
  · rw [b1, Op.replies_same os _ _ fun o h1 => cutOf_agree hc (ho o h1).2 _ List.prefix_rfl]
  · refine C64_root a2 c1 b2 d1 ?_
    rw [c2, d2]
    exact cutOf_effects hc (fun o h1 => (ho o h1).2) fun q x hq => by rw [← c2]; exact hj q x hq

/-- C65: without deletions the root hashes are always equal. -/
theorem C65_root (h : Reached K M P kec s) (hi : s.hs[i]? = some t) (h' : Reached K' M' P' kec s')
    (hi' : s'.hs[i']? = some p) (hc : CutOf kec t.contents p.contents) {n : Nat} (hn : n ≤ 127)
    (hf : t.contents.FixedLen n) {os : List Op}
    (ho : ∀ o ∈ os, o.key.length = n ∧ p.contents.NoHashOn o.key) (hk : ∀ o ∈ os, o.Keeps) :
    ∃ s₁ s₁' t₁ p₁, s.run P kec (os.map (·.on i)) = .ok (s₁, Op.replies t.contents os) ∧
      s'.run P' kec (os.map (·.on i')) = .ok (s₁', Op.replies t.contents os) ∧
      s₁.hs[i]? = some t₁ ∧ s₁'.hs[i']? = some p₁ ∧ t₁.contents = Op.effects t.contents os ∧
      (p₁.rootHash P' kec s₁'.state).map (·.1) = (t₁.rootHash P kec s₁.state).map (·.1) := by
  obtain ⟨s₁, s₁', t₁, p₁, h1, h2, h3, h4, h5, h6, h7⟩ :=
    C65_replay h hi h' hi' hc hn hf ho fun o h1 h2 => absurd (hk o h1) h2
  refine ⟨s₁, s₁', t₁, p₁, h1, h2, h3, h4, h5, h7 fun q x hq => ?_⟩
  rcases hc.keep q _ hq with g | ⟨J, _, g, _, _⟩
  · exact .inl g
  · right; rw [h5]; exact joint_mono (Op.effects_keeps os _ hk) g

/-- C65: nothing else gives equal root hashes, unless there is a collision. -/
theorem C65_only (h : Reached K M P kec s) (hi : s.hs[i]? = some t) (h' : Reached K' M' P' kec s')
    (hi' : s'.hs[i']? = some p) (hc : CutOf kec t.contents p.contents) {n : Nat} (hn : n ≤ 127)
    (hf : t.contents.FixedLen n) {os : List Op}
    (ho : ∀ o ∈ os, o.key.length = n ∧ p.contents.NoHashOn o.key) (hd : ∀ o ∈ os, ¬ o.Keeps → n ≤ 64)
    (hv : ∀ k v, t.contents k = some (.val v) → v.length < 2 ^ 64)
    (hov : ∀ k v, Op.insert k v ∈ os → v.length < 2 ^ 64) (hh : ∀ k x, t.contents k ≠ some (.hash x))
    (hr : ∀ x, p.contents [] ≠ some (.hash x)) :
    ∃ s₁ s₁' t₁ p₁, s.run P kec (os.map (·.on i)) = .ok (s₁, Op.replies t.contents os) ∧
      s'.run P' kec (os.map (·.on i')) = .ok (s₁', Op.replies t.contents os) ∧
      s₁.hs[i]? = some t₁ ∧ s₁'.hs[i']? = some p₁ ∧ t₁.contents = Op.effects t.contents os ∧
      ((p₁.rootHash P' kec s₁'.state).map (·.1) = (t₁.rootHash P kec s₁.state).map (·.1) →
        (∀ q x, p.contents q = some (.hash x) → t₁.contents.Joint q) ∨ p₁.Collide kec t₁) := by
  obtain ⟨s₁, a1, a2, a3⟩ := Reached.runOps hn os h (contents_get hi) hf (fun o h1 =>
    ⟨(ho o h1).1, cutOf_noHash hc (ho o h1).2⟩) hd
  obtain ⟨s₁', b1, b2, b3⟩ := Reached.runOps hn os h' (contents_get hi') (cutOf_fixedLen hc hf) ho hd
  have hl : i < s.contents.length := (List.getElem?_eq_some_iff.1 (contents_get hi)).1
  have hl' : i' < s'.contents.length := (List.getElem?_eq_some_iff.1 (contents_get hi')).1
  obtain ⟨t₁, c1, c2⟩ := contents_some (s := s₁) (i := i) (m := Op.effects t.contents os) (by
    rw [a3, List.getElem?_set_self hl])
  obtain ⟨p₁, d1, d2⟩ := contents_some (s := s₁') (i := i') (m := Op.effects p.contents os) (by
    rw [b3, List.getElem?_set_self hl'])
  refine ⟨s₁, s₁', t₁, p₁, a1, ?_, c1, d1, c2, fun he => ?_⟩
  · rw [b1, Op.replies_same os _ _ fun o h1 => cutOf_agree hc (ho o h1).2 _ List.prefix_rfl]
  have hvp : ∀ k v, p.contents k = some (.val v) → v.length < 2 ^ 64 := fun k v hk => by
    rcases hc.keep k _ hk with g | ⟨_, _, _, _, e⟩
    · exact hv k v g
    · cases e
  refine (C64_only a2 c1 b2 d1 (small_of_contents _ fun k v hk => ?_) (small_of_contents _ fun k v hk => ?_)
    (noHash_of_contents fun k x hk => ?_) ?_ he).imp (fun g q x hq => ?_) id
  · rw [c2] at hk; exact Op.effects_val os _ hk hv hov
  · rw [d2] at hk; exact Op.effects_val os _ hk hvp hov
  · rw [c2] at hk; exact hh k x (Op.effects_hash os _ hk)
  · rw [d2]
    cases hx : Op.effects p.contents os [] with
    | none => exact .inl rfl
    | some v =>
      cases v with
      | val v => exact .inr ⟨v, rfl⟩
      | hash x => exact absurd (Op.effects_hash os _ hx) (hr x)
  · have hq' : p₁.contents q = some (.hash x) := by
      rw [d2, Op.effects_other os _ q, hq]
      rintro o h1 rfl
      exact (ho o h1).2 _ x hq List.prefix_rfl
    rcases g.keep q _ hq' with g | ⟨_, _, g, _, _⟩
    · rw [c2] at g; exact absurd (Op.effects_hash os _ g) (hh q x)
    · exact g

/-- C65: a subset serves all keys that it was made for. -/
theorem C65_covers (h : Reached K M P kec s) (hi : s.hs[i]? = some t) {n : Nat} (hn : n ≤ 127)
    (hf : t.contents.FixedLen n) {ks : List Key} (hk : ∀ k ∈ ks, k.length = n ∧ t.contents.NoHashOn k)
    (hp : permitted K M (.subset i ks)) :
    ∃ u st, createTrieSubset P kec t (ks.map ofList) s.state = .ok (.ok u, st) ∧
      Reached K M P kec ⟨st, s.hs ++ [u]⟩ ∧ CutOf kec t.contents u.contents ∧
      ∀ k ∈ ks, u.contents.NoHashOn k := by
  have hk' : ∀ k ∈ ks, k.length ≤ 127 := fun k h1 => by rw [(hk k h1).1]; exact hn
  have hsup : Supported P s.contents (.subset i ks) := by
    refine ⟨hk', fun hP m hm k h1 => ?_⟩
    rw [contents_get hi] at hm
    cases hm
    exact (fixedLen_getOK P hf (hk k h1).1).short hP
  obtain ⟨s1, o, e1, e2, e3⟩ := h.exec hsup hp
  simp only [Step, onMap, contents_get hi] at e2
  rcases e2 with ⟨r, ⟨ks₁, k, ks₂, rfl, _, _, q, x, rfl, h2⟩, _⟩ | ⟨_, m', ⟨_, h2⟩, rfl, e4⟩
  · exact absurd (List.prefix_append q r) ((hk (q ++ r) (by simp)).2 q x h2)
  · simp only [Sys.exec, exec_on hi] at e1
    cases he : createTrieSubset P kec t (ks.map ofList) s.state with
    | error e => rw [he] at e1; cases e1
    | ok r =>
      obtain ⟨r, st⟩ := r
      rw [he] at e1
      cases r with
      | error e => cases e1
      | ok u =>
        cases e1
        refine ⟨u, st, rfl, e3, ?_, fun k h1 q x hq hqk => ?_⟩
        · exact (C64_iff h hi e3 (last_get s.hs u)).1 (C27_view h.live hi hk' (fun _ => h.live.freshAt i) he)
        · have e5 : u.contents = m' := by
            simp only [Sys.contents, List.map_append, List.map_cons, List.map_nil] at e4
            exact List.singleton_inj.1 (List.append_cancel_left e4)
          rw [e5, h2 k h1 q hqk] at hq
          exact (hk k h1).2 q x hq hqk

/-- Keys of two nibbles. -/
def fixedProg : List Cmd := [.fromIter [([1, 2], .val [7]), ([1, 3], .val (List.replicate 40 8)),
  ([2, 2], .val (List.replicate 40 9)), ([2, 3], .val [1])]]

theorem fixedReached (K : Kind) (P : Profile) : Reached K .noEmptySubset P kec0 (K.after P fixedProg) := by
  refine .of (Kind.after_live ?_ ?_ ?_) ?_
  · obtain ⟨P⟩ := P; cases K <;> cases P <;> decide +kernel
  · simp only [fixedProg, List.forall_mem_cons, Cmd.Short]
    exact ⟨by decide, nofun⟩
  · cases K <;> simp [fixedProg, permitted]
  · obtain ⟨P⟩ := P; cases K <;> cases P <;> decide +kernel

theorem fixedGet (K : Kind) (P : Profile) : (K.after P fixedProg).hs[0]? = some (K.trie P fixedProg 0) := by
  refine Kind.trie_get ?_
  obtain ⟨P⟩ := P; cases K <;> cases P <;> decide +kernel

theorem fixedLists (K : Kind) (P : Profile) : Lists [([1, 2], .val [7]), ([1, 3], .val (List.replicate 40 8)),
    ([2, 2], .val (List.replicate 40 9)), ([2, 3], .val [1])] (K.trie P fixedProg 0).contents := by
  have e : ((K.trie P fixedProg 0).plain.items []).Perm [([1, 2], .val [7]), ([1, 3], .val (List.replicate 40 8)),
      ([2, 2], .val (List.replicate 40 9)), ([2, 3], .val [1])] := by
    obtain ⟨P⟩ := P; cases K <;> cases P <;> decide +kernel
  have h := (K.trie P fixedProg 0).lists
  exact ⟨(e.map _).nodup_iff.1 h.1, fun k v => by rw [← e.mem_iff]; exact h.2 k v⟩

theorem fixedLen (K : Kind) (P : Profile) : (K.trie P fixedProg 0).contents.FixedLen 2 := by
  have h := fixedLists K P
  constructor
  · intro q hq
    obtain ⟨x, hx, rfl⟩ := (h.some_iff q).1 hq
    exact (by decide : ∀ y ∈ ([([1, 2], .val [7]), ([1, 3], .val (List.replicate 40 8)),
      ([2, 2], .val (List.replicate 40 9)), ([2, 3], .val [1])] : List (Key × ValOrHash)), y.1.length ≤ 2) x hx
  · intro q x hx
    exact (by decide : ∀ y ∈ ([([1, 2], .val [7]), ([1, 3], .val (List.replicate 40 8)),
      ([2, 2], .val (List.replicate 40 9)), ([2, 3], .val [1])] : List (Key × ValOrHash)), y.1.length = 2) _
      ((h.2 _ _).2 hx)

theorem fixedCovers (K : Kind) (P : Profile) : ∃ u st,
    createTrieSubset P kec0 (K.trie P fixedProg 0) ([[1, 2], [4, 4]].map ofList) (K.after P fixedProg).state =
      .ok (.ok u, st) ∧ Reached K .noEmptySubset P kec0 ⟨st, (K.after P fixedProg).hs ++ [u]⟩ ∧
    CutOf kec0 (K.trie P fixedProg 0).contents u.contents ∧
    ∀ k ∈ ([[1, 2], [4, 4]] : List Key), u.contents.NoHashOn k :=
  C65_covers (fixedReached K P) (fixedGet K P) (by omega) (fixedLen K P)
    (fun k hk => ⟨(by decide : ∀ k ∈ ([[1, 2], [4, 4]] : List Key), k.length = 2) k hk, fun q h hq => by
      have := (by decide : ∀ y ∈ ([([1, 2], .val [7]), ([1, 3], .val (List.replicate 40 8)),
        ([2, 2], .val (List.replicate 40 9)), ([2, 3], .val [1])] : List (Key × ValOrHash)), y.2.isVal = true) _
        (((fixedLists K P).2 _ _).2 hq)
      cases this⟩)
    (by cases K <;> simp [permitted])

/-- Calls of the full trie and of a subset for two keys, one of which is not stored (`C65_root`). -/
example (K : Kind) (P : Profile) : ∃ u st,
    createTrieSubset P kec0 (K.trie P fixedProg 0) ([[1, 2], [4, 4]].map ofList) (K.after P fixedProg).state =
      .ok (.ok u, st) ∧
    ∃ s₁ s₁' t₁ p₁, (K.after P fixedProg).run P kec0 [.insert 0 [1, 2] (.val [5]), .get 0 [4, 4],
        .insert 0 [4, 4] (.val [6])] = .ok (s₁, Op.replies (K.trie P fixedProg 0).contents
          [.insert [1, 2] [5], .get [4, 4], .insert [4, 4] [6]]) ∧
      (⟨st, (K.after P fixedProg).hs ++ [u]⟩ : Sys K.Ann K.State).run P kec0 [.insert 1 [1, 2] (.val [5]),
        .get 1 [4, 4], .insert 1 [4, 4] (.val [6])] = .ok (s₁', Op.replies (K.trie P fixedProg 0).contents
          [.insert [1, 2] [5], .get [4, 4], .insert [4, 4] [6]]) ∧
      s₁.hs[0]? = some t₁ ∧ s₁'.hs[1]? = some p₁ ∧
      t₁.contents = Op.effects (K.trie P fixedProg 0).contents [.insert [1, 2] [5], .get [4, 4], .insert [4, 4] [6]] ∧
      (p₁.rootHash P kec0 s₁'.state).map (·.1) = (t₁.rootHash P kec0 s₁.state).map (·.1) := by
  obtain ⟨u, st, h1, h2, h3, h4⟩ := fixedCovers K P
  have hl : (K.after P fixedProg).hs.length = 1 := by obtain ⟨P⟩ := P; cases K <;> cases P <;> decide +kernel
  refine ⟨u, st, h1, C65_root (os := [.insert [1, 2] [5], .get [4, 4], .insert [4, 4] [6]]) (i := 0) (i' := 1)
    (fixedReached K P) (fixedGet K P) h2 ?_ h3 (by omega) (fixedLen K P) ?_ ?_⟩
  · simp [List.getElem?_append_right, hl]
  · intro o ho
    simp only [List.mem_cons, List.not_mem_nil, or_false] at ho
    rcases ho with rfl | rfl | rfl <;> exact ⟨rfl, h4 _ (by simp [Op.key])⟩
  · intro o ho
    simp only [List.mem_cons, List.not_mem_nil, or_false] at ho
    rcases ho with rfl | rfl | rfl <;> simp [Op.Keeps]

/-- A program that makes a subset, makes the same calls on the subset and on the original, and asks both for
their root hashes. -/
theorem Reached.subset_program (h : Reached K M P kec s) (hi : s.hs[i]? = some t) {n : Nat} (hn : n ≤ 127)
    (hf : t.contents.FixedLen n) {ks : List Key} (hk : ∀ k ∈ ks, k.length = n ∧ t.contents.NoHashOn k)
    (hp : permitted K M (.subset i ks)) {os : List Op} (ho : ∀ o ∈ os, o.key ∈ ks)
    (hd : ∀ o ∈ os, ¬ o.Keeps → n ≤ 64)
    (hj : ∀ u : KMap, CutOf kec t.contents u → (∀ k ∈ ks, u.NoHashOn k) → ∀ q x, u q = some (.hash x) →
      t.contents q = some (.hash x) ∨ (Op.effects t.contents os).Joint q) :
    ∃ s' x, s.run P kec (.subset i ks :: (os.map (·.on s.hs.length) ++ (os.map (·.on i) ++
      [.hash s.hs.length, .hash i]))) = .ok (s', .unit :: (Op.replies t.contents os ++
      (Op.replies t.contents os ++ [.root x, .root x]))) := by
  obtain ⟨u, st, h1, h2, h3, h4⟩ := C65_covers h hi hn hf hk hp
  have hil : i < s.hs.length := (List.getElem?_eq_some_iff.1 hi).1
  have hcont : Sys.contents (⟨st, s.hs ++ [u]⟩ : Sys K.Ann K.State) = s.contents ++ [u.contents] := by
    simp [Sys.contents]
  have hcl : s.contents.length = s.hs.length := by simp [Sys.contents]
  obtain ⟨s1, a1, a2, a3⟩ := Reached.runOps (i := s.hs.length) hn os h2 (m := u.contents) (by
    rw [hcont, ← hcl]; simp) (cutOf_fixedLen h3 hf) (fun o h5 =>
      ⟨(hk _ (ho o h5)).1, h4 _ (ho o h5)⟩) hd
  rw [hcont, ← hcl, List.set_append_right _ _ (Nat.le_refl _), Nat.sub_self, List.set_cons_zero] at a3
  obtain ⟨s2, b1, b2, b3⟩ := Reached.runOps (i := i) hn os a2 (m := t.contents) (by
    rw [a3, List.getElem?_append_left (by omega), contents_get hi]) hf (fun o h5 =>
      ⟨(hk _ (ho o h5)).1, (hk _ (ho o h5)).2⟩) hd
  rw [a3, List.set_append_left _ _ (by omega)] at b3
  obtain ⟨s3, rs, c1, c2, -⟩ := Reached.run [.hash s.hs.length, .hash i] b2 (by
    exact ⟨trivial, fun _ _ _ => ⟨trivial, fun _ _ _ => trivial⟩⟩) (fun c hc => by
      rcases List.mem_pair.1 hc with rfl | rfl <;> cases K <;> cases M <;> trivial)
  have g1 : s2.contents[s.hs.length]? = some (Op.effects u.contents os) := by
    rw [b3, ← hcl, List.getElem?_append_right (by simp)]; simp
  have g2 : s2.contents[i]? = some (Op.effects t.contents os) := by
    rw [b3, List.getElem?_append_left (by simp; omega), List.getElem?_set_self (by omega)]
  have hcut : CutOf kec (Op.effects t.contents os) (Op.effects u.contents os) := by
    exact cutOf_effects h3 (fun o h5 => h4 _ (ho o h5)) (hj _ h3 h4)
  cases c2 with
  | cons c2 c3 =>
    simp only [Step, onMap, g1] at c2
    obtain ⟨⟨J, hJ, rfl⟩, e⟩ := c2
    rw [e] at c3
    cases c3 with
    | cons c3 c4 =>
      simp only [Step, onMap, g2] at c3
      obtain ⟨⟨J', hJ', rfl⟩, -⟩ := c3
      cases c4
      obtain ⟨t₁, k1, k2⟩ := contents_some g2
      obtain ⟨p₁, k3, k4⟩ := contents_some g1
      rw [← k2] at hJ' hcut
      rw [← k4] at hJ hcut
      have ct := (b2.canon (List.mem_of_getElem? k1)).1
      have cp := (b2.canon (List.mem_of_getElem? k3)).1
      have e := ((view_iff_cutOf (kec := kec) cp ct).2 hcut).rootHash
      rw [rootHash_spec kec ct hJ', rootHash_spec kec cp hJ] at e
      refine ⟨s3, trieRoot kec J', ?_⟩
      have hex : s.exec P kec (.subset i ks) = .ok (⟨st, s.hs ++ [u]⟩, .unit) := by
        simp only [Sys.exec, exec_on hi, h1, R_bind_ok, R_pure]
      rw [Op.replies_same os t.contents u.contents fun o h5 =>
        cutOf_agree h3 (h4 _ (ho o h5)) _ List.prefix_rfl] at a1
      have big : Sys.run P kec (⟨st, s.hs ++ [u]⟩ : Sys K.Ann K.State) (os.map (·.on s.hs.length) ++
          (os.map (·.on i) ++ [.hash s.hs.length, .hash i])) = .ok (s3, Op.replies t.contents os ++
          (Op.replies t.contents os ++ [.root (trieRoot kec J'), .root (trieRoot kec J')])) := by
        rw [Sys.run_append, a1, R_bind_ok, Sys.run_append, b1, R_bind_ok, c1, e]; rfl
      rw [Sys.run, hex, R_bind_ok]
      exact (congrArg (· >>= fun r => pure (r.1, Obs.unit :: r.2)) big :)

/-- C65 for a program that makes a subset, makes the same calls (no deletions) on the subset and on the
original, and asks both for their root hashes. -/
theorem C65_program (h : Reached K M P kec s) (hi : s.hs[i]? = some t) {n : Nat} (hn : n ≤ 127)
    (hf : t.contents.FixedLen n) {ks : List Key} (hk : ∀ k ∈ ks, k.length = n ∧ t.contents.NoHashOn k)
    (hp : permitted K M (.subset i ks)) {os : List Op} (ho : ∀ o ∈ os, o.key ∈ ks ∧ o.Keeps) :
    ∃ s' x, s.run P kec (.subset i ks :: (os.map (·.on s.hs.length) ++ (os.map (·.on i) ++
      [.hash s.hs.length, .hash i]))) = .ok (s', .unit :: (Op.replies t.contents os ++
      (Op.replies t.contents os ++ [.root x, .root x]))) := by
  refine h.subset_program hi hn hf hk hp (fun o h5 => (ho o h5).1) (fun o h5 h6 => absurd (ho o h5).2 h6)
    fun u h3 _ q x hq => ?_
  rcases h3.keep q _ hq with g | ⟨J, _, g, _, _⟩
  · exact .inl g
  · exact .inr (joint_mono (Op.effects_keeps os _ fun o h5 => (ho o h5).2) g)

end

/-! ### Examples: an entry of `C64_build`'s example that is not needed, replaced by its hash -/

section

variable (K : Kind) (P : Profile) (kec : Bytes → H256) (v w : Bytes)

theorem two_fixedLen : (KMap.empty.putAll [([0], .val v), ([1], .val w)]).FixedLen 1 := by
  constructor
  · intro q hq
    simp only [putAll, KMap.put, KMap.empty] at hq
    split at hq
    · next e => rw [e]; simp
    · split at hq
      · next e => rw [e]; simp
      · exact absurd rfl hq
  · intro q x hq
    simp only [putAll, KMap.put, KMap.empty] at hq
    split at hq
    · next e => rw [e]; simp
    · split at hq
      · next e => rw [e]; simp
      · cases hq

theorem two_noHash (x : H256) (d : Fin 16) (hd : d ≠ 0) :
    (KMap.empty.putAll [([0], .hash x), ([1], .val w)]).NoHashOn [d] := by
  intro q y hq hp
  simp only [putAll, KMap.put, KMap.empty] at hq
  split at hq
  · cases hq
  · split at hq
    · next e =>
      subst e
      exact hd (List.cons_prefix_cons.1 hp).1.symm
    · cases hq

/-- Lookups and insertions of `0x1` and `0x2`. -/
example (hv : 32 ≤ (node kec [([], .val v)]).length) : ∃ (s s₁ s₁' : Sys K.Ann K.State) (i j : Nat)
    (t₁ p₁ : Trie K.Ann), Reached K .noEmptySubset P kec s ∧
    s.contents[i]? = some (KMap.empty.putAll [([0], .val v), ([1], .val w)]) ∧
    s.contents[j]? = some (KMap.empty.putAll [([0], .hash (trieRoot kec [([], .val v)])), ([1], .val w)]) ∧
    s.run P kec [.get i [1], .insert i [1] (.val [5]), .insert i [2] (.val [6]), .get i [2]] =
      .ok (s₁, [.val (some w), .unit, .unit, .val (some [6])]) ∧
    s.run P kec [.get j [1], .insert j [1] (.val [5]), .insert j [2] (.val [6]), .get j [2]] =
      .ok (s₁', [.val (some w), .unit, .unit, .val (some [6])]) ∧
    s₁.hs[i]? = some t₁ ∧ s₁'.hs[j]? = some p₁ ∧ t₁.contents ≠ p₁.contents ∧
    (p₁.rootHash P kec s₁'.state).map (·.1) = (t₁.rootHash P kec s₁.state).map (·.1) := by
  obtain ⟨-, s, h3, i, t, j, p, hi, hj, ht, hp⟩ := build_two K P kec
    (xs := [([0], .val v), ([1], .val w)])
    (ys := [([0], .hash (trieRoot kec [([], .val v)])), ([1], .val w)])
    (lists_putAll _ (by simp)) (lists_putAll _ (by simp)) (by simp) (by simp) (by simp) (by simp)
  have hc := cutOf_two kec v w hv
  rw [← ht, ← hp] at hc
  obtain ⟨s₁, s₁', t₁, p₁, h1, h2, h4, h5, h6, h6', h7⟩ := C65_replay h3 hi h3 hj hc (n := 1) (by omega)
    (by rw [ht]; exact two_fixedLen v w)
    (os := [.get [1], .insert [1] [5], .insert [2] [6], .get [2]]) (by
      rw [hp]
      intro o ho
      simp only [List.mem_cons, List.not_mem_nil, or_false] at ho
      rcases ho with rfl | rfl | rfl | rfl
      · exact ⟨rfl, two_noHash w _ 1 (by decide)⟩
      · exact ⟨rfl, two_noHash w _ 1 (by decide)⟩
      · exact ⟨rfl, two_noHash w _ 2 (by decide)⟩
      · exact ⟨rfl, two_noHash w _ 2 (by decide)⟩) (fun _ _ _ => by decide)
  rw [ht] at h1 h2 h6
  rw [hp] at h6'
  refine ⟨s, s₁, s₁', i, j, t₁, p₁, h3, ht ▸ contents_get hi, hp ▸ contents_get hj, h1, h2, h4, h5, fun e => ?_, h7 fun q x hq => ?_⟩
  · rw [h6, h6'] at e
    have := congrFun e [0]
    simp [Op.effects, Op.effect, putAll, KMap.put] at this
  · rcases hc.keep q _ hq with g | ⟨J, _, g, _, _⟩
    · exact .inl g
    · right
      rw [h6, ← ht]
      rw [ht] at g ⊢
      exact joint_mono (Op.effects_keeps [.get [1], .insert [1] [5], .insert [2] [6], .get [2]] _ (by
        intro o ho
        simp only [List.mem_cons, List.not_mem_nil, or_false] at ho
        rcases ho with rfl | rfl | rfl | rfl <;> trivial)) g

/-- A subset for `0x1` and `0x2`. -/
example (P : Profile) : ∃ (s s' : Sys (Kind.hashed).Ann (Kind.hashed).State) (x : H256),
    s.contents = [KMap.empty.putAll [([0], .val v), ([1], .val w)]] ∧
    s.run P kec [.subset 0 [[1], [2]], .get 1 [1], .insert 1 [2] (.val [6]), .get 0 [1],
      .insert 0 [2] (.val [6]), .hash 1, .hash 0] =
    .ok (s', [.unit, .val (some w), .unit, .val (some w), .unit, .root x, .root x]) := by
  obtain ⟨s, h2, e2⟩ : ∃ s : Sys (Kind.hashed).Ann (Kind.hashed).State,
      Reached .hashed .noEmptySubset P kec s ∧
      s.contents = [KMap.empty.putAll [([0], .val v), ([1], .val w)]] := by
    obtain ⟨s, os, h1, h2, h3⟩ := Reached.run (M := .noEmptySubset) (K := .hashed)
      [.fromIter [([0], .val v), ([1], .val w)]] (.start (P := P) (kec := kec))
      ⟨putsOK_free _ _ (by simp) (by simp) fun _ _ _ h => absurd rfl h, fun _ _ _ => trivial⟩
      (by simp [permitted])
    cases h2 with
    | cons h4 h5 => cases h5; exact ⟨s, h3, h4.2⟩
  obtain ⟨t, hi, ht⟩ := contents_some (K := .hashed) (s := s) (i := 0) (by rw [e2]; rfl)
  have hl : s.hs.length = 1 := by
    have := congrArg List.length e2
    simpa [Sys.contents] using this
  have hno : ∀ k, t.contents.NoHashOn k := by
    intro k q x hq
    rw [ht] at hq
    simp only [putAll, KMap.put, KMap.empty] at hq
    split at hq
    · cases hq
    · split at hq <;> cases hq
  obtain ⟨s', x, h⟩ := C65_program h2 hi (n := 1) (by omega) (by rw [ht]; exact two_fixedLen v w)
    (ks := [[1], [2]]) (fun k hk => ⟨by simp at hk; rcases hk with rfl | rfl <;> rfl, hno k⟩) (by simp [permitted])
    (os := [.get [1], .insert [2] [6]]) (by simp [Op.key, Op.Keeps])
  rw [hl, ht] at h
  exact ⟨s, s', x, e2, h⟩

/-- C65: deletions do not always give the same root hash: no node begins at `0x0` any more when `0x1` is
gone. -/
theorem C65_strand (hv : 32 ≤ (node kec [([], .val v)]).length) (hv' : v.length < 2 ^ 64)
    (hw : w.length < 2 ^ 64) : ∃ (s s₁ s₁' : Sys K.Ann K.State) (i j : Nat) (t₁ p₁ : Trie K.Ann),
    Reached K .noEmptySubset P kec s ∧
    s.contents[i]? = some (KMap.empty.putAll [([0], .val v), ([1], .val w)]) ∧
    s.contents[j]? = some (KMap.empty.putAll [([0], .hash (trieRoot kec [([], .val v)])), ([1], .val w)]) ∧
    s.run P kec [.delete i [1]] = .ok (s₁, [.val (some w)]) ∧
    s.run P kec [.delete j [1]] = .ok (s₁', [.val (some w)]) ∧
    s₁.hs[i]? = some t₁ ∧ s₁'.hs[j]? = some p₁ ∧
    ((p₁.rootHash P kec s₁'.state).map (·.1) = (t₁.rootHash P kec s₁.state).map (·.1) →
      p₁.Collide kec t₁) := by
  obtain ⟨-, s, h3, i, t, j, p, hi, hj, ht, hp⟩ := build_two K P kec
    (xs := [([0], .val v), ([1], .val w)])
    (ys := [([0], .hash (trieRoot kec [([], .val v)])), ([1], .val w)])
    (lists_putAll _ (by simp)) (lists_putAll _ (by simp)) (by simp) (by simp) (by simp) (by simp)
  have hc := cutOf_two kec v w hv
  rw [← ht, ← hp] at hc
  have hval : ∀ k x, t.contents k = some x → (k = [1] ∧ x = .val w) ∨ (k = [0] ∧ x = .val v) := by
    intro k x hk
    rw [ht] at hk
    simp only [putAll, KMap.put, KMap.empty] at hk
    split at hk
    · next e => cases hk; exact .inl ⟨e, rfl⟩
    · split at hk
      · next e => cases hk; exact .inr ⟨e, rfl⟩
      · cases hk
  obtain ⟨s₁, s₁', t₁, p₁, h1, h2, h4, h5, h6, h7⟩ := C65_only h3 hi h3 hj hc (n := 1) (by omega)
    (by rw [ht]; exact two_fixedLen v w) (os := [.delete [1]]) (by
      rw [hp]
      intro o ho
      simp only [List.mem_cons, List.not_mem_nil, or_false] at ho
      rcases ho with rfl
      exact ⟨rfl, two_noHash w _ 1 (by decide)⟩) (fun _ _ _ => by decide)
    (fun k x hk => by rcases hval k _ hk with ⟨_, e⟩ | ⟨_, e⟩ <;> cases e <;> assumption)
    (fun k x hk => by simp at hk)
    (fun k x hk => by rcases hval k _ hk with ⟨_, e⟩ | ⟨_, e⟩ <;> cases e)
    (fun x hk => by rw [hp] at hk; simp [putAll, KMap.put, KMap.empty] at hk)
  rw [ht] at h1 h2 h6
  refine ⟨s, s₁, s₁', i, j, t₁, p₁, h3, ht ▸ contents_get hi, hp ▸ contents_get hj, h1, h2, h4, h5, fun e => (h7 e).resolve_left fun hj => ?_⟩
  have hone : ∀ k, t₁.contents k ≠ none → k = [0] := by
    intro k hk
    rw [h6] at hk
    simp only [Op.effects, Op.effect, KMap.erase, putAll, KMap.put, KMap.empty] at hk
    split at hk
    · exact absurd rfl hk
    · split at hk
      · assumption
      · exact absurd rfl hk
  rcases hj [0] (trieRoot kec [([], .val v)]) (by rw [hp]; simp [putAll, KMap.put]) with
    (e | ⟨q, d, e, g⟩) | ⟨d, e, r, r', g1, g2, g3⟩ | ⟨g1, d, r, g2⟩
  · cases e
  · obtain ⟨rfl, rfl⟩ : q = [] ∧ d = 0 := by
      have := List.append_inj' (s₁ := []) (t₁ := [0]) (e : [] ++ [0] = q ++ [d]) rfl
      simpa [eq_comm] using this
    rcases g with g | ⟨d, e, r, r', g1, g2, g3⟩
    · cases hone _ g
    · have e1 := hone _ g2
      have e2 := hone _ g3
      simp only [List.nil_append, List.cons.injEq] at e1 e2
      exact g1 (e1.1.trans e2.1.symm)
  · simpa using hone _ g2
  · simpa using hone _ g2

end

end EthTrie
