import Verif.Props.Replay
import Verif.Spec.Witness

/-!
# Property C73: a subset serves the calls whose keys it was made for, deletions included

A subset is made for the keys of some lookups, insertions and deletions.  The same calls on the subset and
on the original have the same answers.  The root hashes afterwards are the same if where a deletion leaves
one branch of a fork, this branch was known as well; and otherwise they are not.
-/

namespace EthTrie

open Spec KMap LNode Nibbles

namespace LNode

theorem View.node_at {kec : Bytes → H256} {p t x : LNode} {q : Key} (h : View kec p t) (hx : At p q x) :
    x.IsHash ∨ ∃ y, At t q y ∧ View kec x y := by
  induction hx generalizing t with
  | here l => exact .inr ⟨t, .here _, h⟩
  | branch cs v d q u _ ih =>
    cases h with
    | branch ps cs w h =>
      exact (ih (h d)).imp id fun ⟨y, h1, h2⟩ => ⟨y, .branch _ _ _ _ _ h1, h2⟩
  | ext n c q u _ ih =>
    cases h with
    | ext n p c h => exact (ih h).imp id fun ⟨y, h1, h2⟩ => ⟨y, .ext _ _ _ _ h1, h2⟩

/-- The encodings of a node and of what it was made from are equally short. -/
theorem View.short {kec : Bytes → H256} {x y : LNode} (h : View kec x y) (hc : y.Canon) (hh : ¬ x.IsHash)
    {J J' : Entries} (hJ : Lists J (absL x)) (hJ' : Lists J' (absL y)) (hl : (node kec J).length < 32) :
    (node kec J').length < 32 := by
  have e := h.enc
  have hy : ¬ y.IsHash := by
    intro hy
    cases h with
    | away => exact hh trivial
    | _ => exact hy
  rw [enc_rlp hh, enc_rlp hy, rlp_node (h.canon hc) hJ hh, rlp_node hc hJ' hy] at e
  by_contra hl'
  rw [hashIfLarge, hashIfLarge, decide_eq_false (by omega), decide_eq_true (by omega)] at e
  cases e

end LNode

section

variable {K : Kind} {M : Mode} [M.Safe] {P : Profile} {kec : Bytes → H256} {s : Sys K.Ann K.State}
  {i : Nat} {t : Trie K.Ann}

/-- C73 with the condition on forks.  Missing: the other case, see `C73_false` and `C73_needed`. -/
theorem C73_partial (h : Reached K M P kec s) (hi : s.hs[i]? = some t) {n : Nat} (hn : n ≤ 127)
    (hf : t.contents.FixedLen n) {ks : List Key} (hk : ∀ k ∈ ks, k.length = n ∧ t.contents.NoHashOn k)
    (hp : permitted K M (.subset i ks)) {os : List Op} (ho : ∀ o ∈ os, o.key ∈ ks)
    (hd : ∀ o ∈ os, ¬ o.Keeps → n ≤ 64) (hw : Witness kec ks t.contents (Op.effects t.contents os)) :
    ∃ s' x, s.run P kec (.subset i ks :: (os.map (·.on s.hs.length) ++ (os.map (·.on i) ++
      [.hash s.hs.length, .hash i]))) = .ok (s', .unit :: (Op.replies t.contents os ++
      (Op.replies t.contents os ++ [.root x, .root x]))) := by
  refine h.subset_program hi hn hf hk hp ho hd fun u h3 h4 q x hq => ?_
  rcases h3.keep q _ hq with g | ⟨J, hJ, g, hl, _⟩
  · exact .inl g
  right
  have same : ∀ r, Op.effects t.contents os (q ++ r) = t.contents (q ++ r) := fun r =>
    Op.effects_other os _ _ fun o h5 e => h4 _ (ho o h5) q x hq ⟨r, e.symm⟩
  have below : ∀ r e, t.contents (q ++ e :: r) ≠ none → Op.effects t.contents os (q ++ e :: r) ≠ none :=
    fun r e h5 => by rwa [same]
  have forks : t.contents.Forks q → (Op.effects t.contents os).Forks q := by
    rintro ⟨d, e, r, r', h5, h6, h7⟩
    exact ⟨d, e, r, r', h5, below _ _ h6, below _ _ h7⟩
  obtain ⟨y, hy⟩ : ∃ y, t.contents (q ++ y) ≠ none := by
    cases J with
    | nil => exact absurd hl (by simp [node, rlpStr])
    | cons y J =>
      have h2 := (hJ.2 y.1 y.2).1 List.mem_cons_self
      exact ⟨y.1, by rw [KMap.sub] at h2; rw [h2]; simp⟩
  rcases g with (rfl | ⟨p, d, rfl, g | g⟩) | g | ⟨g1, e, r, g2⟩
  · exact .inl (.inl rfl)
  · refine .inl (.inr ⟨p, d, rfl, .inl ?_⟩)
    rw [Op.effects_other os]
    · exact g
    rintro o h5 rfl
    obtain ⟨v, hv⟩ := Option.ne_none_iff_exists'.1 g
    have := hf.le _ hy
    have := (hk _ (ho o h5)).1
    simp only [List.length_append, List.length_cons] at *
    omega
  · by_cases g' : (Op.effects t.contents os).Forks p
    · exact .inl (.inr ⟨p, d, rfl, .inr g'⟩)
    · rcases hw p d g g' ⟨y, by
        have := same y
        rw [List.append_assoc] at this
        rw [← List.singleton_append, this]
        simpa using hy⟩ with h5 | ⟨k, h5, h6⟩ | h5
      · exact .inr (.inl (forks h5))
      · exact absurd h6 (h4 k h5 _ x hq)
      · exact absurd (h5 J hJ) (by omega)
  · exact .inr (.inl (forks g))
  · have := same []
    simp only [List.append_nil] at this
    exact .inr (.inr ⟨by rwa [this], e, r, below _ _ g2⟩)

/-- C73: the condition is needed, in tries without hashes, unless there is a collision. -/
theorem C73_needed (h : Reached K M P kec s) (hi : s.hs[i]? = some t) {n : Nat} (hn : n ≤ 127)
    (hf : t.contents.FixedLen n) {ks : List Key} (hk : ∀ k ∈ ks, k.length = n)
    (hp : permitted K M (.subset i ks)) {os : List Op} (ho : ∀ o ∈ os, o.key ∈ ks)
    (hd : ∀ o ∈ os, ¬ o.Keeps → n ≤ 64) (hv : ∀ k v, t.contents k = some (.val v) → v.length < 2 ^ 64)
    (hov : ∀ k v, Op.insert k v ∈ os → v.length < 2 ^ 64) (hh : ∀ k x, t.contents k ≠ some (.hash x)) :
    ∃ s' x y m', s.run P kec (.subset i ks :: (os.map (·.on s.hs.length) ++ (os.map (·.on i) ++
      [.hash s.hs.length, .hash i]))) = .ok (s', .unit :: (Op.replies t.contents os ++
      (Op.replies t.contents os ++ [.root x, .root y]))) ∧ s'.contents[s.hs.length]? = some m' ∧
      (x = y → Witness kec ks t.contents (Op.effects t.contents os) ∨
        Collide kec m' (Op.effects t.contents os)) := by
  have hno : ∀ k, t.contents.NoHashOn k := fun k q x hq => absurd hq (hh q x)
  obtain ⟨u, st, h1, h2, h3, h4⟩ := C65_covers h hi hn hf (fun k h5 => ⟨hk k h5, hno k⟩) hp
  have hil : i < s.hs.length := (List.getElem?_eq_some_iff.1 hi).1
  have hcont : Sys.contents (⟨st, s.hs ++ [u]⟩ : Sys K.Ann K.State) = s.contents ++ [u.contents] := by
    simp [Sys.contents]
  have hcl : s.contents.length = s.hs.length := by simp [Sys.contents]
  obtain ⟨s1, a1, a2, a3⟩ := Reached.runOps (i := s.hs.length) hn os h2 (m := u.contents) (by
    rw [hcont, ← hcl]; simp) (cutOf_fixedLen h3 hf) (fun o h5 =>
      ⟨hk _ (ho o h5), h4 _ (ho o h5)⟩) hd
  rw [hcont, ← hcl, List.set_append_right _ _ (Nat.le_refl _), Nat.sub_self, List.set_cons_zero] at a3
  obtain ⟨s2, b1, b2, b3⟩ := Reached.runOps (i := i) hn os a2 (m := t.contents) (by
    rw [a3, List.getElem?_append_left (by omega), contents_get hi]) hf (fun o h5 =>
      ⟨hk _ (ho o h5), hno _⟩) hd
  rw [a3, List.set_append_left _ _ (by omega)] at b3
  obtain ⟨s3, rs, c1, c2, c0⟩ := Reached.run [.hash s.hs.length, .hash i] b2 (by
    exact ⟨trivial, fun _ _ _ => ⟨trivial, fun _ _ _ => trivial⟩⟩) (fun c hc => by
      rcases List.mem_pair.1 hc with rfl | rfl <;> cases K <;> cases M <;> trivial)
  have g1 : s2.contents[s.hs.length]? = some (Op.effects u.contents os) := by
    rw [b3, ← hcl, List.getElem?_append_right (by simp)]; simp
  have g2 : s2.contents[i]? = some (Op.effects t.contents os) := by
    rw [b3, List.getElem?_append_left (by simp; omega), List.getElem?_set_self (by omega)]
  cases c2 with
  | cons c2 c3 =>
    simp only [Step, onMap, g1] at c2
    obtain ⟨⟨J, hJ, rfl⟩, e⟩ := c2
    rw [e] at c3
    cases c3 with
    | cons c3 c4 =>
      simp only [Step, onMap, g2] at c3
      obtain ⟨⟨J', hJ', rfl⟩, e'⟩ := c3
      cases c4
      obtain ⟨t₁, k1, k2⟩ := contents_some g2
      obtain ⟨p₁, k3, k4⟩ := contents_some g1
      refine ⟨s3, trieRoot kec J, trieRoot kec J', Op.effects u.contents os, ?_, by rw [e', g1], fun he => ?_⟩
      · have hex : s.exec P kec (.subset i ks) = .ok (⟨st, s.hs ++ [u]⟩, .unit) := by
          simp only [Sys.exec, exec_on hi, h1, R_bind_ok, R_pure]
        rw [Op.replies_same os t.contents u.contents fun o h5 =>
          cutOf_agree h3 (h4 _ (ho o h5)) _ List.prefix_rfl] at a1
        have big : Sys.run P kec (⟨st, s.hs ++ [u]⟩ : Sys K.Ann K.State) (os.map (·.on s.hs.length) ++
            (os.map (·.on i) ++ [.hash s.hs.length, .hash i])) = .ok (s3, Op.replies t.contents os ++
            (Op.replies t.contents os ++ [.root (trieRoot kec J), .root (trieRoot kec J')])) := by
          rw [Sys.run_append, a1, R_bind_ok, Sys.run_append, b1, R_bind_ok, c1]; rfl
        rw [Sys.run, hex, R_bind_ok]
        exact (congrArg (· >>= fun r => pure (r.1, Obs.unit :: r.2)) big :)
      have ct := (b2.canon (List.mem_of_getElem? k1)).1
      have cp := (b2.canon (List.mem_of_getElem? k3)).1
      rw [or_iff_not_imp_left]
      intro hw
      have hup : ∀ k v, u.contents k = some (.val v) → v.length < 2 ^ 64 := fun k v hk => by
        rcases h3.keep k _ hk with g | ⟨_, _, _, _, e⟩
        · exact hv k v g
        · cases e
      unfold Witness at hw
      push_neg at hw
      obtain ⟨q, d, w1, w2, ⟨r, w3⟩, w4, w5, J₀, w6, w7⟩ := hw
      -- some key leads to the fork
      obtain ⟨k₀, hk₀, hq₀⟩ : ∃ k ∈ ks, q <+: k := by
        by_contra hne
        push_neg at hne
        have hs : ∀ r, Op.effects t.contents os (q ++ r) = t.contents (q ++ r) := fun r =>
          Op.effects_other os _ _ fun o h5 e => hne _ (ho o h5) ⟨r, e.symm⟩
        obtain ⟨d, e, r, r', h5, h6, h7⟩ := w1
        exact w2 ⟨d, e, r, r', h5, by rwa [hs], by rwa [hs]⟩
      have hr : ∀ x, u.contents [] ≠ some (.hash x) := fun x hx => h4 k₀ hk₀ [] x hx (List.nil_prefix)
      refine (C64_only b2 k1 b2 k3 (small_of_contents _ fun k v hk => ?_)
        (small_of_contents _ fun k v hk => ?_) (noHash_of_contents fun k x hk => ?_) ?_ ?_).elim
        (fun hc => ?_) fun hc => ?_
      · rw [k2] at hk; exact Op.effects_val os _ hk hv hov
      · rw [k4] at hk; exact Op.effects_val os _ hk hup hov
      · rw [k2] at hk; exact hh k x (Op.effects_hash os _ hk)
      · rw [k4]
        cases hx : Op.effects u.contents os [] with
        | none => exact .inl rfl
        | some v =>
          cases v with
          | val v => exact .inr ⟨v, rfl⟩
          | hash x => exact absurd (Op.effects_hash os _ hx) (hr x)
      · rw [C21_root b2 k3 (k4.symm ▸ hJ), C21_root b2 k1 (k2.symm ▸ hJ'), he]
      · exfalso
        rw [k2, k4] at hc
        have hsame : ∀ r, Op.effects t.contents os (q ++ [d] ++ r) = t.contents (q ++ [d] ++ r) := fun r =>
          Op.effects_other os _ _ fun o h5 e => w5 _ (ho o h5) ⟨r, e.symm⟩
        have hcons : ∀ r, q ++ d :: r = q ++ [d] ++ r := fun r => by simp
        rw [hcons] at w3
        have hqn : (q ++ [d]).length ≤ n := by
          rw [hsame] at w3
          have := hf.le _ w3
          simp only [List.length_append] at this ⊢
          omega
        -- entries that remain visible in the subset
        have hvis : ∀ e r, t.contents (q ++ e :: r) ≠ none → ∃ r', u.contents (q ++ e :: r') ≠ none := by
          intro e r he
          obtain ⟨v, hv⟩ := Option.ne_none_iff_exists'.1 he
          rcases h3.cover _ v hv with g | ⟨q', x, ⟨z, hz⟩, g⟩
          · exact ⟨r, by rw [g]; simp⟩
          · rcases List.append_eq_append_iff.1 hz with ⟨a, ha, _⟩ | ⟨a, ha, hb⟩
            · have hp : q' <+: q := ⟨a, ha.symm⟩
              exact absurd (hp.trans hq₀) (h4 k₀ hk₀ q' x g)
            · cases a with
              | nil =>
                rw [List.append_nil] at ha
                exact absurd (ha ▸ hq₀) (h4 k₀ hk₀ q' x g)
              | cons e' a =>
                rw [List.cons_append, List.cons.injEq] at hb
                rw [← hb.1] at ha
                exact ⟨a, by rw [← ha, g]; simp⟩
        have hfu : u.contents.Forks q := by
          obtain ⟨d, e, r, r', h5, h6, h7⟩ := w1
          obtain ⟨z, hz⟩ := hvis _ _ h6
          obtain ⟨z', hz'⟩ := hvis _ _ h7
          exact ⟨d, e, z, z', h5, hz, hz'⟩
        have hcu := (h2.canon (List.mem_of_getElem? (last_get s.hs u))).1
        have hct := (h.canon (List.mem_of_getElem? hi)).1
        obtain ⟨z, hz⟩ := hvis d r (by rw [hcons, ← hsame]; exact w3)
        obtain ⟨l, hl⟩ := exists_at u.plain (q ++ [d]) hcu (.inl (.inr ⟨q, d, rfl, .inr hfu⟩))
          ⟨z, by rw [← hcons]; exact hz⟩
        obtain ⟨x, hx, rfl⟩ := nodeAt_of_at hl
        have hk' : ∀ k ∈ ks, k.length ≤ 127 := fun k h5 => by rw [hk k h5]; exact hn
        have hhash : ∃ y, u.contents (q ++ [d]) = some (.hash y) := by
          rcases C29_minimal h hi hk' h1 hx with ⟨k, h5, h6 | ⟨_, q₁, j, h6, h7, h8⟩⟩ | ⟨a, y, rfl⟩ | h5
          · exact absurd h6 (w5 k h5)
          · rw [hk k h5] at h8
            rw [h6, List.length_append, List.length_replicate] at hqn
            omega
          · have := congrFun (at_sub hl) []
            rw [KMap.sub, List.append_nil] at this
            exact ⟨y, this.symm⟩
          · by_cases hxh : x.plain.IsHash
            · cases x with
              | hash a y =>
                have := congrFun (at_sub hl) []
                rw [KMap.sub, List.append_nil] at this
                exact ⟨y, this.symm⟩
              | _ => exact hxh.elim
            · have hview := (view_iff_cutOf (kec := kec) hcu hct).2 h3
              obtain h6 | ⟨y, h6, h7⟩ := hview.node_at hl
              · exact absurd h6 hxh
              · refine absurd (h7.short (h6.canon hct) hxh (items_lists _) (J' := J₀) ?_ (h5 _ (items_lists _)))
                  (by omega)
                rw [at_sub h6]
                exact w6
        obtain ⟨y, hy⟩ := hhash
        have hy' : Op.effects u.contents os (q ++ [d]) = some (.hash y) := by
          rw [Op.effects_other os _ _ fun o h5 e => w5 _ (ho o h5) (e ▸ List.prefix_rfl), hy]
        have hval : ∀ k, Op.effects t.contents os k ≠ none → k.length = n := by
          intro k h5
          by_cases h6 : ∃ o ∈ os, o.key = k
          · obtain ⟨o, h6, rfl⟩ := h6
            exact hk _ (ho o h6)
          · rw [Op.effects_other os _ _ fun o h7 e => h6 ⟨o, h7, e⟩] at h5
            obtain ⟨v, h7⟩ := Option.ne_none_iff_exists'.1 h5
            cases v with
            | val v => exact hf.val k v h7
            | hash x => exact absurd h7 (hh k x)
        have hlen := hval _ w3
        rcases hc.keep _ _ hy' with g | ⟨_, _, (g | ⟨q', d', g, g' | g'⟩) | ⟨a, b, r₁, r₂, g, g', g''⟩ | ⟨g, a, b, g'⟩, _, _⟩
        · exact hh _ _ (Op.effects_hash os _ g)
        · simp at g
        · obtain ⟨rfl, -⟩ := List.append_inj' g rfl
          have := hval _ g'
          simp only [List.length_append, List.length_cons, List.length_nil] at hlen
          omega
        · obtain ⟨rfl, -⟩ := List.append_inj' g rfl
          exact w2 g'
        · rw [hsame] at g' g''
          exact w4 ⟨a, b, r₁, r₂, g, g', g''⟩
        · have := hval _ g
          have := hval _ g'
          simp only [List.length_append, List.length_cons, List.length_nil] at *
          omega
      · rw [← k2, ← k4]
        exact hc.contents cp ct

end

section

variable (kec : Bytes → H256) (v w : Bytes)

/-- A subset for `0x0` and `0x1`; when `0x1` is gone, no entries fork any more. -/
example (P : Profile) : ∃ (s s' : Sys (Kind.hashed).Ann (Kind.hashed).State) (x : H256),
    s.contents = [KMap.empty.putAll [([0], .val v), ([1], .val w)]] ∧
    s.run P kec [.subset 0 [[0], [1]], .delete 1 [1], .get 1 [0], .delete 0 [1], .get 0 [0], .hash 1,
      .hash 0] =
    .ok (s', [.unit, .val (some w), .val (some v), .val (some w), .val (some v), .root x, .root x]) := by
  obtain ⟨s, h2, e2⟩ : ∃ s : Sys (Kind.hashed).Ann (Kind.hashed).State,
      Reached .hashed .noEmptySubset P kec s ∧
      s.contents = [KMap.empty.putAll [([0], .val v), ([1], .val w)]] := by
    obtain ⟨s, os, h1, h2, h3⟩ := Reached.run (M := .noEmptySubset) (K := .hashed)
      [.fromIter [([0], .val v), ([1], .val w)]] (.start (P := P) (kec := kec))
      ⟨putsOK_free _ _ (by simp) (by simp) fun _ _ _ h => absurd rfl h, fun _ _ _ => trivial⟩
      (by simp [permitted])
    cases h2 with
    | cons h4 h5 => cases h5; exact ⟨s, h3, h4.2⟩
  obtain ⟨t, hi, ht⟩ := contents_some (K := .hashed) (s := s) (i := 0) (by rw [e2]; rfl)
  have hl : s.hs.length = 1 := by
    have := congrArg List.length e2
    simpa [Sys.contents] using this
  have hno : ∀ k, t.contents.NoHashOn k := by
    intro k q x hq
    rw [ht] at hq
    simp only [putAll, KMap.put, KMap.empty] at hq
    split at hq
    · cases hq
    · split at hq <;> cases hq
  obtain ⟨s', x, h⟩ := C73_partial h2 hi (n := 1) (by omega) (by rw [ht]; exact two_fixedLen v w)
    (ks := [[0], [1]]) (fun k hk => ⟨by simp at hk; rcases hk with rfl | rfl <;> rfl, hno k⟩) (by simp [permitted])
    (os := [.delete [1], .get [0]]) (by simp [Op.key]) (by simp) (fun q d _ _ ⟨r, hr⟩ => .inr (.inl (by
      rw [ht] at hr
      simp only [Op.effects, Op.effect, KMap.erase, putAll, KMap.put, KMap.empty] at hr
      split at hr
      · exact absurd rfl hr
      · split at hr
        · next e => exact ⟨[0], by simp, r, by rw [← e]; simp⟩
        · exact absurd rfl hr)))
  rw [hl, ht] at h
  exact ⟨s, s', x, e2, h⟩

end

/-- C73 fails, with any hash function: the keys that are looked up, inserted or deleted are not enough. -/
theorem C73_false : ∀ (K : Kind) (P : Profile) (kec : Bytes → H256), ∃ a b : Bytes, a ≠ b ∧
    K.obs P kec [.fromIter [([0], .val (List.replicate 40 7)), ([1], .val [8])], .subset 0 [[1]],
      .delete 1 [1], .delete 0 [1], .hash 1, .hash 0] =
    .ok [.unit, .unit, .val (some [8]), .val (some [8]), .root (kec a), .root (kec b)] := by
  intro K ⟨P⟩
  refine spelled fun f => ⟨226 :: 16 :: 160 :: (spell (f (234 :: 32 :: 168 :: List.replicate 40 7))).toList,
    234 :: 48 :: 168 :: List.replicate 40 7, ?_, ?_⟩
  · exact fun h => absurd (List.head_eq_of_cons_eq h) (by decide)
  · cases K <;> cases P <;> kernel_rfl

end EthTrie
