import Verif.Props.Commit
import Verif.Props.PanicKinds
import Verif.Props.Replay
import Verif.Subset.Nest

/-!
# C84: following a chain of blocks with root hashes only

Somebody who keeps nothing but a root hash is sent, for every block, a partial trie (from anywhere), checks its
root hash, reads values from it, inserts into it what the block inserts, and keeps the new root hash.
-/

namespace EthTrie

open Nibbles Spec LNode

namespace LNode

/-- The values are shorter than `2 ^ 64` bytes. -/
def SmallVals : LNode → Prop
  | .branch cs v => v.length < 2 ^ 64 ∧ ∀ i, SmallVals (cs i)
  | .ext _ c => SmallVals c
  | .leaf _ v => v.length < 2 ^ 64
  | _ => True

theorem smallVals_mkExt {n : Key} {c : LNode} (h : c.SmallVals) : (mkExt n c).SmallVals := by
  cases n <;> exact h

theorem smallVals_upd {cs : Fin 16 → LNode} {c : LNode} (d : Fin 16) (h : ∀ i, (cs i).SmallVals)
    (hc : c.SmallVals) : ∀ i, (upd cs d c i).SmallVals := by
  intro i
  by_cases e : i = d
  · subst e; simpa using hc
  · simpa only [upd_other _ _ e] using h i

theorem insert_smallVals {x : Bytes} (hx : x.length < 2 ^ 64) : ∀ {l : LNode} {k : Key} {r : LNode},
    l.SmallVals → l.insert k (.val x) = .ok r → r.SmallVals := by
  have h0 : ([] : Bytes).length < 2 ^ 64 := by simp
  intro l
  induction l with
  | empty => intro k r _ h; cases h; exact hx
  | hash x => intro k r _ h; cases h
  | branch cs w ih =>
    intro k r hl h
    cases k with
    | nil => cases h; exact ⟨hx, hl.2⟩
    | cons d k =>
      simp only [insert, R_bind_eq_ok] at h
      obtain ⟨c, hc, h⟩ := h
      cases h
      exact ⟨hl.1, smallVals_upd d hl.2 (ih d (hl.2 d) hc)⟩
  | ext n c ih =>
    intro k r hl h
    simp only [insert] at h
    split at h
    · simp only [R_bind_eq_ok] at h
      obtain ⟨c', hc, h⟩ := h
      cases h
      exact ih (k := k.drop n.length) (r := c') hl hc
    · split at h
      · cases h
        exact smallVals_mkExt ⟨h0, smallVals_upd _ (smallVals_upd _ (fun _ => trivial) (smallVals_mkExt hl)) hx⟩
      · cases h
  | leaf n w =>
    intro k r hl h
    simp only [insert] at h
    split at h
    · cases h; exact hx
    · split at h
      · cases h; exact smallVals_mkExt ⟨hl, smallVals_upd _ (fun _ => trivial) hx⟩
      · cases h; exact smallVals_mkExt ⟨hx, smallVals_upd _ (fun _ => trivial) hl⟩
      · cases h
        exact smallVals_mkExt ⟨h0, smallVals_upd _ (smallVals_upd _ (fun _ => trivial) hl) hx⟩
      · cases h

end LNode

theorem smallVals_plain {α : Type} {t : Trie α} : t.plain.SmallVals ↔ t.SmallValues := by
  induction t with
  | empty a => exact Iff.rfl
  | hash a h => exact Iff.rfl
  | branch a cs v ih => exact and_congr Iff.rfl (forall_congr' ih)
  | ext a n c ih => exact ih
  | leaf a n v => exact Iff.rfl

theorem noHashes_at {l u : LNode} {q : Key} (h : At l q u) (hl : l.NoHashes) : ¬ u.IsHash := by
  induction h with
  | here l => cases l <;> first | exact fun h => h | exact fun _ => hl
  | branch cs v d q u h ih => exact ih (hl d)
  | ext n c q u h ih => exact ih hl

theorem noHashes_of {l : LNode} (h : ∀ q u, At l q u → ¬ u.IsHash) : l.NoHashes := by
  induction l with
  | hash x => exact h [] _ (.here _) trivial
  | branch cs v ih => exact fun i => ih i fun q u hu => h _ _ (.branch _ _ _ _ _ hu)
  | ext n c ih => exact ih fun q u hu => h _ _ (.ext _ _ _ _ hu)
  | empty => trivial
  | leaf n v => trivial

theorem noHashes_plain {α : Type} {t : Trie α} : t.plain.NoHashes ↔ t.NoHash :=
  ⟨fun h q u hu hh => noHashes_at hu.at h ((isHash_plain u).2 hh), fun h => noHashes_of (noHash_plain h)⟩

/-- What is received and done for a block: a partial trie (handle `i` of a state of any program, of either
type), the values read from it and the values inserted. -/
structure Block where
  K : Kind
  M : Mode
  s : Sys K.Ann K.State
  i : Nat
  p : Trie K.Ann
  reads : List (Key × Bytes)
  writes : List (Key × Bytes)

/-- The insertions of a block, into trie `i`. -/
def Block.inserts (b : Block) (i : Nat) : List Cmd := b.writes.map fun x => .insert i x.1 (.val x.2)

/-- The block is accepted after the root hash `h` and gives the root hash `h'`. -/
structure Block.Accepted (P : Profile) (kec : Bytes → H256) (b : Block) (h h' : H256) : Prop where
  safe : b.M.Safe
  live : Live b.K b.M P kec b.s
  get : b.s.hs[b.i]? = some b.p
  /-- the trie that is received is not just a hash, and has the root hash that was kept -/
  node : ¬ b.p.IsHash
  root : (b.p.rootHash P kec b.s.state).map (·.1) = .ok h
  small : b.p.SmallValues
  keys : ∀ x ∈ b.reads ++ b.writes, x.1.length ≤ 127 ∧ x.2.length < 2 ^ 64
  /-- the values are read -/
  read : ∀ x ∈ b.reads, b.p.get P (ofList x.1) = .ok (some x.2)
  /-- the insertions return, and the new root hash is kept -/
  write : ∃ s' os p', b.s.run P kec (b.inserts b.i) = .ok (s', os) ∧ s'.hs[b.i]? = some p' ∧
    (p'.rootHash P kec s'.state).map (·.1) = .ok h'

/-- All blocks are accepted, the first after `h`, and the last gives `h'`. -/
def Accepted (P : Profile) (kec : Bytes → H256) (h : H256) : List Block → H256 → Prop
  | [], h' => h = h'
  | b :: bs, h' => ∃ x, b.Accepted P kec h x ∧ Accepted P kec x bs h'

/-- With the full trie: all values that are read are right, all insertions return, and the root hash at the
end is `h'`; up to the first block whose partial trie has a collision with the full trie. -/
def Right {K : Kind} (P : Profile) (kec : Bytes → H256) (i : Nat) (s : Sys K.Ann K.State) (h' : H256) :
    List Block → Prop
  | [] => ∃ t, s.hs[i]? = some t ∧ (t.rootHash P kec s.state).map (·.1) = .ok h'
  | b :: bs => ∃ t, s.hs[i]? = some t ∧
      (((∀ x ∈ b.reads, t.get P (ofList x.1) = .ok (some x.2)) ∧
        ∃ s' os, s.run P kec (b.inserts i) = .ok (s', os) ∧ Right P kec i s' h' bs) ∨ b.p.Collide kec t)

section

variable {K : Kind} {M : Mode} [M.Safe] {P : Profile} {kec : Bytes → H256} {i : Nat}

theorem inserts_full (xs : List (Key × Bytes)) : ∀ {s : Sys K.Ann K.State} {t : Trie K.Ann},
    Live K M P kec s → s.hs[i]? = some t → t.NoHash → t.SmallValues →
    (∀ x ∈ xs, x.1.length ≤ 127 ∧ x.2.length < 2 ^ 64) →
    ∀ {r : Sys K.Ann K.State} {os : List Obs},
    s.run P kec (xs.map fun x => .insert i x.1 (.val x.2)) = .ok (r, os) →
    ∃ u, Live K M P kec r ∧ r.hs[i]? = some u ∧ u.NoHash ∧ u.SmallValues := by
  induction xs with
  | nil =>
    intro s t h hi hn hv _ r os hr
    cases hr
    exact ⟨t, h, hi, hn, hv⟩
  | cons x xs ih =>
    intro s t h hi hn hv hx r os hr
    simp only [List.map_cons, Sys.run, R_bind_eq_ok] at hr
    obtain ⟨⟨s₁, o⟩, h1, ⟨s₂, os₂⟩, h2, h3⟩ := hr
    cases h3
    have h1' := h1
    simp only [Sys.exec, exec_on hi, R_bind_eq_ok] at h1
    obtain ⟨⟨p, st⟩, h1, h4⟩ := h1
    cases h4
    have hxk := hx x (by simp)
    have g1 := h.insert hi hxk.1 (.val x.2)
    rw [h1] at g1
    exact ih (.step h (c := .insert i x.1 (.val x.2)) hxk.1 (by cases K <;> cases M <;> trivial) h1')
      (Sys.set_get hi p) (noHashes_plain.1 (insert_noHashes (noHashes_plain.2 hn) g1.symm))
      (smallVals_plain.1 (insert_smallVals hxk.2 (smallVals_plain.2 hv) g1.symm))
      (fun y hy => hx y (by simp [hy])) h2

/-- C84: whoever sends the partial tries, if the blocks are accepted after the root hash of a full trie, then
every value that was read is the value of the full trie at that time, and the last root hash is that of the
full trie after all insertions; or a partial trie that was sent has a collision with the full trie at that
time. -/
theorem C84_chain {bs : List Block} {s : Sys K.Ann K.State} {t : Trie K.Ann} {h' : H256} {x : H256}
    (h : Live K M P kec s) (hi : s.hs[i]? = some t) (hn : t.NoHash) (hv : t.SmallValues)
    (hx : (t.rootHash P kec s.state).map (·.1) = .ok x) (ha : Accepted P kec x bs h') :
    Right P kec i s h' bs := by
  induction bs generalizing s t x with
  | nil => cases ha; exact ⟨t, hi, hx⟩
  | cons b bs ih =>
    obtain ⟨y, hb, ha⟩ := ha
    have := hb.safe
    refine ⟨t, hi, ?_⟩
    rcases C47_view hb.live hb.get h hi hb.small hv hb.node hn (hb.root.trans hx.symm) with hw | hc
    · left
      obtain ⟨s', os, p', h1, h2, h3⟩ := hb.write
      have e : ∀ j, b.inserts j = EthTrie.inserts j (b.writes.map fun x => (x.1, .val x.2)) := by
        intro j; simp [Block.inserts, EthTrie.inserts]
      rw [e] at h1
      obtain ⟨r, os₁, t₁, p₁, g1, g2, g3, _, g5⟩ := C33_history (b.writes.map fun x => (x.1, .val x.2)) h hi
        hb.live hb.get hw (by
          intro z hz
          obtain ⟨w, hw, rfl⟩ := List.mem_map.1 hz
          exact (hb.keys w (List.mem_append_right _ hw)).1) h1
      rw [h2] at g3
      cases g3
      rw [← e] at g1
      obtain ⟨u, l1, l2, l3, l4⟩ := inserts_full b.writes h hi hn hv
        (fun x hx => hb.keys x (List.mem_append_right _ hx)) g1
      rw [g2] at l2
      cases l2
      refine ⟨fun z hz => ?_, r, os₁, g1, ih l1 g2 l3 l4 (g5.symm.trans h3) ha⟩
      have hk := (hb.keys z (List.mem_append_left _ hz)).1
      have hg := hb.read z hz
      rw [hb.live.get hb.get hk] at hg
      rw [h.get hi hk]
      exact View.get_some ((viewOf_iff (hb.live.plain (List.mem_of_getElem? hb.get))
        (h.plain (List.mem_of_getElem? hi))).1 hw) hg
    · exact .inr hc

end

/-! ## Honest senders -/

theorem View.smallVals {kec : Bytes → H256} {p t : LNode} (h : View kec p t) (ht : t.SmallVals) :
    p.SmallVals := by
  induction h with
  | away l x he => trivial
  | empty => trivial
  | branch ps cs v h ih => exact ⟨ht.1, fun i => ih i (ht.2 i)⟩
  | ext n p c h ih => exact ih ht
  | leaf n v => exact ht

/-- Blocks for the contents `m`, on keys of `n` nibbles: what is read is there (after the blocks before). -/
def Honest (n : Nat) : KMap → List (List (Key × Bytes) × List (Key × Bytes)) → Prop
  | _, [] => True
  | m, (rs, ws) :: bl => rs ++ ws ≠ [] ∧ (∀ x ∈ rs ++ ws, x.1.length = n ∧ x.2.length < 2 ^ 64) ∧
      (∀ x ∈ rs, m x.1 = some (.val x.2)) ∧ Honest n (Op.effects m (ws.map fun x => .insert x.1 x.2)) bl

section

variable {K : Kind} {M : Mode} [M.Safe] {P : Profile} {kec : Bytes → H256} {i : Nat}

theorem noHash_contents {α : Type} {t : Trie α} (h : t.NoHash) (k : Key) (x : H256) :
    t.contents k ≠ some (.hash x) := fun e => noHash_plain h _ _ (at_hash.2 e) trivial

theorem effects_fixedLen {n : Nat} : ∀ (os : List Op) {m : KMap}, m.FixedLen n → (∀ o ∈ os, o.key.length = n) →
    (Op.effects m os).FixedLen n
  | [], _, h, _ => h
  | o :: os, _, h, ho => effects_fixedLen os (Op.effect_fixedLen h (ho o List.mem_cons_self)) fun o' h' =>
      ho o' (List.mem_cons_of_mem _ h')

/-- C84, honest senders: for keys of one length, if for every block the subset for the keys that it reads and
writes is sent, then all blocks are accepted. -/
theorem C84_honest {n : Nat} (hn : n ≤ 127) : ∀ (bl : List (List (Key × Bytes) × List (Key × Bytes)))
    {s : Sys K.Ann K.State} {t : Trie K.Ann} {x : H256}, Reached K M P kec s → s.hs[i]? = some t → t.NoHash →
    t.SmallValues → t.contents.FixedLen n → (t.rootHash P kec s.state).map (·.1) = .ok x →
    Honest n t.contents bl →
    ∃ bs h', bs.map (fun b => (b.reads, b.writes)) = bl ∧ Accepted P kec x bs h'
  | [], s, t, x, _, _, _, _, _, _, _ => ⟨[], x, rfl, rfl⟩
  | (rs, ws) :: bl, s, t, x, h, hi, hh, hv, hf, hx, ho => by
    obtain ⟨h0, h1, h2, h3⟩ := ho
    have hks : ∀ k ∈ (rs ++ ws).map (·.1), k.length = n ∧ t.contents.NoHashOn k := by
      intro k hk
      obtain ⟨y, hy, rfl⟩ := List.mem_map.1 hk
      exact ⟨(h1 y hy).1, fun q z hq => absurd hq (noHash_contents hh q z)⟩
    have hks' : ∀ k ∈ (rs ++ ws).map (·.1), k.length ≤ 127 := fun k hk => by rw [(hks k hk).1]; exact hn
    have key : ∀ y ∈ rs ++ ws, y.1 ∈ (rs ++ ws).map (·.1) := fun y hy => List.mem_map.2 ⟨y, hy, rfl⟩
    have hne : (rs ++ ws).map (·.1) ≠ [] := fun e => h0 (List.map_eq_nil_iff.1 e)
    obtain ⟨u, st, c1, c2, c3, c4⟩ := C65_covers h hi hn hf hks (by
      cases K <;> cases M <;> simp only [permitted] <;> exact hne)
    have hw := C27_view h.live hi hks' (fun e => absurd e hne) c1
    have hil : i < s.hs.length := (List.getElem?_eq_some_iff.1 hi).1
    have hi1 : (s.hs ++ [u])[i]? = some t := by rw [List.getElem?_append_left hil, hi]
    have hu : (s.hs ++ [u])[s.hs.length]? = some u := last_get s.hs u
    have e1 := C26_live h.live hi c2.live hu hw
    have e2 := C26_live c2.live hi1 c2.live hu hw
    have hvw := (viewOf_iff (c2.live.plain (List.mem_of_getElem? hu))
      (h.live.plain (List.mem_of_getElem? hi))).1 hw
    -- the full trie
    obtain ⟨s₂, d1, d2, d3⟩ := Reached.runOps (i := i) hn (ws.map fun x => Op.insert x.1 x.2) c2
      (contents_get hi1) hf (fun o h4 => by
        obtain ⟨y, hy, rfl⟩ := List.mem_map.1 h4
        exact hks _ (key y (List.mem_append_right _ hy))) (fun o h4 h5 => by
        obtain ⟨y, hy, rfl⟩ := List.mem_map.1 h4
        exact absurd trivial h5)
    obtain ⟨s₃, b1, b2, b3⟩ := Reached.runOps (i := s.hs.length) hn (ws.map fun x => Op.insert x.1 x.2) c2
      (contents_get hu) (cutOf_fixedLen c3 hf) (fun o h4 => by
        obtain ⟨y, hy, rfl⟩ := List.mem_map.1 h4
        have hy' := key y (List.mem_append_right rs hy)
        exact ⟨(hks _ hy').1, c4 _ hy'⟩) (fun o h4 h5 => by
        obtain ⟨y, hy, rfl⟩ := List.mem_map.1 h4
        exact absurd trivial h5)
    have ops : ∀ j, (ws.map fun x => Op.insert x.1 x.2).map (·.on j) =
        inserts j (ws.map fun x => (x.1, .val x.2)) := fun j => by simp [inserts, Op.on]
    rw [ops] at d1 b1
    obtain ⟨r, os, t₁, p₁, g1, g2, g3, _, g5⟩ := C33_history (ws.map fun x => (x.1, .val x.2)) c2.live hi1
      c2.live hu hw (by
        intro z hz
        obtain ⟨w, hw, rfl⟩ := List.mem_map.1 hz
        exact hks' _ (key w (List.mem_append_right _ hw))) b1
    rw [d1] at g1
    cases g1
    have ins : ∀ j, inserts j (ws.map fun x => (x.1, .val x.2)) =
        ws.map fun x => .insert j x.1 (.val x.2) := fun j => by simp [inserts]
    obtain ⟨v, _, l2, l3, l4⟩ := inserts_full ws c2.live hi1 hh hv
      (fun y hy => ⟨hks' _ (key y (List.mem_append_right _ hy)),
        (h1 y (List.mem_append_right _ hy)).2⟩) (by rw [← ins]; exact d1)
    rw [g2] at l2
    cases l2
    have ct : t₁.contents = Op.effects t.contents (ws.map fun x => Op.insert x.1 x.2) := by
      have := contents_get g2
      rw [d3, List.getElem?_set_self (by simp [Sys.contents]; omega)] at this
      exact (Option.some.inj this).symm
    obtain ⟨bs, h', f1, f2⟩ := C84_honest hn bl d2 g2 l3 l4 (by
      rw [ct]
      exact effects_fixedLen _ hf fun o h4 => by
        obtain ⟨y, hy, rfl⟩ := List.mem_map.1 h4
        exact (h1 y (List.mem_append_right _ hy)).1) (d2.live.hash g2) (by rw [ct]; exact h3)
    refine ⟨⟨K, M, ⟨st, s.hs ++ [u]⟩, s.hs.length, u, rs, ws⟩ :: bs, h', by simp [f1],
      t₁.plain.rootHash kec, ?_, f2⟩
    exact {
      safe := ‹M.Safe›
      live := c2.live
      get := hu
      node := fun hhu => by
        obtain ⟨k, hk⟩ := List.exists_mem_of_ne_nil _ hne
        cases hux : u with
        | hash a z =>
          refine c4 k hk [] z ?_ List.nil_prefix
          rw [hux]; exact at_hash.1 (.here _)
        | _ => rw [hux] at hhu; cases hhu
      root := e1.trans hx
      small := smallVals_plain.1 (View.smallVals hvw (smallVals_plain.2 hv))
      keys := fun y hy => ⟨hks' _ (key y hy), (h1 y hy).2⟩
      read := fun y hy => by
        have hy' := key y (List.mem_append_left ws hy)
        rw [C28_subset h.live hi hks' c1 _ hy', h.get hi (hks' _ hy') (fixedLen_getOK P hf (hks _ hy').1),
          KMap.find, h2 y hy]
      write := ⟨s₃, _, p₁, by rw [← b1]; exact congrArg _ (ins _).symm, g3, g5.trans (d2.live.hash g2)⟩ }

end

/-- Two blocks for a trie with keys of two nibbles. -/
example (K : Kind) (P : Profile) {x : H256}
    (hx : ((K.trie P fixedProg 0).rootHash P kec0 (K.after P fixedProg).state).map (·.1) = .ok x) :
    ∃ bs h', bs.map (fun b => (b.reads, b.writes)) =
      [([([1, 2], [7])], [([1, 2], [8]), ([3, 3], [9])]), ([([1, 2], [8]), ([3, 3], [9])], [([2, 3], [2])])] ∧
      Accepted P kec0 x bs h' := by
  have hn : (K.trie P fixedProg 0).hashless = true := by
    obtain ⟨P⟩ := P; cases K <;> cases P <;> decide +kernel
  have hl := fixedLists K P
  have hm : (K.trie P fixedProg 0).contents [1, 2] = some (.val [7]) := (hl.2 _ _).1 (by simp)
  refine C84_honest (n := 2) (by decide) _ (fixedReached K P) (fixedGet K P) (Trie.noHash_of hn) ?_
    (fixedLen K P) hx ?_
  · obtain ⟨P⟩ := P; cases K <;> cases P <;> decide +kernel
  · refine ⟨by simp, by simp, by simpa using hm, by simp, by simp, ?_, trivial⟩
    simp [Op.effects, Op.effect, KMap.put]

/-! ## A case -/

/-- The new root hash, computed. -/
def Block.newRoot (P : Profile) (kec : Bytes → H256) (b : Block) : Option H256 :=
  match b.s.run P kec (b.inserts b.i) with
  | .error _ => none
  | .ok (s', _) =>
    match s'.hs[b.i]? with
    | none => none
    | some p' =>
      match p'.rootHash P kec s'.state with
      | .error _ => none
      | .ok (h, _) => some h

theorem Block.write_of {P : Profile} {kec : Bytes → H256} {b : Block} {h' : H256}
    (h : b.newRoot P kec = some h') : ∃ s' os p', b.s.run P kec (b.inserts b.i) = .ok (s', os) ∧
    s'.hs[b.i]? = some p' ∧ (p'.rootHash P kec s'.state).map (·.1) = .ok h' := by
  unfold newRoot at h
  split at h
  · cases h
  · rename_i s' os h1
    split at h
    · cases h
    · rename_i p' h2
      split at h
      · cases h
      · rename_i x st h3
        cases h
        exact ⟨s', os, p', h1, h2, by rw [h3]; rfl⟩

def chainXs : List (Key × ValOrHash) :=
  [([1, 1], .val (List.replicate 40 1)), ([1, 2], .val (List.replicate 40 2)),
    ([2, 1], .val (List.replicate 40 3)), ([3], .val [7])]

/-- The first block comes with a subset. -/
def chainProg₁ : List Cmd := [.fromIter chainXs, .subset 0 [[1, 1]]]

/-- The second comes with a subset of the trie after the first. -/
def chainProg₂ : List Cmd := [.fromIter chainXs, .insert 0 [1, 1] (.val [9]), .insert 0 [4] (.val [5]),
  .subset 0 [[2, 1], [1, 1]]]

def chainBlock₁ (K : Kind) (P : Profile) : Block :=
  ⟨K, .noEmptySubset, K.after P chainProg₁, 1, K.trie P chainProg₁ 1, [([1, 1], List.replicate 40 1)],
    [([1, 1], [9]), ([4], [5])]⟩

def chainBlock₂ (K : Kind) (P : Profile) : Block :=
  ⟨K, .noEmptySubset, K.after P chainProg₂, 1, K.trie P chainProg₂ 1, [([2, 1], List.replicate 40 3),
    ([1, 1], [9])], [([5, 5], [8])]⟩

theorem chainAccepted₁ (K : Kind) (P : Profile) :
    (chainBlock₁ K P).Accepted P kec0 (Vector.replicate 32 85) (Vector.replicate 32 87) where
  safe := inferInstanceAs (Mode.Safe .noEmptySubset)
  live := by
    refine Kind.after_live ?_ ?_ ?_
    · obtain ⟨P⟩ := P; cases K <;> cases P <;> decide +kernel
    · intro c hc
      simp only [chainProg₁, List.mem_cons, List.not_mem_nil, or_false] at hc
      rcases hc with rfl | rfl <;> simp only [Cmd.Short] <;> decide
    · cases K <;> simp [chainProg₁, chainBlock₁, permitted]
  get := Kind.trie_get (by obtain ⟨P⟩ := P; cases K <;> cases P <;> decide +kernel)
  node := by
    have h : (match K.trie P chainProg₁ 1 with | .hash _ _ => false | _ => true) = true := by
      obtain ⟨P⟩ := P; cases K <;> cases P <;> decide +kernel
    intro hh
    simp only [chainBlock₁] at hh
    cases hx : K.trie P chainProg₁ 1 <;> simp_all [Trie.IsHash]
  root := by obtain ⟨P⟩ := P; cases K <;> cases P <;> decide +kernel
  small := by obtain ⟨P⟩ := P; cases K <;> cases P <;> decide +kernel
  keys := by simp [chainBlock₁]
  read := by obtain ⟨P⟩ := P; cases K <;> cases P <;> decide +kernel
  write := Block.write_of (by obtain ⟨P⟩ := P; cases K <;> cases P <;> decide +kernel)

theorem chainAccepted₂ (K : Kind) (P : Profile) :
    (chainBlock₂ K P).Accepted P kec0 (Vector.replicate 32 87) (Vector.replicate 32 89) where
  safe := inferInstanceAs (Mode.Safe .noEmptySubset)
  live := by
    refine Kind.after_live ?_ ?_ ?_
    · obtain ⟨P⟩ := P; cases K <;> cases P <;> decide +kernel
    · intro c hc
      simp only [chainProg₂, List.mem_cons, List.not_mem_nil, or_false] at hc
      rcases hc with rfl | rfl | rfl | rfl <;> simp only [Cmd.Short] <;> decide
    · cases K <;> simp [chainProg₂, chainBlock₂, permitted]
  get := Kind.trie_get (by obtain ⟨P⟩ := P; cases K <;> cases P <;> decide +kernel)
  node := by
    have h : (match K.trie P chainProg₂ 1 with | .hash _ _ => false | _ => true) = true := by
      obtain ⟨P⟩ := P; cases K <;> cases P <;> decide +kernel
    intro hh
    simp only [chainBlock₂] at hh
    cases hx : K.trie P chainProg₂ 1 <;> simp_all [Trie.IsHash]
  root := by obtain ⟨P⟩ := P; cases K <;> cases P <;> decide +kernel
  small := by obtain ⟨P⟩ := P; cases K <;> cases P <;> decide +kernel
  keys := by simp [chainBlock₂]
  read := by obtain ⟨P⟩ := P; cases K <;> cases P <;> decide +kernel
  write := Block.write_of (by obtain ⟨P⟩ := P; cases K <;> cases P <;> decide +kernel)

/-- Two blocks, from a standard and a hashed trie, are accepted and right. -/
example (K : Kind) (P : Profile) : Right P kec0 0 (K.after P [.fromIter chainXs])
    (Vector.replicate 32 89) [chainBlock₁ .standard P, chainBlock₂ .hashed P] := by
  have hn : (K.trie P [.fromIter chainXs] 0).hashless = true := by
    obtain ⟨P⟩ := P; cases K <;> cases P <;> decide +kernel
  refine C84_chain (M := .noEmptySubset) (t := K.trie P [.fromIter chainXs] 0) (x := Vector.replicate 32 85)
    (Kind.after_live ?_ ?_ ?_) (Kind.trie_get ?_) (Trie.noHash_of hn) ?_ ?_
    ⟨_, chainAccepted₁ .standard P, _, chainAccepted₂ .hashed P, rfl⟩
  · obtain ⟨P⟩ := P; cases K <;> cases P <;> decide +kernel
  · intro c hc
    simp only [List.mem_cons, List.not_mem_nil, or_false] at hc
    subst hc
    simp only [Cmd.Short]; decide
  · cases K <;> simp [permitted]
  all_goals obtain ⟨P⟩ := P; cases K <;> cases P <;> decide +kernel

end EthTrie
