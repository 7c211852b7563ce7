import Verif.Subset.Flags
import Verif.Sys.Pure

/-!
# Subsets in closed form: several lists of keys, repeated subsets, minimality
-/

namespace EthTrie

open Spec KMap LNode

namespace LTracked

/-- The tracked trie after earlier lists `prev` of keys, a reset, and the keys `cur`: the reset
clears the flags of the children of the root only (or the flag of the root, if it has none). -/
def batch (P : Profile) : LNode → List Key → List Key → LTracked
  | .branch cs v, prev, cur => .branch (fun i => (flagged P (cs i) (down i (prev ++ cur))).setTouched
      (!(down i cur).isEmpty)) v (!(prev ++ cur).isEmpty)
  | .ext n c, prev, cur => .ext n ((flagged P c (through P n (prev ++ cur))).setTouched
      (!(through P n cur).isEmpty)) (!(prev ++ cur).isEmpty)
  | l, _, cur => flagged P l cur

theorem mark_setTouched (P : Profile) (t : LTracked) (b : Bool) (k : Key) :
    (t.setTouched b).mark P k = t.mark P k := by
  cases t with
  | branch cs v f => cases k <;> simp only [setTouched, mark]
  | _ => simp only [setTouched, mark]

theorem setTouched_self (t : LTracked) : t.setTouched t.touched = t := by cases t <;> rfl

theorem setTouched_twice (t : LTracked) (a b : Bool) :
    (t.setTouched a).setTouched b = t.setTouched b := by cases t <;> rfl

theorem node_setTouched (t : LTracked) (b : Bool) : (t.setTouched b).node = t.node := by
  cases t <;> rfl

theorem batch_node (P : Profile) (l : LNode) (prev cur : List Key) :
    (batch P l prev cur).node = l := by
  cases l <;> simp [batch, flagged_node, node, node_setTouched]

/-- Without earlier lists only the current one counts. -/
theorem batch_nil (P : Profile) (l : LNode) (cur : List Key) : batch P l [] cur = flagged P l cur := by
  have hs : ∀ (l : LNode) (ks : List Key), (flagged P l ks).setTouched (!ks.isEmpty) =
      flagged P l ks := fun l ks => by
    rw [← flagged_touched P l ks, setTouched_self]
  cases l with
  | branch cs v => simp only [batch, List.nil_append, hs, flagged]
  | ext n c => simp only [batch, List.nil_append, hs, flagged]
  | _ => rfl

theorem reset_batch (P : Profile) (l : LNode) (prev cur : List Key) :
    (batch P l prev cur).reset = batch P l (prev ++ cur) [] := by
  cases l with
  | branch cs v =>
    simp only [batch, reset, setTouched_twice, List.append_nil, down, List.filterMap_nil]
    rfl
  | ext n c =>
    simp only [batch, reset, setTouched_twice, List.append_nil, through, List.filterMap_nil]
    rfl
  | _ => rfl

theorem mark_batch (P : Profile) (l : LNode) (prev cur : List Key) (k : Key) (t : LTracked)
    (h : (batch P l prev cur).mark P k = .ok (.ok t)) : t = batch P l prev (cur ++ [k]) := by
  have hst : ∀ (l : LNode) (a : List Key) (b : Bool) (k : Key),
      flagged P l (a ++ [k]) = (flagged P l (a ++ [k])).setTouched true := by
    intro l a b k
    have : (flagged P l (a ++ [k])).touched = true := by rw [flagged_touched]; simp
    rw [← this, setTouched_self]
  cases l with
  | empty => exact mark_flagged P _ _ _ _ h
  | hash x => exact mark_flagged P _ _ _ _ h
  | leaf n v => exact mark_flagged P _ _ _ _ h
  | branch cs v =>
    cases k with
    | nil =>
      simp only [batch, mark, Except.ok.injEq] at h
      simp [batch, ← h, down_append, down]
    | cons d k =>
      simp only [batch, mark, mark_setTouched] at h
      cases hm : (flagged P (cs d) (down d (prev ++ cur))).mark P k with
      | error e => simp [hm] at h
      | ok r =>
        cases r with
        | error e => simp [hm] at h
        | ok c =>
          simp [hm] at h
          subst h
          have := mark_flagged P _ _ _ _ hm
          have he : (!(prev ++ (cur ++ [d :: k])).isEmpty) = true := by simp
          simp only [batch, he, LTracked.branch.injEq, and_true]
          funext i
          by_cases hi : i = d
          · subst hi
            have e1 : down i (prev ++ (cur ++ [i :: k])) = down i (prev ++ cur) ++ [k] := by
              simp [down_append]; simp [down]
            have e2 : (!(down i (cur ++ [i :: k])).isEmpty) = true := by
              simp [down_append]; simp [down]
            rw [upd_same, e1, e2, this]
            exact hst _ _ true _
          · rw [upd_other _ _ hi]
            simp only [down_append, down_single_ne k hi, List.append_nil]
  | ext n c =>
    simp only [batch, mark, mark_setTouched] at h
    have he : (!(prev ++ (cur ++ [k])).isEmpty) = true := by simp
    cases hr : extRest P n k with
    | error e => simp [hr] at h
    | ok o =>
      cases o with
      | none =>
        simp [hr] at h
        have e0 : through P n [k] = [] := by simp [through, hr]
        simp only [batch, ← h, through_append, e0, List.append_nil, he]
      | some k' =>
        simp only [hr, R_bind_ok] at h
        cases hm : (flagged P c (through P n (prev ++ cur))).mark P k' with
        | error e => simp [hm] at h
        | ok r =>
          cases r with
          | error e => simp [hm] at h
          | ok c' =>
            simp [hm] at h
            subst h
            have e0 : through P n [k] = [k'] := by simp [through, hr]
            have := mark_flagged P _ _ _ _ hm
            rw [this]
            simp only [batch, he]
            congr 1
            have e1 : through P n (prev ++ (cur ++ [k])) = through P n (prev ++ cur) ++ [k'] := by
              simp [through_append, e0]
            have e2 : (!(through P n (cur ++ [k])).isEmpty) = true := by
              simp [through_append, e0]
            rw [e1, e2]
            exact hst _ _ true _

theorem markAll_batch (P : Profile) (l : LNode) (prev : List Key) : ∀ (ks cur : List Key)
    (t : LTracked), (batch P l prev cur).markAll P ks = .ok (.ok t) →
    t = batch P l prev (cur ++ ks) := by
  intro ks
  induction ks with
  | nil => intro cur t h; simp [markAll] at h; simp [← h]
  | cons k ks ih =>
    intro cur t h
    simp only [markAll] at h
    cases hm : (batch P l prev cur).mark P k with
    | error e => simp [hm] at h
    | ok r =>
      cases r with
      | error e => simp [hm] at h
      | ok c =>
        simp only [hm, R_bind_ok] at h
        rw [mark_batch P l _ _ _ _ hm] at h
        simpa using ih _ _ h

/-- The tries that `create_trie_subsets` returns. -/
def batches (P : Profile) (kec : Bytes → H256) (l : LNode) : List Key → List (List Key) → List LNode
  | _, [] => []
  | prev, ks :: kss => (batch P l prev ks).subset kec :: batches P kec l (prev ++ ks) kss

theorem subsetsL_batch (P : Profile) (kec : Bytes → H256) (l : LNode) : ∀ (kss : List (List Key))
    (prev : List Key) (rs : List LNode),
    PSys.subsetsL P kec (batch P l prev []) kss = .ok (.ok rs) → rs = batches P kec l prev kss := by
  intro kss
  induction kss with
  | nil => intro prev rs h; simp [PSys.subsetsL] at h; simp [batches, ← h]
  | cons ks kss ih =>
    intro prev rs h
    simp only [PSys.subsetsL] at h
    cases hm : (batch P l prev []).markAll P ks with
    | error e => simp [hm] at h
    | ok r =>
      cases r with
      | error e => simp [hm] at h
      | ok t =>
        simp only [hm, R_bind_ok] at h
        have e := markAll_batch P l prev ks [] t hm
        rw [List.nil_append] at e
        subst e
        rw [reset_batch] at h
        cases hs : PSys.subsetsL P kec (batch P l (prev ++ ks) []) kss with
        | error e => simp [hs] at h
        | ok r =>
          cases r with
          | error e => simp [hs] at h
          | ok rs' =>
            simp [hs] at h
            rw [← h, batches, ih _ _ hs]

theorem new_eq_batch (P : Profile) (l : LNode) : new l = batch P l [] [] := by
  rw [batch_nil, flagged_nil]

/-! ### When do the flags left over from earlier lists not matter? -/

theorem raw_small {kec : Bytes → H256} {bs b : Bytes} (h : hashIfLarge kec bs = .raw b) :
    bs.length < 32 := by
  unfold hashIfLarge at h
  split at h
  · rename_i hd; simpa using hd
  · cases h

theorem rlpList_item {xs : List Bytes} {x : Bytes} (h : x ∈ xs) :
    x.length < (rlpList xs).length := by
  have h1 : x.length ≤ xs.flatten.length := by
    obtain ⟨a, b, rfl⟩ := List.append_of_mem h
    simp only [List.flatten_append, List.flatten_cons, List.length_append]
    omega
  have h2 : 0 < (rlpHeader 0xc0 xs.flatten.length).length := by
    unfold rlpHeader; split <;> simp
  simp only [rlpList, List.length_append]
  omega

theorem item_raw {e : EncodedNode} (h : e.item.length < 32) : ∃ b, e = .raw b := by
  cases e with
  | raw b => exact ⟨b, rfl⟩
  | hashed x =>
    exfalso
    have : (rlpValue x.toList).length = 33 := by
      unfold rlpValue
      split
      · rename_i h; have := congrArg List.length h; simp at this
      · simp [rlpHeader]
    simp only [EncodedNode.item] at h
    omega

/-- In a sub-trie with a small encoding nothing is replaced, whatever the marks. -/
theorem subset_small {kec : Bytes → H256} : ∀ (t : LTracked) (b : Bytes), t.node.enc kec = .raw b →
    t.subset kec = t.node := by
  have haw : ∀ (t : LTracked) (b : Bytes), t.node.enc kec = .raw b → away kec t = none := by
    intro t b h
    simp only [away, h]
    split <;> rfl
  intro t
  induction t with
  | empty f => intro b _; rfl
  | hash h f => intro b _; rfl
  | leaf n v f => intro b hb; simp only [subset, haw _ _ hb, node]
  | branch cs v f ih =>
    intro b hb
    simp only [subset, haw _ _ hb, node, LNode.branch.injEq, and_true]
    funext i
    simp only [node, LNode.enc] at hb
    have := rlpList_item (x := ((cs i).node.enc kec).item)
      (xs := ((List.finRange 16).map fun i => ((cs i).node.enc kec).item) ++
      [if v = [] then [0x80] else rlpValue v])
      (List.mem_append_left _ (List.mem_map_of_mem (List.mem_finRange i)))
    obtain ⟨b', hb'⟩ := item_raw (this.trans (raw_small hb))
    exact ih i b' hb'
  | ext n c f ih =>
    intro b hb
    simp only [subset, haw _ _ hb, node, LNode.ext.injEq, true_and]
    simp only [node, LNode.enc] at hb
    have := rlpList_item (x := (c.node.enc kec).item)
      (xs := [rlpValue (HP n false), (c.node.enc kec).item]) (by simp)
    obtain ⟨b', hb'⟩ := item_raw (this.trans (raw_small hb))
    exact ih b' hb'

/-- An unmarked node is replaced or kept as a whole. -/
theorem subset_untouched {kec : Bytes → H256} {t u : LTracked} (ht : t.touched = false)
    (hu : u.touched = false) (h : t.node = u.node) : t.subset kec = u.subset kec := by
  cases he : t.node.enc kec with
  | raw b =>
    rw [subset_small t b he, subset_small u b (h ▸ he), h]
  | hashed x =>
    have key : ∀ t : LTracked, t.touched = false → t.node.enc kec = .hashed x →
        t.subset kec = .hash x := by
      intro t ht he
      have ha : away kec t = some x := by simp [away, ht, he]
      cases t with
      | empty b => simp [node, LNode.enc] at he
      | hash y b => simp only [node, LNode.enc, EncodedNode.hashed.injEq] at he; simp [subset, he]
      | branch cs v b => simp only [subset, ha]
      | ext n c b => simp only [subset, ha]
      | leaf n v b => simp only [subset, ha]
    rw [key t ht he, key u hu (h ▸ he)]

theorem touched_setTouched (t : LTracked) (b : Bool) : (t.setTouched b).touched = b := by
  cases t <;> rfl

/-- If no two lists have keys with the same first nibble, later subsets are as if they were made
alone. -/
theorem batch_apart {P : Profile} {kec : Bytes → H256} {l : LNode} {prev cur : List Key}
    (hl : ∀ n c, l ≠ .ext n c) (hcur : cur ≠ [])
    (hd : ∀ i, down i prev = [] ∨ down i cur = []) :
    (batch P l prev cur).subset kec = (flagged P l cur).subset kec := by
  cases l with
  | empty => rfl
  | hash h => rfl
  | leaf n v => rfl
  | ext n c => exact absurd rfl (hl n c)
  | branch cs v =>
    have e1 : (!(prev ++ cur).isEmpty) = true := by simp [hcur]
    have e2 : (!cur.isEmpty) = true := by simp [hcur]
    simp only [batch, flagged, e1, e2, subset, away, touched]
    simp only [if_true, LNode.branch.injEq, and_true]
    funext i
    rcases hd i with h | h
    · rw [down_append, h, List.nil_append, ← flagged_touched P (cs i), setTouched_self]
    · rw [h]
      exact subset_untouched (touched_setTouched _ _) (flagged_touched _ _ _)
        (by rw [node_setTouched, flagged_node, flagged_node])

/-! ### Subsets of subsets -/

theorem subset_flagged_hash {P : Profile} {kec : Bytes → H256} {x : H256} (ks : List Key) :
    (flagged P (.hash x) ks).subset kec = .hash x := rfl

/-- Taking the same subset again changes nothing. -/
theorem subset_idem (P : Profile) (kec : Bytes → H256) : ∀ (l : LNode) (ks : List Key),
    (flagged P ((flagged P l ks).subset kec) ks).subset kec = (flagged P l ks).subset kec := by
  intro l
  induction l with
  | empty => intro ks; rfl
  | hash h => intro ks; rfl
  | leaf n v =>
    intro ks
    cases ha : away kec (flagged P (.leaf n v) ks) with
    | some x =>
      have : (flagged P (.leaf n v) ks).subset kec = .hash x := by
        simp only [flagged] at ha ⊢; simp only [subset, ha]
      rw [this, subset_flagged_hash]
    | none =>
      have : (flagged P (.leaf n v) ks).subset kec = .leaf n v := by
        simp only [flagged] at ha ⊢; simp only [subset, ha]
      rw [this, this]
  | branch cs v ih =>
    intro ks
    cases ha : away kec (flagged P (.branch cs v) ks) with
    | some x =>
      have : (flagged P (.branch cs v) ks).subset kec = .hash x := by
        simp only [flagged] at ha ⊢; simp only [subset, ha]
      rw [this, subset_flagged_hash]
    | none =>
      have h1 : (flagged P (.branch cs v) ks).subset kec =
          .branch (fun i => (flagged P (cs i) (down i ks)).subset kec) v := by
        simp only [flagged] at ha ⊢; simp only [subset, ha]
      have h2 : away kec (flagged P ((flagged P (.branch cs v) ks).subset kec) ks) = none := by
        rw [← ha]
        simp only [away, flagged_touched, flagged_node]
        rw [(subset_view (flagged P (.branch cs v) ks)).enc, flagged_node]
      rw [h1] at h2 ⊢
      simp only [flagged] at h2 ⊢
      simp only [subset, h2, ih]
  | ext n c ih =>
    intro ks
    cases ha : away kec (flagged P (.ext n c) ks) with
    | some x =>
      have : (flagged P (.ext n c) ks).subset kec = .hash x := by
        simp only [flagged] at ha ⊢; simp only [subset, ha]
      rw [this, subset_flagged_hash]
    | none =>
      have h1 : (flagged P (.ext n c) ks).subset kec =
          .ext n ((flagged P c (through P n ks)).subset kec) := by
        simp only [flagged] at ha ⊢; simp only [subset, ha]
      have h2 : away kec (flagged P ((flagged P (.ext n c) ks).subset kec) ks) = none := by
        rw [← ha]
        simp only [away, flagged_touched, flagged_node]
        rw [(subset_view (flagged P (.ext n c) ks)).enc, flagged_node]
      rw [h1] at h2 ⊢
      simp only [flagged] at h2 ⊢
      simp only [subset, h2, ih]

/-- Marking again on the subset succeeds. -/
theorem markAll_again {P : Profile} {kec : Bytes → H256} {l : LNode} {ks : List Key} {t : LTracked}
    (h : (new l).markAll P ks = .ok (.ok t)) :
    ∃ t', (new (t.subset kec)).markAll P ks = .ok (.ok t') ∧ t'.subset kec = t.subset kec := by
  have ht := markAll_touch P ks h
  have hn : t.node = l := by rw [markAll_new h, flagged_node]
  have hres : ∀ k ∈ ks, (¬ ∃ r, RunsInto (absL l) k r) ∧ ∀ e, l.get P k ≠ .error e := by
    rcases markAll_result P ks (new l) with ⟨_, _, h2⟩ | ⟨_, _, _, _, _, ⟨r, _, h2⟩ | ⟨e, _, h2⟩⟩
    · rw [node_new] at h2; exact h2
    · rw [h2] at h; cases h
    · rw [h2] at h; cases h
  have hruns : ∀ k ∈ ks, ∀ r, ¬ RunsInto (absL (t.subset kec)) k r := by
    rintro k hk r ⟨hr, q, x, rfl, hq⟩
    rw [touch_agree P kec t (q ++ r) q (ht _ hk) (List.prefix_append _ _), hn] at hq
    exact (hres _ hk).1 ⟨r, hr, q, x, rfl, hq⟩
  have hget : ∀ k ∈ ks, ∀ e, (t.subset kec).get P k ≠ .error e := by
    intro k hk e
    rw [touch_get P kec t k (ht k hk), hn]
    exact (hres k hk).2 e
  rcases markAll_result P ks (new (t.subset kec)) with ⟨t', h1, _⟩ |
    ⟨a, k, b, rfl, _, ⟨r, hr, h2⟩ | ⟨e, he, h2⟩⟩
  · refine ⟨t', h1, ?_⟩
    rw [markAll_new h1, markAll_new h, subset_idem]
  · rw [node_new] at hr; exact absurd hr (hruns k (by simp) r)
  · rw [node_new] at he; exact absurd he (hget k (by simp) e)

/-- The order and number of the keys do not matter for the subset. -/
theorem markAll_congr {P : Profile} {l : LNode} {ks ks' : List Key} {t : LTracked}
    (hk : ∀ k, k ∈ ks ↔ k ∈ ks') (h : (new l).markAll P ks = .ok (.ok t)) :
    (new l).markAll P ks' = .ok (.ok t) := by
  have hres : ∀ k ∈ ks, (¬ ∃ r, RunsInto (absL l) k r) ∧ ∀ e, l.get P k ≠ .error e := by
    rcases markAll_result P ks (new l) with ⟨_, _, h2⟩ | ⟨_, _, _, _, _, ⟨r, _, h2⟩ | ⟨e, _, h2⟩⟩
    · rw [node_new] at h2; exact h2
    · rw [h2] at h; cases h
    · rw [h2] at h; cases h
  rcases markAll_result P ks' (new l) with ⟨t', h1, _⟩ |
    ⟨a, k, b, rfl, _, ⟨r, hr, h2⟩ | ⟨e, he, h2⟩⟩
  · rw [h1, markAll_new h1, markAll_new h, flagged_congr P l ks ks' hk]
  · rw [node_new] at hr; exact absurd ⟨r, hr⟩ (hres k ((hk k).2 (by simp))).1
  · rw [node_new] at he; exact absurd he ((hres k ((hk k).2 (by simp))).2 e)

end LTracked

/-! ### Minimality -/

namespace LNode

/-- The node reached by some nibbles. -/
inductive At : LNode → Key → LNode → Prop
  | here (l : LNode) : At l [] l
  | branch (cs : Fin 16 → LNode) (v : Bytes) (d : Fin 16) (q : Key) (u : LNode)
      (h : At (cs d) q u) : At (.branch cs v) (d :: q) u
  | ext (n : Key) (c : LNode) (q : Key) (u : LNode) (h : At c q u) : At (.ext n c) (n ++ q) u

theorem At.canon {l u : LNode} {q : Key} (h : At l q u) (hc : l.Canon) : u.Canon := by
  induction h with
  | here l => exact hc
  | branch cs v d q u h ih => exact ih (hc.1 d)
  | ext n c q u h ih => exact ih hc.2.2

/-- The position `q` is visited for the key `k`: it is a prefix of `k`, or (without overflow checks)
a prefix of `k` continued by more zeros than `k` has nibbles left. -/
def OnPath (P : Profile) (k q : Key) : Prop :=
  q <+: k ∨ (P.overflowChecks = false ∧ ∃ q₀ j, q = q₀ ++ List.replicate j 0 ∧ q₀ <+: k ∧
    k.length < q₀.length + j)

theorem onPath_cons {P : Profile} {k q : Key} {d : Fin 16} (h : OnPath P k q) :
    OnPath P (d :: k) (d :: q) := by
  rcases h with h | ⟨hP, q₀, j, rfl, h1, h2⟩
  · left
    obtain ⟨s, rfl⟩ := h
    exact ⟨s, rfl⟩
  · right
    refine ⟨hP, d :: q₀, j, rfl, ?_, by simp; omega⟩
    obtain ⟨s, rfl⟩ := h1
    exact ⟨s, rfl⟩

theorem onPath_append {P : Profile} {k q n : Key} (h : OnPath P k q) : OnPath P (n ++ k) (n ++ q) := by
  induction n with
  | nil => exact h
  | cons d n ih => exact onPath_cons ih

theorem onPath_nil {P : Profile} {q : Key} (hP : P.overflowChecks = false) (h : OnPath P [] q)
    {n : Nat} {k : Key} (hk : k.length < n) :
    OnPath P k (List.replicate n 0 ++ q) := by
  right
  have : ∃ j, q = List.replicate j 0 := by
    rcases h with h | ⟨_, q₀, j, rfl, h1, _⟩
    · exact ⟨0, by simpa using h⟩
    · exact ⟨j, by simp [List.prefix_nil.1 h1]⟩
  obtain ⟨j, rfl⟩ := this
  exact ⟨hP, [], n + j, by rw [List.nil_append, List.replicate_append_replicate], List.nil_prefix,
    by simp only [List.length_nil]; omega⟩

end LNode

namespace LTracked

/-- The nodes of a subset that are not visited are hash nodes or small. -/
theorem subset_minimal (P : Profile) (kec : Bytes → H256) : ∀ (l : LNode) (ks : List Key) (q : Key)
    (u : LNode), At ((flagged P l ks).subset kec) q u →
    (∃ k ∈ ks, OnPath P k q) ∨ (∃ h, u = .hash h) ∨ ∃ b, u.enc kec = .raw b := by
  intro l
  have hroot : ∀ (l : LNode) (ks : List Key),
      (∃ k ∈ ks, OnPath P k []) ∨ (∃ h, (flagged P l ks).subset kec = .hash h) ∨
        ∃ b, ((flagged P l ks).subset kec).enc kec = .raw b := by
    intro l ks
    cases ks with
    | cons k ks => exact .inl ⟨k, by simp, .inl List.nil_prefix⟩
    | nil =>
      right
      cases he : l.enc kec with
      | raw b =>
        right
        exact ⟨b, by rw [(subset_view _).enc, flagged_node, he]⟩
      | hashed x =>
        left
        have ha : away kec (flagged P l []) = some x := by
          simp [away, flagged_touched, flagged_node, he]
        cases l with
        | empty => simp [LNode.enc] at he
        | hash y => exact ⟨y, rfl⟩
        | branch cs v => simp only [flagged] at ha ⊢; exact ⟨x, by simp only [subset, ha]⟩
        | ext n c => simp only [flagged] at ha ⊢; exact ⟨x, by simp only [subset, ha]⟩
        | leaf n v => simp only [flagged] at ha ⊢; exact ⟨x, by simp only [subset, ha]⟩
  induction l with
  | empty => intro ks q u h; cases h; exact hroot _ ks
  | hash x => intro ks q u h; cases h; exact hroot (.hash x) ks
  | leaf n v =>
    intro ks q u h
    have hq : q = [] ∧ u = (flagged P (.leaf n v) ks).subset kec := by
      simp only [flagged, subset] at h ⊢
      split at h <;> (cases h; exact ⟨rfl, by simp_all⟩)
    rw [hq.1, hq.2]
    exact hroot _ ks
  | branch cs v ih =>
    intro ks q u h
    by_cases hu : u = (flagged P (.branch cs v) ks).subset kec ∧ q = []
    · rw [hu.1, hu.2]; exact hroot _ ks
    · simp only [flagged, subset] at h hu
      split at h
      · rename_i x hx
        simp only [hx] at hu
        cases h; simp at hu
      · rename_i hx
        simp only [hx] at hu
        cases h with
        | here => simp at hu
        | branch _ _ d q _ h =>
          rcases ih d _ q u h with ⟨k, hk, hp⟩ | h
          · exact .inl ⟨d :: k, mem_down.1 hk, onPath_cons hp⟩
          · exact .inr h
  | ext n c ih =>
    intro ks q u h
    by_cases hu : u = (flagged P (.ext n c) ks).subset kec ∧ q = []
    · rw [hu.1, hu.2]; exact hroot _ ks
    · simp only [flagged, subset] at h hu
      split at h
      · rename_i x hx
        simp only [hx] at hu
        cases h; simp at hu
      · rename_i hx
        simp only [hx] at hu
        cases h with
        | here => simp at hu
        | ext _ _ q _ h =>
          rcases ih _ q u h with ⟨k', hk, hp⟩ | h
          · left
            obtain ⟨k, hk, hr⟩ := mem_through.1 hk
            refine ⟨k, hk, ?_⟩
            unfold extRest at hr
            split at hr
            · split at hr
              · rename_i h1
                obtain ⟨s, rfl⟩ := h1
                simp at hr; subst hr
                exact onPath_append hp
              · simp at hr
            · split at hr
              · cases hr
              · split at hr
                · rename_i h1 h2 h3
                  simp at hr; subst hr
                  rw [h3]
                  exact onPath_nil (by simpa using h2) hp (by omega)
                · simp at hr
          · exact .inr h

end LTracked
end EthTrie
