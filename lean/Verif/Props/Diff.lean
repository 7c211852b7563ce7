import Verif.Debug.Diff
import Verif.Props.Conc

/-!
# Property C41: the diff tool
-/

namespace EthTrie

open Nibbles Spec

/-! ### Programs that may panic -/

section
variable {kec : Bytes → H256} {P : Profile} {α S : Type} [K : TrieKind α S] [L : KindLaws kec α S]
  {β γ : Type}

/-- The program returns or panics as `v` says, whatever other threads do in the meantime. -/
def Ends (kec : Bytes → H256) [L : KindLaws kec α S] : Prog α β → L.W → R β → Prop
  | .ret b, _, v => v = .ok b
  | .panic e, _, v => v = .error e
  | .alloc k, w, v => ∀ w', L.le w w' → ∃ w'', L.le w' w'' ∧ L.st w'' = (K.alloc (L.st w')).2 ∧
    Ends kec (k (K.alloc (L.st w')).1) w'' v
  | .read a k, w, v => ∀ w', L.le w w' → Ends kec (k (K.cacheGet a (L.st w'))) w' v
  | .write a o k, w, v => ∀ w', L.le w w' →
    ∃ w'', L.le w' w'' ∧ L.st w'' = K.cacheSet a o (L.st w') ∧ Ends kec k w'' v

theorem Ends.bind {p : Prog α β} {f : β → Prog α γ} {w : L.W} {b : β} {v : R γ}
    (h : Returns kec p w b) (hf : ∀ w', L.le w w' → Ends kec (f b) w' v) :
    Ends kec (p.bind f) w v := by
  induction p generalizing w with
  | ret b' =>
    cases h
    exact hf w (L.le_refl w)
  | panic e => exact h.elim
  | alloc k ih =>
    intro w' h'
    obtain ⟨w'', h1, h2, h3⟩ := h w' h'
    exact ⟨w'', h1, h2, ih _ h3 fun x hx => hf x (L.le_trans h' (L.le_trans h1 hx))⟩
  | read a k ih =>
    exact fun w' h' => ih _ (h w' h') fun w'' h'' => hf w'' (L.le_trans h' h'')
  | write a o k ih =>
    intro w' h'
    obtain ⟨w'', h1, h2, h3⟩ := h w' h'
    exact ⟨w'', h1, h2, ih h3 fun x hx => hf x (L.le_trans h' (L.le_trans h1 hx))⟩

theorem Ends.mono {p : Prog α β} {w w' : L.W} {v : R β} (h : Ends kec p w v)
    (hle : L.le w w') : Ends kec p w' v := by
  cases p with
  | ret b => exact h
  | panic e => exact h
  | alloc k => exact fun w'' h' => h w'' (L.le_trans hle h')
  | read a k => exact fun w'' h' => h w'' (L.le_trans hle h')
  | write a o k => exact fun w'' h' => h w'' (L.le_trans hle h')

theorem Ends.map {p : Prog α β} {f : β → γ} {w : L.W} {v : R β} (h : Ends kec p w v) :
    Ends kec (p.bind fun b => .ret (f b)) w (v.map f) := by
  induction p generalizing w with
  | ret b => cases h; rfl
  | panic e => cases h; rfl
  | alloc k ih =>
    intro w' h'
    obtain ⟨w'', h1, h2, h3⟩ := h w' h'
    exact ⟨w'', h1, h2, ih _ h3⟩
  | read a k ih => exact fun w' h' => ih _ (h w' h')
  | write a o k ih =>
    intro w' h'
    obtain ⟨w'', h1, h2, h3⟩ := h w' h'
    exact ⟨w'', h1, h2, ih h3⟩

theorem Returns.ends {p : Prog α β} {w : L.W} {b : β} (h : Returns kec p w b) :
    Ends kec p w (.ok b) := by
  induction p generalizing w with
  | ret b' => cases h; rfl
  | panic e => exact h.elim
  | alloc k ih =>
    intro w' h'
    obtain ⟨w'', h1, h2, h3⟩ := h w' h'
    exact ⟨w'', h1, h2, ih _ h3⟩
  | read a k ih => exact fun w' h' => ih _ (h w' h')
  | write a o k ih =>
    intro w' h'
    obtain ⟨w'', h1, h2, h3⟩ := h w' h'
    exact ⟨w'', h1, h2, ih h3⟩

theorem Ends.run {p : Prog α β} {w : L.W} {v : R β} (h : Ends kec p w v) :
    (p.run (L.st w)).map (·.1) = v ∧ ∀ b s', p.run (L.st w) = .ok (b, s') →
      ∃ w', L.le w w' ∧ s' = L.st w' := by
  induction p generalizing w with
  | ret b =>
    cases h
    refine ⟨rfl, fun b' s' he => ?_⟩
    cases he
    exact ⟨w, L.le_refl w, rfl⟩
  | panic e =>
    cases h
    exact ⟨rfl, fun b' s' he => by cases he⟩
  | alloc k ih =>
    obtain ⟨w'', h1, h2, h3⟩ := h w (L.le_refl w)
    obtain ⟨h4, h5⟩ := ih _ h3
    simp only [Prog.run, ← h2]
    refine ⟨h4, fun b s' he => ?_⟩
    obtain ⟨w', h6, h7⟩ := h5 b s' he
    exact ⟨w', L.le_trans h1 h6, h7⟩
  | read a k ih => exact ih _ (h w (L.le_refl w))
  | write a o k ih =>
    obtain ⟨w'', h1, h2, h3⟩ := h w (L.le_refl w)
    obtain ⟨h4, h5⟩ := ih h3
    simp only [Prog.run, ← h2]
    refine ⟨h4, fun b s' he => ?_⟩
    obtain ⟨w', h6, h7⟩ := h5 b s' he
    exact ⟨w', L.le_trans h1 h6, h7⟩

/-! ### What the tool computes -/

/-- The value in the root node of a trie. -/
def Trie.storedValue : Trie α → Option Bytes
  | .branch _ _ v => some v
  | .leaf _ _ v => some v
  | _ => none

/-- The nibbles in the root node of a trie. -/
def Trie.storedPiece : Trie α → Nibbles
  | .ext _ n _ => n
  | .leaf _ n _ => n
  | _ => ⟨0, 0⟩

theorem nodeValue_eq (a : Trie α) : nodeValue a = a.storedValue := by cases a <;> rfl

theorem pieceOf_stored (a : Trie α) : pieceOf a = a.storedPiece := by cases a <;> rfl

/-- What is reported about two nodes that are reached by the nibbles `q`. -/
def reportOf (H : Trie α → H256) (a b : Trie α) (q : Key) (path : List PathSegment) : DiffPoint :=
  ⟨0, path, ofList q, ⟨ofList (q ++ a.storedPiece.toList), a.storedValue, a.type, H a⟩,
    ⟨ofList (q ++ b.storedPiece.toList), b.storedValue, b.type, H b⟩⟩

/-- The outcome for two nodes that are not both extensions: no difference if the hashes agree,
otherwise a difference if the nodes have the same type and a panic if not. -/
def diffHere (H : Trie α → H256) (a b : Trie α) (q : Key) (path : List PathSegment) :
    R (Option DiffPoint) :=
  if H a = H b then .ok none
  else if a.type = b.type then .ok (some (reportOf H a b q path))
  else .error .unreachableCode

/-- The outcome for two tries.  Only for extensions with different nibbles are other nodes than the
roots looked at. -/
def diffOutcome (H : Trie α → H256) (a b : Trie α) : R (Option DiffPoint) :=
  if H a = H b then .ok none
  else match a, b with
    | .ext x n c, .ext y m c' =>
      if n = m then .ok (some (reportOf H (.ext x n c) (.ext y m c') [] []))
      else diffHere H c c' n.toList [.ext n]
    | a, b => diffHere H a b [] []

/-- `hash` of the node returns `H a`, now and later. -/
def GoodNode (kec : Bytes → H256) [L : KindLaws kec α S] (H : Trie α → H256) (w : L.W) (a : Trie α) :
    Prop := RepN kec w a a.plain ∧ CellVal kec w a a.plain (H a)

variable {H : Trie α → H256}

theorem GoodNode.mono {w w' : L.W} {a : Trie α} (h : GoodNode kec H w a) (hle : L.le w w') :
    GoodNode kec H w' a :=
  ⟨h.1.mono (L.ole_of_le hle), fun w'' h' => h.2 w'' (L.le_trans hle h')⟩

theorem GoodNode.hash {w : L.W} {a : Trie α} (h : GoodNode kec H w a) :
    Returns kec (hashProg P kec a) w (H a) := returns_hash h.1 h.2

theorem returns_info {w : L.W} {a : Trie α} (h : GoodNode kec H w a) (k : Nibbles) :
    Returns kec (nodeInfo P kec a k) w ⟨k, nodeValue a, a.type, H a⟩ :=
  h.hash.bind fun _ _ => rfl

theorem pieceOf_eq {w : L.W} {a : Trie α} (h : GoodNode kec H w a) :
    pieceOf a = ofList (pieceOf a).toList := by
  obtain ⟨h, _⟩ := h
  cases a with
  | empty | hash | branch => rfl
  | ext a n c => exact (ofList_toList h.wfKeys.1).symm
  | leaf a n v => exact (ofList_toList h.wfKeys).symm

theorem returns_point {w : L.W} {a b : Trie α} (ha : GoodNode kec H w a) (hb : GoodNode kec H w b) {q : Key}
    (h1 : q.length + (pieceOf a).toList.length ≤ 64) (h2 : q.length + (pieceOf b).toList.length ≤ 64)
    (path : List PathSegment) :
    Returns kec (diffPoint P kec a b (ofList q) path) w
      (reportOf H a b q path) := by
  unfold diffPoint
  rw [pieceOf_eq ha, pieceOf_eq hb, mergeNibbles_ok P h1, mergeNibbles_ok P h2]
  simp only [Prog.lift, Prog.bind]
  unfold reportOf
  rw [← pieceOf_stored, ← pieceOf_stored, ← nodeValue_eq, ← nodeValue_eq]
  refine (returns_info ha _).bind fun w1 h1 => ?_
  exact (returns_info (hb.mono h1) _).bind fun w2 h2 => rfl

theorem returns_replace {w : L.W} {a b : Trie α} (ha : GoodNode kec H w a) (hb : GoodNode kec H w b)
    {q : Key} (h1 : q.length + (pieceOf a).toList.length ≤ 64)
    (h2 : q.length + (pieceOf b).toList.length ≤ 64) (d : Nat) (path : List PathSegment) :
    Returns kec (replaceLonger P kec none a b ⟨ofList q, d, path⟩) w
      (some (reportOf H a b q path)) :=
  (returns_point ha hb h1 h2 path).bind fun _ _ => rfl

theorem diffRec_top (a b : Trie α) (st : CallState) (ds : Longest) :
    ∃ other, diffRec P kec a b st ds = diffTop P kec a b st ds other := by
  cases a <;> cases b <;> simp only [diffRec] <;> exact ⟨_, rfl⟩

theorem diffRec_types {a b : Trie α} (h : a.type ≠ b.type) (st : CallState) (ds : Longest) :
    diffRec P kec a b st ds = diffTop P kec a b st ds (.panic .unreachableCode) := by
  cases a <;> cases b <;> first | exact absurd rfl h | rfl

/-- No difference. -/
theorem diffTop_eq {w : L.W} {a b : Trie α} (ha : GoodNode kec H w a) (hb : GoodNode kec H w b)
    (hH : H a = H b) (st : CallState) (ds : Longest)
    (other : Prog α (DiffState × Longest)) :
    Ends kec (diffTop P kec a b st ds other) w (.ok (.noDiff, ds)) := by
  refine .bind ha.hash fun w1 l1 => .bind (hb.mono l1).hash fun w2 l2 => ?_
  rw [if_pos hH]
  rfl

/-- A difference. -/
theorem diffTop_ne {w : L.W} {a b : Trie α} (ha : GoodNode kec H w a) (hb : GoodNode kec H w b)
    (hH : H a ≠ H b) (st : CallState) (ds : Longest)
    (other : Prog α (DiffState × Longest)) (hp : ¬ (a.type, pieceOf a) = (b.type, pieceOf b))
    {v : R (DiffState × Longest)} (hv : ∀ w', L.le w w' → Ends kec other w' v) :
    Ends kec (diffTop P kec a b st ds other) w v := by
  refine .bind ha.hash fun w1 l1 => .bind (hb.mono l1).hash fun w2 l2 => ?_
  rw [if_neg hH, if_neg hp]
  exact hv _ (L.le_trans l1 l2)

/-- One level of the search. -/
theorem diffRec_step {w : L.W} {a b : Trie α} (ha : GoodNode kec H w a) (hb : GoodNode kec H w b)
    {q : Key} (h1 : q.length + (pieceOf a).toList.length ≤ 64)
    (h2 : q.length + (pieceOf b).toList.length ≤ 64) {d : Nat} (path : List PathSegment)
    (hx : a.type = .ext → b.type = .ext → pieceOf a = pieceOf b) :
    ∃ v : R (DiffState × Longest), Ends kec
      (diffRec P kec a b ⟨ofList q, d, path⟩ ⟨none, none⟩) w v ∧
      v.map (fun r => r.2.node.or r.2.hash) = diffHere H a b q path := by
  unfold diffHere
  by_cases hH : H a = H b
  · refine ⟨.ok (.noDiff, ⟨none, none⟩), ?_, by simp [hH, Except.map]⟩
    obtain ⟨o, ho⟩ := diffRec_top (P := P) (kec := kec) a b ⟨ofList q, d, path⟩ ⟨none, none⟩
    rw [ho]
    exact diffTop_eq ha hb hH _ _ _
  · by_cases ht : a.type = b.type
    · by_cases hp : pieceOf a = pieceOf b
      · refine ⟨.ok (.nodeTypesDiffer,
          ⟨some (reportOf H a b q path), none⟩), ?_, by
            simp [hH, ht, Except.map]⟩
        obtain ⟨o, ho⟩ := diffRec_top (P := P) (kec := kec) a b ⟨ofList q, d, path⟩ ⟨none, none⟩
        rw [ho]
        refine .bind ha.hash fun w1 l1 => .bind (hb.mono l1).hash fun w2 l2 => ?_
        rw [if_neg hH, if_pos (by rw [ht, hp])]
        have l3 := L.le_trans l1 l2
        exact .bind (returns_replace (ha.mono l3) (hb.mono l3) h1 h2 d path) fun _ _ => rfl
      · refine ⟨.ok (.hashDiff,
          ⟨none, some (reportOf H a b q path)⟩), ?_, by
            simp [hH, ht, Except.map]⟩
        have hleaf : ∃ x n v y m v', a = .leaf x n v ∧ b = .leaf y m v' := by
          cases a <;> cases b <;> simp_all [Trie.type, pieceOf]
        obtain ⟨x, n, v, y, m, v', rfl, rfl⟩ := hleaf
        rw [diffRec]
        refine diffTop_ne ha hb hH _ _ _ (by simp [hp]) fun w3 l3 => ?_
        simp only [diffOfHash]
        refine .bind (ha.mono l3).hash fun w4 l4 => .bind ((hb.mono l3).mono l4).hash fun w5 l5 => ?_
        have l6 := L.le_trans l3 (L.le_trans l4 l5)
        rw [diffOfHashes, decide_eq_false hH]
        exact .bind (returns_replace (ha.mono l6) (hb.mono l6) h1 h2 d path) fun _ _ => rfl
    · refine ⟨.error .unreachableCode, ?_, by simp [hH, ht, Except.map]⟩
      rw [diffRec_types ht]
      exact diffTop_ne ha hb hH _ _ _ (by simp [ht]) fun _ _ => rfl

theorem diff_ends {w : L.W} {a b : Trie α} (ha : GoodNode kec H w a) (hb : GoodNode kec H w b)
    (hca : ∀ x n c, a = .ext x n c → GoodNode kec H w c)
    (hcb : ∀ x n c, b = .ext x n c → GoodNode kec H w c) (ha1 : a.storedPiece.count ≤ 64)
    (hb1 : b.storedPiece.count ≤ 64) (ha2 : a.plain.ExtOK) (hb2 : b.plain.ExtOK) :
    Ends kec (diffProg P kec a b) w (diffOutcome H a b) := by
  have p1 : (pieceOf a).toList.length ≤ 64 := by rw [pieceOf_stored, toList_length]; exact ha1
  have p2 : (pieceOf b).toList.length ≤ 64 := by rw [pieceOf_stored, toList_length]; exact hb1
  by_cases hx : a.type = .ext → b.type = .ext → pieceOf a = pieceOf b
  · have := diffRec_step (P := P) ha hb (q := []) (by simpa using p1) (by simpa using p2) (d := 0) [] hx
    have ho : diffOutcome H a b =
        diffHere H a b [] [] := by
      unfold diffOutcome diffHere
      by_cases hH : H a = H b
      · simp [hH]
      · rw [if_neg hH]
        cases a <;> cases b <;> try rfl
        rename_i x n c y m c'
        have : n = m := hx rfl rfl
        simp only [if_neg hH, if_pos this]
        rfl
    obtain ⟨v, g1, g2⟩ := this
    rw [ho, ← g2]
    exact g1.map
  · simp only [not_forall] at hx
    obtain ⟨hta, htb, hp⟩ := hx
    cases a with
    | empty | hash | branch | leaf => cases hta
    | ext x n c =>
    cases b with
    | empty | hash | branch | leaf => cases htb
    | ext y m c' =>
    simp only [pieceOf] at hp
    by_cases hH : H (Trie.ext x n c) = H (Trie.ext y m c')
    · have ho : diffOutcome H (.ext x n c) (.ext y m c') = .ok none := by
        simp only [diffOutcome, if_pos hH]
      rw [ho, diffProg]
      exact (diffTop_eq ha hb hH _ _ _).map
    · have ho : diffOutcome H (.ext x n c) (.ext y m c') =
          diffHere H c c' n.toList [.ext n] := by
        simp only [diffOutcome, if_neg hH, if_neg hp]
      rw [ho]
      have hc := hca x n c rfl
      have hc' := hcb y m c' rfl
      have hn : n.toList.length ≤ 64 := p1
      have hx : ∀ {x : α} {n : Nibbles} {c : Trie α}, (Trie.ext x n c).plain.ExtOK →
          c.type ≠ .ext ∧ pieceOf c = .default := by
        intro x n c h
        have := h.2.1
        cases c <;> simp_all [Trie.type, pieceOf, Trie.plain, LNode.isBH]
      have z1 := hx ha2
      have z2 := hx hb2
      have hz : (Nibbles.default).toList.length = 0 := rfl
      obtain ⟨v, g1, g2⟩ := diffRec_step (P := P) hc hc' (q := n.toList) (d := 1)
        (by rw [z1.2, hz]; exact hn) (by rw [z2.2, hz]; exact hn) [.ext n]
        fun h => absurd h z1.1
      rw [← g2]
      refine Ends.map (diffTop_ne ha hb hH _ _ _ (by simp [pieceOf, hp]) fun w1 l1 => ?_)
      have hm : fromParent P ⟨.default, 0, []⟩ (.ext x n c) n = .ok ⟨ofList n.toList, 1, [.ext n]⟩ := by
        have := pieceOf_eq ha
        simp only [pieceOf] at this
        have hme := mergeNibbles_ok P (a := []) (b := n.toList) (by simpa using hn)
        rw [← this] at hme
        simp only [fromParent, segmentOf, Trie.type, R_bind_ok]
        rw [show Nibbles.default = ofList [] from rfl, hme, R_bind_ok, uadd_ok (by decide)]
        rfl
      simp only [hm, Prog.lift, Prog.bind]
      exact g1.mono l1

end

/-! ### The property -/

variable {K : Kind} {M : Mode} {P : Profile} {kec : Bytes → H256} {s : Sys K.Ann K.State} {i j : Nat}
  {a b : Trie K.Ann}

/-- `H` is what `hash()` returns. -/
def HashFn (P : Profile) (kec : Bytes → H256) (s : Sys K.Ann K.State) (H : Trie K.Ann → H256) : Prop :=
  ∀ u, s.Has u → (u.rootHash P kec s.state).map (·.1) = .ok (H u)

theorem HashFn.good {H : Trie K.Ann → H256} (hH : HashFn P kec s H) {w p Z}
    (h1 : Inv (L := Kind.laws kec K) kec w s p Z) {t u : Trie K.Ann} {q : Key} (ht : t ∈ s.hs)
    (hq : t.NodeAt q u) : GoodNode (L := Kind.laws kec K) kec H w u := by
  have hu := hH u ⟨t, ht, q, hq⟩
  rw [h1.hs, List.mem_map] at ht
  obtain ⟨a, ha, rfl⟩ := ht
  have hok := h1.ok a ha
  obtain ⟨l, g1, g2, _⟩ := NodeAt_rep (L := Kind.laws kec K) hq hok.rep (fun w' hle => by
    unfold hashNow
    rw [(Kind.laws kec K).le_cell hle hok.slot])
  have := g1.plain
  subst this
  refine ⟨g1, ?_⟩
  obtain ⟨x, w', k1, _, rfl⟩ := run_rootHash (P := P) (L := Kind.laws kec K) g1
  rw [h1.state, k1] at hu
  simp only [Except.map, Except.ok.injEq] at hu
  unfold hashNow at g2
  rwa [hu] at g2

theorem Live.diff (h : Live K M P kec s) (hi : s.hs[i]? = some a) (hj : s.hs[j]? = some b)
    (pa : a.storedPiece.count ≤ 64) (pb : b.storedPiece.count ≤ 64)
    {H : Trie K.Ann → H256} (hH : HashFn P kec s H) :
    (a.diff P kec b s.state).map (·.1) = diffOutcome H a b ∧
    ∀ r st, a.diff P kec b s.state = .ok (r, st) → ∃ w p Z w',
      Inv (L := Kind.laws kec K) kec w s p Z ∧ Inv (L := Kind.laws kec K) kec w' ⟨st, s.hs⟩ p Z := by
  obtain ⟨w, p, Z, h1, h2⟩ := h.inv.ex
  have ha := List.mem_of_getElem? hi
  have hb := List.mem_of_getElem? hj
  have he := diff_ends (L := Kind.laws kec K) (P := P) (hH.good h1 ha (.here a))
    (hH.good h1 hb (.here b))
    (fun x n c e => hH.good h1 ha (by rw [e]; exact .ext x n c [] c (.here c)))
    (fun x n c e => hH.good h1 hb (by rw [e]; exact .ext x n c [] c (.here c))) pa
    pb (h.shape ha).2 (h.shape hb).2
  obtain ⟨h4, h5⟩ := he.run
  rw [← h1.state] at h4 h5
  refine ⟨h4, fun r st hr => ?_⟩
  obtain ⟨w', h6, h7⟩ := h5 r st hr
  refine ⟨w, p, Z, w', h1, ?_⟩
  rw [h7]
  exact h1.step_le h6

theorem Live.hashFn (h : Live K M P kec s) : ∃ H, HashFn P kec s H := by
  refine ⟨fun u => ((u.rootHash P kec s.state).map (·.1)).toOption.getD (Vector.replicate 32 0), ?_⟩
  rintro u ⟨t, ht, q, hq⟩
  obtain ⟨w, p, Z, h1, h2⟩ := h.inv.ex
  rw [h1.hs, List.mem_map] at ht
  obtain ⟨a, ha, rfl⟩ := ht
  have hok := h1.ok a ha
  obtain ⟨l, g1, g2, _⟩ := NodeAt_rep (L := Kind.laws kec K) hq hok.rep (fun w' hle => by
    unfold hashNow
    rw [(Kind.laws kec K).le_cell hle hok.slot])
  obtain ⟨x, w', k1, _, rfl⟩ := run_rootHash (P := P) (L := Kind.laws kec K) g1
  simp only [h1.state, k1]
  rfl

/-- C41, what the tool does if the roots have pieces of keys of at most 64 nibbles, where `H` is what
`hash()` returns: it compares the roots,
or, if these are extensions with different nibbles, their children.  If the hashes of the compared
nodes differ, it panics unless they have the same type. -/
theorem C41_exact (h : Live K M P kec s) (hi : s.hs[i]? = some a) (hj : s.hs[j]? = some b)
    (pa : a.storedPiece.count ≤ 64) (pb : b.storedPiece.count ≤ 64)
    {H : Trie K.Ann → H256} (hH : HashFn P kec s H) :
    (a.diff P kec b s.state).map (·.1) = diffOutcome H a b := (h.diff hi hj pa pb hH).1

/-- A trie and its changed clone. -/
example (K : Kind) (P : Profile) {H : Trie K.Ann → H256} (hH : HashFn P kec0 (caseS K P) H) :
    ((caseT K P 0).diff P kec0 (caseT K P 1) (caseS K P).state).map (·.1) =
      diffOutcome H (caseT K P 0) (caseT K P 1) :=
  C41_exact (caseLive K P) (caseGet K P (by decide)) (caseGet K P (by decide))
    (by obtain ⟨P⟩ := P; cases K <;> cases P <;> decide +kernel)
    (by obtain ⟨P⟩ := P; cases K <;> cases P <;> decide +kernel) hH

/-- C41: the tool leaves the tries as they are: no program that runs afterwards can tell. -/
theorem C41_after (h : Live K M P kec s) (hi : s.hs[i]? = some a) (hj : s.hs[j]? = some b)
    (pa : a.storedPiece.count ≤ 64) (pb : b.storedPiece.count ≤ 64)
    {r : Option DiffPoint} {st : K.State} (hd : a.diff P kec b s.state = .ok (r, st)) (cs : List Cmd)
    (hs : ∀ c ∈ cs, c.Short) :
    ((⟨st, s.hs⟩ : Sys K.Ann K.State).run P kec cs).map (·.2) = (s.run P kec cs).map (·.2) := by
  obtain ⟨H, hH⟩ := h.hashFn
  obtain ⟨w, p, Z, w', h1, h2⟩ := (h.diff hi hj pa pb hH).2 r st hd
  exact Inv.run_eq h1 h2 cs hs

/-- C41: if the root hashes are equal, no difference is reported. -/
theorem C41_equal (h : Live K M P kec s) (hi : s.hs[i]? = some a) (hj : s.hs[j]? = some b)
    (pa : a.storedPiece.count ≤ 64) (pb : b.storedPiece.count ≤ 64)
    (he : (a.rootHash P kec s.state).map (·.1) = (b.rootHash P kec s.state).map (·.1)) :
    (a.diff P kec b s.state).map (·.1) = .ok none := by
  obtain ⟨H, hH⟩ := h.hashFn
  rw [hH a ⟨a, List.mem_of_getElem? hi, [], .here a⟩,
    hH b ⟨b, List.mem_of_getElem? hj, [], .here b⟩] at he
  rw [C41_exact h hi hj pa pb hH]
  simp only [Except.ok.injEq] at he
  simp only [diffOutcome, he, if_true]

example (K : Kind) (P : Profile) : ((caseT K P 0).diff P kec0 (caseT K P 2) (caseS K P).state).map (·.1) = .ok none :=
  C41_equal (caseLive K P) (caseGet K P (by decide)) (caseGet K P (by decide))
    (by obtain ⟨P⟩ := P; cases K <;> cases P <;> decide +kernel)
    (by obtain ⟨P⟩ := P; cases K <;> cases P <;> decide +kernel)
    (by obtain ⟨P⟩ := P; cases K <;> cases P <;> decide +kernel)

/-- C41: a difference is only reported if the root hashes differ, and then two sub-tries with different
hashes are named. -/
theorem C41_sound (h : Live K M P kec s) (hi : s.hs[i]? = some a) (hj : s.hs[j]? = some b)
    (pa : a.storedPiece.count ≤ 64) (pb : b.storedPiece.count ≤ 64)
    {H : Trie K.Ann → H256} (hH : HashFn P kec s H) {d : DiffPoint}
    (hd : (a.diff P kec b s.state).map (·.1) = .ok (some d)) :
    H a ≠ H b ∧ d.a.hash ≠ d.b.hash ∧ ∃ q u v, a.NodeAt q.toList u ∧ d.key = q ∧ d.a.hash = H u ∧
      d.b.hash = H v ∧ d.a.type = u.type ∧ d.b.type = v.type ∧
      ((q = .default ∧ u = a ∧ v = b) ∨ ∃ y m, b = .ext y m v) := by
  rw [C41_exact h hi hj pa pb hH] at hd
  have wf := fun {t : Trie K.Ann} (ht : t ∈ s.hs) => h.wfKeys ht
  have here : ∀ {u v : Trie K.Ann} {q path}, diffHere H u v q path = .ok (some d) →
      d = reportOf H u v q path ∧ H u ≠ H v := by
    intro u v q path h
    unfold diffHere at h
    by_cases h1 : H u = H v
    · simp [h1] at h
    · rw [if_neg h1] at h
      by_cases h2 : u.type = v.type
      · rw [if_pos h2] at h
        simp only [Except.ok.injEq, Option.some.injEq] at h
        exact ⟨h.symm, h1⟩
      · simp [h2] at h
  have top : d = reportOf H a b [] [] → H a ≠ H b → d.a.hash ≠ d.b.hash ∧
      ∃ q u v, a.NodeAt q.toList u ∧ d.key = q ∧ d.a.hash = H u ∧
      d.b.hash = H v ∧ d.a.type = u.type ∧ d.b.type = v.type ∧
      ((q = Nibbles.default ∧ u = a ∧ v = b) ∨ ∃ y m, b = .ext y m v) := by
    rintro rfl hne
    exact ⟨hne, .default, a, b, .here a, rfl, rfl, rfl, rfl, rfl, .inl ⟨rfl, rfl, rfl⟩⟩
  unfold diffOutcome at hd
  by_cases hne : H a = H b
  · simp [hne] at hd
  · rw [if_neg hne] at hd
    refine ⟨hne, ?_⟩
    split at hd
    · rename_i x n c y m c'
      split at hd
      · simp only [Except.ok.injEq, Option.some.injEq] at hd
        exact top hd.symm hne
      · obtain ⟨rfl, hc⟩ := here hd
        refine ⟨hc, n, c, c', ?_, ?_, rfl, rfl, rfl, rfl, .inr ⟨y, m, rfl⟩⟩
        · have := Trie.NodeAt.ext x n c [] c (.here c)
          rwa [List.append_nil] at this
        · exact ofList_toList (wf (List.mem_of_getElem? hi)).1
    · obtain ⟨hd, _⟩ := here hd
      exact top hd hne

/-- C41, the part that holds.  If the roots have the same type, and the same nibbles if they are
extensions, the tool does not panic, it reports no difference if and only if the root hashes are
equal, and otherwise it reports the types, key pieces, values and hashes of the roots.

What is missing: roots of different types, and extensions with different nibbles. -/
theorem C41_partial (h : Live K M P kec s) (hi : s.hs[i]? = some a) (hj : s.hs[j]? = some b)
    (pa : a.storedPiece.count ≤ 64) (pb : b.storedPiece.count ≤ 64)
    {H : Trie K.Ann → H256} (hH : HashFn P kec s H) (ht : a.type = b.type)
    (hx : a.type = .ext → a.storedPiece = b.storedPiece) :
    ∃ r, (a.diff P kec b s.state).map (·.1) = .ok r ∧ (r = none ↔ H a = H b) ∧
      ∀ d, r = some d → d = ⟨0, [], .default, ⟨a.storedPiece, a.storedValue, a.type, H a⟩,
        ⟨b.storedPiece, b.storedValue, b.type, H b⟩⟩ := by
  have pw : ∀ {t : Trie K.Ann}, t ∈ s.hs → ofList t.storedPiece.toList = t.storedPiece := by
    intro t ht
    have := h.wfKeys ht
    cases t with
    | empty | hash | branch => rfl
    | ext x n c => exact ofList_toList this.1
    | leaf x n v => exact ofList_toList this
  have hr : reportOf H a b [] [] = ⟨0, [], .default, ⟨a.storedPiece, a.storedValue, a.type, H a⟩,
        ⟨b.storedPiece, b.storedValue, b.type, H b⟩⟩ := by
    simp only [reportOf, List.nil_append, pw (List.mem_of_getElem? hi), pw (List.mem_of_getElem? hj)]
    rfl
  rw [C41_exact h hi hj pa pb hH]
  by_cases hne : H a = H b
  · exact ⟨none, by simp [diffOutcome, hne], by simp [hne], by simp⟩
  · refine ⟨some (reportOf H a b [] []), ?_, by simp [hne], fun d hd => ?_⟩
    · simp only [diffOutcome, if_neg hne]
      split
      · rename_i x n c y m c'
        have : n = m := hx rfl
        rw [if_pos this]
      · simp only [diffHere, if_neg hne, if_pos ht]
    · simp only [Option.some.injEq] at hd
      rw [← hd, hr]

/-- The roots of a trie and its changed clone are branches. -/
example (K : Kind) (P : Profile) {H : Trie K.Ann → H256} (hH : HashFn P kec0 (caseS K P) H) :
    ∃ r, ((caseT K P 0).diff P kec0 (caseT K P 1) (caseS K P).state).map (·.1) = .ok r ∧
      (r = none ↔ H (caseT K P 0) = H (caseT K P 1)) ∧ ∀ d, r = some d → d = ⟨0, [], .default,
        ⟨(caseT K P 0).storedPiece, (caseT K P 0).storedValue, (caseT K P 0).type, H (caseT K P 0)⟩,
        ⟨(caseT K P 1).storedPiece, (caseT K P 1).storedValue, (caseT K P 1).type, H (caseT K P 1)⟩⟩ :=
  C41_partial (caseLive K P) (caseGet K P (by decide)) (caseGet K P (by decide))
    (by obtain ⟨P⟩ := P; cases K <;> cases P <;> decide +kernel)
    (by obtain ⟨P⟩ := P; cases K <;> cases P <;> decide +kernel) hH
    (by obtain ⟨P⟩ := P; cases K <;> cases P <;> decide +kernel)
    (by obtain ⟨P⟩ := P; cases K <;> cases P <;> decide +kernel)

/-- A hash function for examples that tells short strings apart. -/
def kec1 : Bytes → H256 := fun b =>
  Vector.replicate 32 (b.foldl (fun x y => 31 * x + y) 7)

/-- Run a program, then compare the handles 0 and 1 and hash them. -/
def diffObs (K : Kind) (P : Profile) (cs : List Cmd) : R (Option DiffPoint × H256 × H256) := do
  let (s, _) ← K.run P kec1 cs
  match s.hs[0]?, s.hs[1]? with
  | some a, some b =>
    let (d, st) ← a.diff P kec1 b s.state
    let (x, st) ← a.rootHash P kec1 st
    let (y, _) ← b.rootHash P kec1 st
    return (d, x, y)
  | _, _ => .error .expectFailed

/-- C41 fails: the tries have different entries and different root hashes, but no difference is
reported. -/
theorem C41_false_missed : ∀ K : Kind, ∀ P : Profile,
    (diffObs K P [.fromIter [([1, 1], .val [7]), ([1, 2], .val [8])],
      .fromIter [([3, 1], .val [7]), ([3, 2], .val [8])]]).map
        (fun r => (r.1, decide (r.2.1 = r.2.2))) = .ok (none, false) := by
  intro K ⟨P⟩; cases K <;> cases P <;> decide +kernel

/-- C41 fails: the tool panics on tries whose roots have different types. -/
theorem C41_false_panic : ∀ K : Kind, ∀ P : Profile,
    diffObs K P [.fromIter [([1, 1], .val [7])],
      .fromIter [([1, 1], .val [7]), ([3, 2], .val [8])]] = .error .unreachableCode := by
  intro K ⟨P⟩; cases K <;> cases P <;> decide +kernel

/-- Two leaves, as in the test of the module, and two branches. -/
example : ∀ K : Kind, ∀ P : Profile,
    (diffObs K P [.fromIter [([1, 2, 3, 4], .val [0])], .fromIter [([1, 2, 3, 4], .val [1])]]).map
      (fun r => r.1.map fun d => [(d.a.key, d.a.value), (d.b.key, d.b.value)]) =
      .ok (some [(⟨4, 0x1234⟩, some [0]), (⟨4, 0x1234⟩, some [1])]) := by
  intro K ⟨P⟩; cases K <;> cases P <;> decide +kernel

example : ∀ K : Kind, ∀ P : Profile,
    (diffObs K P [.fromIter [([1, 2], .val [0]), ([2, 2], .val [3])],
      .fromIter [([1, 2], .val [1]), ([2, 2], .val [3])]]).map
      (fun r => r.1.map fun d => [(d.a.key, d.a.type), (d.b.key, d.b.type)]) =
      .ok (some [(⟨0, 0⟩, .branch), (⟨0, 0⟩, .branch)]) := by
  intro K ⟨P⟩; cases K <;> cases P <;> decide +kernel

end EthTrie
