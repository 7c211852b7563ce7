import Verif.Sys.Main

/-!
# What the calls do with the cache cells of roots, in any program
-/

namespace EthTrie

open Spec KMap LNode Nibbles

/-- What stands for a subset for the keys `ks` if the cell of the root has the contents `cell`: the
root of a subset for no keys is replaced by what the cell says. -/
def standIn (cell : Option H256) (ks : List Key) (l : LNode) : LNode :=
  match cell, ks with
  | some x, [] => .hash x
  | _, _ => l

@[simp] theorem standIn_none (ks : List Key) (l : LNode) : standIn none ks l = l := by
  cases ks <;> rfl

theorem standIn_ne {cell : Option H256} {ks : List Key} (h : ks ≠ []) (l : LNode) :
    standIn cell ks l = l := by
  cases cell <;> cases ks <;> first | rfl | exact absurd rfl h

theorem LTracked.touched_new (l : LNode) : (LTracked.new l).touched = false := by
  cases l <;> rfl

/-- Marks on the root of such a trie survive between the lists of `create_trie_subsets`. -/
def LNode.keepsMark : LNode → Bool
  | .branch _ _ => true
  | .ext _ _ => true
  | _ => false

theorem LTracked.touched_reset (t : LTracked) :
    t.reset.touched = (t.node.keepsMark && t.touched) := by
  cases t <;> simp [LTracked.reset, LTracked.touched, LTracked.node, LNode.keepsMark]

theorem LTracked.touched_markAll {P : Profile} {t t' : LTracked} {ks : List Key}
    (h : t.markAll P ks = .ok (.ok t')) : t'.touched = (t.touched || !ks.isEmpty) := by
  cases ks with
  | nil => cases h; simp
  | cons k ks =>
    rw [LTracked.markAll_touched P _ t t' h (.inl (by simp))]
    simp

/-- What stands for several subsets: the cell is used for lists without keys as long as the root is
not marked.  `keep` says whether its mark is kept, `d` whether it is marked. -/
def standIns (cell : Option H256) (keep : Bool) : Bool → List (List Key) → List LNode → List LNode
  | d, ks :: kss, l :: ls => (if d then l else standIn cell ks l) ::
      standIns cell keep (keep && (d || !ks.isEmpty)) kss ls
  | _, _, _ => []

namespace PSys

variable {P : Profile} {C : Bool} {kec : Bytes → H256}

theorem subsetX_stand {cell : Option H256} {t t' : LTracked} {ks : List Key}
    (ht : t.touched = false) (h : t.markAll P ks = .ok (.ok t')) :
    (t'.subsetX C kec cell).1 = standIn cell ks (t'.subset kec) := by
  by_cases e : ks = []
  · subst e
    cases h
    unfold LTracked.subsetX
    rw [ht]
    cases cell <;> rfl
  · rw [standIn_ne e]
    simp [LTracked.subsetX, LTracked.markAll_touched P ks t t' h (.inl e)]

theorem subsetX_keep {x : H256} (t : LTracked) : (t.subsetX C kec (some x)).2 = some x := by
  unfold LTracked.subsetX
  cases t.touched <;> rfl

theorem subsetsL_length : ∀ (kss : List (List Key)) (t : LTracked) {rs : List LNode},
    subsetsL P kec t kss = .ok (.ok rs) → rs.length = kss.length := by
  intro kss
  induction kss with
  | nil => intro t rs h; cases h; rfl
  | cons ks kss ih =>
    intro t rs h
    simp only [subsetsL, R_bind_eq_ok] at h
    obtain ⟨r, _, h⟩ := h
    cases r with
    | error e => cases h
    | ok t' =>
      simp only [R_bind_eq_ok] at h
      obtain ⟨r, h2, h⟩ := h
      cases r with
      | error e => cases h
      | ok rs' => cases h; simp [ih _ h2]

theorem subsetX_flag {cell : Option H256} {t t' : LTracked} {ks : List Key}
    (h : t.markAll P ks = .ok (.ok t')) : (t'.subsetX C kec cell).1 =
      if t.touched then t'.subset kec else standIn cell ks (t'.subset kec) := by
  cases ht : t.touched with
  | true => simp [LTracked.subsetX, LTracked.markAll_touched P ks t t' h (.inr ht)]
  | false => exact subsetX_stand ht h

theorem standIns_none (keep : Bool) : ∀ (kss : List (List Key)) (d : Bool) (rs : List LNode),
    rs.length = kss.length → standIns none keep d kss rs = rs := by
  intro kss
  induction kss with
  | nil => intro d rs h; cases rs with
    | nil => rfl
    | cons => cases h
  | cons ks kss ih => intro d rs h; cases rs with
    | nil => cases h
    | cons r rs => simp [standIns, ih _ rs (by simpa using h)]

theorem standIns_get {cell : Option H256} (keep : Bool) : ∀ (kss : List (List Key)) (d : Bool)
    (rs : List LNode) {j : Nat} {ks : List Key} {r : LNode}, kss[j]? = some ks → rs[j]? = some r →
    ∃ d', (standIns cell keep d kss rs)[j]? = some (if d' then r else standIn cell ks r) ∧
      (j = 0 → d' = d) := by
  intro kss
  induction kss with
  | nil => intro d rs j ks r h; simp at h
  | cons ks' kss ih =>
    intro d rs j ks r h h'
    cases rs with
    | nil => simp at h'
    | cons r' rs =>
      cases j with
      | zero => simp at h h'; subst h h'; exact ⟨d, rfl, fun _ => rfl⟩
      | succ j =>
        simp at h h'
        obtain ⟨d', h1, _⟩ := ih (keep && (d || !ks'.isEmpty)) rs h h'
        exact ⟨d', by simpa [standIns] using h1, by simp⟩

theorem subsetsX_stand (kss : List (List Key)) (t : LTracked) (cell : Option H256) :
    (subsetsX P C kec t cell kss).map (·.1) =
      (subsetsL P kec t kss).map fun r => r.map (standIns cell t.node.keepsMark t.touched kss) := by
  cases cell with
  | none =>
    obtain ⟨_, _, h, _⟩ := subsetsX_right (P := P) (C := C) (kec := kec) kss (t := t) (cell := none)
      (fun _ e => by cases e)
    rw [h]
    rcases hx : subsetsL P kec t kss with e | (e | rs)
    · rfl
    · rfl
    · simp only [Except.map, standIns_none _ kss _ rs (subsetsL_length kss t hx)]
  | some x =>
    induction kss generalizing t with
    | nil => rfl
    | cons ks kss ih =>
      simp only [subsetsX, subsetsL]
      cases hm : t.markAll P ks with
      | error e => rfl
      | ok r =>
        cases r with
        | error k => rfl
        | ok t' =>
          have h1 := subsetX_flag (C := C) (kec := kec) (cell := some x) hm
          have h2 := ih t'.reset
          rw [LTracked.touched_reset, LTracked.reset_node, LTracked.markAll_node P ks t t' hm,
            LTracked.touched_markAll hm] at h2
          simp only [R_bind_ok, subsetX_keep]
          revert h2
          rcases subsetsX P C kec t'.reset (some x) kss with e | ⟨r | r, c⟩ <;>
          rcases subsetsL P kec t'.reset kss with e' | (r' | r') <;>
            simp [Except.map, h1, standIns] <;> intro h <;> simp [h]

/-- The handles that are made are of new families, unless they are clones. -/
theorem push_new (s : PSys) (ls : List LNode) : ∀ j t, s.hs.length ≤ j →
    (s.push ls).hs[j]? = some t → s.next ≤ t.2 := by
  induction ls generalizing s with
  | nil =>
    intro j t hj h
    rw [push, List.getElem?_eq_none hj] at h
    cases h
  | cons l ls ih =>
    intro j t hj h
    rw [push] at h
    by_cases e : j = s.hs.length
    · subst e
      obtain ⟨fs, h1, _⟩ := push_hs ⟨s.hs ++ [(l, s.next)], s.filled, s.next + 1⟩ ls
      rw [h1] at h
      simp at h
      subst h
      exact Nat.le_refl _
    · exact Nat.le_of_succ_le (ih _ j t (by simp; omega) h)

theorem exec_new {s s' : PSys} {c : Cmd} {o : Obs} (hc : ∀ i, c ≠ .clone i)
    (hab : ∀ f, s.next ≤ f → s.filled f = none) (hfam : ∀ t ∈ s.hs, t.2 < s.next)
    (h : s.exec P C kec c = .ok (s', o)) {j : Nat} {t : LNode × Nat} (hj : s.hs.length ≤ j)
    (ht : s'.hs[j]? = some t) : s'.filled t.2 = none := by
  have hold : ∀ {f : Nat → Option H256} {n : Nat}, s' = ⟨s.hs, f, n⟩ → False := by
    rintro f n rfl
    rw [List.getElem?_eq_none hj] at ht
    cases ht
  have hset : ∀ {f : Nat → Option H256} {n i : Nat} {x : LNode × Nat}, s' = ⟨s.hs.set i x, f, n⟩ →
      False := by
    rintro f n i x rfl
    rw [List.getElem?_eq_none (by simpa using hj)] at ht
    cases ht
  have hpush : ∀ {f : Nat → Option H256} {ls : List LNode}, (∀ g, s.next ≤ g → f g = none) →
      s' = PSys.push ⟨s.hs, f, s.next⟩ ls → s'.filled t.2 = none := by
    rintro f ls hf rfl
    rw [push_filled]
    exact hf _ (push_new ⟨s.hs, f, s.next⟩ ls j t hj ht)
  have hupd : ∀ {i : Nat} {u : LNode × Nat} {c : Option H256}, s.hs[i]? = some u →
      ∀ g, s.next ≤ g → upd s.filled u.2 c g = none := by
    intro i u c hu g hg
    have := hfam u (List.mem_of_getElem? hu)
    rw [upd_other _ _ (by omega)]
    exact hab g hg
  have hon : ∀ {i : Nat} {f : LNode × Nat → R (PSys × Obs)}, s.on i f = .ok (s', o) →
      (∀ u, s.hs[i]? = some u → f u = .ok (s', o) → s'.filled t.2 = none) →
      s'.filled t.2 = none := by
    intro i f h g
    rcases on_ok h with ⟨_, h1, _⟩ | ⟨u, h1, h2⟩
    · exact (hold h1).elim
    · exact g u h1 h2
  cases c with
  | new => cases h; exact hpush hab rfl
  | fromIter xs =>
    simp only [exec, R_bind_eq_ok] at h
    obtain ⟨l, _, h⟩ := h
    cases h; exact hpush hab rfl
  | clone i => exact absurd rfl (hc i)
  | insert i k v =>
    refine hon h fun u hu h => ?_
    simp only [R_bind_eq_ok] at h
    obtain ⟨l, _, h⟩ := h
    cases h; exact (hset rfl).elim
  | extend i xs =>
    refine hon h fun u hu h => ?_
    simp only [R_bind_eq_ok] at h
    obtain ⟨l, _, h⟩ := h
    cases h; exact (hset rfl).elim
  | delete i k =>
    refine hon h fun u hu h => ?_
    simp only [R_bind_eq_ok] at h
    obtain ⟨⟨l, x⟩, _, h⟩ := h
    cases h; exact (hset rfl).elim
  | get i k =>
    refine hon h fun u hu h => ?_
    simp only [R_bind_eq_ok] at h
    obtain ⟨l, _, h⟩ := h
    cases h; exact (hold rfl).elim
  | hash i => refine hon h fun u hu h => ?_; cases h; exact (hold rfl).elim
  | items i =>
    refine hon h fun u hu h => ?_
    simp only [R_bind_eq_ok] at h
    obtain ⟨l, _, h⟩ := h
    cases h; exact (hold rfl).elim
  | eq i k =>
    refine hon h fun u hu h => hon h fun v hv h => ?_
    cases h; exact (hold rfl).elim
  | subset i ks =>
    refine hon h fun u hu h => ?_
    simp only [R_bind_eq_ok] at h
    obtain ⟨r, _, h⟩ := h
    cases r with
    | error e => cases h; exact (hold rfl).elim
    | ok tr => cases h; exact hpush (hupd hu) rfl
  | subsets i kss =>
    refine hon h fun u hu h => ?_
    simp only [R_bind_eq_ok] at h
    obtain ⟨⟨r, c⟩, _, h⟩ := h
    cases r with
    | error e => cases h; exact (hold rfl).elim
    | ok tr => cases h; exact hpush (hupd hu) rfl

end PSys

variable {K : Kind} {M : Mode} {P : Profile} {kec : Bytes → H256} {s : Sys K.Ann K.State}
  {t : Trie K.Ann} {i : Nat}

theorem catchable_any (s : Sys K.Ann K.State) (c : Cmd) : s.Catchable K .any c := by
  cases c <;> first | trivial | exact fun _ h => nomatch h

theorem permittedN_any {c : NCmd} (h : permittedN K M c) : permittedN K .any c := by
  cases K with
  | standard => trivial
  | hashed =>
    cases c with
    | call c => exact permitted_any .hashed c
    | share i q => exact h.elim
    | take i q => trivial
    | assign i j q => exact fun h => nomatch h
    | build n => exact h
    | edit i n => exact ⟨h.1, fun h => nomatch h⟩

theorem Live.any (h : Live K M P kec s) : Live K .any P kec s := by
  induction h with
  | start => exact .start
  | step _ hs _ he ih => exact .step ih hs (permitted_any _ _) he
  | caught _ hs _ _ he ih => exact .caught ih hs (permitted_any _ _) (catchable_any _ _) he
  | cut _ hs _ ih => exact .cut ih hs (catchable_any _ _)
  | nodes _ hs hp hw he ih => exact .nodes ih hs (permittedN_any hp) hw he
  | load _ hd hv ih => exact .load ih hd ⟨hv.formed, hv.inner, fun _ => trivial⟩
  | tried _ hd ih => exact .tried ih hd
  | drop _ hz ih => exact .drop ih hz
  | threads h hM _ hx hi _ => exact .threads h hM (.inr rfl) hx hi

/-- The call and the corresponding one on list-keyed tries. -/
theorem Live.refine (h : Live K M P kec s) : ∃ w p Z, Inv (L := Kind.laws kec K) kec w s p Z ∧
    ∀ c : Cmd, c.Short → StepRel (L := Kind.laws kec K) kec w (s.exec P kec c)
      (p.exec P K.cells kec c) := by
  obtain ⟨w, p, Z, h1, _⟩ := h.inv.ex
  exact ⟨w, p, Z, h1, fun c hs => exec_refine (L := Kind.laws kec K) (P := P) (K.cells_real kec) h1 hs⟩

theorem Inv.handle {kec : Bytes → H256} {α S : Type} [K : TrieKind α S] [L : KindLaws kec α S]
    {w : L.W} {s : Sys α S} {p : PSys} {Z : List (Trie α × LNode × Nat)} (h : Inv kec w s p Z)
    {i : Nat} {t : Trie α} (hi : s.hs[i]? = some t) :
    ∃ f, p.hs[i]? = some (t.plain, f) ∧ p.filled f = K.cacheGet t.ann s.state := by
  rw [h.hs, List.getElem?_map] at hi
  rw [h.phs, List.getElem?_map]
  cases ha : Z[i]? with
  | none => rw [ha] at hi; cases hi
  | some a =>
    rw [ha] at hi
    cases hi
    have hok := h.ok a (List.mem_of_getElem? ha)
    refine ⟨a.2.2, ?_, ?_⟩
    · rw [hok.rep.plain]; rfl
    · rw [h.state]; exact hok.cell.symm

theorem StepRel.plain {kec : Bytes → H256} {α S : Type} [K : TrieKind α S] [L : KindLaws kec α S]
    {w : L.W} {x : R (Sys α S × Obs)} {y : R (PSys × Obs)} (h : StepRel kec w x y) :
    plainRes x = PSys.plainRes y := by
  rcases y with e | ⟨p', o⟩
  · rw [show x = .error e from h]; rfl
  · obtain ⟨s', w', Z', k1, k2, k3⟩ := h
    rw [k1]
    simp only [EthTrie.plainRes, PSys.plainRes, Except.map, k3.plains]

/-- `hash` in any program: the contents of the cell of the root, if there are any. -/
theorem Live.hash_exact (h : Live K M P kec s) (hi : s.hs[i]? = some t) :
    (t.rootHash P kec s.state).map (·.1) =
      .ok ((TrieKind.cacheGet t.ann s.state).getD (t.plain.rootHash kec)) := by
  obtain ⟨w, p, Z, h1, h2⟩ := h.refine
  obtain ⟨f, g1, g2⟩ := h1.handle hi
  have := (h2 (.hash i) trivial).plain
  simp only [Sys.exec, PSys.exec, exec_on hi, PSys.on, g1, g2] at this
  revert this
  cases t.rootHash P kec s.state <;> simp [plainRes, PSys.plainRes, Except.map]

/-- `create_trie_subset` in any program. -/
theorem Live.subset_exact (h : Live K M P kec s) (hi : s.hs[i]? = some t) {ks : List Key}
    (hk : ∀ k ∈ ks, k.length ≤ 127) :
    (createTrieSubset P kec t (ks.map ofList) s.state).map (fun r => r.1.map Trie.plain) =
    ((LTracked.new t.plain).markAll P ks).map fun r => match r with
      | .error k => .error (.unexpectedKey (ofList k))
      | .ok tr => .ok (standIn (TrieKind.cacheGet t.ann s.state) ks (tr.subset kec)) := by
  obtain ⟨w, p, Z, h1, h2⟩ := h.refine
  obtain ⟨f, g1, g2⟩ := h1.handle hi
  have := (h2 (.subset i ks) hk).plain
  have hpl := h1.plains
  simp only [Sys.exec, PSys.exec, exec_on hi, PSys.on, g1, g2] at this
  revert this
  rcases createTrieSubset P kec t (ks.map ofList) s.state with e | ⟨r | r, st⟩ <;>
  rcases hm : (LTracked.new t.plain).markAll P ks with e' | (r' | r') <;>
    simp [plainRes, PSys.plainRes, Except.map, Sys.plains, PSys.push_plains, ← hpl]
  rw [PSys.subsetX_stand (LTracked.touched_new _) hm]
  exact fun e => e

/-- `create_trie_subsets` in any program. -/
theorem Live.subsets_exact (h : Live K M P kec s) (hi : s.hs[i]? = some t) {kss : List (List Key)}
    (hk : ∀ ks ∈ kss, ∀ k ∈ ks, k.length ≤ 127) :
    (createTrieSubsets P kec t (kss.map fun ks => ks.map ofList) s.state).map
      (fun r => r.1.map fun ts => ts.map Trie.plain) =
    (PSys.subsetsL P kec (LTracked.new t.plain) kss).map fun r => match r with
      | .error k => .error (.unexpectedKey (ofList k))
      | .ok ls => .ok (standIns (TrieKind.cacheGet t.ann s.state) t.plain.keepsMark false kss ls) := by
  obtain ⟨w, p, Z, h1, h2⟩ := h.refine
  obtain ⟨f, g1, g2⟩ := h1.handle hi
  have := (h2 (.subsets i kss) hk).plain
  have hpl := h1.plains
  simp only [Sys.exec, PSys.exec, exec_on hi, PSys.on, g1, g2] at this
  have hx := PSys.subsetsX_stand (P := P) (C := K.cells) (kec := kec) kss (LTracked.new t.plain)
    (TrieKind.cacheGet t.ann s.state)
  rw [LTracked.node_new, LTracked.touched_new] at hx
  revert this hx
  generalize createTrieSubsets P kec t (kss.map fun ks => ks.map ofList) s.state = x
  rcases x with e | ⟨r | r, st⟩ <;>
  rcases PSys.subsetsX P K.cells kec (LTracked.new t.plain) (TrieKind.cacheGet t.ann s.state) kss
    with e' | ⟨r' | r', c'⟩ <;>
  rcases PSys.subsetsL P kec (LTracked.new t.plain) kss with e'' | (r'' | r'') <;>
    simp [plainRes, PSys.plainRes, Except.map, Sys.plains, PSys.push_plains, ← hpl]
  all_goals intros; simp_all

/-- The cells of the roots of new tries are empty, unless they are clones. -/
theorem Live.new_none (h : Live K M P kec s) {c : Cmd} (hs : c.Short) (hc : ∀ i, c ≠ .clone i)
    {s' : Sys K.Ann K.State} {o : Obs} (he : s.exec P kec c = .ok (s', o)) {j : Nat} {t : Trie K.Ann}
    (hj : s.hs.length ≤ j) (ht : s'.hs[j]? = some t) : TrieKind.cacheGet t.ann s'.state = none := by
  obtain ⟨w, p, Z, h1, h2⟩ := h.refine
  have h3 := h2 c hs
  revert h3
  rcases hp : p.exec P K.cells kec c with e | ⟨p', o'⟩
  · intro h3
    rw [show s.exec P kec c = .error e from h3] at he
    cases he
  · rintro ⟨s'', w', Z', k1, k2, k3⟩
    rw [k1] at he
    cases he
    obtain ⟨f, g1, g2⟩ := k3.handle ht
    rw [← g2]
    refine PSys.exec_new hc h1.above ?_ hp ?_ g1
    · intro t ht
      rw [h1.phs, List.mem_map] at ht
      obtain ⟨a, ha, rfl⟩ := ht
      exact (h1.ok a ha).fam
    · rw [h1.hs, List.length_map] at hj
      rw [h1.phs, List.length_map]
      exact hj

end EthTrie
