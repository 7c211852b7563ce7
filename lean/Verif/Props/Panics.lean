import Verif.Props.Stale
import Verif.Serde.Untrusted
import Verif.Serde.Live

/-!
# C59: panics that are caught

What a program finds in its tries and in their caches after it has caught a panic.
-/

namespace EthTrie

open Spec KMap LNode Nibbles

/-! ## Programs that only make new nodes -/

/-- The program makes new nodes but does not touch existing cache cells. -/
inductive Prog.Quiet {α β : Type} : Prog α β → Prop
  | ret (b : β) : Quiet (.ret b)
  | panic (e : Panic) : Quiet (.panic e)
  | alloc {k : α → Prog α β} (h : ∀ a, Quiet (k a)) : Quiet (.alloc k)

namespace Prog.Quiet
variable {α β γ : Type}

theorem bind {p : Prog α β} {f : β → Prog α γ} (hp : p.Quiet) (hf : ∀ b, (f b).Quiet) :
    (p >>= f).Quiet := by
  show (p.bind f).Quiet
  induction hp with
  | ret b => exact hf b
  | panic e => exact .panic e
  | alloc h ih => exact .alloc ih

theorem lift (r : R β) : (Prog.lift r : Prog α β).Quiet := by
  cases r with
  | ok b => exact .ret b
  | error e => exact .panic e

end Prog.Quiet

section
variable {α : Type} {P : Profile}

theorem quiet_empty : (newEmpty : Prog α (Trie α)).Quiet := .alloc fun _ => .ret _
theorem quiet_hash (h : H256) : (newHash h : Prog α (Trie α)).Quiet := .alloc fun _ => .ret _
theorem quiet_branch (cs : Fin 16 → Trie α) (v : Bytes) : (newBranch cs v).Quiet := .alloc fun _ => .ret _
theorem quiet_ext (n : Nibbles) (c : Trie α) : (newExt n c).Quiet := .alloc fun _ => .ret _
theorem quiet_leaf (n : Nibbles) (v : Bytes) : (newLeaf n v : Prog α (Trie α)).Quiet := .alloc fun _ => .ret _

theorem quiet_create (n : Nibbles) (v : ValOrHash) :
    (createNodeFromInsertVal n v : Prog α (Trie α)).Quiet := by
  cases v with
  | val v => exact quiet_leaf n v
  | hash h =>
    simp only [createNodeFromInsertVal]
    split
    · exact .bind (quiet_hash h) fun c => quiet_ext n c
    · exact quiet_hash h

theorem quiet_empties : ∀ n : Nat, (newEmpties n : Prog α (List (Trie α))).Quiet
  | 0 => .ret _
  | n + 1 => .bind quiet_empty fun _ => .bind (quiet_empties n) fun _ => .ret _

theorem quiet_place (info : PrePost) (t : Trie α) (e : InsertEntry) : (placeBranch P info t e).Quiet := by
  have h1 : (insEntryIntoLeafAndNibble P info e : Prog α _).Quiet :=
    .bind (.lift _) fun _ => .bind (.lift _) fun _ => .bind (.lift _) fun _ =>
      .bind (quiet_create _ _) fun _ => .ret _
  have h2 : (checkPlacement P info t e).Quiet := by
    unfold checkPlacement
    split
    · exact .bind h1 fun _ => .ret _
    · exact .bind (.lift _) fun _ => .bind (.lift _) fun _ => .ret _
    · exact .bind (.lift _) fun _ => .bind h1 fun _ => .ret _
  unfold placeBranch newBranchChildArr
  refine .bind (.bind quiet_empty fun _ => .bind (quiet_empties 15) fun _ => .ret _) fun _ =>
    .bind (.bind h2 fun _ => ?_) fun _ => .bind (quiet_branch _ _) fun _ => ?_
  · split
    · exact .bind (.lift _) fun _ => .ret _
    · exact .bind (.lift _) fun _ => .bind (.lift _) fun _ => .ret _
  · split
    · exact .ret _
    · exact quiet_ext _ _

theorem quiet_insertRec (t : Trie α) (e : InsertEntry) : (insertRec P t e).Quiet := by
  induction t generalizing e with
  | empty a => exact .bind (quiet_create _ _) fun _ => .ret _
  | hash a h => exact .panic _
  | branch a cs v ih =>
    rw [insertRec]
    split
    · refine .bind ?_ fun _ => .ret _
      unfold branchFromInsertVal
      split
      · exact quiet_branch _ _
      · exact .panic _
    · refine .bind (.lift _) fun x => .bind (.lift _) fun i => .bind (ih i _) fun o => ?_
      split
      · exact .ret _
      · exact .bind (quiet_branch _ _) fun _ => .ret _
  | ext a n c ih =>
    rw [insertRec]
    refine .bind (.lift _) fun info => .bind (.lift _) fun b => ?_
    split
    · refine .bind (.lift _) fun r => .bind (ih _) fun o => ?_
      split
      · exact .ret _
      · exact .bind (quiet_ext _ _) fun _ => .ret _
    · refine .bind (.lift _) fun adj => .bind ?_ fun u => .bind (quiet_place _ _ _) fun _ => .ret _
      split
      · exact .ret _
      · exact quiet_ext _ _
  | leaf a n v =>
    rw [insertRec]
    split
    · refine .bind ?_ fun _ => .ret _
      unfold leafFromInsertVal
      split
      · exact quiet_leaf _ _
      · exact .panic _
    · exact .bind (.lift _) fun _ => .bind (.lift _) fun _ => .bind (.lift _) fun _ =>
        .bind (quiet_leaf _ _) fun _ => .bind (quiet_place _ _ _) fun _ => .ret _

theorem quiet_insert (t : Trie α) (k : Nibbles) (v : ValOrHash) : (trieInsert P t k v).Quiet := by
  refine .bind (quiet_insertRec _ _) fun o => ?_
  split
  · exact .panic _
  · exact .ret _

theorem quiet_extend (t : Trie α) (xs : List (Nibbles × ValOrHash)) : (trieExtend P t xs).Quiet := by
  induction xs generalizing t with
  | nil => exact .ret _
  | cons x xs ih => exact .bind (quiet_insert _ _ _) fun t' => ih t'

theorem quiet_collapseExt (n : Nibbles) (c : Trie α) : (collapseExt P n c).Quiet := by
  unfold collapseExt
  split
  · exact quiet_ext _ _
  · exact .bind (.lift _) fun _ => quiet_ext _ _
  · exact .bind (.lift _) fun _ => quiet_leaf _ _
  · exact quiet_ext _ _
  · exact .panic _

theorem quiet_tryCollapse (t : Trie α) : (tryCollapseIfExt P t).Quiet := by
  unfold tryCollapseIfExt
  split
  · exact quiet_collapseExt _ _
  · exact .ret _

theorem quiet_deleteIntern (t : Trie α) (k : Nibbles) : (deleteIntern P t k).Quiet := by
  induction t generalizing k with
  | empty a => exact .ret _
  | hash a h => exact .panic _
  | branch a cs v ih =>
    rw [deleteIntern]
    split
    · exact .bind (quiet_branch _ _) fun _ => .ret _
    · refine .bind (.lift _) fun x => .bind (.lift _) fun i => .bind (ih i _) fun o => ?_
      split
      · exact .ret _
      · refine .bind ?_ fun _ => .ret _
        split
        · exact .bind (quiet_tryCollapse _) fun _ => quiet_branch _ _
        · exact .bind (.lift _) fun _ => .bind (.lift _) fun _ => quiet_ext _ _
  | ext a n c ih =>
    rw [deleteIntern]
    refine .bind (.lift _) fun b => ?_
    split
    · refine .bind (.lift _) fun r => .bind (ih _) fun o => ?_
      split
      · exact .ret _
      · exact .bind (quiet_collapseExt _ _) fun _ => .ret _
    · exact .ret _
  | leaf a n v =>
    rw [deleteIntern]
    split
    · exact .bind quiet_empty fun _ => .ret _
    · exact .ret _

theorem quiet_delete (t : Trie α) (k : Nibbles) : (trieDelete P t k).Quiet := by
  refine .bind (quiet_deleteIntern _ _) fun o => ?_
  split
  · exact .ret _
  · exact .bind (quiet_tryCollapse _) fun _ => .ret _

end

section
variable {K : Kind} {β : Type}

/-- Such a program keeps the cells, whether it panics or not. -/
theorem Prog.Quiet.keep {p : Prog K.Ann β} (h : p.Quiet) (s : K.State) : KeepS K s (p.stop s) := by
  induction h generalizing s with
  | ret b => exact .refl s
  | panic e => exact .refl s
  | alloc h ih => exact (keepS_alloc s).trans (ih _ _)

/-- The same cells exist. -/
def SameCells : (K : Kind) → K.State → K.State → Prop
  | .standard, _, _ => True
  | .hashed, s, s' => s.next = s'.next

/-- Whether such a program panics does not depend on what is in the cells. -/
theorem Prog.Quiet.panics {p : Prog K.Ann β} (h : p.Quiet) {s s' : K.State} (hs : SameCells K s s')
    {e : Panic} (he : p.run s = .error e) : p.run s' = .error e := by
  induction h generalizing s s' with
  | ret b => cases he
  | panic e => exact he
  | @alloc k h ih =>
    cases K with
    | standard => exact ih _ (s' := s') trivial he
    | hashed =>
      have e : (TrieKind.alloc s : CellId × Heap).1 = (TrieKind.alloc s').1 := congrArg CellId.mk hs
      have e2 : SameCells .hashed (Kind.hashed.trieKind.alloc s).2 (Kind.hashed.trieKind.alloc s').2 := by
        have hs : s.next = s'.next := hs
        show s.next + 1 = s'.next + 1
        rw [hs]
      show (k (TrieKind.alloc s').1).run (TrieKind.alloc s' : CellId × Heap).2 = _
      rw [← e]
      exact ih _ e2 he

end

/-! ## One call -/

section
variable {K : Kind} {P : Profile} {kec : Bytes → H256} {s : Sys K.Ann K.State}

/-- The calls that do not look at cache cells and that do not change a trie step by step. -/
def Cmd.Atomic : Cmd → Prop
  | .extend _ _ => False
  | .hash _ => False
  | .subset _ _ => False
  | .subsets _ _ => False
  | _ => True

/-- C59, `insert`, `delete`, `FromIterator`, `get`, `items` and `==`, in any state: a call that panics
leaves all tries as they were, and all cache cells. -/
theorem C59_intact {c : Cmd} (hc : c.Atomic) {e : Panic} (he : s.exec P kec c = .error e) :
    (s.afterPanic P kec c).hs = s.hs ∧
    ∀ a, K.used s.state a → K.get (s.afterPanic P kec c).state a = K.get s.state a := by
  have same : ∀ {σ : K.State} {p : Sys K.Ann K.State}, p = ⟨σ, s.hs⟩ → KeepS K s.state σ → p.hs = s.hs ∧
      ∀ a, K.used s.state a → K.get p.state a = K.get s.state a :=
    fun hp hk => by subst hp; exact ⟨rfl, fun a ha => (hk a ha).2⟩
  cases c with
  | insert i k v =>
    rw [Sys.afterPanic]
    rcases onS_cases s i _ with ⟨_, e⟩ | ⟨t, hi, e⟩ <;> rw [e]
    · exact same rfl (.refl _)
    refine same rfl ?_
    simp only [Trie.insert, Prog.stop_bind]
    cases hr : (trieInsert P t (ofList k) v).run s.state with
    | error e' => exact (quiet_insert _ _ _).keep _
    | ok r =>
      simp only [Sys.exec, Sys.on, hi, Trie.insert, Prog.bind_run, hr] at he
      cases he
  | delete i k =>
    rw [Sys.afterPanic]
    rcases onS_cases s i _ with ⟨_, e⟩ | ⟨t, hi, e⟩ <;> rw [e]
    · exact same rfl (.refl _)
    refine same rfl ?_
    simp only [Trie.delete, Prog.stop_bind]
    cases hr : (trieDelete P t (ofList k)).run s.state with
    | error e' => exact (quiet_delete _ _).keep _
    | ok r =>
      simp only [Sys.exec, Sys.on, hi, Trie.delete, Prog.bind_run, hr] at he
      cases he
  | fromIter xs =>
    refine same rfl ?_
    have h1 : (newEmpty : Prog K.Ann (Trie K.Ann)).run s.state =
        .ok (.empty (K.trieKind.alloc s.state).1, (K.trieKind.alloc s.state).2) := rfl
    simp only [EthTrie.fromIter, Prog.stop_bind, h1, Trie.extend]
    cases hr : (trieExtend P (.empty (K.trieKind.alloc s.state).1) (packEntries xs)).run
        (K.trieKind.alloc s.state).2 with
    | error e' => exact (keepS_alloc _).trans ((quiet_extend _ _).keep _)
    | ok r =>
      simp only [Sys.exec, EthTrie.fromIter, Prog.bind_run, h1, Trie.extend, hr] at he
      cases he
  | extend i xs => exact hc.elim
  | hash i => exact hc.elim
  | subset i ks => exact hc.elim
  | subsets i kss => exact hc.elim
  | new => exact same rfl (.refl _)
  | clone i => exact same rfl (.refl _)
  | get i k => exact same rfl (.refl _)
  | items i => exact same rfl (.refl _)
  | eq i j => exact same rfl (.refl _)

/-- What the loop of `extend` has done when it ends. -/
theorem extendUntil_prefix : ∀ (xs : List (Nibbles × ValOrHash)) (t : Trie K.Ann) (σ : K.State),
    ∃ ys zs σ', xs = ys ++ zs ∧
      (trieExtend P t ys).run σ = .ok ((extendUntil P t xs σ).1, σ') ∧
      (zs = [] ∧ (extendUntil P t xs σ).2 = σ' ∨
       ∃ k v zs' e, zs = (k, v) :: zs' ∧ (trieInsert P (extendUntil P t xs σ).1 k v).run σ' = .error e ∧
        (trieExtend P t xs).run σ = .error e ∧
        (extendUntil P t xs σ).2 = (trieInsert P (extendUntil P t xs σ).1 k v).stop σ') := by
  intro xs
  induction xs with
  | nil => intro t σ; exact ⟨[], [], σ, rfl, rfl, .inl ⟨rfl, rfl⟩⟩
  | cons x xs ih =>
    intro t σ
    obtain ⟨k, v⟩ := x
    simp only [extendUntil, trieExtend, Prog.bind_run]
    cases hr : (trieInsert P t k v).run σ with
    | error e => exact ⟨[], _, σ, rfl, rfl, .inr ⟨k, v, xs, e, rfl, hr, rfl, rfl⟩⟩
    | ok r =>
      obtain ⟨t', σ1⟩ := r
      obtain ⟨ys, zs, σ', h1, h2, h3⟩ := ih t' σ1
      refine ⟨(k, v) :: ys, zs, σ', by rw [h1]; rfl, ?_, h3⟩
      simp only [trieExtend, Prog.bind_run, hr, h2]

theorem sameCells_set (s : K.State) (a : K.Ann) (v : Option H256) :
    SameCells K s (K.trieKind.cacheSet a v s) := by cases K <;> trivial

theorem extendUntil_keep (xs : List (Nibbles × ValOrHash)) (t : Trie K.Ann) (σ : K.State) :
    KeepS K σ (extendUntil P t xs σ).2 := by
  obtain ⟨ys, zs, σ', _, h2, h3⟩ := extendUntil_prefix (P := P) xs t σ
  have h4 := (quiet_extend (P := P) t ys).keep σ
  rw [Prog.stop_of_run h2] at h4
  rcases h3 with ⟨_, h3⟩ | ⟨k, v, _, _, _, _, _, h3⟩ <;> rw [h3]
  · exact h4
  · exact h4.trans ((quiet_insert _ _ _).keep _)

theorem packEntries_append (xs ys : List (Key × ValOrHash)) :
    packEntries (xs ++ ys) = packEntries xs ++ packEntries ys := by simp [packEntries]

/-- C59, `extend`, in any state: a call that panics has inserted some of the entries, the first ones, and
inserting the next one panics.  The tries are what they are after a call of `extend` with these first
entries, but the cache cell of the trie has not been emptied: all cache cells are as before the
call. -/
theorem C59_extend {i : Nat} {xs : List (Key × ValOrHash)} {e : Panic}
    (he : s.exec P kec (.extend i xs) = .error e) :
    ∃ ys k v zs s₁, xs = ys ++ (k, v) :: zs ∧ s.exec P kec (.extend i ys) = .ok (s₁, .unit) ∧
      s₁.exec P kec (.insert i k v) = .error e ∧ (s.afterPanic P kec (.extend i xs)).hs = s₁.hs ∧
      ∀ a, K.used s.state a → K.get (s.afterPanic P kec (.extend i xs)).state a = K.get s.state a := by
  cases hi' : s.hs[i]? with
  | none =>
    simp only [Sys.exec, Sys.on, hi'] at he
    cases he
  | some t =>
  have hi := (List.getElem?_eq_some_iff.1 hi').1
  have hk := extendUntil_keep (P := P) (packEntries xs) t s.state
  obtain ⟨ys, zs, σ', h1, h2, h3⟩ := extendUntil_prefix (P := P) (packEntries xs) t s.state
  obtain ⟨xs1, xs2, rfl, h6, h7⟩ := List.map_eq_append_iff.1 h1
  replace h6 : ys = packEntries xs1 := h6.symm
  replace h7 : zs = packEntries xs2 := h7.symm
  subst h6 h7
  simp only [Sys.exec, Sys.on, hi', Trie.extend, Prog.bind_run] at he
  rcases h3 with ⟨hz, h3⟩ | ⟨k, v, zs', e', hz, h3, h4, h5⟩
  · exfalso
    have : xs2 = [] := by simpa [packEntries] using hz
    subst this
    rw [List.append_nil] at he h2
    rw [h2] at he
    cases he
  · obtain ⟨x, zs, rfl, hx, rfl⟩ := List.map_eq_cons_iff.1 hz
    obtain ⟨k0, v⟩ := x
    cases hx
    rw [h4] at he
    cases he
    generalize hu : (extendUntil P t (packEntries (xs1 ++ (k0, v) :: zs)) s.state).1 = u at *
    have hset : ((Trie.extend P t (packEntries xs1)).run s.state : R (Trie K.Ann × K.State)) =
        .ok (u, K.trieKind.cacheSet u.ann none σ') := by
      simp only [Trie.extend, Prog.bind_run, h2]
      rfl
    refine ⟨xs1, k0, v, zs, ⟨K.trieKind.cacheSet u.ann none σ', s.hs.set i u⟩, rfl, ?_, ?_, ?_, ?_⟩
    · simp only [Sys.exec, Sys.on, hi', hset]
      rfl
    · have h6 := (quiet_insert u (ofList k0) v).panics (sameCells_set σ' u.ann none) h3
      simp only [Sys.exec, Sys.on, List.getElem?_set, hi, Trie.insert, Prog.bind_run, if_true]
      rw [h6]
      rfl
    · simp only [Sys.afterPanic, Sys.onS, hi', hu]
    · simp only [Sys.afterPanic, Sys.onS, hi']
      exact fun a ha => (hk a ha).2

/-- C59, `extend` with an iterator that panics: the trie has the entries that the iterator has returned
before, and all cache cells are as before the call. -/
theorem C59_iterator {i : Nat} {xs : List (Key × ValOrHash)} {s₁ : Sys K.Ann K.State} {o : Obs}
    (he : s.exec P kec (.extend i xs) = .ok (s₁, o)) :
    (s.afterPanic P kec (.extend i xs)).hs = s₁.hs ∧
    ∀ a, K.used s.state a → K.get (s.afterPanic P kec (.extend i xs)).state a = K.get s.state a := by
  rcases onS_cases s i fun t => ⟨(extendUntil P t (packEntries xs) s.state).2,
    s.hs.set i (extendUntil P t (packEntries xs) s.state).1⟩ with ⟨hi, _⟩ | ⟨t, hi, e⟩
  · simp only [Sys.exec, Sys.on, hi] at he
    cases he
    simp only [Sys.afterPanic, Sys.onS, hi]
    exact ⟨trivial, fun _ _ => trivial⟩
  · have hk := extendUntil_keep (P := P) (packEntries xs) t s.state
    rw [Sys.afterPanic, e]
    refine ⟨?_, fun a ha => (hk a ha).2⟩
    obtain ⟨ys, zs, σ', h1, h2, h3⟩ := extendUntil_prefix (P := P) (packEntries xs) t s.state
    simp only [Sys.exec, Sys.on, hi, Trie.extend, Prog.bind_run] at he
    rcases h3 with ⟨rfl, h3⟩ | ⟨k, v, zs', e', hz, h3, h4, h5⟩
    · rw [List.append_nil] at h1
      rw [← h1] at h2
      rw [h2] at he
      cases he
      rfl
    · rw [h4] at he
      cases he

/-! ## States that programs reach -/

variable {M : Mode}

/-- C59, `hash` and subsets for one list of keys: the former never panics; the latter panics before it has
read or written anything. -/
theorem C59_reads (h : Live K M P kec s) {c : Cmd} (hs : c.Short)
    (hc : (∃ i, c = .hash i) ∨ ∃ i ks, c = .subset i ks) {e : Panic} (he : s.exec P kec c = .error e) :
    s.afterPanic P kec c = s := by
  obtain ⟨w, p, Z, h1, _⟩ := h.inv.ex
  rcases hc with ⟨i, rfl⟩ | ⟨i, ks, rfl⟩
  · exfalso
    cases hi : s.hs[i]? with
    | none => simp only [Sys.exec, Sys.on, hi] at he; cases he
    | some t =>
      obtain ⟨l, f, hz⟩ := h1.zip hi
      obtain ⟨x, w', g1, _⟩ := run_rootHash (P := P) (h1.ok _ (List.mem_of_getElem? hz)).rep
      simp only [Sys.exec, Sys.on, hi, h1.state, g1] at he
      cases he
  · cases hi : s.hs[i]? with
    | none => simp only [Sys.exec, Sys.on, hi] at he; cases he
    | some t =>
      simp only [Sys.afterPanic, Sys.onS, hi]
      rw [subset_stop h1 hi hs he]

/-- C59, subsets for several lists of keys: the cache cells are what they are after a call with the first
of the lists (whose results are lost).  The tries are as they were. -/
theorem C59_subsets (h : Live K M P kec s) {i : Nat} {kss : List (List Key)}
    (hs : ∀ ks ∈ kss, ∀ k ∈ ks, k.length ≤ 127) {e : Panic}
    (he : s.exec P kec (.subsets i kss) = .error e) :
    ∃ n ts, s.exec P kec (.subsets i (kss.take n)) =
        .ok (⟨(s.afterPanic P kec (.subsets i kss)).state, s.hs ++ ts⟩, .unit) ∧
      (s.afterPanic P kec (.subsets i kss)).hs = s.hs := by
  obtain ⟨w, p, Z, h1, _⟩ := h.inv.ex
  cases hi : s.hs[i]? with
  | none => simp only [Sys.exec, Sys.on, hi] at he; cases he
  | some t =>
    obtain ⟨n, ts, g⟩ := subsets_taken h1 hi hs he
    refine ⟨n, ts, ?_, ?_⟩ <;> simp only [Sys.afterPanic, Sys.onS, hi]
    exact g

/-- The tries without caches after a panic. -/
def plainsAfter (ls : List LNode) : Cmd → List LNode
  | .extend i xs => match ls[i]? with
    | none => ls
    | some l => ls.set i (l.putUntil xs)
  | _ => ls

theorem Live.plains_caught (h : Live K M P kec s) {c : Cmd} (hs : c.Short) :
    (s.afterPanic P kec c).plains = plainsAfter s.plains c := by
  have on : ∀ (i : Nat) (f : Trie K.Ann → K.State),
      (s.onS i fun t => ⟨f t, s.hs⟩).plains = s.plains := by
    intro i f
    rcases onS_cases s i fun t => ⟨f t, s.hs⟩ with ⟨_, e⟩ | ⟨t, hi, e⟩ <;> rw [e] <;> rfl
  cases c with
  | extend i xs =>
    rw [Sys.afterPanic, plainsAfter]
    rcases onS_cases s i _ with ⟨hi, e⟩ | ⟨t, hi, e⟩ <;> rw [e]
    · rw [Sys.plains, List.getElem?_map, hi]; rfl
    · obtain ⟨w, p, Z, h1, _⟩ := h.inv.ex
      obtain ⟨l, f, hz⟩ := h1.zip hi
      have hok := h1.ok _ (List.mem_of_getElem? hz)
      obtain ⟨w', _, _, g3, _⟩ := extendUntil_run (P := P) xs t l w hok.rep hok.bound hok.ext hs
      rw [plains_get hi]
      simp only [Sys.plains, List.map_set]
      rw [h1.state, g3.plain, hok.rep.plain]
  | insert i k v => exact on i _
  | delete i k => exact on i _
  | hash i => exact on i _
  | subset i ks => exact on i _
  | subsets i kss => exact on i _
  | _ => rfl

theorem Live.execC (h : Live K M P kec s) {c : Cmd} (hs : c.Short) (hp : permitted K M c)
    (hc : s.Catchable K M c) : Live K M P kec (s.execC P kec c).1 := by
  unfold Sys.execC
  cases he : s.exec P kec c with
  | ok r => exact h.step hs hp he
  | error e => exact h.caught hs hp hc he

/-- C59: after a caught panic, in the modes in which hashes are right, they are still right, and the tries
are sound. -/
theorem C59_hash [M.Safe] (h : Live K M P kec s) {c : Cmd} (hs : c.Short) (hp : permitted K M c)
    (hc : s.Catchable K M c) {e : Panic} (he : s.exec P kec c = .error e) {i : Nat} {t : Trie K.Ann}
    (hi : (s.afterPanic P kec c).hs[i]? = some t) :
    t.Sound K M P kec (s.afterPanic P kec c).state ∧
    (t.rootHash P kec (s.afterPanic P kec c).state).map (·.1) = (t.bare.rootHash P kec ()).map (·.1) := by
  have h' := Live.caught h hs hp hc he
  exact ⟨h'.inv.sound (List.mem_of_getElem? hi), C24_partial h' hi⟩

end

/-! ## Whole programs -/

section
variable {P : Profile} {kec : Bytes → H256}

/-- C59 and C23, one call whose panic may be caught: if the tries are the same up to caches and the call
does not read a stale cell, then the result is the same, panics included, and the tries are the same
afterwards. -/
theorem C59_call {M₁ M₂ : Mode}
    {s₁ : Sys Kind.standard.Ann Kind.standard.State} {s₂ : Sys Kind.hashed.Ann Kind.hashed.State}
    (h₁ : Live .standard M₁ P kec s₁) (h₂ : Live .hashed M₂ P kec s₂) (hb : s₁.bares = s₂.bares)
    {c : Cmd} (hc : c.Short) (hf : s₂.FreshFor kec c) :
    (s₁.execC P kec c).2 = (s₂.execC P kec c).2 ∧
    (s₁.execC P kec c).1.bares = (s₂.execC P kec c).1.bares := by
  have e := C23_call h₁ h₂ hb hc hf
  unfold Sys.execC
  revert e
  rcases he1 : s₁.exec P kec c with e | ⟨s₁', o₁⟩ <;>
    rcases he2 : s₂.exec P kec c with e' | ⟨s₂', o₂⟩
  · intro h
    cases h
    refine ⟨rfl, ?_⟩
    have plains : ∀ {K : Kind} {s : Sys K.Ann K.State}, s.plains = s.bares.map Trie.plain := by
      intro K s
      simp [Sys.plains, Sys.bares, Function.comp_def, plain_bare]
    obtain ⟨w₁, p₁, Z₁, i1, _⟩ := (h₁.any.inv.caught hc (permitted_any _ _) (catchable_any _ _) he1).ex
    obtain ⟨w₂, p₂, Z₂, i2, _⟩ := (h₂.any.inv.caught hc (permitted_any _ _) (catchable_any _ _) he2).ex
    refine bares_eq i1 i2 ?_
    rw [← i1.plains, ← i2.plains, h₁.plains_caught hc, h₂.plains_caught hc, plains, plains, hb]
  · intro h; cases h
  · intro h; cases h
  · intro h
    simp only [bareRes, Except.map, Except.ok.injEq, Prod.mk.injEq] at h
    exact ⟨congrArg _ h.2, h.1⟩

/-- A program that catches all panics and that has no stale cells, call by call. -/
theorem C59_first (P : Profile) (kec : Bytes → H256) {cs : List Cmd} (hc : ∀ c ∈ cs, c.Short) :
    ((Kind.standard.runC P kec cs).2 = (Kind.hashed.runC P kec cs).2 ∧
      (Kind.standard.runC P kec cs).1.bares = (Kind.hashed.runC P kec cs).1.bares) ∨
    ∃ cs₁ c cs₂, cs = cs₁ ++ c :: cs₂ ∧
      (Kind.standard.runC P kec cs₁).2 = (Kind.hashed.runC P kec cs₁).2 ∧
      (Kind.standard.runC P kec cs₁).1.bares = (Kind.hashed.runC P kec cs₁).1.bares ∧
      ¬ (Kind.hashed.runC P kec cs₁).1.FreshFor kec c := by
  have key : ∀ (cs : List Cmd) (s₁ : Sys Kind.standard.Ann Kind.standard.State)
      (s₂ : Sys Kind.hashed.Ann Kind.hashed.State), (∀ c ∈ cs, c.Short) →
      Live .standard .any P kec s₁ → Live .hashed .any P kec s₂ → s₁.bares = s₂.bares →
      ((s₁.runC P kec cs).2 = (s₂.runC P kec cs).2 ∧
        (s₁.runC P kec cs).1.bares = (s₂.runC P kec cs).1.bares) ∨
      ∃ cs₁ c cs₂, cs = cs₁ ++ c :: cs₂ ∧ (s₁.runC P kec cs₁).2 = (s₂.runC P kec cs₁).2 ∧
        (s₁.runC P kec cs₁).1.bares = (s₂.runC P kec cs₁).1.bares ∧
        ¬ (s₂.runC P kec cs₁).1.FreshFor kec c := by
    intro cs
    induction cs with
    | nil => intro s₁ s₂ _ _ _ hb; exact .inl ⟨rfl, hb⟩
    | cons c cs ih =>
      intro s₁ s₂ hc h₁ h₂ hb
      by_cases hf : s₂.FreshFor kec c
      · obtain ⟨e1, e2⟩ := C59_call h₁ h₂ hb (hc c (by simp)) hf
        rcases ih _ _ (fun c h => hc c (by simp [h])) (h₁.execC (hc c (by simp)) (permitted_any _ _)
          (catchable_any _ _)) (h₂.execC (hc c (by simp)) (permitted_any _ _) (catchable_any _ _)) e2 with
          ⟨g1, g2⟩ | ⟨cs₁, d, cs₂, rfl, g1, g2, g3⟩
        · exact .inl ⟨by simp only [Sys.runC, e1, g1], g2⟩
        · exact .inr ⟨c :: cs₁, d, cs₂, rfl, by simp only [Sys.runC, e1, g1], g2, g3⟩
      · exact .inr ⟨[], c, cs, rfl, rfl, hb, hf⟩
  exact key cs _ _ hc .start .start rfl

/-- C59: a program that catches all panics gets the same results from both trie types, panics included,
and ends with the same tries, if it takes no subset for no keys, or if it uses neither `clone` nor
`extend`. -/
theorem C59_partial (P : Profile) (kec : Bytes → H256) {cs : List Cmd} (hc : ∀ c ∈ cs, c.Short)
    (hp : (∀ c ∈ cs, permitted .hashed .noEmptySubset c) ∨
      ∀ c ∈ cs, ∀ i xs, c ≠ .clone i ∧ c ≠ .extend i xs) :
    (Kind.standard.runC P kec cs).2 = (Kind.hashed.runC P kec cs).2 ∧
    (Kind.standard.runC P kec cs).1.bares = (Kind.hashed.runC P kec cs).1.bares := by
  rcases C59_first P kec hc with h | ⟨cs₁, c, cs₂, rfl, _, _, hn⟩
  · exact h
  · exfalso
    have run : ∀ {M : Mode} (ds : List Cmd) (s : Sys Kind.hashed.Ann Kind.hashed.State),
        Live .hashed M P kec s → (∀ d ∈ ds, d.Short ∧ permitted .hashed M d ∧
          ∀ s : Sys Kind.hashed.Ann Kind.hashed.State, s.Catchable .hashed M d) →
        Live .hashed M P kec (s.runC P kec ds).1 := by
      intro M ds
      induction ds with
      | nil => intro s h _; exact h
      | cons d ds ih =>
        intro s h hd
        obtain ⟨h1, h2, h3⟩ := hd d (by simp)
        exact ih _ (h.execC h1 h2 (h3 s)) fun x hx => hd x (by simp [hx])
    rcases hp with hp | hp
    · refine hn (Live.freshFor (M := .noEmptySubset) (P := P) (run cs₁ _ .start fun d hd =>
        ⟨hc d (by simp [hd]), hp d (by simp [hd]), fun s => ?_⟩) c)
      cases d <;> first | trivial | exact fun _ h => nomatch h
    · refine hn (Live.freshFor (M := .noClone) (P := P) (run cs₁ _ .start fun d hd =>
        ⟨hc d (by simp [hd]), ?_, fun s => ?_⟩) c)
      · have := hp d (by simp [hd])
        cases d <;> first | trivial | exact ((this _ []).1 rfl).elim
      · have := hp d (by simp [hd])
        cases d <;> first | trivial | exact ((this _ _).2 rfl).elim

/-- The hash of a subtrie. -/
def witnessHash : H256 := Vector.replicate 32 9

/-- A program in which a panic is caught: `extend` has inserted one entry when the next one leads into a
hashed subtrie. -/
def panicProg : List Cmd :=
  [.fromIter [([1, 2], .hash witnessHash), ([3], .val (List.replicate 40 7))], .subset 0 [],
    .extend 0 [([4], .val (List.replicate 50 8)), ([1, 2, 3], .val [1]), ([5], .val [1])], .hash 0,
    .get 0 [4], .get 0 [5]]

/-- C59 fails in general: after the panic the entry that was inserted is there, but `hash()` of
`HashedPartialTrie` is that of the trie before the call.  No trie has been cloned. -/
theorem C59_false : ∀ (P : Profile) (kec : Bytes → H256), ∃ a b : Bytes, a ≠ b ∧
    (Kind.standard.runC P kec panicProg).2 = [.ok .unit, .ok .unit, .error .hashInsert,
      .ok (.root (kec a)), .ok (.val (some (List.replicate 50 8))), .ok (.val none)] ∧
    (Kind.hashed.runC P kec panicProg).2 = [.ok .unit, .ok .unit, .error .hashInsert,
      .ok (.root (kec b)), .ok (.val (some (List.replicate 50 8))), .ok (.val none)] := by
  intro ⟨P⟩
  refine spelled fun f => ⟨248 :: 113 :: 128 :: 160 ::
    (spell (f (226 :: 18 :: 160 :: witnessHash.toList))).toList ++ 128 :: 160 ::
    (spell (f (234 :: 32 :: 168 :: List.replicate 40 7))).toList ++ 160 ::
    (spell (f (244 :: 32 :: 178 :: List.replicate 50 8))).toList ++ List.replicate 12 128,
    248 :: 81 :: 128 :: 160 ::
    (spell (f (226 :: 18 :: 160 :: witnessHash.toList))).toList ++ 128 :: 160 ::
    (spell (f (234 :: 32 :: 168 :: List.replicate 40 7))).toList ++ List.replicate 13 128, ?_, ?_, ?_⟩
  · exact fun h => absurd (List.head_eq_of_cons_eq (List.tail_eq_of_cons_eq h)) (by decide)
  all_goals cases P <;> kernel_rfl

/-! ## Examples -/

/-- A panic in every call that can panic, in one program: `insert`, `delete` and `extend` at a hashed
subtrie. -/
def caughtProg : List Cmd :=
  [.fromIter [([1, 2], .hash witnessHash), ([3], .val (List.replicate 40 7))],
    .insert 0 [1, 2, 3] (.val [1]), .delete 0 [1, 2, 3], .hash 0,
    .extend 0 [([4], .val (List.replicate 50 8)), ([1, 2, 3], .val [1]), ([5], .val [1])],
    .clone 0, .hash 0, .get 1 [4], .get 0 [5], .subset 1 [[4]], .hash 2]

/-- `C59_partial` applies to it. -/
example : (∀ c ∈ caughtProg, c.Short) ∧ ∀ c ∈ caughtProg, permitted .hashed .noEmptySubset c := by
  constructor
  · simp only [caughtProg, List.forall_mem_cons, Cmd.Short]
    simp
  · simp [caughtProg, permitted]

/-- What it gets. -/
example : ∀ P : Profile, (Kind.hashed.runC P kec0 caughtProg).2 =
    [.ok .unit, .error .hashInsert, .error .hashDelete, .ok (.root (Vector.replicate 32 83)),
      .error .hashInsert, .ok .unit, .ok (.root (Vector.replicate 32 115)),
      .ok (.val (some (List.replicate 50 8))), .ok (.val none), .ok .unit,
      .ok (.root (Vector.replicate 32 115))] := by
  intro ⟨P⟩; cases P <;> decide +kernel

/-- `C59_first` with a stale cell: the fourth call of `panicProg`. -/
example : ¬ (Kind.hashed.runC ⟨true⟩ kec0 (panicProg.take 3)).1.FreshFor kec0 (.hash 0) := by
  intro h
  have h1 : ((Kind.hashed.runC ⟨true⟩ kec0 (panicProg.take 3)).1.hs[0]?.map fun t =>
      (TrieKind.cacheGet t.ann (Kind.hashed.runC ⟨true⟩ kec0 (panicProg.take 3)).1.state, t.plain.enc kec0)) =
      some (some (Vector.replicate 32 83), .hashed (Vector.replicate 32 115)) := by decide +kernel
  cases ht : (Kind.hashed.runC ⟨true⟩ kec0 (panicProg.take 3)).1.hs[0]? with
  | none => rw [ht] at h1; cases h1
  | some t =>
    rw [ht] at h1
    simp only [Option.map_some, Option.some.injEq, Prod.mk.injEq] at h1
    have := (h t ht _ h1.1).symm.trans h1.2
    revert this
    decide +kernel

/-- `C59_extend`: of three entries one is inserted. -/
example : ((Kind.hashed.runC ⟨true⟩ kec0 (panicProg.take 2)).1.exec ⟨true⟩ kec0
    (.extend 0 [([4], .val (List.replicate 50 8)), ([1, 2, 3], .val [1]), ([5], .val [1])])).map (·.2) =
      .error .hashInsert := by decide +kernel

end

end EthTrie
