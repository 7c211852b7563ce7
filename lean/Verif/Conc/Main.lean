import Verif.Conc.Inv

/-!
# Concurrent programs: what holds in every state, and termination
-/

namespace EthTrie

open Nibbles Spec

variable {K : Kind} {M : Mode} {P : Profile} {kec : Bytes → H256}

/-- A sequence of calls does on the handles what the calls on list-keyed tries do. -/
theorem LiveInv.run [M.Safe] {s : Sys K.Ann K.State} (h : LiveInv K M kec s) (cs : List Cmd)
    (hs : ∀ c ∈ cs, c.Short) (hp : ∀ c ∈ cs, permitted K M c) :
    (s.run P kec cs).map (fun r => (r.1.plains, r.2)) = plainRun P kec s.plains cs := by
  induction cs generalizing s with
  | nil => rfl
  | cons c cs ih =>
    obtain ⟨h1, h2⟩ := h.exec (P := P) (hs c (by simp)) (hp c (by simp))
    simp only [Sys.run, plainRun, ← h1]
    revert h2
    rcases s.exec P kec c with e | ⟨s', o⟩
    · intro _; rfl
    · intro h2
      have := ih (h2 s' o rfl) (fun c hc => hs c (by simp [hc])) (fun c hc => hp c (by simp [hc]))
      simp only [plainRes, Except.map, R_bind_ok, ← this]
      rcases s'.run P kec cs with e | ⟨s'', os⟩ <;> rfl

/-- Cells that belong to nothing can be taken for cells of inner nodes, so the cells of roots that are
filled belong to handles. -/
theorem LiveInv.clean {s : Sys K.Ann K.State} (h : LiveInv K M kec s) :
    ∃ w p Z, Inv (L := Kind.laws kec K) kec w s p Z ∧ CellInv K M kec p ∧
      ∀ b, (Kind.laws kec K).slot w b none →
        TrieKind.cacheGet b ((Kind.laws kec K).st w) = none ∨ ∃ a ∈ Z, a.1.ann = b := by
  obtain ⟨w, p, Z, h1, h2⟩ := h.ex
  cases K with
  | standard => exact ⟨w, p, Z, h1, h2, fun _ _ => .inl rfl⟩
  | hashed =>
    classical
    let w' : HW kec := ⟨w.heap, fun c =>
      if w.own c = none ∧ ∀ a ∈ Z, a.1.ann.id ≠ c then (w.heap.cell c).map LNode.hash else w.own c, by
        intro c x l hc ho
        split at ho
        · rw [hc] at ho
          cases ho
          rfl
        · exact w.ok c x l hc ho⟩
    have hsome : ∀ (a : CellId) (l : LNode), (lawsHashed kec).slot w a (some l) →
        (lawsHashed kec).slot w' a (some l) := by
      rintro a l ⟨g1, g2⟩
      refine ⟨g1, ?_⟩
      show (if _ then _ else _) = _
      rw [if_neg (by rw [g2]; simp), g2]
    have hrep : ∀ {t : Trie CellId} {l : LNode}, RepN (L := lawsHashed kec) kec w t l →
        RepN (L := lawsHashed kec) kec w' t l := by
      intro t l hr
      induction hr with
      | empty a => exact .empty a
      | hash a h => exact .hash a h
      | branch a cs lcs v h ho ih => exact .branch a cs lcs v ih fun i => hsome _ _ (ho i)
      | ext a k c lc hk h ho ih => exact .ext a k c lc hk ih (hsome _ _ ho)
      | leaf a k v hk => exact .leaf a k v hk
    refine ⟨w', p, Z, ⟨h1.state, h1.hs, h1.phs, fun a ha => ?_, h1.share, h1.sep, h1.above⟩, h2, ?_⟩
    · have := h1.ok a ha
      refine ⟨hrep this.rep, ⟨this.slot.1, ?_⟩, this.bound, this.ext, this.fam, this.cell⟩
      show (if _ then _ else _) = _
      rw [if_neg fun e => e.2 a ha rfl]
      exact this.slot.2
    · rintro b ⟨g1, g2⟩
      replace g2 : (if w.own b.id = none ∧ ∀ a ∈ Z, a.1.ann.id ≠ b.id then
        (w.heap.cell b.id).map LNode.hash else w.own b.id) = none := g2
      split at g2
      · have g2 : w.heap.cell b.id = none := by simpa using g2
        exact .inl g2
      · rename_i e
        rw [g2] at e
        simp only [true_and, not_forall, not_not] at e
        obtain ⟨a, ha, e⟩ := e
        exact .inr ⟨a, ha, by cases a' : a.1.ann; cases b; simp_all⟩

/-- The start of a part of a program in which there are `n` threads. -/
def Sys.conc {α S : Type} (s : Sys α S) (n : Nat) : Conc α S := ⟨s, List.replicate n none, []⟩

/-- States of a program with `n` threads that start in state `s`, whose calls are permitted. -/
def Conc.From (K : Kind) (M : Mode) (P : Profile) (kec : Bytes → H256) (s : Sys K.Ann K.State) (n : Nat)
    (x : Conc K.Ann K.State) : Prop :=
  Conc.Steps P kec (fun c => c.Short ∧ permitted K M c) (s.conc n) x

/-- A concurrent program whose calls are permitted. -/
def Conc.Reached (K : Kind) (M : Mode) (P : Profile) (kec : Bytes → H256) (n : Nat)
    (x : Conc K.Ann K.State) : Prop :=
  Conc.Steps P kec (fun c => c.Short ∧ permitted K M c) (K.conc n) x

theorem Conc.Reached.start {n : Nat} {x : Conc K.Ann K.State} (h : x.Reached K M P kec n) :
    x.From K M P kec K.start n := h

/-- In safe modes, calls fit. -/
theorem permitted_fit [hM : M.Safe] {c : Cmd} (h : permitted K M c) :
    c.Fit (K = .hashed ∧ M = .noClone) (Kind.laws kec K).real := by
  have hr := K.cells_real kec
  have := hM.ne
  cases K <;> cases M <;> cases c <;> simp_all [permitted, Cmd.Fit, Kind.cells]

theorem Sys.idle {α S : Type} {s : Sys α S} {n j : Nat} {c : Cmd} {p : Prog α (Reply α)} :
    ¬ (s.conc n).Runs j c p := by
  intro h
  have : (some (c, p) : Option (Cmd × Prog α (Reply α))) ∈ List.replicate n none :=
    List.mem_of_getElem? h
  have := List.eq_of_mem_replicate this
  cases this

/-- The invariant holds at the start. -/
theorem LiveInv.conc [hM : M.Safe] {s : Sys K.Ann K.State} (h : LiveInv K M kec s) (n : Nat) :
    ∃ w Z mine, CInv (L := Kind.laws kec K) kec s.plains P (K = .hashed ∧ M = .noClone) w (s.conc n) Z mine := by
  obtain ⟨w, p, Z, h1, h2, h3⟩ := h.clean
  have hpl : (Z.map fun a => (a.1, a.2.1)).map (·.2) = s.plains := by
    rw [h1.plains, h1.phs, List.map_map, List.map_map]; rfl
  refine ⟨w, Z.map fun a => (a.1, a.2.1), fun _ => [], h1.state, ?_, ?_, ?_, ?_, ?_, ?_, ?_, ?_, ?_, ?_⟩
  · show s.hs = _
    rw [h1.hs, List.map_map]; rfl
  · intro z hz
    obtain ⟨a, ha, rfl⟩ := List.mem_map.1 hz
    have := h1.ok a ha
    exact ⟨this.rep, this.slot, this.bound, this.ext⟩
  · intro b hb
    rcases h3 b hb with g | ⟨a, ha, rfl⟩
    · exact .inl g
    · have hc := (h1.ok a ha).cell
      cases K with
      | standard => exact .inl rfl
      | hashed =>
        have h2 := h2 rfl
        cases M with
        | noClone =>
          cases e : p.filled a.2.2 with
          | none => exact .inl (hc.trans e)
          | some x =>
            refine .inr ⟨⟨rfl, rfl⟩, _, List.mem_map_of_mem ha, rfl, x, hc.trans e, ?_⟩
            exact h2.right a.2 (by rw [h1.phs]; exact List.mem_map_of_mem ha) x e
        | noEmptySubset => exact .inl (hc.trans (h2 _))
        | any => exact absurd rfl hM.ne
  · rw [hpl]; rfl
  · intro _ _ _ h; exact (Sys.idle h).elim
  · intro _ _ _ _ _ _ _ h; exact (Sys.idle h).elim
  · rintro ⟨rfl, rfl⟩
    have h2 : p.Own kec := h2 rfl
    rw [List.map_map]
    refine List.nodup_iff_getElem?_ne_getElem?.2 fun i j hij hj e => ?_
    simp only [List.length_map] at hj
    rw [List.getElem?_map, List.getElem?_map, List.getElem?_eq_getElem (Nat.lt_trans hij hj),
      List.getElem?_eq_getElem hj] at e
    simp only [Option.map_some, Option.some.injEq, Function.comp] at e
    have e2 := h1.sep ((Kind.cells_real (K := .hashed) kec).1 rfl) _ (List.getElem_mem _) _
      (List.getElem_mem _) e
    have := h2.inj i j Z[i].2 Z[j].2
      (by rw [h1.phs, List.getElem?_map, List.getElem?_eq_getElem (Nat.lt_trans hij hj)]; rfl)
      (by rw [h1.phs, List.getElem?_map, List.getElem?_eq_getElem hj]; rfl) e2
    omega
  · intro _ _ _ h; cases h
  · intro _ _ _ _ _ h; cases h
  · intro _ _ _ _ h; exact (Sys.idle h).elim

/-- The invariant holds in every state. -/
theorem Conc.From.inv [M.Safe] {s : Sys K.Ann K.State} (h0 : LiveInv K M kec s) {n : Nat}
    {x : Conc K.Ann K.State} (h : x.From K M P kec s n) :
    (∃ w Z mine, CInv (L := Kind.laws kec K) kec s.plains P (K = .hashed ∧ M = .noClone) w x Z mine) ∧
      (∀ c ∈ x.log.map (·.1), c.Short ∧ permitted K M c) ∧
      ∀ j c p, x.Runs j c p → c.Short ∧ permitted K M c := by
  unfold Conc.From at h
  induction h with
  | refl => exact ⟨h0.conc n, by simp [Sys.conc], fun _ _ _ h => (Sys.idle h).elim⟩
  | snoc hs h ih =>
    obtain ⟨⟨w, Z, mine, ih⟩, hl, hr⟩ := ih
    cases h with
    | call j c hj hA hu hb =>
      refine ⟨⟨w, Z, _, ih.call hj hA.1 (permitted_fit hA.2) hu hb⟩, hl, ?_⟩
      intro k d q hk
      rcases runs_set hk with ⟨_, e⟩ | ⟨_, hk⟩
      · cases e; exact hA
      · exact hr k d q hk
    | inner h =>
      refine ⟨ih.step (fun hE => (K.cells_real kec).1 (by rw [hE.1]; rfl)) h, ?_, ?_⟩
      · cases h with
        | finish j c r hj =>
          intro d hd
          rw [List.map_append, List.mem_append] at hd
          rcases hd with hd | hd
          · exact hl d hd
          · cases List.mem_singleton.1 hd
            exact hr _ _ _ hj
        | _ => exact hl
      · cases h with
        | alloc j c k hj | read j c a k hj | write j c a v k hj =>
          intro k d q hk
          rcases runs_set hk with ⟨_, e⟩ | ⟨_, hk⟩
          · cases e; exact hr _ _ _ hj
          · exact hr k d q hk
        | finish j c r hj | unwind j c e hj =>
          intro k d q hk
          rcases runs_set hk with ⟨_, e⟩ | ⟨_, hk⟩
          · cases e
          · exact hr k d q hk

theorem Conc.Reached.inv [M.Safe] {n : Nat} {x : Conc K.Ann K.State} (h : x.Reached K M P kec n) :
    (∃ w Z mine, CInv (L := Kind.laws kec K) kec [] P (K = .hashed ∧ M = .noClone) w x Z mine) ∧
      (∀ c ∈ x.log.map (·.1), c.Short ∧ permitted K M c) ∧
      ∀ j c p, x.Runs j c p → c.Short ∧ permitted K M c := h.start.inv .start

/-- When all calls have ended, the program can go on with one thread. -/
theorem CInv.live [hM : M.Safe] {ls₀ : List LNode} {x : Conc K.Ann K.State} {w : (Kind.laws kec K).W}
    {Z : List (Trie K.Ann × LNode)} {mine : Nat → List K.Ann}
    (h : CInv (L := Kind.laws kec K) kec ls₀ P (K = .hashed ∧ M = .noClone) w x Z mine) :
    LiveInv K M kec x.sys := by
  cases K with
  | standard =>
    refine ⟨w, ⟨Z.map fun z => (z.2, 0), fun _ => none, 1⟩, Z.map fun z => (z.1, z.2, 0),
      ⟨h.state, ?_, ?_, ?_, fun _ _ _ _ _ => rfl, fun hr => hr.elim, fun _ _ => rfl⟩, fun e => by cases e⟩
    · rw [h.hs, List.map_map]; rfl
    · rw [List.map_map]; rfl
    · intro a ha
      obtain ⟨z, hz, rfl⟩ := List.mem_map.1 ha
      have := h.ok z hz
      exact ⟨this.rep, this.slot, this.bound, this.ext, Nat.one_pos, rfl⟩
  | hashed =>
    classical
    have hid : ∀ a b : CellId, a.id = b.id → a = b := by rintro ⟨a⟩ ⟨b⟩ rfl; rfl
    let fill : Nat → Option H256 := fun f => if ∃ z ∈ Z, z.1.ann.id = f then w.heap.cell f else none
    have hfill : ∀ z ∈ Z, fill z.1.ann.id = w.heap.cell z.1.ann.id := fun z hz => if_pos ⟨z, hz, rfl⟩
    refine ⟨w, ⟨Z.map fun z => (z.2, z.1.ann.id), fill, w.heap.next⟩,
      Z.map fun z => (z.1, z.2, z.1.ann.id), ⟨h.state, ?_, ?_, ?_, ?_, ?_, ?_⟩, ?_⟩
    · rw [h.hs, List.map_map]; rfl
    · rw [List.map_map]; rfl
    · intro a ha
      obtain ⟨z, hz, rfl⟩ := List.mem_map.1 ha
      have := h.ok z hz
      exact ⟨this.rep, this.slot, this.bound, this.ext, this.slot.1, (hfill z hz).symm⟩
    · intro a ha b hb e
      obtain ⟨z, hz, rfl⟩ := List.mem_map.1 ha
      obtain ⟨z', hz', rfl⟩ := List.mem_map.1 hb
      exact hid _ _ e
    · intro _ a ha b hb e
      obtain ⟨z, hz, rfl⟩ := List.mem_map.1 ha
      obtain ⟨z', hz', rfl⟩ := List.mem_map.1 hb
      exact congrArg CellId.id e
    · intro f hf
      refine if_neg ?_
      rintro ⟨z, hz, rfl⟩
      have := (h.ok z hz).slot.1
      have hf : w.heap.next ≤ z.1.ann.id := hf
      omega
    · intro _
      cases M with
      | noClone =>
        have hE : Kind.hashed = .hashed ∧ Mode.noClone = .noClone := ⟨rfl, rfl⟩
        refine ⟨?_, ?_, ?_, ?_⟩
        · intro a ha
          obtain ⟨z, hz, rfl⟩ := List.mem_map.1 ha
          exact (h.ok z hz).slot.1
        · intro i j a b hi hj e
          simp only [List.getElem?_map, Option.map_eq_some_iff] at hi hj
          obtain ⟨z, hz, rfl⟩ := hi
          obtain ⟨z', hz', rfl⟩ := hj
          exact (h.same hE hz hz' (hid _ _ e)).1
        · intro a ha x hx
          obtain ⟨z, hz, rfl⟩ := List.mem_map.1 ha
          have hx : fill z.1.ann.id = some x := hx
          rw [hfill z hz] at hx
          rcases h.cellOk hz with g | ⟨_, y, g1, g2⟩
          · have g : w.heap.cell z.1.ann.id = none := g
            rw [g] at hx; cases hx
          · have g1 : w.heap.cell z.1.ann.id = some y := g1
            rw [g1] at hx; cases hx
            exact g2
        · intro f hf
          refine if_neg ?_
          rintro ⟨z, hz, rfl⟩
          have := (h.ok z hz).slot.1
          have hf : w.heap.next ≤ z.1.ann.id := hf
          omega
      | noEmptySubset =>
        intro f
        show (if _ then _ else _) = _
        split
        · rename_i e
          obtain ⟨z, hz, rfl⟩ := e
          rcases h.cellOk hz with g | ⟨⟨_, g⟩, _⟩
          · exact g
          · cases g
        · rfl
      | any => exact absurd rfl hM.ne



/-! ## Termination -/

section
variable {α : Type}

/-- What a step of a thread makes of its call. -/
inductive Prog.Next {β : Type} : Prog α β → Prog α β → Prop
  | alloc (k : α → Prog α β) (a : α) : Next (k a) (.alloc k)
  | read (a : α) (k : Option H256 → Prog α β) (v : Option H256) : Next (k v) (.read a k)
  | write (a : α) (v : Option H256) (k : Prog α β) : Next k (.write a v k)

theorem Prog.next_acc {β : Type} (p : Prog α β) : Acc Prog.Next p := by
  induction p with
  | ret | panic => exact ⟨_, by rintro _ ⟨⟩⟩
  | alloc k ih => exact ⟨_, by rintro _ ⟨⟩; exact ih _⟩
  | read a k ih => exact ⟨_, by rintro _ ⟨⟩; exact ih _⟩
  | write a v k ih => exact ⟨_, by rintro _ ⟨⟩; exact ih⟩

/-- The same for threads: a thread ends its call or makes a step in it. -/
inductive ThreadNext : Option (Cmd × Prog α (Reply α)) → Option (Cmd × Prog α (Reply α)) → Prop
  | idle (c : Cmd) (p : Prog α (Reply α)) : ThreadNext none (some (c, p))
  | next (c : Cmd) {p q : Prog α (Reply α)} (h : Prog.Next q p) : ThreadNext (some (c, q)) (some (c, p))

theorem threadNext_acc (t : Option (Cmd × Prog α (Reply α))) : Acc ThreadNext t := by
  have h0 : Acc ThreadNext (none : Option (Cmd × Prog α (Reply α))) := ⟨_, by rintro _ ⟨⟩⟩
  rcases t with _ | ⟨c, p⟩
  · exact h0
  · induction p.next_acc with
    | intro p _ ih =>
      refine ⟨_, ?_⟩
      rintro _ (_ | ⟨_, h⟩)
      · exact h0
      · exact ih _ h

/-- One entry of a list becomes smaller. -/
inductive OneNext {τ : Type} (r : τ → τ → Prop) : List τ → List τ → Prop
  | head {a b : τ} (l : List τ) (h : r a b) : OneNext r (a :: l) (b :: l)
  | tail (a : τ) {l m : List τ} (h : OneNext r l m) : OneNext r (a :: l) (a :: m)

theorem oneNext_acc {τ : Type} {r : τ → τ → Prop} (hr : ∀ a, Acc r a) (l : List τ) :
    Acc (OneNext r) l := by
  induction l with
  | nil => exact ⟨_, by rintro _ ⟨⟩⟩
  | cons a l ih =>
    induction hr a generalizing l with
    | intro a _ iha =>
      induction ih with
      | intro l hl ihl =>
        refine ⟨_, ?_⟩
        rintro _ (⟨_, h⟩ | ⟨_, h⟩)
        · exact iha _ h l ⟨l, hl⟩
        · exact ihl _ h

theorem oneNext_set {τ : Type} {r : τ → τ → Prop} {l : List τ} {j : Nat} {a b : τ}
    (h : l[j]? = some a) (hr : r b a) : OneNext r (l.set j b) l := by
  induction l generalizing j with
  | nil => cases h
  | cons x l ih =>
    cases j with
    | zero => cases h; exact .head l hr
    | succ j => exact .tail x (ih h)

theorem Conc.inner_acc {S : Type} [TrieKind α S] (x : Conc α S) :
    Acc (fun y x => Conc.Inner x y) x := by
  refine Subrelation.accessible (r := InvImage (OneNext ThreadNext) Conc.threads) ?_
    (InvImage.accessible _ (oneNext_acc threadNext_acc x.threads))
  intro y x h
  cases h with
  | alloc j c k hj => exact oneNext_set hj (.next c (.alloc k _))
  | read j c a k hj => exact oneNext_set hj (.next c (.read a k _))
  | write j c a v k hj => exact oneNext_set hj (.next c (.write a v k))
  | finish j c r hj => exact oneNext_set hj (.idle c _)
  | unwind j c e hj => exact oneNext_set hj (.idle c _)

end
end EthTrie
