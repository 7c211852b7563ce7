import Verif.Props.Base
import Verif.Props.Cases
import Verif.Props.Hashing

/-!
# C79: reading is not seen

`get`, `hash`, `items` and `==` change nothing that another call could see, although `hash` fills cache
cells, also in programs in which cells are stale.  And Keccak is seen in hashes and subsets only.
-/

namespace EthTrie

/-- The calls that only read. -/
def Cmd.Reads : Cmd → Bool
  | .get _ _ | .hash _ | .items _ | .eq _ _ => true
  | _ => false

/-- The calls that make subsets. -/
def Cmd.Cuts : Cmd → Bool
  | .subset _ _ | .subsets _ _ => true
  | _ => false

/-- What a call returns, without hashes. -/
def Obs.noRoot : Obs → Obs
  | .root _ => .unit
  | o => o

variable {P : Profile} {C : Bool} {kec kec' : Bytes → H256}

namespace PSys

theorem on_same {s : PSys} {i : Nat} {f : LNode × Nat → R (PSys × Obs)} {r : PSys × Obs}
    (h : s.on i f = .ok r) (hf : ∀ t r, f t = .ok r → r.1 = s) : r.1 = s := by
  unfold on at h
  split at h
  · cases h; rfl
  · exact hf _ _ h

theorem exec_reads {s : PSys} {c : Cmd} (hc : c.Reads = true) {r : PSys × Obs}
    (h : s.exec P C kec c = .ok r) : r.1 = s := by
  cases c with
  | get i k =>
    refine on_same h fun t r h => ?_
    cases hg : t.1.get P k <;> rw [hg] at h <;> cases h
    rfl
  | hash i => exact on_same h fun t r h => by cases h; rfl
  | items i =>
    refine on_same h fun t r h => ?_
    cases hg : t.1.itemsA <;> rw [hg] at h <;> cases h
    rfl
  | eq i j => exact on_same h fun t r h => on_same h fun u r h => by cases h; rfl
  | _ => cases hc

theorem on_keep (s : PSys) (i : Nat) {f : LNode × Nat → R (PSys × Obs)} (hf : ∀ t, ∃ o, f t = .ok (s, o)) :
    ∃ o, s.on i f = .ok (s, o) := by
  unfold on
  split
  · exact ⟨_, rfl⟩
  · exact hf _

theorem exec_hash (s : PSys) (i : Nat) : ∃ o, s.exec P C kec (.hash i) = .ok (s, o) :=
  s.on_keep i fun _ => ⟨_, rfl⟩

theorem exec_eq (s : PSys) (i j : Nat) : ∃ o, s.exec P C kec (.eq i j) = .ok (s, o) :=
  s.on_keep i fun _ => s.on_keep j fun _ => ⟨_, rfl⟩

theorem run_append (s : PSys) (as bs : List Cmd) : s.run P C kec (as ++ bs) =
    (s.run P C kec as >>= fun r => (r.1.run P C kec bs).map fun q => (q.1, r.2 ++ q.2)) := by
  induction as generalizing s with
  | nil =>
    show s.run P C kec bs = (s.run P C kec bs).map _
    cases s.run P C kec bs <;> rfl
  | cons a as ih =>
    rw [List.cons_append, run, run]
    cases s.exec P C kec a with
    | error e => rfl
    | ok r =>
      show ((r.1.run P C kec (as ++ bs)) >>= _) = _
      rw [ih]
      show _ = ((r.1.run P C kec as >>= _) >>= _)
      cases r.1.run P C kec as with
      | error e => rfl
      | ok q =>
        show (Except.map _ (q.1.run P C kec bs) >>= _) = Except.map _ (q.1.run P C kec bs)
        cases q.1.run P C kec bs <;> rfl

theorem run_length {s : PSys} {cs : List Cmd} {r : PSys × List Obs} (h : s.run P C kec cs = .ok r) :
    r.2.length = cs.length := by
  induction cs generalizing s r with
  | nil => cases h; rfl
  | cons c cs ih =>
    rw [run] at h
    cases hc : s.exec P C kec c with
    | error e => rw [hc] at h; cases h
    | ok x =>
      rw [hc] at h
      replace h : (x.1.run P C kec cs >>= fun q => pure (q.1, x.2 :: q.2)) = .ok r := h
      cases hr : x.1.run P C kec cs with
      | error e => rw [hr] at h; cases h
      | ok q =>
        rw [hr] at h
        cases h
        exact congrArg (· + 1) (ih hr)

end PSys

/-- C79: a call that reads can be left out wherever it is: the other calls return the same. -/
theorem C79_leave_out (K : Kind) {as bs : List Cmd} {c : Cmd} (hc : c.Reads = true)
    (hs : ∀ x ∈ as ++ c :: bs, x.Short) {oa ob : List Obs} {o : Obs} (hl : oa.length = as.length)
    (h : K.obs P kec (as ++ c :: bs) = .ok (oa ++ o :: ob)) : K.obs P kec (as ++ bs) = .ok (oa ++ ob) := by
  have hs' : ∀ x ∈ as ++ bs, x.Short := fun x hx => hs x (by
    rcases List.mem_append.1 hx with h | h
    · exact List.mem_append_left _ h
    · exact List.mem_append_right _ (.tail _ h))
  rw [K.obs_exact P kec hs, PSys.run_append] at h
  rw [K.obs_exact P kec hs', PSys.run_append]
  cases h1 : PSys.start.run P K.cells kec as with
  | error e => rw [h1] at h; cases h
  | ok x =>
    rw [h1] at h
    replace h : Except.map (·.2) (Except.map (fun q => (q.1, x.2 ++ q.2)) (x.1.run P K.cells kec (c :: bs))) =
      .ok (oa ++ o :: ob) := h
    rw [PSys.run] at h
    cases h2 : x.1.exec P K.cells kec c with
    | error e => rw [h2] at h; cases h
    | ok y =>
      rw [h2] at h
      have hy := PSys.exec_reads hc h2
      replace h : Except.map (·.2) (Except.map (fun q => (q.1, x.2 ++ q.2))
        (y.1.run P K.cells kec bs >>= fun q => pure (q.1, y.2 :: q.2))) = .ok (oa ++ o :: ob) := h
      rw [hy] at h
      show Except.map (·.2) (Except.map (fun q => (q.1, x.2 ++ q.2)) (x.1.run P K.cells kec bs)) = _
      cases h3 : x.1.run P K.cells kec bs with
      | error e => rw [h3] at h; cases h
      | ok z =>
        rw [h3] at h
        have h4 : x.2 ++ y.2 :: z.2 = oa ++ o :: ob := Except.ok.inj h
        obtain ⟨h5, h6⟩ := List.append_inj h4 ((PSys.run_length h1).trans hl.symm)
        cases h6
        rw [h5]
        rfl

/-- C79: all calls that read can be left out at once. -/
theorem C79_leave_out_all (K : Kind) {cs : List Cmd} (hs : ∀ x ∈ cs, x.Short) {os : List Obs}
    (h : K.obs P kec cs = .ok os) : K.obs P kec (cs.filter fun c => !c.Reads) =
      .ok (((cs.zip os).filter fun x => !x.1.Reads).map (·.2)) := by
  rw [K.obs_exact P kec fun x hx => hs x (List.mem_of_mem_filter hx)]
  rw [K.obs_exact P kec hs] at h
  generalize PSys.start = s at h ⊢
  clear hs
  induction cs generalizing s os with
  | nil => rfl
  | cons c cs ih =>
    rw [PSys.run] at h
    cases h1 : s.exec P K.cells kec c with
    | error e => rw [h1] at h; cases h
    | ok x =>
      rw [h1] at h
      replace h : Except.map (·.2) (x.1.run P K.cells kec cs >>= fun q => pure (q.1, x.2 :: q.2)) = .ok os := h
      cases h2 : x.1.run P K.cells kec cs with
      | error e => rw [h2] at h; cases h
      | ok q =>
        rw [h2] at h
        cases h
        have := ih (s := x.1) (os := q.2) (by rw [h2]; rfl)
        by_cases hc : c.Reads = true
        · rw [PSys.exec_reads hc h1] at this
          show _ = Except.ok (List.map (·.2) (List.filter (fun x => !x.1.Reads) ((c, x.2) :: cs.zip q.2)))
          rw [List.filter_cons_of_neg (by simp [hc]), List.filter_cons_of_neg (by simp [hc])]
          exact this
        · show _ = Except.ok (List.map (·.2) (List.filter (fun x => !x.1.Reads) ((c, x.2) :: cs.zip q.2)))
          rw [List.filter_cons_of_pos (by simp [hc]), List.filter_cons_of_pos (by simp [hc]), PSys.run, h1]
          show Except.map (·.2) (x.1.run P K.cells kec _ >>= fun q => pure (q.1, x.2 :: q.2)) = _
          revert this
          cases x.1.run P K.cells kec (cs.filter fun c => !c.Reads) with
          | error e => intro h; cases h
          | ok r => intro h; exact congrArg (fun l => Except.ok (x.2 :: l)) (Except.ok.inj h)

/-- C79, from any state, for keys of any length and if all panics are caught: calls of `get`, `items` and `==` can
be left out, whether they panic or not. -/
theorem C79_caught {α S : Type} [TrieKind α S] (s : Sys α S) (as bs : List Cmd) {c : Cmd}
    (hr : c.Reads = true) (hc : ∀ i, c ≠ .hash i) :
    (s.runC P kec (as ++ bs)).1 = (s.runC P kec (as ++ c :: bs)).1 ∧
    ∃ o, (s.runC P kec (as ++ c :: bs)).2 =
      (s.runC P kec as).2 ++ o :: ((s.runC P kec as).1.runC P kec bs).2 := by
  induction as generalizing s with
  | nil =>
    have : (s.execC P kec c).1 = s := by
      have hx : ∀ r, s.exec P kec c = .ok r → r.1 = s := by
        intro r h
        cases c with
        | hash i => exact absurd rfl (hc i)
        | get i k =>
          unfold Sys.exec Sys.on at h
          dsimp only at h
          split at h
          · cases h; rfl
          · rename_i t _
            cases hg : t.get P (Nibbles.ofList k) <;> rw [hg] at h <;> cases h
            rfl
        | items i =>
          unfold Sys.exec Sys.on at h
          dsimp only at h
          split at h
          · cases h; rfl
          · rename_i t _
            cases hg : t.items P <;> rw [hg] at h <;> cases h
            rfl
        | eq i j =>
          unfold Sys.exec Sys.on at h
          dsimp only at h
          split at h
          · cases h; rfl
          · split at h <;> cases h <;> rfl
        | _ => cases hr
      unfold Sys.execC
      cases h : s.exec P kec c with
      | ok r => exact hx r h
      | error e =>
        cases c with
        | hash i => exact absurd rfl (hc i)
        | get i k => rfl
        | items i => rfl
        | eq i j => rfl
        | _ => cases hr
    simp only [List.nil_append, Sys.runC, this]
    exact ⟨trivial, _, rfl⟩
  | cons a as ih =>
    simp only [List.cons_append, Sys.runC]
    obtain ⟨h1, o, h2⟩ := ih (s.execC P kec a).1
    exact ⟨h1, o, by rw [h2]⟩

/-- C79: calls of `hash` and `==` can be added anywhere: the program panics if and only if it did before, in the
same way, and the other calls return the same. -/
theorem C79_add (K : Kind) {as bs : List Cmd} {c : Cmd} (hc : ∀ i k, c ≠ .get i k) (hc' : ∀ i, c ≠ .items i)
    (hr : c.Reads = true) (hs : ∀ x ∈ as ++ bs, x.Short) :
    (∀ e, K.obs P kec (as ++ bs) = .error e ↔ K.obs P kec (as ++ c :: bs) = .error e) ∧
    ∀ os, K.obs P kec (as ++ bs) = .ok os →
      ∃ o, K.obs P kec (as ++ c :: bs) = .ok (os.take as.length ++ o :: os.drop as.length) := by
  have hx : ∀ s : PSys, ∃ o, s.exec P K.cells kec c = .ok (s, o) := by
    intro s
    cases c with
    | hash i => exact s.exec_hash i
    | eq i j => exact s.exec_eq i j
    | get i k => exact absurd rfl (hc i k)
    | items i => exact absurd rfl (hc' i)
    | _ => cases hr
  have hsc : c.Short := by
    cases c with
    | hash i => trivial
    | eq i j => trivial
    | get i k => exact absurd rfl (hc i k)
    | items i => exact absurd rfl (hc' i)
    | _ => cases hr
  have hs' : ∀ x ∈ as ++ c :: bs, x.Short := fun x hx => by
    rcases List.mem_append.1 hx with h | h
    · exact hs x (List.mem_append_left _ h)
    · rcases List.mem_cons.1 h with rfl | h
      · exact hsc
      · exact hs x (List.mem_append_right _ h)
  rw [K.obs_exact P kec hs, K.obs_exact P kec hs', PSys.run_append, PSys.run_append]
  cases h1 : PSys.start.run P K.cells kec as with
  | error e => exact ⟨fun _ => Iff.rfl, fun os h => by cases h⟩
  | ok x =>
    obtain ⟨o, ho⟩ := hx x.1
    have e : x.1.run P K.cells kec (c :: bs) = x.1.run P K.cells kec bs >>= fun q => pure (q.1, o :: q.2) := by
      rw [PSys.run, ho]
      rfl
    have hk : ∀ {A B : Type} (a : A) (f : A → R B), (Except.ok a >>= f : R B) = f a := fun _ _ => rfl
    rw [hk, hk, e]
    cases x.1.run P K.cells kec bs with
    | error e => exact ⟨fun _ => Iff.rfl, fun os h => by cases h⟩
    | ok z =>
      refine ⟨fun e => Iff.intro (fun h => nomatch h) (fun h => nomatch h), fun os h => ⟨o, ?_⟩⟩
      cases h
      show Except.ok (x.2 ++ o :: z.2) = _
      have hl := PSys.run_length h1
      simp only [← hl, List.take_left', List.drop_left']

/-- C79: programs without subsets return the same for any two hash functions, hashes aside, and panic in the
same way. -/
theorem C79_keccak (K : Kind) {cs : List Cmd} (hs : ∀ c ∈ cs, c.Short) (hc : ∀ c ∈ cs, c.Cuts = false) :
    (K.obs P kec cs).map (List.map Obs.noRoot) = (K.obs P kec' cs).map (List.map Obs.noRoot) := by
  rw [K.obs_exact P kec hs, K.obs_exact P kec' hs]
  generalize PSys.start = s
  clear hs
  induction cs generalizing s with
  | nil => rfl
  | cons c cs ih =>
    have hx : (s.exec P K.cells kec c).map (fun r => (r.1, r.2.noRoot)) =
        (s.exec P K.cells kec' c).map (fun r => (r.1, r.2.noRoot)) := by
      cases c with
      | hash i =>
        show Except.map _ (s.on i _) = Except.map _ (s.on i _)
        unfold PSys.on
        split <;> rfl
      | subset i ks => exact absurd (hc _ (.head _)) (by simp [Cmd.Cuts])
      | subsets i ks => exact absurd (hc _ (.head _)) (by simp [Cmd.Cuts])
      | _ => rfl
    rw [PSys.run, PSys.run]
    cases h1 : s.exec P K.cells kec c with
    | error e =>
      cases h2 : s.exec P K.cells kec' c with
      | error e' => rw [h1, h2] at hx; cases hx; rfl
      | ok y => rw [h1, h2] at hx; cases hx
    | ok x =>
      cases h2 : s.exec P K.cells kec' c with
      | error e' => rw [h1, h2] at hx; cases hx
      | ok y =>
        rw [h1, h2] at hx
        obtain ⟨h3, h4⟩ := Prod.mk.inj (Except.ok.inj hx)
        have := ih (fun c h => hc c (.tail _ h)) x.1
        show Except.map _ (Except.map _ (x.1.run P K.cells kec cs >>= fun q => pure (q.1, x.2 :: q.2))) =
          Except.map _ (Except.map _ (y.1.run P K.cells kec' cs >>= fun q => pure (q.1, y.2 :: q.2)))
        rw [← h3]
        revert this
        cases x.1.run P K.cells kec cs with
        | error e =>
          cases x.1.run P K.cells kec' cs with
          | error e' => intro h; cases h; rfl
          | ok r => intro h; cases h
        | ok q =>
          cases x.1.run P K.cells kec' cs with
          | error e' => intro h; cases h
          | ok r =>
            intro h
            show Except.ok (x.2.noRoot :: q.2.map Obs.noRoot) = Except.ok (y.2.noRoot :: r.2.map Obs.noRoot)
            rw [h4, show q.2.map Obs.noRoot = r.2.map Obs.noRoot from Except.ok.inj h]

/-! ## Examples -/

/-- A program with a stale cell, with another call of `hash`; the clone is hashed wrongly with it and without
it. -/
example (P : Profile) : ∃ x, Kind.hashed.obs P kec0 (staleProg.take 4 ++ .hash 0 :: staleProg.drop 4) =
    .ok ([.unit, .unit, .unit, .unit] ++ x :: [.unit, .root (Vector.replicate 32 45)]) :=
  (C79_add .hashed (as := staleProg.take 4) (bs := staleProg.drop 4) (c := .hash 0) nofun nofun rfl
    (by simp only [staleProg, List.take, List.drop, List.cons_append, List.nil_append, List.forall_mem_cons,
      Cmd.Short]; simp)).2 [.unit, .unit, .unit, .unit, .unit, .root (Vector.replicate 32 45)]
    (by obtain ⟨P⟩ := P; cases P <;> decide +kernel)

/-- Leaving out a lookup between changes. -/
example (K : Kind) (P : Profile) : K.obs P kec0 [.fromIter caseXs, .delete 0 [2, 5, 5], .subset 0 [[1, 2]], .get 1 [1, 2]] =
    .ok [.unit, .val (some (List.replicate 40 1)), .unit, .val (some [8])] :=
  C79_leave_out K (as := [.fromIter caseXs]) (c := .get 0 [2, 5, 6, 7]) (o := .val (some [2])) rfl
    (by simp only [caseXs, List.cons_append, List.nil_append, List.forall_mem_cons, Cmd.Short]; simp) (oa := [.unit]) rfl
    (by obtain ⟨P⟩ := P; cases K <;> cases P <;> decide +kernel)

/-- Leaving out all calls that read. -/
example (K : Kind) (P : Profile) : K.obs P kec0 [.fromIter caseXs, .delete 0 [2, 5, 5], .subset 0 [[1, 2]]] =
    .ok [.unit, .val (some (List.replicate 40 1)), .unit] :=
  C79_leave_out_all K (cs := [.fromIter caseXs, .eq 0 0, .delete 0 [2, 5, 5], .get 0 [1], .subset 0 [[1, 2]],
    .get 1 [1, 2]]) (os := [.unit, .bool true, .val (some (List.replicate 40 1)), .val (some [7]), .unit,
    .val (some [8])]) (by simp only [caseXs, List.forall_mem_cons, Cmd.Short]; simp)
    (by obtain ⟨P⟩ := P; cases K <;> cases P <;> decide +kernel)

/-- Leaving out a lookup that panics. -/
example (K : Kind) : (K.runC .debug kec0 [.fromIter [([1, 2, 3], .val [1]), ([1, 2, 4], .val [2])], .get 0 [1],
      .delete 0 [1, 2, 3]]).2 = [.ok .unit, .error .overflow, .ok (.val (some [1]))] ∧
    (K.runC .debug kec0 [.fromIter [([1, 2, 3], .val [1]), ([1, 2, 4], .val [2])], .delete 0 [1, 2, 3]]).2 =
      [.ok .unit, .ok (.val (some [1]))] := by
  cases K <;> constructor <;> decide +kernel

/-- Two hash functions. -/
example (K : Kind) (P : Profile) : (K.obs P kec0 [.fromIter caseXs, .hash 0, .delete 0 [2, 5, 5], .hash 0]).map
    (List.map Obs.noRoot) = .ok [.unit, .unit, .val (some (List.replicate 40 1)), .unit] ∧
    (K.obs P (fun _ => Vector.replicate 32 9) [.fromIter caseXs, .hash 0, .delete 0 [2, 5, 5], .hash 0]).map
      (List.map Obs.noRoot) = .ok [.unit, .unit, .val (some (List.replicate 40 1)), .unit] := by
  have h : (K.obs P kec0 [.fromIter caseXs, .hash 0, .delete 0 [2, 5, 5], .hash 0]).map
      (List.map Obs.noRoot) = .ok [.unit, .unit, .val (some (List.replicate 40 1)), .unit] := by
    obtain ⟨P⟩ := P; cases K <;> cases P <;> decide +kernel
  exact ⟨h, (C79_keccak K (by simp only [caseXs, List.forall_mem_cons, Cmd.Short]; simp) (by simp [Cmd.Cuts])).trans h⟩

end EthTrie
