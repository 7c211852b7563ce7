import Verif.Sys.Refine
import Verif.Spec.Program

/-!
# Programs whose cache cells are never stale
-/

namespace EthTrie
namespace PSys

variable {P : Profile} {C : Bool} {kec : Bytes → H256}

/-- The cell contents `cell` are none or right for `l`. -/
def RightFor (kec : Bytes → H256) (cell : Option H256) (l : LNode) : Prop :=
  ∀ h, cell = some h → l.enc kec = .hashed h

theorem subsetX_right {cell : Option H256} {t : LTracked} (h : RightFor kec cell t.node) :
    (t.subsetX C kec cell).1 = t.subset kec ∧ RightFor kec (t.subsetX C kec cell).2 t.node := by
  unfold LTracked.subsetX
  cases hto : t.touched with
  | true => exact ⟨rfl, h⟩
  | false =>
    cases cell with
    | some x =>
      refine ⟨?_, h⟩
      rw [LTracked.subset_eq]
      simp [LTracked.away, hto, h x rfl]
    | none =>
      refine ⟨rfl, fun x hx => ?_⟩
      cases C with
      | false => cases hx
      | true =>
        have hx : t.away kec = some x := hx
        simp only [LTracked.away, hto, Bool.false_eq_true, if_false] at hx
        revert hx
        cases t.node.enc kec <;> simp

theorem subsetsX_right : ∀ (kss : List (List Key)) {t : LTracked} {cell : Option H256},
    RightFor kec cell t.node → ∃ cell', RightFor kec cell' t.node ∧
    (subsetsX P C kec t cell kss).map (·.1) = subsetsL P kec t kss ∧
    ∀ r c, subsetsX P C kec t cell kss = .ok (r, c) → c = cell' := by
  intro kss
  induction kss with
  | nil => intro t cell h; exact ⟨cell, h, rfl, fun r c e => by cases e; rfl⟩
  | cons ks kss ih =>
    intro t cell h
    simp only [subsetsX, subsetsL]
    cases hm : t.markAll P ks with
    | error e => exact ⟨cell, h, rfl, fun r c e => by cases e⟩
    | ok r =>
      cases r with
      | error k => exact ⟨cell, h, rfl, fun r c e => by cases e; rfl⟩
      | ok t' =>
        have hn := LTracked.markAll_node P ks t t' hm
        rw [← hn] at h
        obtain ⟨g1, g2⟩ := subsetX_right (C := C) h
        rw [show t'.node = t'.reset.node from (LTracked.reset_node t').symm] at g2
        obtain ⟨cell', k1, k2, k3⟩ := ih g2
        rw [LTracked.reset_node, hn] at k1
        refine ⟨cell', k1, ?_⟩
        simp only [R_bind_ok]
        rw [← k2]
        revert k3
        rcases subsetsX P C kec t'.reset (t'.subsetX C kec cell).2 kss with e | ⟨r | r, c⟩
        · intro _; exact ⟨rfl, fun r c e => by cases e⟩
        · intro k3; exact ⟨rfl, fun r c e => by cases e; exact k3 _ _ rfl⟩
        · intro k3
          refine ⟨?_, fun r c e => by cases e; exact k3 _ _ rfl⟩
          simp only [R_bind_ok, R_pure, Except.map, g1]

theorem subsetX_none {t : LTracked} (h : t.touched = true) : (t.subsetX C kec none).2 = none := by
  simp [LTracked.subsetX, h]

theorem subsetsX_none : ∀ (kss : List (List Key)) {t : LTracked}, [] ∉ kss →
    ∀ r c, subsetsX P C kec t none kss = .ok (r, c) → c = none := by
  intro kss
  induction kss with
  | nil => intro t _ r c h; cases h; rfl
  | cons ks kss ih =>
    intro t hk r c h
    simp only [subsetsX, R_bind_eq_ok] at h
    obtain ⟨r1, hr, h⟩ := h
    cases r1 with
    | error e => cases h; rfl
    | ok t' =>
      have ht := LTracked.markAll_touched P ks t t' hr
        (.inl fun e => hk (by rw [e]; exact List.mem_cons_self))
      simp only [R_bind_eq_ok, subsetX_none ht] at h
      obtain ⟨⟨r2, c2⟩, h2, h⟩ := h
      have := ih (fun e => hk (List.mem_cons_of_mem _ e)) _ _ h2
      subst this
      cases r2 <;> (cases h; rfl)

theorem on_ok {s s' : PSys} {i : Nat} {f : LNode × Nat → R (PSys × Obs)} {o : Obs}
    (h : s.on i f = .ok (s', o)) :
    (s.hs[i]? = none ∧ s' = s ∧ o = .noHandle) ∨ ∃ t, s.hs[i]? = some t ∧ f t = .ok (s', o) := by
  unfold on at h
  split at h
  · cases h; exact .inl ⟨by assumption, rfl, rfl⟩
  · exact .inr ⟨_, by assumption, h⟩

theorem push_filled (s : PSys) (ls : List LNode) : (s.push ls).filled = s.filled := by
  induction ls generalizing s with
  | nil => rfl
  | cons l ls ih => rw [push, ih]

/-- Calls that do not make a subset for no keys. -/
def NoFill : Cmd → Prop
  | .subset _ ks => ks ≠ []
  | .subsets _ kss => [] ∉ kss
  | _ => True

theorem exec_noFill {s s' : PSys} {c : Cmd} {o : Obs} (hc : NoFill c)
    (h : s.exec P C kec c = .ok (s', o)) (hs : ∀ f, s.filled f = none) : ∀ f, s'.filled f = none := by
  have hupd : ∀ {f}, ∀ g, upd s.filled f none g = none := by
    intro f g
    by_cases e : g = f
    · subst e; simp
    · rw [upd_other _ _ e]; exact hs g
  cases c with
  | new => simp only [exec, Except.ok.injEq, Prod.mk.injEq] at h; rw [← h.1, push_filled]; exact hs
  | fromIter xs =>
    simp only [exec, R_bind_eq_ok] at h
    obtain ⟨l, _, h⟩ := h
    simp only [R_pure, Except.ok.injEq, Prod.mk.injEq] at h
    rw [← h.1, push_filled]; exact hs
  | clone i =>
    rcases on_ok h with ⟨_, rfl, _⟩ | ⟨t, _, h⟩
    · exact hs
    · simp only [Except.ok.injEq, Prod.mk.injEq] at h; rw [← h.1]; exact hs
  | insert i k v =>
    rcases on_ok h with ⟨_, rfl, _⟩ | ⟨t, _, h⟩
    · exact hs
    · simp only [R_bind_eq_ok] at h
      obtain ⟨l, _, h⟩ := h
      simp only [R_pure, Except.ok.injEq, Prod.mk.injEq] at h; rw [← h.1]; exact hupd
  | extend i xs =>
    rcases on_ok h with ⟨_, rfl, _⟩ | ⟨t, _, h⟩
    · exact hs
    · simp only [R_bind_eq_ok] at h
      obtain ⟨l, _, h⟩ := h
      simp only [R_pure, Except.ok.injEq, Prod.mk.injEq] at h; rw [← h.1]; exact hupd
  | delete i k =>
    rcases on_ok h with ⟨_, rfl, _⟩ | ⟨t, _, h⟩
    · exact hs
    · simp only [R_bind_eq_ok] at h
      obtain ⟨⟨l, x⟩, _, h⟩ := h
      simp only [R_pure, Except.ok.injEq, Prod.mk.injEq] at h; rw [← h.1]; exact hupd
  | get i k =>
    rcases on_ok h with ⟨_, rfl, _⟩ | ⟨t, _, h⟩
    · exact hs
    · simp only [R_bind_eq_ok] at h
      obtain ⟨l, _, h⟩ := h
      simp only [R_pure, Except.ok.injEq, Prod.mk.injEq] at h; rw [← h.1]; exact hs
  | hash i =>
    rcases on_ok h with ⟨_, rfl, _⟩ | ⟨t, _, h⟩
    · exact hs
    · simp only [Except.ok.injEq, Prod.mk.injEq] at h; rw [← h.1]; exact hs
  | items i =>
    rcases on_ok h with ⟨_, rfl, _⟩ | ⟨t, _, h⟩
    · exact hs
    · simp only [R_bind_eq_ok] at h
      obtain ⟨l, _, h⟩ := h
      simp only [R_pure, Except.ok.injEq, Prod.mk.injEq] at h; rw [← h.1]; exact hs
  | eq i j =>
    rcases on_ok h with ⟨_, rfl, _⟩ | ⟨t, _, h⟩
    · exact hs
    · rcases on_ok h with ⟨_, rfl, _⟩ | ⟨t, _, h⟩
      · exact hs
      · simp only [Except.ok.injEq, Prod.mk.injEq] at h; rw [← h.1]; exact hs
  | subset i ks =>
    rcases on_ok h with ⟨_, rfl, _⟩ | ⟨t, _, h⟩
    · exact hs
    · simp only [R_bind_eq_ok] at h
      obtain ⟨r, hr, h⟩ := h
      cases r with
      | error k => simp only [R_pure, Except.ok.injEq, Prod.mk.injEq] at h; rw [← h.1]; exact hs
      | ok tr =>
        have ht := LTracked.markAll_touched P ks _ tr hr (.inl hc)
        simp only [R_pure, Except.ok.injEq, Prod.mk.injEq, hs, subsetX_none ht] at h
        rw [← h.1, push_filled]
        exact hupd
  | subsets i kss =>
    rcases on_ok h with ⟨_, rfl, _⟩ | ⟨t, _, h⟩
    · exact hs
    · simp only [R_bind_eq_ok, hs] at h
      obtain ⟨⟨r, c⟩, hr, h⟩ := h
      have := subsetsX_none kss hc _ _ hr
      subst this
      cases r with
      | error k =>
        simp only [R_pure, Except.ok.injEq, Prod.mk.injEq] at h
        rw [← h.1]
        exact hupd
      | ok ls =>
        simp only [R_pure, Except.ok.injEq, Prod.mk.injEq] at h
        rw [← h.1, push_filled]
        exact hupd

/-- Every handle has its own family and every cache cell is right. -/
structure Own (kec : Bytes → H256) (s : PSys) : Prop where
  below : ∀ a ∈ s.hs, a.2 < s.next
  inj : ∀ (i j : Nat) (a b : LNode × Nat), s.hs[i]? = some a → s.hs[j]? = some b → a.2 = b.2 → i = j
  right : ∀ a ∈ s.hs, RightFor kec (s.filled a.2) a.1
  above : ∀ f, s.next ≤ f → s.filled f = none

theorem Own.push {s : PSys} (h : s.Own kec) (ls : List LNode) : (s.push ls).Own kec := by
  induction ls generalizing s with
  | nil => exact h
  | cons l ls ih =>
    rw [PSys.push]
    apply ih
    refine ⟨?_, ?_, ?_, fun f hf => h.above f (Nat.le_of_succ_le hf)⟩
    · intro a ha
      rcases List.mem_append.1 ha with ha | ha
      · exact Nat.lt_succ_of_lt (h.below a ha)
      · simp only [List.mem_singleton] at ha; subst ha; exact Nat.lt_succ_self _
    · intro i j a b hi hj hab
      have key : ∀ {i : Nat} {a : LNode × Nat}, (s.hs ++ [(l, s.next)])[i]? = some a →
          (s.hs[i]? = some a ∧ a.2 < s.next) ∨ (i = s.hs.length ∧ a.2 = s.next) := by
        intro i a hi
        by_cases hlt : i < s.hs.length
        · rw [List.getElem?_append_left hlt] at hi
          exact .inl ⟨hi, h.below a (List.mem_of_getElem? hi)⟩
        · rw [List.getElem?_append_right (by omega)] at hi
          rw [List.getElem?_singleton] at hi
          split at hi
          · cases hi; exact .inr ⟨by omega, rfl⟩
          · cases hi
      rcases key hi with ⟨hi, h1⟩ | ⟨hi, h1⟩ <;> rcases key hj with ⟨hj, h2⟩ | ⟨hj, h2⟩
      · exact h.inj i j a b hi hj hab
      · omega
      · omega
      · omega
    · intro a ha
      rcases List.mem_append.1 ha with ha | ha
      · exact h.right a ha
      · simp only [List.mem_singleton] at ha; subst ha; intro x hx; rw [h.above _ (Nat.le_refl _)] at hx; cases hx

theorem Own.mutate {s : PSys} (h : s.Own kec) {i : Nat} {t : LNode × Nat} (hi : s.hs[i]? = some t)
    (l : LNode) : (⟨s.hs.set i (l, t.2), upd s.filled t.2 none, s.next⟩ : PSys).Own kec := by
  have hlt : i < s.hs.length := (List.getElem?_eq_some_iff.1 hi).1
  have key : ∀ {j : Nat} {a : LNode × Nat}, (s.hs.set i (l, t.2))[j]? = some a →
      ∃ b, s.hs[j]? = some b ∧ b.2 = a.2 ∧ (j ≠ i → b = a) := by
    intro j a hj
    rw [List.getElem?_set] at hj
    split at hj
    · rename_i e; subst e
      cases hj
      exact ⟨t, hi, rfl, fun h => absurd rfl h⟩
    · exact ⟨a, hj, rfl, fun _ => rfl⟩
  refine ⟨?_, ?_, ?_, ?_⟩
  · intro a ha
    obtain ⟨j, hj⟩ := List.mem_iff_getElem?.1 ha
    obtain ⟨b, hb, hab, _⟩ := key hj
    rw [← hab]; exact h.below b (List.mem_of_getElem? hb)
  · intro j k a b hj hk hab
    obtain ⟨a', ha, haa, _⟩ := key hj
    obtain ⟨b', hb, hbb, _⟩ := key hk
    exact h.inj j k a' b' ha hb (by rw [haa, hbb, hab])
  · intro a ha
    obtain ⟨j, hj⟩ := List.mem_iff_getElem?.1 ha
    obtain ⟨b, hb, hab, hba⟩ := key hj
    by_cases e : a.2 = t.2
    · intro x hx; simp only [e, upd_same] at hx; cases hx
    · simp only [upd_other _ _ e]
      have : j ≠ i := fun e' => by
        subst e'
        rw [hi] at hb; cases hb
        exact e hab.symm
      rw [← hba this]
      exact h.right b (List.mem_of_getElem? hb)
  · intro f hf
    have : f ≠ t.2 := by have := h.below t (List.mem_of_getElem? hi); simp only at hf; omega
    simp only [upd_other _ _ this]
    exact h.above f hf

theorem Own.fill {s : PSys} (h : s.Own kec) {i : Nat} {t : LNode × Nat} (hi : s.hs[i]? = some t)
    {c : Option H256} (hc : RightFor kec c t.1) :
    (⟨s.hs, upd s.filled t.2 c, s.next⟩ : PSys).Own kec := by
  refine ⟨h.below, h.inj, ?_, ?_⟩
  · intro a ha
    obtain ⟨j, hj⟩ := List.mem_iff_getElem?.1 ha
    by_cases e : a.2 = t.2
    · have := h.inj j i a t hj hi e
      subst this
      rw [hi] at hj; cases hj
      simp only [upd_same]; exact hc
    · simp only [upd_other _ _ e]; exact h.right a ha
  · intro f hf
    have : f ≠ t.2 := by have := h.below t (List.mem_of_getElem? hi); simp only at hf; omega
    simp only [upd_other _ _ this]
    exact h.above f hf

theorem exec_own {s s' : PSys} {c : Cmd} {o : Obs} (hc : ∀ i, c ≠ .clone i)
    (h : s.exec P C kec c = .ok (s', o)) (hs : s.Own kec) : s'.Own kec := by
  cases c with
  | new => simp only [exec, Except.ok.injEq, Prod.mk.injEq] at h; rw [← h.1]; exact hs.push _
  | fromIter xs =>
    simp only [exec, R_bind_eq_ok] at h
    obtain ⟨l, _, h⟩ := h
    simp only [R_pure, Except.ok.injEq, Prod.mk.injEq] at h
    rw [← h.1]; exact hs.push _
  | clone i => exact absurd rfl (hc i)
  | insert i k v =>
    rcases on_ok h with ⟨_, rfl, _⟩ | ⟨t, ht, h⟩
    · exact hs
    · simp only [R_bind_eq_ok] at h
      obtain ⟨l, _, h⟩ := h
      simp only [R_pure, Except.ok.injEq, Prod.mk.injEq] at h; rw [← h.1]; exact hs.mutate ht l
  | extend i xs =>
    rcases on_ok h with ⟨_, rfl, _⟩ | ⟨t, ht, h⟩
    · exact hs
    · simp only [R_bind_eq_ok] at h
      obtain ⟨l, _, h⟩ := h
      simp only [R_pure, Except.ok.injEq, Prod.mk.injEq] at h; rw [← h.1]; exact hs.mutate ht l
  | delete i k =>
    rcases on_ok h with ⟨_, rfl, _⟩ | ⟨t, ht, h⟩
    · exact hs
    · simp only [R_bind_eq_ok] at h
      obtain ⟨⟨l, x⟩, _, h⟩ := h
      simp only [R_pure, Except.ok.injEq, Prod.mk.injEq] at h; rw [← h.1]; exact hs.mutate ht l
  | get i k =>
    rcases on_ok h with ⟨_, rfl, _⟩ | ⟨t, _, h⟩
    · exact hs
    · simp only [R_bind_eq_ok] at h
      obtain ⟨l, _, h⟩ := h
      simp only [R_pure, Except.ok.injEq, Prod.mk.injEq] at h; rw [← h.1]; exact hs
  | hash i =>
    rcases on_ok h with ⟨_, rfl, _⟩ | ⟨t, _, h⟩
    · exact hs
    · simp only [Except.ok.injEq, Prod.mk.injEq] at h; rw [← h.1]; exact hs
  | items i =>
    rcases on_ok h with ⟨_, rfl, _⟩ | ⟨t, _, h⟩
    · exact hs
    · simp only [R_bind_eq_ok] at h
      obtain ⟨l, _, h⟩ := h
      simp only [R_pure, Except.ok.injEq, Prod.mk.injEq] at h; rw [← h.1]; exact hs
  | eq i j =>
    rcases on_ok h with ⟨_, rfl, _⟩ | ⟨t, _, h⟩
    · exact hs
    · rcases on_ok h with ⟨_, rfl, _⟩ | ⟨t, _, h⟩
      · exact hs
      · simp only [Except.ok.injEq, Prod.mk.injEq] at h; rw [← h.1]; exact hs
  | subset i ks =>
    rcases on_ok h with ⟨_, rfl, _⟩ | ⟨t, ht, h⟩
    · exact hs
    · simp only [R_bind_eq_ok] at h
      obtain ⟨r, hr, h⟩ := h
      cases r with
      | error k => simp only [R_pure, Except.ok.injEq, Prod.mk.injEq] at h; rw [← h.1]; exact hs
      | ok tr =>
        simp only [R_pure, Except.ok.injEq, Prod.mk.injEq] at h
        rw [← h.1]
        have hn : tr.node = t.1 := (LTracked.markAll_node P ks _ tr hr).trans (LTracked.node_new _)
        have := hs.right t (List.mem_of_getElem? ht)
        rw [← hn] at this
        have := (subsetX_right (C := C) this).2
        rw [hn] at this
        exact (hs.fill ht this).push _
  | subsets i kss =>
    rcases on_ok h with ⟨_, rfl, _⟩ | ⟨t, ht, h⟩
    · exact hs
    · simp only [R_bind_eq_ok] at h
      obtain ⟨⟨r, c⟩, hr, h⟩ := h
      have := hs.right t (List.mem_of_getElem? ht)
      rw [← LTracked.node_new t.1] at this
      obtain ⟨c', h1, _, h3⟩ := subsetsX_right (P := P) (C := C) kss this
      rw [LTracked.node_new] at h1
      rw [h3 _ _ hr] at h
      have hs' := hs.fill ht h1
      cases r with
      | error k => simp only [R_pure, Except.ok.injEq, Prod.mk.injEq] at h; rw [← h.1]; exact hs'
      | ok ls =>
        simp only [R_pure, Except.ok.injEq, Prod.mk.injEq] at h
        rw [← h.1]
        exact hs'.push _

theorem start_own : start.Own kec :=
  ⟨by simp [start], by simp [start], by simp [start], fun _ _ => rfl⟩

/-! ### Calls that read right cells -/

/-- The cache cell of a handle is empty or right. -/
def SafeAt (kec : Bytes → H256) (s : PSys) (i : Nat) : Prop :=
  ∀ t, s.hs[i]? = some t → RightFor kec (s.filled t.2) t.1

/-- Calls that may read the cache cell of a handle need it to be right. -/
def Safe (kec : Bytes → H256) (s : PSys) : Cmd → Prop
  | .hash i => s.SafeAt kec i
  | .subset i ks => ks = [] → s.SafeAt kec i
  | .subsets i kss => [] ∈ kss → s.SafeAt kec i
  | _ => True

/-- Read the result of a call. -/
def plainRes (x : R (PSys × Obs)) : R (List LNode × Obs) :=
  x.map fun y => (y.1.hs.map (·.1), y.2)

theorem push_hs (s : PSys) (ls : List LNode) : ∃ fs : List (LNode × Nat),
    (s.push ls).hs = s.hs ++ fs ∧ fs.map (·.1) = ls := by
  induction ls generalizing s with
  | nil => exact ⟨[], by simp [push], rfl⟩
  | cons l ls ih =>
    obtain ⟨fs, h1, h2⟩ := ih ⟨s.hs ++ [(l, s.next)], s.filled, s.next + 1⟩
    exact ⟨(l, s.next) :: fs, by rw [push, h1]; simp, by simp [h2]⟩

theorem push_plains (p : PSys) (ls : List LNode) :
    (p.push ls).hs.map (·.1) = p.hs.map (·.1) ++ ls := by
  obtain ⟨fs, h1, h2⟩ := PSys.push_hs p ls
  rw [h1, List.map_append, h2]

theorem on_plain (p : PSys) (i : Nat) {f : LNode × Nat → R (PSys × Obs)}
    {g : LNode → R (List LNode × Obs)}
    (h : ∀ t, p.hs[i]? = some t → PSys.plainRes (f t) = g t.1) :
    PSys.plainRes (p.on i f) = onPlain (p.hs.map (·.1)) i g := by
  unfold PSys.on onPlain
  rw [List.getElem?_map]
  cases ht : p.hs[i]? with
  | none => rfl
  | some t => exact h t ht

theorem subsetX_plain {cell : Option H256} {l : LNode} {ks : List Key} {tr : LTracked}
    (hr : (LTracked.new l).markAll P ks = .ok (.ok tr)) (h : ks = [] → RightFor kec cell l) :
    (tr.subsetX C kec cell).1 = tr.subset kec := by
  by_cases e : ks = []
  · have hn : tr.node = l := (LTracked.markAll_node P ks _ tr hr).trans (LTracked.node_new _)
    exact (subsetX_right (by rw [hn]; exact h e)).1
  · simp [LTracked.subsetX, LTracked.markAll_touched P ks _ tr hr (.inl e)]

theorem subsetsX_touched : ∀ (kss : List (List Key)) {t : LTracked} {cell : Option H256}, [] ∉ kss →
    (subsetsX P C kec t cell kss).map (·.1) = subsetsL P kec t kss := by
  intro kss
  induction kss with
  | nil => intro t cell h; rfl
  | cons ks kss ih =>
    intro t cell h
    simp only [subsetsX, subsetsL]
    cases hm : t.markAll P ks with
    | error e => rfl
    | ok r =>
      cases r with
      | error k => rfl
      | ok t' =>
        have ht := LTracked.markAll_touched P ks t t' hm
          (.inl fun e => h (by rw [e]; exact List.mem_cons_self))
        have k2 := ih (t := t'.reset) (cell := (t'.subsetX C kec cell).2)
          (fun e => h (List.mem_cons_of_mem _ e))
        simp only [R_bind_ok]
        rw [← k2]
        rcases subsetsX P C kec t'.reset (t'.subsetX C kec cell).2 kss with e | ⟨r | r, c⟩
        · rfl
        · rfl
        · simp only [R_bind_ok, R_pure, Except.map, LTracked.subsetX, ht, if_true]

theorem exec_plain (P : Profile) (C : Bool) {p : PSys} {c : Cmd} (hs : p.Safe kec c) :
    PSys.plainRes (p.exec P C kec c) = plainExec P kec (p.hs.map (·.1)) c := by
  cases c with
  | new => simp only [PSys.exec, PSys.plainRes, Except.map, PSys.push_plains, plainExec]
  | fromIter xs =>
    simp only [PSys.exec, plainExec]
    cases PSys.extendL .empty xs with
    | error e => rfl
    | ok l => simp [PSys.plainRes, Except.map, PSys.push_plains]
  | clone i => exact p.on_plain i fun t ht => by simp [PSys.plainRes, Except.map]
  | insert i k v =>
    refine p.on_plain i fun t ht => ?_
    cases t.1.insert k v with
    | error e => rfl
    | ok l => simp [PSys.plainRes, Except.map, List.map_set]
  | extend i xs =>
    refine p.on_plain i fun t ht => ?_
    cases PSys.extendL t.1 xs with
    | error e => rfl
    | ok l => simp [PSys.plainRes, Except.map, List.map_set]
  | delete i k =>
    refine p.on_plain i fun t ht => ?_
    cases t.1.deleteA k with
    | error e => rfl
    | ok l => simp [PSys.plainRes, Except.map, List.map_set]
  | get i k =>
    refine p.on_plain i fun t ht => ?_
    cases t.1.get P k with
    | error e => rfl
    | ok l => simp [PSys.plainRes, Except.map]
  | hash i =>
    refine p.on_plain i fun t ht => ?_
    have := hs t ht
    simp only [PSys.plainRes, Except.map]
    cases hf : p.filled t.2 with
    | none => rfl
    | some x =>
      rw [hf] at this
      simp [LNode.rootHash, this x rfl, EncodedNode.toH256]
  | items i =>
    refine p.on_plain i fun t ht => ?_
    cases t.1.itemsA with
    | error e => rfl
    | ok l => simp [PSys.plainRes, Except.map]
  | eq i j =>
    exact p.on_plain i fun t ht => p.on_plain j fun u hu => by simp [PSys.plainRes, Except.map]
  | subset i ks =>
    refine p.on_plain i fun t ht => ?_
    cases hm : (LTracked.new t.1).markAll P ks with
    | error e => rfl
    | ok r =>
      cases r with
      | error e => simp [PSys.plainRes, Except.map]
      | ok tr =>
        simp [PSys.plainRes, Except.map, PSys.push_plains, subsetX_plain hm fun e => hs e t ht]
  | subsets i kss =>
    refine p.on_plain i fun t ht => ?_
    have : (subsetsX P C kec (LTracked.new t.1) (p.filled t.2) kss).map (·.1) =
        subsetsL P kec (LTracked.new t.1) kss := by
      by_cases e : [] ∈ kss
      · have := hs e t ht
        rw [← LTracked.node_new t.1] at this
        obtain ⟨_, _, h2, _⟩ := subsetsX_right (P := P) (C := C) kss this
        exact h2
      · exact subsetsX_touched kss e
    rw [← this]
    rcases subsetsX P C kec (LTracked.new t.1) (p.filled t.2) kss with e | ⟨r | r, c⟩
    · rfl
    · simp [PSys.plainRes, Except.map]
    · simp [PSys.plainRes, Except.map, PSys.push_plains]

/-- A program whose cells stay right. -/
theorem run_plain {cs : List Cmd} {I : PSys → Prop} (hI : ∀ {p p' c o}, c ∈ cs → I p → p.exec P C kec c = .ok (p', o) →
      I p') (hsafe : ∀ {p c}, I p → p.Safe kec c) : ∀ {p : PSys}, I p →
    (p.run P C kec cs).map (fun r => (r.1.hs.map (·.1), r.2)) =
      plainRun P kec (p.hs.map (·.1)) cs := by
  induction cs with
  | nil => intro p _; rfl
  | cons c cs ih =>
    intro p hp
    have h1 := exec_plain P C (hsafe (c := c) hp)
    simp only [run, plainRun, ← h1]
    cases he : p.exec P C kec c with
    | error e => rfl
    | ok r =>
      obtain ⟨p', o⟩ := r
      have := ih (fun hc => hI (List.mem_cons_of_mem _ hc)) (hI List.mem_cons_self hp he)
      simp only [plainRes, Except.map, R_bind_ok]
      rw [← this]
      cases p'.run P C kec cs <;> rfl

theorem Own.safe {p : PSys} (h : p.Own kec) (c : Cmd) : p.Safe kec c := by
  have hat : ∀ i, p.SafeAt kec i := fun i t ht => h.right t (List.mem_of_getElem? ht)
  cases c <;> first | trivial | exact hat _ | exact fun _ => hat _

theorem safe_of_none {p : PSys} (h : ∀ f, p.filled f = none) (c : Cmd) : p.Safe kec c := by
  have hat : ∀ i, p.SafeAt kec i := fun i t _ x hx => by rw [h] at hx; cases hx
  cases c <;> first | trivial | exact hat _ | exact fun _ => hat _

end PSys

theorem CacheSafe.run {P : Profile} {C : Bool} {kec : Bytes → H256} {cs : List Cmd}
    (h : CacheSafe cs) : (PSys.start.run P C kec cs).map (fun r => (r.1.hs.map (·.1), r.2)) =
      plainRun P kec [] cs := by
  rcases h with h | ⟨h1, h2⟩
  · refine PSys.run_plain (I := PSys.Own kec) (fun hc hp he => ?_) (fun hp => hp.safe _)
      PSys.start_own
    exact PSys.exec_own (fun i e => h i (by rw [← e]; exact hc)) he hp
  · refine PSys.run_plain (I := fun p => ∀ f, p.filled f = none) (fun {p p' c o} hc hp he => ?_)
      (fun hp => PSys.safe_of_none hp _) fun _ => rfl
    refine PSys.exec_noFill ?_ he hp
    cases c with
    | subset i ks => rintro rfl; exact h1 i hc
    | subsets i kss => exact h2 i kss hc
    | _ => trivial

end EthTrie
