import Verif.Spec.Over
import Verif.Sys.Main

/-!
# Programs over prefix-free sets of keys are supported
-/

namespace EthTrie

open KMap

theorem putAll_append (m : KMap) (xs ys : List (Key × ValOrHash)) :
    m.putAll (xs ++ ys) = (m.putAll xs).putAll ys := by
  induction xs generalizing m with
  | nil => rfl
  | cons x xs ih => exact ih _

section
variable {S : Key → Prop} {m : KMap} (hS : PrefixFree S) (hl : ∀ k, S k → k.length ≤ 127)

theorem in_empty : KMap.empty.In S := fun _ _ h => by cases h

theorem In.put (hm : m.In S) {k : Key} {b : Bytes} (hk : S k) : (m.put k (.val b)).In S := by
  intro q v h
  unfold KMap.put at h
  split at h
  · cases h; subst_vars; exact ⟨hk, b, rfl⟩
  · exact hm q v h

theorem In.erase (hm : m.In S) (k : Key) : (m.erase k).In S := by
  intro q v h
  unfold KMap.erase at h
  split at h
  · cases h
  · exact hm q v h

theorem In.putAll : ∀ (xs : List (Key × ValOrHash)) {m : KMap}, m.In S →
    (∀ x ∈ xs, S x.1 ∧ ∃ v, x.2 = .val v) → (m.putAll xs).In S := by
  intro xs
  induction xs with
  | nil => intro m hm _; exact hm
  | cons x xs ih =>
    obtain ⟨k, v⟩ := x
    intro m hm hx
    obtain ⟨hk, b, rfl⟩ := hx (k, v) List.mem_cons_self
    exact ih (In.put hm hk) fun y hy => hx y (List.mem_cons_of_mem _ hy)

theorem In.short (hm : m.In S) (h : ∀ k, S k → k.length ≤ 64) : m.Short := by
  intro k hk
  obtain ⟨v, hv⟩ := Option.ne_none_iff_exists'.1 hk
  exact h k (hm _ _ hv).1

include hS

theorem In.not_below (hm : m.In S) {k : Key} (hk : S k) : ¬ m.Below k := by
  rintro ⟨d, r, h⟩
  obtain ⟨v, hv⟩ := Option.ne_none_iff_exists'.1 h
  have := hS k _ hk (hm _ _ hv).1 (List.prefix_append _ _)
  simp at this

theorem In.prefix_eq (hm : m.In S) {k q : Key} (hk : S k) (hq : m q ≠ none) (h : q <+: k) :
    q = k := by
  obtain ⟨v, hv⟩ := Option.ne_none_iff_exists'.1 hq
  exact hS q k (hm _ _ hv).1 hk h

theorem In.noHash (hm : m.In S) (k : Key) : m.NoHashOn k := by
  intro q h hq _
  obtain ⟨_, b, hb⟩ := hm _ _ hq
  cases hb

theorem In.insertOK (hm : m.In S) {k : Key} (hk : S k) (b : Bytes) : m.InsertOK k (.val b) where
  noHash := In.noHash hS hm k
  noEmpty q h hq := In.prefix_eq hS hm hk (by rw [h]; simp) hq
  nonempty h := (In.not_below hS hm hk h).elim
  val _ _ := .inr (.inl (In.not_below hS hm hk))
  hash h e := by cases e

theorem In.deleteOK (hm : m.In S) {k : Key} (hk : S k) : m.DeleteOK k where
  noHash := In.noHash hS hm k
  absent _ := .inl (In.not_below hS hm hk)
  branch _ := .inl (In.not_below hS hm hk)
  parent _ q d r e hq _ := by
    have := In.prefix_eq hS hm hk hq (e ▸ List.prefix_append _ _)
    rw [e] at this; simp at this

theorem In.getOK {P : Profile} (hm : m.In S) {k : Key} (hk : S k)
    (hp : P.overflowChecks = true → m.PathOK k) : m.GetOK P k where
  leaf h q x hx hq := by
    have := In.prefix_eq hS hm hk (by rw [hx]; simp) hq
    subst this; rw [h] at hx; cases hx
  inside h := by
    rintro ⟨q, x, hx, _⟩
    have := hS k _ hk (hm _ _ hx).1 (List.prefix_append _ _)
    rw [← this, h] at hx; cases hx
  short := hp
  zeros _ _ q j x _ _ hx := In.not_below hS hm (hm _ _ hx).1

include hl

theorem In.putsOK : ∀ (xs : List (Key × ValOrHash)) {m : KMap}, m.In S →
    (∀ x ∈ xs, S x.1 ∧ ∃ v, x.2 = .val v) → m.PutsOK xs := by
  intro xs
  induction xs with
  | nil => intro m _ _; trivial
  | cons x xs ih =>
    obtain ⟨k, v⟩ := x
    intro m hm hx
    obtain ⟨hk, b, rfl⟩ := hx (k, v) List.mem_cons_self
    exact ⟨hl k hk, In.insertOK hS hm hk b, ih (In.put hm hk) fun y hy =>
      hx y (List.mem_cons_of_mem _ hy)⟩

theorem over_supported {P : Profile} {kec : Bytes → H256} {ms : List KMap}
    (hms : ∀ m ∈ ms, m.In S) {c : Cmd} (hc : c.Over S)
    (hp : P.overflowChecks = true → ∀ i k m, c = .get i k → ms[i]? = some m → m.PathOK k) :
    ((c.Merges → ∀ k, S k → k.length ≤ 64) → Supported P ms c) ∧
      ∀ o ms', Step kec ms c o ms' → ∀ m ∈ ms', m.In S := by
  have hat : ∀ (i : Nat) m, ms[i]? = some m → m.In S := fun i m h => hms m (List.mem_of_getElem? h)
  have hset : ∀ i m', m'.In S → ∀ m ∈ ms.set i m', m.In S := by
    intro i m' hm' m h
    rcases List.mem_or_eq_of_mem_set h with h | rfl
    · exact hms m h
    · exact hm'
  have happ : ∀ m', m'.In S → ∀ m ∈ ms ++ [m'], m.In S := by
    intro m' hm' m h
    rcases List.mem_append.1 h with h | h
    · exact hms m h
    · rw [List.mem_singleton.1 h]; exact hm'
  have hon : ∀ i (f : KMap → Obs → List KMap → Prop) o ms',
      onMap ms i f o ms' → (∀ m, ms[i]? = some m → f m o ms' → ∀ m ∈ ms', m.In S) →
      ∀ m ∈ ms', m.In S := by
    intro i f o ms' h2 h1
    unfold onMap at h2
    cases hi : ms[i]? with
    | none => rw [hi] at h2; rw [h2.2]; exact hms
    | some m => rw [hi] at h2; exact h1 m hi h2
  cases c with
  | new => exact ⟨fun _ => trivial, fun o ms' h => by rw [h.2]; exact happ _ in_empty⟩
  | fromIter xs =>
    exact ⟨fun _ => In.putsOK hS hl xs in_empty hc, fun o ms' h => by
      rw [h.2]; exact happ _ (In.putAll xs in_empty hc)⟩
  | clone i =>
    refine ⟨fun _ => trivial, fun o ms' h => hon i _ o ms' (by simpa only [Step] using h) fun m hm h => ?_⟩
    rw [h.2]; exact happ _ (hat i m hm)
  | insert i k v =>
    obtain ⟨hk, b, rfl⟩ := hc
    refine ⟨fun _ => ⟨hl k hk, fun m hm => In.insertOK hS (hat i m hm) hk b⟩, fun o ms' h =>
      hon i _ o ms' (by simpa only [Step] using h) fun m hm h => ?_⟩
    rw [h.2]; exact hset _ _ (In.put (hat i m hm) hk)
  | extend i xs =>
    refine ⟨fun _ => ⟨fun x hx => hl _ (hc x hx).1, fun m hm => In.putsOK hS hl xs (hat i m hm) hc⟩,
      fun o ms' h => hon i _ o ms' (by simpa only [Step] using h) fun m hm h => ?_⟩
    rw [h.2]; exact hset _ _ (In.putAll xs (hat i m hm) hc)
  | delete i k =>
    refine ⟨fun hd => ⟨hl k hc, fun m hm => ⟨In.deleteOK hS (hat i m hm) hc,
      In.short (hat i m hm) (hd trivial)⟩⟩, fun o ms' h =>
      hon i _ o ms' (by simpa only [Step] using h) fun m hm h => ?_⟩
    rw [h.2]; exact hset _ _ (In.erase (hat i m hm) k)
  | get i k =>
    refine ⟨fun _ => ⟨hl k hc, fun m hm => In.getOK hS (hat i m hm) hc fun hP => hp hP i k m rfl hm⟩,
      fun o ms' h => hon i _ o ms' (by simpa only [Step] using h) fun m hm h => ?_⟩
    rw [h.2]; exact hms
  | hash i =>
    refine ⟨fun _ => trivial, fun o ms' h => hon i _ o ms' (by simpa only [Step] using h) fun m hm h => ?_⟩
    rw [h.2]; exact hms
  | items i =>
    refine ⟨fun hd m hm => In.short (hat i m hm) (hd trivial), fun o ms' h => hon i _ o ms' (by simpa only [Step] using h) fun m hm h => ?_⟩
    rw [h.2]; exact hms
  | eq i j =>
    refine ⟨fun _ => trivial, fun o ms' h => hon i _ o ms' h fun m hm h => hon j _ o ms' h fun m hm h => ?_⟩
    rw [h.2]; exact hms
  | subset i ks => exact hc.elim
  | subsets i kss => exact hc.elim

theorem over_supportedRun {P : Profile} {kec : Bytes → H256} : ∀ (cs : List Cmd) {ms : List KMap},
    (∀ m ∈ ms, m.In S) → (∀ c ∈ cs, c.Over S) →
    (∀ c ∈ cs, c.Merges → ∀ k, S k → k.length ≤ 64) → (P.overflowChecks = true → PathsOK kec ms cs) →
    SupportedRun P kec ms cs := by
  intro cs
  induction cs with
  | nil => intro _ _ _ _ _; trivial
  | cons c cs ih =>
    intro ms hms hcs hd hp
    obtain ⟨h1, h2⟩ := over_supported (P := P) (kec := kec) hS hl hms (hcs c List.mem_cons_self)
      fun hP => (hp hP).1
    exact ⟨h1 (hd c List.mem_cons_self), fun o ms' h => ih (h2 o ms' h)
      (fun c' hc' => hcs c' (List.mem_cons_of_mem _ hc'))
      (fun c' hc' => hd c' (List.mem_cons_of_mem _ hc'))
      fun hP => (hp hP).2 o ms' h⟩

omit hS hl in
theorem In.pathOK_fixed {n : Nat} (hm : m.In fun k => k.length = n) {k : Key} (hk : k.length = n) :
    m.PathOK k := by
  intro _ q p _ _ hlt ⟨d, r, hr⟩ ha
  obtain ⟨v, hv⟩ := Option.ne_none_iff_exists'.1 hr
  have h1 := (ha _ hr (List.prefix_append _ _)).length_le
  have h2 := (hm _ _ hv).1
  simp only at h2
  omega

omit hS hl in
theorem prefixFree_fixed (n : Nat) : PrefixFree fun k => k.length = n :=
  fun a b ha hb h => h.eq_of_length (by simp only at ha hb; omega)

omit hS hl in
theorem over_fixed {kec : Bytes → H256} {n : Nat} (hn : n ≤ 127) : ∀ (cs : List Cmd)
    {ms : List KMap}, (∀ m ∈ ms, m.In fun k => k.length = n) →
    (∀ c ∈ cs, c.Over fun k => k.length = n) → PathsOK kec ms cs := by
  intro cs
  induction cs with
  | nil => intro _ _ _; trivial
  | cons c cs ih =>
    intro ms hms hcs
    have hget : ∀ i k m, c = .get i k → ms[i]? = some m → m.PathOK k := by
      intro i k m e hm
      subst e
      exact In.pathOK_fixed (hms m (List.mem_of_getElem? hm)) (hcs _ List.mem_cons_self)
    obtain ⟨_, h2⟩ := over_supported (P := .debug) (kec := kec) (prefixFree_fixed n)
      (fun k hk => by omega) hms (hcs c List.mem_cons_self) fun _ => hget
    exact ⟨hget, fun o ms' h => ih (h2 o ms' h) fun c' hc' => hcs c' (List.mem_cons_of_mem _ hc')⟩

end

theorem over_permitted {K : Kind} {S : Key → Prop} {c : Cmd} (h : c.Over S) :
    permitted K .noEmptySubset c := by
  cases K <;> cases c <;> first | trivial | exact h.elim

end EthTrie
