import Verif.Proof.Unordered3
/-!
C29–C36: `stdgpu::unordered_map` and `stdgpu::unordered_set` used from one thread.

`Spec.KeyLaws P` (Spec/Maps.lean) is the contract of the user-supplied hash and comparison, `Spec.mapRun` the finite
map, `Spec.Reachable P bc ec t` says that `t` is the state after some history on a new container with `bc` buckets and
`ec` excess entries, `Spec.contents t` are the stored values and `Spec.freeList t` the unused excess entries. All hash
functions are covered; the bucket count is any positive number below 2^63 (the code only makes powers of two, C37).
-/
namespace Stdgpu.Props
open Stdgpu.Unordered Stdgpu.Spec
open Stdgpu.Vector (Fault)

variable {K V : Type} {P : Params K V} {bc ec : Nat} {t : Tab V}

/-- C29. Every history of operations on a new container runs without undefined behaviour (no access outside the table,
no read of a value that is not alive, no construction over a live value) and without hanging, and all results are those
of the finite map `m`, whose elements are the stored values. -/
theorem C29_map_refinement [DecidableEq V] (hl : KeyLaws P) (h0 : 0 < bc) (h1 : bc < 2 ^ 63) (ops : List (UOp K V))
    (ords : Nat → Nat → List Nat) (ho : ∀ j n, (ords j n).Perm (List.range n)) :
    ∃ outs t m, execAll P ords (create bc ec) ops = .ok (outs, t) ∧ mapRun P [] ops outs = some m ∧
      m.Perm (contents t) := by
  obtain ⟨outs, t, m, e1, e2, h, -⟩ := execAll_refines hl ops (create bc ec) [] ords ho (holdsMap_create P bc ec h0 h1)
  exact ⟨outs, t, m, e1, e2, h.perm⟩

/-- C29: lookup in a reachable state. `find` returns an iterator to the stored value of the key, `end()` exactly when
no stored value has the key; `contains` and `count` agree with it. -/
theorem C29_lookup (hl : KeyLaws P) (h0 : 0 < bc) (h1 : bc < 2 ^ 63) (hr : Reachable P bc ec t) (k : K) :
    (∃ it, find P t k = .ok it ∧ deref t it = .ok (lookup P (contents t) k) ∧
      (it = none ↔ ∀ v ∈ contents t, P.keyEq (P.keyOf v) k = false)) ∧
    contains P t k = .ok (lookup P (contents t) k).isSome ∧
    count P t k = .ok (if (lookup P (contents t) k).isSome then 1 else 0) := by
  obtain ⟨⟨chain, free, h⟩, -, -⟩ := reachable_rep hl h0 h1 hr
  have hs := lookup_isSome h hl (List.Perm.refl _) k
  have he := lookup_eq h hl (List.Perm.refl _) k
  refine ⟨⟨_, h.find_eq k, ?_, ?_⟩, ?_, ?_⟩
  · rw [he]
    cases hp : Rep.pos P t chain k with
    | none => rfl
    | some p =>
      obtain ⟨g1, g2, -⟩ := h.pos_some hp
      simp [deref, g1, (h.stored_ok g1 g2).1]
  · constructor
    · intro hn v hv
      obtain ⟨p, g1, g2, g3⟩ := mem_contents.1 hv
      exact h.pos_none hl hn g1 g2 g3
    · intro hn
      cases hp : Rep.pos P t chain k with
      | none => rfl
      | some p =>
        obtain ⟨g1, g2, v, g3, g4, -⟩ := h.pos_some hp
        rw [hn v (mem_contents.2 ⟨p, g1, g2, g3⟩)] at g4
        simp at g4
  · rw [h.contains_eq, hs]
  · rw [hs]
    simp only [count, h.contains_eq, bind, Except.bind, pure, Except.pure]

/-- C29: lookup with a transparent hash and comparison (`KeyLike`): if the comparison `eqL` accepts only keys whose
hash is `hashL`, the result is an iterator to a stored value it accepts, and `end()` exactly when there is none. -/
theorem C29_transparent_lookup (hl : KeyLaws P) (h0 : 0 < bc) (h1 : bc < 2 ^ 63) (hr : Reachable P bc ec t)
    (hashL : BitVec 64) (eqL : K → Bool) (hc : ∀ k, eqL k = true → P.hash k = hashL) :
    (findLike P t hashL eqL = .ok none ∧ ∀ v ∈ contents t, eqL (P.keyOf v) = false) ∨
    (∃ p v, findLike P t hashL eqL = .ok (some p) ∧ deref t (some p) = .ok (some v) ∧ v ∈ contents t ∧
      eqL (P.keyOf v) = true) := by
  obtain ⟨⟨chain, free, h⟩, -, -⟩ := reachable_rep hl h0 h1 hr
  let P' : Params Unit Unit := ⟨fun _ => (), fun _ => hashL, fun _ _ => true⟩
  have hb : (FibHash.fibonacciHashing hashL t.bc).toNat < t.bc :=
    bucket_lt P' { t with val := fun _ => none } () h.bc_pos h.bc_lt
  have e := h.findImpl_eq hb (fun v => eqL (P.keyOf v))
  unfold findLike
  rw [e]
  cases hf : List.find? (matchB t fun v => eqL (P.keyOf v))
      ((FibHash.fibonacciHashing hashL t.bc).toNat :: chain (FibHash.fibonacciHashing hashL t.bc).toNat) with
  | none =>
    left
    refine ⟨rfl, fun v hv => ?_⟩
    obtain ⟨p, g1, g2, g3⟩ := mem_contents.1 hv
    by_contra hx
    rw [Bool.not_eq_false] at hx
    have hm := h.home g1 g2 g3
    unfold bucket FibHash.bucket at hm
    rw [hc _ hx] at hm
    exact List.find?_eq_none.1 hf p hm (Rep.matchB_iff.2 ⟨g2, v, g3, hx⟩)
  | some p =>
    right
    have g1 := h.lt_of_mem hb p (List.mem_of_find?_eq_some hf)
    obtain ⟨g2, v, g3, g4⟩ := Rep.matchB_iff.1 (List.find?_some hf)
    exact ⟨p, v, rfl, by simp [deref, g1, (h.stored_ok g1 g2).1, g3], mem_contents.2 ⟨p, g1, g2, g3⟩, g4⟩

/-- C30: inserting a key that is present changes nothing and returns `(end(), false)`. -/
theorem C30_insert_present (hl : KeyLaws P) (h0 : 0 < bc) (h1 : bc < 2 ^ 63) (hr : Reachable P bc ec t) (v w : V)
    (hw : w ∈ contents t) (hk : P.keyEq (P.keyOf w) (P.keyOf v) = true) : insert P t v = .ok ((none, false), t) := by
  obtain ⟨⟨chain, free, h⟩, -, -⟩ := reachable_rep hl h0 h1 hr
  obtain ⟨p, g1, g2, g3⟩ := mem_contents.1 hw
  refine (insert_eq h v).2 ?_
  rw [h.pos_of_stored hl g1 g2 g3 hk]
  simp

/-- C30: no key is stored twice. -/
theorem C30_keys_unique (hl : KeyLaws P) (h0 : 0 < bc) (h1 : bc < 2 ^ 63) (hr : Reachable P bc ec t) :
    (contents t).Pairwise (fun v w => P.keyEq (P.keyOf v) (P.keyOf w) = false) := by
  obtain ⟨⟨chain, free, h⟩, -, -⟩ := reachable_rep hl h0 h1 hr
  exact contents_uniq h hl

/-- C30: a successful insertion returns an iterator to the new value and adds exactly it. -/
theorem C30_insert_success (hl : KeyLaws P) (h0 : 0 < bc) (h1 : bc < 2 ^ 63) (hr : Reachable P bc ec t) (v : V)
    (it : Option Nat) (t' : Tab V) (e : insert P t v = .ok ((it, true), t')) :
    deref t' it = .ok (some v) ∧ (contents t').Perm (v :: contents t) := by
  obtain ⟨⟨chain, free, h⟩, -, -⟩ := reachable_rep hl h0 h1 hr
  obtain ⟨i1, i2⟩ := insert_eq h v
  by_cases hc : Rep.pos P t chain (P.keyOf v) = none ∧ free ≠ []
  · obtain ⟨p, t2, e2, p1, p2, p3, -, hp, -⟩ := i1 hc
    rw [e] at e2
    simp only [Except.ok.injEq, Prod.mk.injEq, and_true] at e2
    obtain ⟨rfl, rfl⟩ := e2
    exact ⟨by simp [deref, p1, p2, p3], hp⟩
  · rw [i2 hc] at e
    simp at e

/-- C30: `erase(k)` removes exactly the value of `k` and returns 1, or changes nothing and returns 0. -/
theorem C30_erase (hl : KeyLaws P) (h0 : 0 < bc) (h1 : bc < 2 ^ 63) (hr : Reachable P bc ec t) (k : K) :
    (∃ v t', v ∈ contents t ∧ P.keyEq (P.keyOf v) k = true ∧ erase P t k = .ok (1, t') ∧
      (contents t).Perm (v :: contents t') ∧ ∀ w ∈ contents t', P.keyEq (P.keyOf w) k = false) ∨
    ((∀ w ∈ contents t, P.keyEq (P.keyOf w) k = false) ∧ erase P t k = .ok (0, t)) := by
  obtain ⟨⟨chain, free, h⟩, -, -⟩ := reachable_rep hl h0 h1 hr
  obtain ⟨i1, i2⟩ := erase_eq h k
  cases hp : Rep.pos P t chain k with
  | none =>
    right
    refine ⟨fun w hw => ?_, i1 hp⟩
    obtain ⟨p, g1, g2, g3⟩ := mem_contents.1 hw
    exact h.pos_none hl hp g1 g2 g3
  | some p =>
    left
    obtain ⟨v, t', hv, e, -, hperm, -⟩ := i2 p hp
    obtain ⟨g1, g2, v', hv', hk, -⟩ := h.pos_some hp
    rw [hv] at hv'; simp at hv'; subst hv'
    refine ⟨v, t', mem_contents.2 ⟨p, g1, g2, hv⟩, hk, e, hperm, fun w hw => ?_⟩
    have hw' := (filter_erase h hl hperm hk).mem_iff.2 hw
    simpa using (List.mem_filter.1 hw').2

/-- C30: erasing a present key makes room: inserting a value with that key then succeeds and the new value is the one
that is found. -/
theorem C30_erase_then_insert (hl : KeyLaws P) (h0 : 0 < bc) (h1 : bc < 2 ^ 63) (hr : Reachable P bc ec t) (v w : V)
    (hw : w ∈ contents t) (hk : P.keyEq (P.keyOf w) (P.keyOf v) = true) (hf : freeList t ≠ []) :
    ∃ t1 p t2, erase P t (P.keyOf v) = .ok (1, t1) ∧ insert P t1 v = .ok ((some p, true), t2) ∧
      find P t2 (P.keyOf v) = .ok (some p) ∧ deref t2 (some p) = .ok (some v) := by
  obtain ⟨⟨chain, free, h⟩, -, -⟩ := reachable_rep hl h0 h1 hr
  obtain ⟨p, g1, g2, g3⟩ := mem_contents.1 hw
  obtain ⟨v', t1, hv', e, ⟨chain1, free1, h1'⟩, hperm, hb, ht, hocc⟩ := (erase_eq h (P.keyOf v)).2 p
    (h.pos_of_stored hl g1 g2 g3 hk)
  rw [g3] at hv'; simp at hv'; subst hv'
  have hn : Rep.pos P t1 chain1 (P.keyOf v) = none := by
    cases hp : Rep.pos P t1 chain1 (P.keyOf v) with
    | none => rfl
    | some q =>
      obtain ⟨q1, q2, x, q3, q4, -⟩ := h1'.pos_some hp
      have hx := (filter_erase h hl hperm hk).mem_iff.2 (mem_contents.2 ⟨q, q1, q2, q3⟩)
      simp [q4] at hx
  have hf1 : free1 ≠ [] := by
    intro hc
    rw [freeList_eq h] at hf
    obtain ⟨n, hn⟩ := List.exists_mem_of_ne_nil _ hf
    obtain ⟨n1, n2⟩ := h.free_rng n hn
    have hno := h.occF n hn
    -- entry `n` stays unused by the erasure
    have := (h1'.cover n (by omega) (by omega))
    rw [hc] at this
    simp only [List.not_mem_nil, false_iff, not_forall, not_not] at this
    obtain ⟨b, hb1, hb2⟩ := this
    have ho1 := h1'.occC b hb1 n hb2
    rw [hocc] at ho1
    rw [(upd_false_true ho1).2] at hno
    simp at hno
  obtain ⟨q, t2, e2, q1, q2, q3, ⟨chain2, free2, h2'⟩, -⟩ := (insert_eq h1' v).1 ⟨hn, hf1⟩
  refine ⟨t1, q, t2, e, e2, ?_, by simp [deref, q1, q2, q3]⟩
  rw [h2'.find_eq, h2'.pos_of_stored hl q1 (by rw [← h2'.live q q1]; exact q2) q3 (hl.refl _)]

/-- C31. -/
theorem C31_valid (hl : KeyLaws P) (h0 : 0 < bc) (h1 : bc < 2 ^ 63) (hr : Reachable P bc ec t)
    (ord : Nat → List Nat) (ho : ∀ n, (ord n).Perm (List.range n)) : valid P ord t = .ok true := by
  obtain ⟨⟨chain, free, h⟩, -, -⟩ := reachable_rep hl h0 h1 hr
  exact valid_eq h hl ho

/-- C32: in every reachable state all operations terminate without leaving the table; the model of a chain walk makes
at most `total` (= `max_size()`) steps and reports a fault otherwise. -/
theorem C32_walks (hl : KeyLaws P) (h0 : 0 < bc) (h1 : bc < 2 ^ 63) (hr : Reachable P bc ec t) :
    (∀ k, ∃ r, find P t k = .ok r ∧ ∀ p, r = some p → p < bc + ec) ∧
    (∀ hash eq, ∃ r, findLike P t hash eq = .ok r ∧ ∀ p, r = some p → p < bc + ec) ∧
    (∀ b, b < bc → ∃ n, bucketSize t b = .ok n) ∧
    (∀ v, ∃ r, insert P t v = .ok r) ∧ (∀ k, ∃ r, erase P t k = .ok r) ∧
    (∀ ord : Nat → List Nat, (∀ n, (ord n).Perm (List.range n)) → ∃ r, clear ord t = .ok r) := by
  obtain ⟨⟨chain, free, h⟩, hb, ht⟩ := reachable_rep hl h0 h1 hr
  refine ⟨fun k => ⟨_, h.find_eq k, fun p hp => ?_⟩, fun hash eq => ?_, fun b hbb => ⟨_, bucketSize_eq h (by omega)⟩,
    fun v => ?_, fun k => ?_, fun ord ho => ?_⟩
  · have := (h.pos_some hp).1
    omega
  · let P' : Params Unit Unit := ⟨fun _ => (), fun _ => hash, fun _ _ => true⟩
    have hb' : (FibHash.fibonacciHashing hash t.bc).toNat < t.bc :=
      bucket_lt P' { t with val := fun _ => none } () h.bc_pos h.bc_lt
    refine ⟨_, h.findImpl_eq hb' (fun v => eq (P.keyOf v)), fun p hp => ?_⟩
    have := h.lt_of_mem hb' p (List.mem_of_find?_eq_some hp)
    omega
  · by_cases hc : Rep.pos P t chain (P.keyOf v) = none ∧ free ≠ []
    · obtain ⟨p, t', e, -⟩ := (insert_eq h v).1 hc
      exact ⟨_, e⟩
    · exact ⟨_, (insert_eq h v).2 hc⟩
  · cases hp : Rep.pos P t chain k with
    | none => exact ⟨_, (erase_eq h k).1 hp⟩
    | some p =>
      obtain ⟨v, t', -, e, -⟩ := (erase_eq h k).2 p hp
      exact ⟨_, e⟩
  · obtain ⟨t', e, -⟩ := clear_eq h ho
    exact ⟨_, e⟩

/-- C33: an insertion succeeds exactly when the key is absent, the container is not full and the list of unused excess
entries is not empty. -/
theorem C33_insert_iff (hl : KeyLaws P) (h0 : 0 < bc) (h1 : bc < 2 ^ 63) (hr : Reachable P bc ec t) (v : V) :
    ∃ it b t', insert P t v = .ok ((it, b), t') ∧ (b = true ↔ (∀ w ∈ contents t, P.keyEq (P.keyOf w) (P.keyOf v) = false) ∧
      size t ≠ ((bc + ec : Nat) : Int) ∧ freeList t ≠ []) ∧ (b = false → it = none ∧ t' = t) := by
  obtain ⟨⟨chain, free, h⟩, hb, ht⟩ := reachable_rep hl h0 h1 hr
  have habs : Rep.pos P t chain (P.keyOf v) = none ↔ ∀ w ∈ contents t, P.keyEq (P.keyOf w) (P.keyOf v) = false := by
    constructor
    · intro hn w hw
      obtain ⟨p, g1, g2, g3⟩ := mem_contents.1 hw
      exact h.pos_none hl hn g1 g2 g3
    · intro hn
      cases hp : Rep.pos P t chain (P.keyOf v) with
      | none => rfl
      | some p =>
        obtain ⟨g1, g2, x, g3, g4, -⟩ := h.pos_some hp
        rw [hn x (mem_contents.2 ⟨p, g1, g2, g3⟩)] at g4
        simp at g4
  have hfull : free ≠ [] → size t ≠ ((bc + ec : Nat) : Int) := by
    intro hf hs
    exact hf (h.full_free (by simp only [full, hs, ht, beq_self_eq_true]))
  rw [freeList_eq h]
  by_cases hc : Rep.pos P t chain (P.keyOf v) = none ∧ free ≠ []
  · obtain ⟨p, t', e, -⟩ := (insert_eq h v).1 hc
    exact ⟨_, _, _, e, ⟨fun _ => ⟨habs.1 hc.1, hfull hc.2, hc.2⟩, fun _ => rfl⟩, by simp⟩
  · refine ⟨_, _, _, (insert_eq h v).2 hc, ?_, by simp⟩
    simp only [Bool.false_eq_true, false_iff, not_and]
    intro h1 _ h2
    exact hc ⟨habs.2 h1, h2⟩

/-- C33: as long as `size()` is smaller than the number of excess entries, no insertion of an absent key fails. -/
theorem C33_insert_few (hl : KeyLaws P) (h0 : 0 < bc) (h1 : bc < 2 ^ 63) (hr : Reachable P bc ec t) (v : V)
    (hs : size t < ec) (ha : ∀ w ∈ contents t, P.keyEq (P.keyOf w) (P.keyOf v) = false) :
    ∃ p t', insert P t v = .ok ((some p, true), t') := by
  obtain ⟨⟨chain, free, h⟩, hb, ht⟩ := reachable_rep hl h0 h1 hr
  have hf : free ≠ [] := by
    rintro rfl
    have := excess_used h
    simp only [size, h.count] at hs
    simp at this
    omega
  have hn : Rep.pos P t chain (P.keyOf v) = none := by
    cases hp : Rep.pos P t chain (P.keyOf v) with
    | none => rfl
    | some p =>
      obtain ⟨g1, g2, x, g3, g4, -⟩ := h.pos_some hp
      rw [ha x (mem_contents.2 ⟨p, g1, g2, g3⟩)] at g4
      simp at g4
  obtain ⟨p, t', e, -⟩ := (insert_eq h v).1 ⟨hn, hf⟩
  exact ⟨p, t', e⟩

/-- C33, the expectation that fails: with a constant hash function a container never holds more than `ec + 1` values,
whatever its number of buckets. `createDeviceObject(16)` makes 16 buckets and 11 excess entries, so 12 values fit and
`capacity()` = 16 is never reached. -/
theorem C33_constant_hash_limit (hl : KeyLaws P) (h0 : 0 < bc) (h1 : bc < 2 ^ 63) (hr : Reachable P bc ec t)
    (c : BitVec 64) (hc : ∀ k, P.hash k = c) : (contents t).length ≤ ec + 1 := by
  obtain ⟨⟨chain, free, h⟩, hb, ht⟩ := reachable_rep hl h0 h1 hr
  rw [length_contents h]
  have hlt : (FibHash.fibonacciHashing c t.bc).toNat < t.bc :=
    bucket_lt (⟨fun _ => (), fun _ => c, fun _ _ => true⟩ : Params Unit Unit) { t with val := fun _ => none } () h.bc_pos
      h.bc_lt
  unfold Vector.countBits
  rw [List.countP_eq_length_filter]
  have : ((List.range t.total).filter t.occ).length ≤
      ((FibHash.fibonacciHashing c t.bc).toNat :: chain (FibHash.fibonacciHashing c t.bc).toNat).length := by
    apply List.Subperm.length_le
    apply List.Nodup.subperm (List.nodup_range.filter _)
    intro p hp
    obtain ⟨hp1, hp2⟩ := List.mem_filter.1 hp
    have hp1 := List.mem_range.1 hp1
    obtain ⟨v, hv⟩ := Option.isSome_iff_exists.1 (h.val p hp1 hp2)
    have := h.home hp1 hp2 hv
    unfold bucket FibHash.bucket at this
    rwa [hc] at this
  have hch := h.chain_length hlt
  simp only [List.length_cons] at this
  omega

/-- C34: the unused excess entries are listed exactly once each, and they are exactly the excess entries that store no
value. -/
theorem C34_slot_accounting (hl : KeyLaws P) (h0 : 0 < bc) (h1 : bc < 2 ^ 63) (hr : Reachable P bc ec t) :
    (freeList t).Nodup ∧ (∀ p, p ∈ freeList t ↔ bc ≤ p ∧ p < bc + ec ∧ t.occ p = false) ∧
    (freeList t).length + (List.range' bc ec).countP t.occ = ec := by
  obtain ⟨⟨chain, free, h⟩, hb, ht⟩ := reachable_rep hl h0 h1 hr
  rw [freeList_eq h]
  have hmem : ∀ p, p ∈ free ↔ bc ≤ p ∧ p < bc + ec ∧ t.occ p = false := by
    intro p
    constructor
    · intro hp
      obtain ⟨g1, g2⟩ := h.free_rng p hp
      exact ⟨by omega, by omega, h.occF p hp⟩
    · rintro ⟨g1, g2, g3⟩
      by_contra hc
      have := mt (h.cover p (by omega) (by omega)).2 hc
      push Not at this
      obtain ⟨b, hb, hm⟩ := this
      rw [h.occC b hb p hm] at g3
      simp at g3
  refine ⟨h.free_nodup, hmem, ?_⟩
  have hp : free.Perm ((List.range' bc ec).filter (fun p => !t.occ p)) := by
    refine (List.perm_ext_iff_of_nodup h.free_nodup (List.Nodup.filter _ List.nodup_range')).2 (fun p => ?_)
    rw [hmem, List.mem_filter, List.mem_range'_1]
    simp only [Bool.not_eq_true']
    constructor
    · rintro ⟨a, b, c⟩; exact ⟨⟨a, b⟩, c⟩
    · rintro ⟨⟨a, b⟩, c⟩; exact ⟨a, b, c⟩
  have := List.length_eq_countP_add_countP t.occ (l := List.range' bc ec)
  rw [hp.length_eq, ← List.countP_eq_length_filter]
  simp only [List.length_range', Bool.not_eq_true] at this
  have e : (List.range' bc ec).countP (fun a => decide (t.occ a = false)) =
      (List.range' bc ec).countP (fun p => !t.occ p) := by
    apply List.countP_congr; intro x _; cases t.occ x <;> simp
  omega

/-- C35: `bucket_size(b)` is the number of stored values whose key has bucket `b`; the sum over all buckets is `size()`;
`bucket(k)` is a bucket. -/
theorem C35_bucket_statistics (hl : KeyLaws P) (h0 : 0 < bc) (h1 : bc < 2 ^ 63) (hr : Reachable P bc ec t) :
    (∀ b, b < bc → bucketSize t b = .ok ((contents t).countP (fun v => bucket P t (P.keyOf v) == b))) ∧
    size t = (contents t).length ∧
    ((List.range bc).map (fun b => (contents t).countP (fun v => bucket P t (P.keyOf v) == b))).sum = (contents t).length ∧
    (∀ k, bucket P t k < bc) := by
  obtain ⟨⟨chain, free, h⟩, hb, ht⟩ := reachable_rep hl h0 h1 hr
  have hcount : ∀ b, b < t.bc → (b :: chain b).countP t.occ = (contents t).countP (fun v => bucket P t (P.keyOf v) == b) :=
    fun b hb => bucketCount_eq h hb
  refine ⟨fun b hbb => ?_, ?_, ?_, fun k => ?_⟩
  · rw [bucketSize_eq h (by omega), hcount b (by omega)]
  · rw [length_contents h]; exact h.count
  · rw [length_contents h, ← bucketSize_sum h, ← hb]
    congr 1
    apply List.map_congr_left
    intro b hbb
    rw [hcount b (List.mem_range.1 hbb)]
  · rw [← hb]; exact bucket_lt P t k h.bc_pos h.bc_lt

/-- C36: for every order of the parallel collection `device_range()` names different entries, and the values there are
the stored values. -/
theorem C36_device_range (hl : KeyLaws P) (h0 : 0 < bc) (h1 : bc < 2 ^ 63) (hr : Reachable P bc ec t)
    (ord : Nat → List Nat) (ho : ∀ n, (ord n).Perm (List.range n)) :
    (deviceRange ord t).Nodup ∧ (∀ p ∈ deviceRange ord t, p < bc + ec ∧ t.live p = true) ∧
    ((deviceRange ord t).filterMap t.val).Perm (contents t) := by
  obtain ⟨⟨chain, free, h⟩, hb, ht⟩ := reachable_rep hl h0 h1 hr
  refine ⟨((ho _).nodup_iff.2 List.nodup_range).filter _, fun p hp => ?_, deviceRange_perm ho t⟩
  obtain ⟨g1, g2⟩ := List.mem_filter.1 hp
  have g1 := List.mem_range.1 ((ho _).mem_iff.1 g1)
  exact ⟨by omega, (h.stored_ok g1 g2).1⟩

/-- C36: `clear()` destroys every stored value (the model reports a fault if it destroyed anything else, or twice) and
leaves an empty container with all excess entries unused, for every order of the parallel destruction. -/
theorem C36_clear (hl : KeyLaws P) (h0 : 0 < bc) (h1 : bc < 2 ^ 63) (hr : Reachable P bc ec t)
    (ord : Nat → List Nat) (ho : ∀ n, (ord n).Perm (List.range n)) :
    ∃ t', clear ord t = .ok t' ∧ contents t' = [] ∧ size t' = 0 ∧ (∀ p, p < bc + ec → t'.live p = false) ∧
      (freeList t').Perm (List.range' bc ec) ∧ valid P ord t' = .ok true := by
  obtain ⟨⟨chain, free, h⟩, hb, ht⟩ := reachable_rep hl h0 h1 hr
  obtain ⟨t', e, ⟨chain', free', h'⟩, hc, hb', ht', hlive, -⟩ := clear_eq h ho
  have hlen : Vector.countBits t'.total t'.occ = 0 := by rw [← length_contents h', hc]; rfl
  refine ⟨t', e, hc, by rw [size, h'.count, hlen]; rfl, fun p hp => hlive p (by omega), ?_, valid_eq h' hl ho⟩
  rw [freeList_eq h']
  refine (List.perm_ext_iff_of_nodup h'.free_nodup List.nodup_range').2 (fun p => ?_)
  rw [List.mem_range'_1]
  constructor
  · intro hp
    have := h'.free_rng p hp
    omega
  · intro hp
    by_contra hx
    have := mt (h'.cover p (by omega) (by omega)).2 hx
    push Not at this
    obtain ⟨b, hbb, hm⟩ := this
    have ho := h'.occC b hbb p hm
    obtain ⟨v, hv⟩ := Option.isSome_iff_exists.1 (h'.val p (by omega) ho)
    have : v ∈ contents t' := mem_contents.2 ⟨p, by omega, ho, hv⟩
    rw [hc] at this; simp at this

/-! ### The hypotheses are satisfiable -/

/-- A map from numbers to numbers with the identity hash. -/
def exP : Params Nat (Nat × Nat) := ⟨Prod.fst, fun k => BitVec.ofNat 64 k, fun a b => a == b⟩

theorem exP_laws : KeyLaws exP where
  refl := by intro a; simp [exP]
  symm := by intro a b h; simp only [exP, beq_iff_eq] at *; exact h.symm
  trans := by intro a b c h1 h2; simp only [exP, beq_iff_eq] at *; exact h1.trans h2
  hash := by intro a b h; simp only [exP, beq_iff_eq] at *; rw [h]

/-- The same with a constant hash: every key collides. -/
def exC : Params Nat (Nat × Nat) := ⟨Prod.fst, fun _ => 0#64, fun a b => a == b⟩

theorem exC_laws : KeyLaws exC where
  refl := by intro a; simp [exC]
  symm := by intro a b h; simp only [exC, beq_iff_eq] at *; exact h.symm
  trans := by intro a b c h1 h2; simp only [exC, beq_iff_eq] at *; exact h1.trans h2
  hash := by intro a b h; rfl

/-- A history with collisions: the second and third value go to excess entries, one of them is removed from the middle
of the chain, its entry is used again, and the list of unused entries runs out. -/
example : (execAll exC (fun _ n => List.range n) (create 4 2)
    [.insert (1, 10), .insert (2, 20), .insert (3, 30), .insert (4, 40), .find 2, .erase 2, .find 3, .find 2,
     .insert (5, 50), .insert (1, 11), .find 1, .size, .valid]).map Prod.fst =
    .ok [.inserted (some (1, 10)) true, .inserted (some (2, 20)) true, .inserted (some (3, 30)) true, .inserted none false,
      .found (some (2, 20)), .num 1, .found (some (3, 30)), .found none, .inserted (some (5, 50)) true, .inserted none false,
      .found (some (1, 10)), .num 3, .bool true] := by decide +kernel

/-- A reachable state with contents. -/
example : ∃ t, Reachable exP 4 2 t ∧ (1, 10) ∈ contents t ∧ (2, 20) ∈ contents t := by
  obtain ⟨outs, t, m, e, hm, hp⟩ := C29_map_refinement (P := exP) (bc := 4) (ec := 2) exP_laws (by omega) (by omega)
    [.insert (1, 10), .insert (2, 20)] (fun _ n => List.range n) (fun _ _ => List.Perm.refl _)
  refine ⟨t, ⟨_, _, outs, fun _ _ => List.Perm.refl _, e⟩, ?_⟩
  have : (execAll exP (fun _ n => List.range n) (create 4 2) [.insert (1, 10), .insert (2, 20)]).map Prod.fst =
      .ok [.inserted (some (1, 10)) true, .inserted (some (2, 20)) true] := by decide +kernel
  rw [e] at this
  simp only [Except.map, Except.ok.injEq] at this
  subst this
  have hm' : some [(2, 20), (1, 10)] = some m := by rw [← hm]; decide
  simp only [Option.some.injEq] at hm'
  subst hm'
  exact ⟨hp.mem_iff.1 (by simp), hp.mem_iff.1 (by simp)⟩

end Stdgpu.Props
