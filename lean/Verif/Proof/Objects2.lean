import Verif.Proof.Objects
/-! Histories of creations and destructions. -/
namespace Stdgpu.Objects
open Stdgpu.Memory Stdgpu.Spec
open Stdgpu.Vector (Fault)

theorem owned_append (isz : Nat) {l : List (Kind × Bool)} {objs : List Obj} (h : l.length = objs.length) (k : Kind) (o : Obj) :
    ownedBlocks isz (l ++ [(k, true)]) (objs ++ [o]) = ownedBlocks isz l objs ++ blocks isz k o := by
  unfold ownedBlocks
  rw [List.zip_append h]
  simp

theorem owned_remove (isz : Nat) : ∀ (l : List (Kind × Bool)) (objs : List Obj) (i : Nat) (k : Kind) (o o' : Obj),
    l[i]? = some (k, true) → objs[i]? = some o →
    (ownedBlocks isz l objs).Perm (blocks isz k o ++ ownedBlocks isz (l.modify i (fun e => (e.1, false))) (objs.set i o')) := by
  intro l
  induction l with
  | nil => intro objs i k o o' h; simp at h
  | cons e l ih =>
    intro objs i k o o' h1 h2
    cases objs with
    | nil => simp at h2
    | cons x objs =>
      cases i with
      | zero =>
        simp only [List.getElem?_cons_zero, Option.some.injEq] at h1 h2
        subst h1 h2
        simp [ownedBlocks]
      | succ i =>
        simp only [List.getElem?_cons_succ] at h1 h2
        have := ih objs i k o o' h1 h2
        unfold ownedBlocks at this ⊢
        simp only [List.modify_succ_cons, List.set_cons_succ, List.zip_cons_cons, List.flatMap_cons]
        refine (List.Perm.append_left _ this).trans ?_
        simp only [List.perm_iff_count, List.count_append]
        intro b; omega

theorem modify_same : ∀ (l : List (Kind × Bool)) (i : Nat) (k : Kind), l[i]? = some (k, false) →
    l.modify i (fun e => (e.1, false)) = l := by
  intro l
  induction l with
  | nil => intro i k h; simp at h
  | cons e l ih =>
    intro i k h
    cases i with
    | zero => simp at h; subst h; rfl
    | succ i => simp at h; simp [ih i k h]

theorem modify_none (l : List (Kind × Bool)) (i : Nat) (h : l[i]? = none) : l.modify i (fun e => (e.1, false)) = l := by
  apply List.ext_getElem?
  intro j
  rw [List.getElem?_modify]
  by_cases hj : i = j
  · subst hj; simp [h]
  · simp [hj]

/-- The invariant of a program started in `s0`. -/
structure OInv (E : Env) (s0 : Sys) (l : List (Kind × Bool)) (st : List Obj × Sys) : Prop where
  inv : Inv st.2
  sinv : SInv st.2
  failed : st.2.failed = s0.failed
  len : l.length = st.1.length
  fits : ∀ (i : Nat) (e : Kind × Bool) (o : Obj), l[i]? = some e → st.1[i]? = some o → Fits e.1 o ∧ (e.2 = false → ∃ o', Fits e.1 o' ∧ o = destroyed o')
  heap : st.2.heap.Perm (ownedBlocks E.isz l st.1 ++ s0.heap)
  mem : ∀ b ∈ s0.heap, ∀ a, InBlk b a → st.2.mem a = s0.mem a

theorem fits_destroyed {k : Kind} {o : Obj} (h : Fits k o) : Fits k (destroyed o) := by
  cases k <;> cases o <;> first | exact h.elim | trivial

variable {E : Env} {s0 : Sys} {l : List (Kind × Bool)} {st : List Obj × Sys}

/-- One call, with what it does to the memory. -/
theorem OInv.step (hE : GoodEnv E) (h : OInv E s0 l st) (op : Op) (hk : ∀ k, op = .create k → PosKind k)
    (hd : ∀ i, op = .destroy i → ∀ e, l[i]? = some e → Kind.isUnordered e.1 = true → e.2 = true) :
    ∃ st', exec E st op = .ok st' ∧ OInv E s0 (trackStep l op) st' ∧
      (∀ i o, op ≠ .destroy i → st.1[i]? = some o → st'.1[i]? = some o) ∧
      ∀ b ∈ st.2.heap, ∀ a, InBlk b a → st'.2.mem a = st.2.mem a := by
  obtain ⟨objs, s⟩ := st
  cases op with
  | create k =>
    obtain ⟨o, s', e, hf, g⟩ := create_grow hE h.inv h.sinv k (hk k rfl)
    refine ⟨(objs ++ [o], s'), by simp only [exec, e, bind, Except.bind]; rfl, ?_, ?_, g.mem⟩
    · refine ⟨g.inv, g.sinv, g.failed.trans h.failed, by simp [trackStep, h.len], ?_, ?_, ?_⟩
      · intro i e o' h1 h2
        simp only [trackStep] at h1
        have hlen : l.length = objs.length := h.len
        by_cases hi : i < l.length
        · rw [List.getElem?_append_left hi] at h1
          rw [List.getElem?_append_left (hlen ▸ hi)] at h2
          exact h.fits i e o' h1 h2
        · rw [List.getElem?_append_right (by omega)] at h1
          rw [List.getElem?_append_right (by omega)] at h2
          rw [hlen] at h1
          cases hx : i - objs.length with
          | zero =>
            rw [hx] at h1 h2
            simp only [List.getElem?_cons_zero, Option.some.injEq] at h1 h2
            subst h1 h2
            exact ⟨hf, by simp⟩
          | succ n => rw [hx] at h1; simp at h1
      · show s'.heap.Perm _
        simp only [trackStep]
        rw [owned_append _ h.len]
        refine g.heap.trans ((List.Perm.append_left _ h.heap).trans ?_)
        simp only [blocks, List.perm_iff_count, List.count_append]
        intro b; omega
      · intro b hb a ha
        show s'.mem a = _
        rw [g.mem b (h.heap.mem_iff.2 (by simp [hb])) a ha]
        exact h.mem b hb a ha
    · intro i o' _ h2
      simp only at h2 ⊢
      rw [List.getElem?_append_left (List.getElem?_eq_some_iff.1 h2).1]
      exact h2
  | destroy i =>
    cases ho : objs[i]? with
    | none =>
      have hl : l[i]? = none := by
        rw [List.getElem?_eq_none_iff] at ho ⊢
        have : l.length = objs.length := h.len
        omega
      refine ⟨(objs, s), by simp only [exec, ho], ?_, fun _ _ _ h => h, fun _ _ _ _ => rfl⟩
      simp only [trackStep]
      rw [modify_none l i hl]
      exact h
    | some o =>
      have hi := (List.getElem?_eq_some_iff.1 ho).1
      have hll : l.length = objs.length := h.len
      obtain ⟨⟨k, b⟩, hl⟩ : ∃ e, l[i]? = some e := ⟨l[i]'(by omega), List.getElem?_eq_getElem (by omega)⟩
      obtain ⟨f1, f2⟩ := h.fits i (k, b) o hl ho
      cases b with
      | true =>
        have hp := owned_remove E.isz l objs i k o (destroyed o) hl ho
        have hp' : s.heap.Perm (blocks E.isz k o ++ (ownedBlocks E.isz (l.modify i (fun e => (e.1, false)))
            (objs.set i (destroyed o)) ++ s0.heap)) := by
          rw [← List.append_assoc]
          exact h.heap.trans (List.Perm.append_right _ hp)
        obtain ⟨s', e, i1, i2, i3, i4, i5⟩ := destroy_owned h.inv h.sinv E.isz k o f1 hp'
        refine ⟨(objs.set i (destroyed o), s'), by simp only [exec, ho, e, bind, Except.bind]; rfl, ?_, ?_, ?_⟩
        · refine ⟨i1, i2, i3.trans h.failed, by simp [trackStep, hll], ?_, i5, ?_⟩
          · intro j e' o' h1 h2
            simp only [trackStep, List.getElem?_modify] at h1
            simp only [List.getElem?_set] at h2
            by_cases hj : i = j
            · subst hj
              rw [hl] at h1
              simp at h1
              simp [hi] at h2
              subst h1 h2
              exact ⟨fits_destroyed f1, fun _ => ⟨o, f1, rfl⟩⟩
            · simp [hj] at h1 h2
              exact h.fits j e' o' h1 h2
          · intro b hb a ha
            show s'.mem a = _
            rw [i4]; exact h.mem b hb a ha
        · intro j o' hne h2
          have : i ≠ j := by rintro rfl; exact hne rfl
          simpa [List.getElem?_set, this] using h2
        · intro b _ a _; show s'.mem a = _; rw [i4]
      | false =>
        have hu : Kind.isUnordered k = false := by
          by_contra hc
          have := hd i rfl (k, false) hl (by simpa using hc)
          simp at this
        obtain ⟨o', f3, rfl⟩ := f2 rfl
        have e := destroy_again h.inv h.sinv k o' f3 hu
        have hset : objs.set i (destroyed o') = objs := by
          apply List.ext_getElem?
          intro j
          rw [List.getElem?_set]
          by_cases hj : i = j
          · subst hj; simp [hi, ← ho]
          · simp [hj]
        refine ⟨(objs, s), by simp only [exec, ho, e, bind, Except.bind, hset]; rfl, ?_, fun _ _ _ h => h, fun _ _ _ _ => rfl⟩
        simp only [trackStep]
        rw [modify_same l i k hl]
        exact h

/-- `Proper`, from a state on. -/
def ProperFrom (l : List (Kind × Bool)) (ops : List Op) : Prop :=
  (∀ k, Op.create k ∈ ops → PosKind k) ∧
  ∀ pre i post, ops = pre ++ Op.destroy i :: post → ∀ e, (pre.foldl trackStep l)[i]? = some e →
    Kind.isUnordered e.1 = true → e.2 = true

theorem ProperFrom.append {ops ops' : List Op} (h : ProperFrom l (ops ++ ops')) :
    ProperFrom l ops ∧ ProperFrom (ops.foldl trackStep l) ops' := by
  refine ⟨⟨fun k hk => h.1 k (by simp [hk]), ?_⟩, ⟨fun k hk => h.1 k (by simp [hk]), ?_⟩⟩
  · intro pre i post he
    exact h.2 pre i (post ++ ops') (by rw [he]; simp)
  · intro pre i post he e h1
    rw [← List.foldl_append] at h1
    exact h.2 (ops ++ pre) i post (by rw [he]; simp) e h1

theorem OInv.run (hE : GoodEnv E) : ∀ (ops : List Op) (l : List (Kind × Bool)) (st : List Obj × Sys), OInv E s0 l st →
    ProperFrom l ops → ∃ st', execAll E st ops = .ok st' ∧ OInv E s0 (ops.foldl trackStep l) st' := by
  intro ops
  induction ops with
  | nil => intro l st h _; exact ⟨st, rfl, h⟩
  | cons op ops ih =>
    intro l st h hp
    have hp' : ProperFrom l ([op] ++ ops) := hp
    obtain ⟨st1, e1, h1, -⟩ := h.step hE op (fun k hk => hp.1 k (by simp [hk])) (fun i hi e he hu =>
      hp.2 [] i ops (by simp [hi]) e he hu)
    obtain ⟨st2, e2, h2⟩ := ih _ st1 h1 hp'.append.2
    refine ⟨st2, ?_, h2⟩
    unfold execAll at e2 ⊢
    rw [List.foldlM_cons, e1]
    exact e2

theorem OInv.init (h : Inv s0) (hs : SInv s0) : OInv E s0 [] ([], s0) :=
  ⟨h, hs, rfl, rfl, by intro i e o h; simp at h, List.Perm.refl _, fun _ _ _ _ => rfl⟩

theorem execAll_append (st : List Obj × Sys) (a b : List Op) :
    execAll E st (a ++ b) = (execAll E st a).bind (fun st' => execAll E st' b) := by
  unfold execAll
  rw [List.foldlM_append]
  rfl

/-- The blocks of an object that exists are live. -/
theorem owned_mem (isz : Nat) : ∀ (l : List (Kind × Bool)) (objs : List Obj) (i : Nat) (k : Kind) (o : Obj),
    l[i]? = some (k, true) → objs[i]? = some o → ∀ b ∈ blocks isz k o, b ∈ ownedBlocks isz l objs := by
  intro l objs i k o h1 h2 b hb
  exact (owned_remove isz l objs i k o o h1 h2).mem_iff.2 (by simp [hb])

/-- An object that is not destroyed keeps its handle and, as long as it is not used, the bytes of its blocks. -/
theorem OInv.untouched (hE : GoodEnv E) : ∀ (ops : List Op) (l : List (Kind × Bool)) (st : List Obj × Sys), OInv E s0 l st →
    ProperFrom l ops → ∀ i k o, l[i]? = some (k, true) → st.1[i]? = some o → Op.destroy i ∉ ops →
    ∃ st', execAll E st ops = .ok st' ∧ st'.1[i]? = some o ∧ (ops.foldl trackStep l)[i]? = some (k, true) ∧
      ∀ b ∈ blocks E.isz k o, ∀ a, InBlk b a → st'.2.mem a = st.2.mem a := by
  intro ops
  induction ops with
  | nil => intro l st h _ i k o h1 h2 _; exact ⟨st, rfl, h2, h1, fun _ _ _ _ => rfl⟩
  | cons op ops ih =>
    intro l st h hp i k o h1 h2 hn
    have hp' : ProperFrom l ([op] ++ ops) := hp
    obtain ⟨st1, e1, g1, g2, g3⟩ := h.step hE op (fun k hk => hp.1 k (by simp [hk])) (fun i hi e he hu =>
      hp.2 [] i ops (by simp [hi]) e he hu)
    have hl1 : (trackStep l op)[i]? = some (k, true) := by
      cases op with
      | create k' =>
        simp only [trackStep]
        rw [List.getElem?_append_left (List.getElem?_eq_some_iff.1 h1).1]; exact h1
      | destroy j =>
        have : j ≠ i := by rintro rfl; exact hn (by simp)
        simp [trackStep, List.getElem?_modify, this, h1]
    obtain ⟨st2, e2, q1, q2, q3⟩ := ih _ st1 g1 hp'.append.2 i k o hl1 (g2 i o (by rintro rfl; exact hn (by simp)) h2)
      (fun hc => hn (by simp [hc]))
    refine ⟨st2, ?_, q1, q2, ?_⟩
    · unfold execAll at e2 ⊢
      rw [List.foldlM_cons, e1]
      exact e2
    · intro b hb a ha
      rw [q3 b hb a ha]
      refine g3 b (h.heap.mem_iff.2 ?_) a ha
      exact List.mem_append_left _ (owned_mem E.isz l st.1 i k o h1 h2 b hb)

end Stdgpu.Objects
