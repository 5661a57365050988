import Verif.Proof.SlotVals
import Verif.Spec.QLinear
/-! Linearizations that only grow at the end, where an operation may be entered by another thread. -/
namespace Stdgpu.SLin
open Stdgpu.SlotConc Stdgpu.Conc

variable {C K F α : Type}

/-- Operation `x` is `op`, and works on a slot. -/
def OnSlot (s : Sys (Mem C α) (Thread K F α)) (x : OpId) (op : Op K α) : Prop :=
  ∃ t, s.threads[x.1]? = some t ∧ x.2 = t.done.length ∧ (∃ p sp, t.pc = .slot p sp) ∧ ∃ rest, t.todo = op :: rest

structure OBase (Bef : OpId → OpId → Prop) (L : List (LE K α)) (s : Sys (Mem C α) (Thread K F α)) : Prop where
  nodup : (L.map (·.1)).Nodup
  bef : ∀ x y, Bef x y → (resAt s x).isSome = true
  order : (L.map (·.1)).Pairwise (fun a b => ¬ Bef b a)

structure OInv (Bef : OpId → OpId → Prop) (L : List (LE K α)) (s : Sys (Mem C α) (Thread K F α)) : Prop where
  base : OBase Bef L s
  ret : ∀ x e, resAt s x = some e → (x, e) ∈ L
  cur : ∀ x e, (x, e) ∈ L → resAt s x = some e ∨ OnSlot s x e.1 ∧ e.2 ≠ .popFailed

variable {fr : Front C K F} {Bef Bef' : OpId → OpId → Prop} {L L' : List (LE K α)} {s : Sys (Mem C α) (Thread K F α)}
  {i : Nat} {t t' : Thread K F α} {m' : Mem C α}

theorem resAt_set (ht : s.threads[i]? = some t) (x : OpId) :
    resAt (⟨m', s.threads.set i t'⟩ : Sys (Mem C α) (Thread K F α)) x = if x.1 = i then t'.done[x.2]? else resAt s x := by
  have hlt : i < s.threads.length := (List.getElem?_eq_some_iff.1 ht).1
  unfold resAt
  split
  · next e => simp [e, List.getElem?_set_self hlt]
  · next e => rw [List.getElem?_set_ne (Ne.symm e)]

theorem resAt_self (ht : s.threads[i]? = some t) (j : Nat) : resAt s (i, j) = t.done[j]? := by
  simp [resAt, ht]

/-- Enter an operation that has not returned. -/
theorem o_add (h : OBase Bef L s) {x : OpId} (hx : x ∉ L.map (·.1)) (hr : resAt s x = none) (e : Op K α × Res α) :
    OBase Bef (L ++ [(x, e)]) s := by
  refine ⟨?_, h.bef, ?_⟩
  · rw [List.map_append, List.nodup_append]
    refine ⟨h.nodup, by simp, ?_⟩
    intro a ha b hb hab
    simp only [List.map_cons, List.map_nil, List.mem_singleton] at hb
    subst hab hb
    exact hx ha
  · rw [List.map_append, List.pairwise_append]
    refine ⟨h.order, by simp, ?_⟩
    intro a _ b hb hB
    simp only [List.map_cons, List.map_nil, List.mem_singleton] at hb
    subst hb
    have := h.bef _ _ hB
    rw [hr] at this
    cases this

theorem called_cur {x : OpId} {e : Op K α × Res α} (h : resAt s x = some e ∨ OnSlot s x e.1 ∧ e.2 ≠ .popFailed) :
    Called fr s x := by
  rcases h with h | ⟨⟨t, h1, h2, ⟨p, sp, h3⟩, -⟩, -⟩
  · unfold resAt at h
    cases ht : s.threads[x.1]? with
    | none => simp [ht] at h
    | some t =>
      simp only [ht, Option.bind_some] at h
      exact ⟨t, ht, .inl (List.getElem?_eq_some_iff.1 h).1⟩
  · exact ⟨t, h1, .inr ⟨h2, by rw [h3]; simp⟩⟩

theorem o_step {s' : Sys (Mem C α) (Thread K F α)} (h : OBase Bef L s)
    (hres : ∀ x, (resAt s x).isSome = true → (resAt s' x).isSome = true)
    (ret : ∀ x e, resAt s' x = some e → (x, e) ∈ L)
    (cur : ∀ x e, (x, e) ∈ L → resAt s' x = some e ∨ OnSlot s' x e.1 ∧ e.2 ≠ .popFailed)
    (hbef : ∀ x y, Bef' x y → Bef x y ∨ Now fr s' x y) : OInv Bef' L s' := by
  refine ⟨⟨h.nodup, ?_, ?_⟩, ret, cur⟩
  · intro x y hxy
    rcases hbef x y hxy with h1 | h1
    · exact hres x (h.bef x y h1)
    · exact h1.1
  · refine List.Pairwise.imp_of_mem ?_ h.order
    intro a b ha hb hab hB
    rcases hbef b a hB with h1 | h1
    · exact hab h1
    · obtain ⟨⟨x, e⟩, he, rfl⟩ := List.mem_map.1 ha
      exact h1.2 (called_cur (cur x e he))

theorem onSlot_set (ht : s.threads[i]? = some t) {x : OpId} {op : Op K α} (hx : x.1 ≠ i) (h : OnSlot s x op) :
    OnSlot (⟨m', s.threads.set i t'⟩ : Sys (Mem C α) (Thread K F α)) x op := by
  obtain ⟨u, h1, h2⟩ := h
  refine ⟨u, ?_, h2⟩
  show (s.threads.set i t')[x.1]? = some u
  rw [List.getElem?_set_ne (Ne.symm hx)]; exact h1

/-- The operation does not return. -/
theorem o_stay (h : OInv Bef L s) (ht : s.threads[i]? = some t) (hd : t'.done = t.done) (htd : t'.todo = t.todo)
    (hsl : ∀ p sp, t.pc = .slot p sp → ∃ p sp, t'.pc = .slot p sp)
    (hbef : ∀ x y, Bef' x y → Bef x y ∨ Now fr ⟨m', s.threads.set i t'⟩ x y) : OInv Bef' L ⟨m', s.threads.set i t'⟩ := by
  have hlt : i < s.threads.length := (List.getElem?_eq_some_iff.1 ht).1
  have hr : ∀ x, resAt (⟨m', s.threads.set i t'⟩ : Sys (Mem C α) (Thread K F α)) x = resAt s x := by
    intro x
    rw [resAt_set ht]
    split
    · next e => obtain ⟨a, b⟩ := x; simp only at e; subst e; rw [resAt_self ht, hd]
    · rfl
  refine o_step h.base (fun x hx => by rw [hr]; exact hx) (fun x e hx => h.ret x e (by rw [← hr]; exact hx)) ?_ hbef
  intro x e he
  rw [hr]
  rcases h.cur x e he with h1 | ⟨h1, h5⟩
  · exact .inl h1
  · refine .inr ⟨?_, h5⟩
    by_cases hx : x.1 = i
    · obtain ⟨u, h1, h2, ⟨p, sp, h3⟩, h4⟩ := h1
      rw [hx, ht] at h1
      cases h1
      refine ⟨t', ?_, by rw [hd]; exact h2, hsl p sp h3, by rw [htd]; exact h4⟩
      show (s.threads.set i t')[x.1]? = some t'
      rw [hx, List.getElem?_set_self hlt]
    · exact onSlot_set ht hx h1

/-- An operation that is in the list returns. -/
theorem o_ret {op : Op K α} {rest : List (Op K α)} {r : Res α} (h : OBase Bef L s) (ht : s.threads[i]? = some t)
    (hL : ((i, t.done.length), op, r) ∈ L)
    (ret : ∀ x e, resAt s x = some e → (x, e) ∈ L)
    (cur : ∀ x e, (x, e) ∈ L → x ≠ (i, t.done.length) → resAt s x = some e ∨ OnSlot s x e.1 ∧ e.2 ≠ .popFailed)
    (hbef : ∀ x y, Bef' x y → Bef x y ∨
      Now fr ⟨m', s.threads.set i ⟨rest, .front fr.start, t.done ++ [(op, r)]⟩⟩ x y) :
    OInv Bef' L ⟨m', s.threads.set i ⟨rest, .front fr.start, t.done ++ [(op, r)]⟩⟩ := by
  have hlast : (t.done ++ [(op, r)])[t.done.length]? = some (op, r) := by simp
  have hold : ∀ (j : Nat) e, t.done[j]? = some e → (t.done ++ [(op, r)])[j]? = some e := by
    intro j e he
    rw [List.getElem?_append_left (List.getElem?_eq_some_iff.1 he).1]; exact he
  refine o_step h ?_ ?_ ?_ hbef
  · intro x hx
    rw [resAt_set ht]
    split
    · next e =>
      obtain ⟨a, b⟩ := x
      simp only at e
      subst e
      rw [resAt_self ht] at hx
      obtain ⟨e, he⟩ := Option.isSome_iff_exists.1 hx
      rw [hold b e he]; rfl
    · exact hx
  · intro x e hx
    rw [resAt_set ht] at hx
    split at hx
    · next e' =>
      obtain ⟨a, b⟩ := x
      simp only at e' hx
      subst e'
      by_cases hj : b < t.done.length
      · rw [List.getElem?_append_left hj] at hx
        exact ret _ _ (by rw [resAt_self ht]; exact hx)
      · have : b = t.done.length := by
          have := (List.getElem?_eq_some_iff.1 hx).1
          simp at this
          omega
        subst this
        rw [hlast] at hx
        cases hx
        exact hL
    · exact ret x e hx
  · intro x e hx
    by_cases hx1 : x = (i, t.done.length)
    · subst hx1
      left
      have := List.inj_on_of_nodup_map h.nodup hx hL rfl
      cases this
      rw [resAt_set ht]
      simp
    · rcases cur x e hx hx1 with h1 | ⟨h1, h5⟩
      · left
        rw [resAt_set ht]
        split
        · next e' =>
          obtain ⟨a, b⟩ := x
          simp only at e'
          subst e'
          rw [resAt_self ht] at h1
          exact hold b e h1
        · exact h1
      · refine .inr ⟨?_, h5⟩
        by_cases hxi : x.1 = i
        · exfalso
          obtain ⟨u, h1, h2, -⟩ := h1
          rw [hxi, ht] at h1
          cases h1
          exact hx1 (by rw [← hxi, ← h2])
        · exact onSlot_set ht hxi h1

/-- The running operation of a thread in the front end is not in the list. -/
theorem o_fresh (h : OInv Bef L s) (ht : s.threads[i]? = some t) {f : F} (hpc : t.pc = .front f) :
    (i, t.done.length) ∉ L.map (·.1) := by
  intro hx
  obtain ⟨⟨x, e⟩, he, hx'⟩ := List.mem_map.1 hx
  simp only at hx'
  subst hx'
  rcases h.cur _ e he with h1 | ⟨⟨u, h1, -, ⟨p, sp, h2⟩, -⟩, -⟩
  · rw [resAt_self ht] at h1
    simp at h1
  · simp only at h1
    rw [ht] at h1
    cases h1
    rw [hpc] at h2
    cases h2

/-- An operation fails. -/
theorem o_fail {op : Op K α} {rest : List (Op K α)} {r : Res α} (h : OInv Bef L s) (ht : s.threads[i]? = some t) {f : F}
    (hpc : t.pc = .front f)
    (hbef : ∀ x y, Bef' x y → Bef x y ∨
      Now fr ⟨m', s.threads.set i ⟨rest, .front fr.start, t.done ++ [(op, r)]⟩⟩ x y) :
    OInv Bef' (L ++ [((i, t.done.length), op, r)])
      ⟨m', s.threads.set i ⟨rest, .front fr.start, t.done ++ [(op, r)]⟩⟩ := by
  refine o_ret (o_add h.base (o_fresh h ht hpc) (not_ret ht) _) ht (by simp) ?_ ?_ hbef
  · intro x e hx
    exact List.mem_append_left _ (h.ret x e hx)
  · intro x e hx hne
    rcases List.mem_append.1 hx with h1 | h1
    · exact h.cur x e h1
    · simp only [List.mem_singleton, Prod.mk.injEq] at h1
      exact absurd h1.1 hne

/-- The operation of thread `i` gets a slot; it may be entered, and so may be others that have a slot. -/
theorem o_go (h : OBase Bef L s) (ht : s.threads[i]? = some t) {f : F} (hpc : t.pc = .front f) {p : Nat} {sp : SPC α}
    (ret : ∀ x e, resAt s x = some e → (x, e) ∈ L)
    (cur : ∀ x e, (x, e) ∈ L → resAt s x = some e ∨ OnSlot s x e.1 ∧ e.2 ≠ .popFailed ∨
      x = (i, t.done.length) ∧ (∃ rest, t.todo = e.1 :: rest) ∧ e.2 ≠ .popFailed)
    (hbef : ∀ x y, Bef' x y → Bef x y ∨ Now fr ⟨m', s.threads.set i { t with pc := .slot p sp }⟩ x y) :
    OInv Bef' L ⟨m', s.threads.set i { t with pc := .slot p sp }⟩ := by
  have hlt : i < s.threads.length := (List.getElem?_eq_some_iff.1 ht).1
  have hr : ∀ x, resAt (⟨m', s.threads.set i { t with pc := .slot p sp }⟩ : Sys (Mem C α) (Thread K F α)) x = resAt s x := by
    intro x
    rw [resAt_set ht]
    split
    · next e => obtain ⟨a, b⟩ := x; simp only at e; subst e; rw [resAt_self ht]
    · rfl
  refine o_step h (fun x hx => by rw [hr]; exact hx) (fun x e hx => ret x e (by rw [← hr]; exact hx)) ?_ hbef
  intro x e he
  rw [hr]
  rcases cur x e he with h1 | ⟨h1, h5⟩ | ⟨rfl, h2, h5⟩
  · exact .inl h1
  · refine .inr ⟨?_, h5⟩
    refine onSlot_set ht ?_ h1
    intro hx
    obtain ⟨u, h1, -, ⟨p, sp, h3⟩, -⟩ := h1
    rw [hx, ht] at h1
    cases h1
    rw [hpc] at h3
    cases h3
  · refine .inr ⟨⟨{ t with pc := .slot p sp }, ?_, rfl, ⟨p, sp, rfl⟩, h2⟩, h5⟩
    show (s.threads.set i _)[i]? = _
    rw [List.getElem?_set_self hlt]

/-- Nothing happens. -/
theorem o_id (h : OInv Bef L s) (hbef : ∀ x y, Bef' x y → Bef x y ∨ Now fr s x y) : OInv Bef' L s :=
  o_step h.base (fun _ hx => hx) h.ret h.cur hbef

theorem o_init (fr : Front C K F) (m : Mem C α) (progs : List (List (Op K α))) :
    OInv (Before fr m progs []) [] (init fr m progs) := by
  refine ⟨⟨by simp, fun x y h => absurd h before_nil, by simp⟩, ?_, by simp⟩
  intro x e hx
  unfold resAt init at hx
  simp only [List.getElem?_map] at hx
  cases h : progs[x.1]? <;> simp [h] at hx

/-! ### Sequential runs -/

theorem QRun.snoc {cap : Nat} {l m m' : List α} {E : List (Op K α × Res α)} {e : Op K α × Res α} (h : QRun cap l E m)
    (h' : QStep cap m e m') : QRun cap l (E ++ [e]) m' := by
  induction E generalizing l with
  | nil => cases h; exact ⟨m', h', rfl⟩
  | cons a E ih =>
    obtain ⟨m1, h1, h2⟩ := h
    exact ⟨m1, h1, ih h2⟩

theorem to_qlin {m : Mem C α} {progs : List (List (Op K α))} {sched : List Nat} {cap : Nat} {l l' : List α}
    (h : OInv (Before fr m progs sched) L (exec fr m progs sched))
    (hprog : ∀ (i : Nat) (t : Thread K F α), (exec fr m progs sched).threads[i]? = some t →
      progs[i]? = some (t.done.map (·.1) ++ t.todo))
    (hrun : QRun cap l (L.map (·.2)) l') : QLinearization fr cap m l progs sched L l' := by
  refine ⟨h.base.nodup, h.ret, ?_, ?_, ?_, hrun⟩
  · intro x e hx
    have hc := h.cur x e hx
    refine ⟨called_cur hc, ?_⟩
    obtain ⟨i, j⟩ := x
    unfold opAt
    rcases hc with h1 | ⟨⟨t, ht, h2, -, rest, h3⟩, -⟩
    · unfold resAt at h1
      cases ht : (exec fr m progs sched).threads[i]? with
      | none => simp [ht] at h1
      | some t =>
        simp only [ht, Option.bind_some] at h1
        simp only [hprog i t ht, Option.bind_some]
        have hj := (List.getElem?_eq_some_iff.1 h1).1
        rw [List.getElem?_append_left (by simpa using hj), List.getElem?_map, h1]
        rfl
    · simp only at h2 ht
      simp only [hprog i t ht, Option.bind_some]
      subst h2
      rw [List.getElem?_append_right (by simp)]
      simp [h3]
  · intro x op hx
    rcases h.cur x _ hx with h1 | ⟨-, h1⟩
    · exact h1
    · exact absurd rfl h1
  · have := h.base.order
    rw [List.pairwise_map] at this
    exact this

end Stdgpu.SLin
