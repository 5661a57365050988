import Verif.Spec.SLinear
import Verif.Proof.SlotQuiet
import Verif.Proof.DequeSides
import Mathlib.Data.List.Nodup
/-! Linearization of executions on the locked slots: the bookkeeping that is common to `vector` and `deque`. -/
namespace Stdgpu.SLin
open Stdgpu.SlotConc Stdgpu.Conc

variable {C K F α : Type}

abbrev LE (K α : Type) := OpId × Op K α × Res α

/-- The lists of placed operations `A`, of operations with a reservation `R` and of failed operations `B`, as seen from
thread `i`. -/
structure TInv (rsv : F → Bool) (Val : Nat → Op K α → Res α → Prop) (A : List (LE K α)) (R : List (OpId × Op K α))
    (B : List (LE K α)) (i : Nat) (t : Thread K F α) : Prop where
  ret : ∀ (j : Nat) e, t.done[j]? = some e → ((i, j), e) ∈ A ∨ ((i, j), e) ∈ B
  slot : ∀ p sp op rest, t.pc = .slot p sp → t.todo = op :: rest → ∃ r, ((i, t.done.length), op, r) ∈ A ∧ Val p op r
  rsvd : ∀ f op rest, t.pc = .front f → rsv f = true → t.todo = op :: rest → ((i, t.done.length), op) ∈ R
  inA : ∀ (j : Nat) e, ((i, j), e) ∈ A → t.done[j]? = some e ∨
    (j = t.done.length ∧ (∃ p sp, t.pc = .slot p sp) ∧ ∃ rest, t.todo = e.1 :: rest)
  inR : ∀ (j : Nat) op, ((i, j), op) ∈ R → j = t.done.length ∧ (∃ f, t.pc = .front f ∧ rsv f = true) ∧
    ∃ rest, t.todo = op :: rest
  inB : ∀ (j : Nat) e, ((i, j), e) ∈ B → t.done[j]? = some e

def ids (A : List (LE K α)) (R : List (OpId × Op K α)) (B : List (LE K α)) : List OpId :=
  A.map (·.1) ++ R.map (·.1) ++ B.map (·.1)

structure LInv (rsv : F → Bool) (Val : Nat → Op K α → Res α → Prop) (Bef : OpId → OpId → Prop) (A : List (LE K α))
    (R : List (OpId × Op K α)) (B : List (LE K α)) (s : Sys (Mem C α) (Thread K F α)) : Prop where
  nodup : (ids A R B).Nodup
  thr : ∀ (i : Nat) (t : Thread K F α), s.threads[i]? = some t → TInv rsv Val A R B i t
  known : ∀ x ∈ ids A R B, x.1 < s.threads.length
  bef : ∀ x y, Bef x y → (resAt s x).isSome = true
  order : (ids A R B).Pairwise (fun a b => ¬ Bef b a)

/-- Now `x` has returned and `y` has not been called. -/
def Now (fr : Front C K F) (s : Sys (Mem C α) (Thread K F α)) (x y : OpId) : Prop :=
  (resAt s x).isSome = true ∧ ¬ Called fr s y

variable {fr : Front C K F} {rsv : F → Bool} {Val : Nat → Op K α → Res α → Prop} {Bef Bef' : OpId → OpId → Prop}
  {A A' : List (LE K α)} {R R' : List (OpId × Op K α)} {B B' : List (LE K α)} {s : Sys (Mem C α) (Thread K F α)}
  {i : Nat} {t t' : Thread K F α} {m' : Mem C α}

theorem mem_ids {x : OpId} : x ∈ ids A R B ↔ (∃ e, (x, e) ∈ A) ∨ (∃ op, (x, op) ∈ R) ∨ ∃ e, (x, e) ∈ B := by
  unfold ids
  simp only [List.mem_append, List.mem_map, Prod.exists, exists_and_right, exists_eq_right, or_assoc]

/-- What is in the lists has been called. -/
theorem called_of (hrs : rsv fr.start = false) (hthr : ∀ (i : Nat) (t : Thread K F α), s.threads[i]? = some t →
    TInv rsv Val A R B i t) (hk : ∀ x ∈ ids A R B, x.1 < s.threads.length) {x : OpId} (hx : x ∈ ids A R B) :
    Called fr s x := by
  have hlt := hk x hx
  obtain ⟨i, j⟩ := x
  obtain ⟨t, ht⟩ : ∃ t, s.threads[i]? = some t := ⟨_, List.getElem?_eq_getElem hlt⟩
  have hT := hthr i t ht
  have hdone : ∀ e, t.done[j]? = some e → Called fr s (i, j) := fun e he =>
    ⟨t, ht, .inl (List.getElem?_eq_some_iff.1 he).1⟩
  rcases mem_ids.1 hx with ⟨e, he⟩ | ⟨op, he⟩ | ⟨e, he⟩
  · rcases hT.inA j e he with h | ⟨h1, ⟨p, sp, h2⟩, -⟩
    · exact hdone e h
    · exact ⟨t, ht, .inr ⟨h1, by rw [h2]; simp⟩⟩
  · obtain ⟨h1, ⟨f, h2, h3⟩, -⟩ := hT.inR j op he
    refine ⟨t, ht, .inr ⟨h1, ?_⟩⟩
    rw [h2]
    intro h
    simp only [PC.front.injEq] at h
    rw [h, hrs] at h3
    cases h3
  · exact hdone e (hT.inB j e he)

/-- A step of thread `i` changes the lists only in the entries of this thread. -/
theorem master (h : LInv rsv Val Bef A R B s) (ht : s.threads[i]? = some t) (hrs : rsv fr.start = false)
    (hbef : ∀ x y, Bef' x y → Bef x y ∨ Now fr ⟨m', s.threads.set i t'⟩ x y)
    (hd : t.done <+: t'.done)
    (eA : ∀ a : LE K α, a.1.1 ≠ i → (a ∈ A' ↔ a ∈ A)) (eR : ∀ a : OpId × Op K α, a.1.1 ≠ i → (a ∈ R' ↔ a ∈ R))
    (eB : ∀ a : LE K α, a.1.1 ≠ i → (a ∈ B' ↔ a ∈ B))
    (hT : TInv rsv Val A' R' B' i t') (hnd : (ids A' R' B').Nodup)
    (hord : (ids A' R' B').Pairwise (fun a b => ¬ Bef b a)) :
    LInv rsv Val Bef' A' R' B' ⟨m', s.threads.set i t'⟩ := by
  have hlt : i < s.threads.length := (List.getElem?_eq_some_iff.1 ht).1
  have hthr : ∀ (j : Nat) (u : Thread K F α), (s.threads.set i t')[j]? = some u → TInv rsv Val A' R' B' j u := by
    intro j u hu
    by_cases hij : j = i
    · subst hij
      rw [List.getElem?_set_self hlt] at hu
      cases hu
      exact hT
    · rw [List.getElem?_set_ne (by omega)] at hu
      have hU := h.thr j u hu
      exact { ret := fun k e he => by
                rw [eA _ hij, eB _ hij]; exact hU.ret k e he
              slot := fun p sp op rest h1 h2 => by
                obtain ⟨r, h3, h4⟩ := hU.slot p sp op rest h1 h2
                exact ⟨r, (eA _ hij).2 h3, h4⟩
              rsvd := fun f op rest h1 h2 h3 => (eR _ hij).2 (hU.rsvd f op rest h1 h2 h3)
              inA := fun k e he => hU.inA k e ((eA _ hij).1 he)
              inR := fun k e he => hU.inR k e ((eR _ hij).1 he)
              inB := fun k e he => hU.inB k e ((eB _ hij).1 he) }
  have hk : ∀ x ∈ ids A' R' B', x.1 < (s.threads.set i t').length := by
    intro x hx
    rw [List.length_set]
    by_cases hij : x.1 = i
    · omega
    · refine h.known x (mem_ids.2 ?_)
      rcases mem_ids.1 hx with ⟨e, he⟩ | ⟨e, he⟩ | ⟨e, he⟩
      · exact .inl ⟨e, (eA _ hij).1 he⟩
      · exact .inr (.inl ⟨e, (eR _ hij).1 he⟩)
      · exact .inr (.inr ⟨e, (eB _ hij).1 he⟩)
  refine ⟨hnd, hthr, hk, ?_, ?_⟩
  · intro x y hxy
    rcases hbef x y hxy with h1 | h1
    · have h2 := h.bef x y h1
      unfold resAt at h2 ⊢
      by_cases hij : x.1 = i
      · simp only [hij, ht, Option.bind_some] at h2
        simp only [hij, List.getElem?_set_self hlt, Option.bind_some]
        obtain ⟨e, he⟩ := Option.isSome_iff_exists.1 h2
        obtain ⟨d, hd⟩ := hd
        rw [← hd, List.getElem?_append_left (List.getElem?_eq_some_iff.1 he).1, he]
        rfl
      · simp only [List.getElem?_set_ne (Ne.symm hij)]
        exact h2
    · exact h1.1
  · refine List.Pairwise.imp_of_mem ?_ hord
    intro a b ha hb hab hB
    rcases hbef b a hB with h1 | h1
    · exact hab h1
    · exact h1.2 (called_of hrs hthr hk ha)

section
variable {op : Op K α} {rest : List (Op K α)}

/-- The operation of thread `i` has not returned. -/
theorem not_ret (ht : s.threads[i]? = some t) : resAt s (i, t.done.length) = none := by
  simp [resAt, ht]

theorem no_bef (h : LInv rsv Val Bef A R B s) (ht : s.threads[i]? = some t) (y : OpId) :
    ¬ Bef (i, t.done.length) y := by
  intro hb
  have := h.bef _ _ hb
  rw [not_ret ht] at this
  cases this

/-- A step of the front end that is neither a reservation nor the end of it. -/
theorem lin_cont (h : LInv rsv Val Bef A R B s) (ht : s.threads[i]? = some t) (hrs : rsv fr.start = false) {f f' : F}
    (hpc : t.pc = .front f) (hf : rsv f = false) (hf' : rsv f' = false)
    (hbef : ∀ x y, Bef' x y → Bef x y ∨ Now fr ⟨m', s.threads.set i { t with pc := .front f' }⟩ x y) :
    LInv rsv Val Bef' A R B ⟨m', s.threads.set i { t with pc := .front f' }⟩ := by
  have hT := h.thr i t ht
  refine master h ht hrs hbef (List.prefix_refl _) (fun _ _ => Iff.rfl) (fun _ _ => Iff.rfl) (fun _ _ => Iff.rfl) ?_
    h.nodup h.order
  exact { ret := hT.ret
          slot := fun p sp op rest h1 h2 => by cases h1
          rsvd := fun g op rest h1 h2 h3 => by
            simp only [PC.front.injEq] at h1
            rw [← h1, hf'] at h2; cases h2
          inA := fun j e he => by
            rcases hT.inA j e he with h1 | ⟨-, ⟨p, sp, h2⟩, -⟩
            · exact .inl h1
            · rw [hpc] at h2; cases h2
          inR := fun j e he => by
            obtain ⟨-, ⟨g, h1, h2⟩, -⟩ := hT.inR j e he
            rw [hpc] at h1
            simp only [PC.front.injEq] at h1
            rw [← h1, hf] at h2; cases h2
          inB := hT.inB }

/-- A step on the slot that does not end the operation. -/
theorem lin_stay (h : LInv rsv Val Bef A R B s) (ht : s.threads[i]? = some t) (hrs : rsv fr.start = false) {p : Nat}
    {sp sp' : SPC α} (hpc : t.pc = .slot p sp)
    (hbef : ∀ x y, Bef' x y → Bef x y ∨ Now fr ⟨m', s.threads.set i { t with pc := .slot p sp' }⟩ x y) :
    LInv rsv Val Bef' A R B ⟨m', s.threads.set i { t with pc := .slot p sp' }⟩ := by
  have hT := h.thr i t ht
  refine master h ht hrs hbef (List.prefix_refl _) (fun _ _ => Iff.rfl) (fun _ _ => Iff.rfl) (fun _ _ => Iff.rfl) ?_
    h.nodup h.order
  exact { ret := hT.ret
          slot := fun p' sp'' op rest h1 h2 => by
            simp only [PC.slot.injEq] at h1
            rw [← h1.1]
            exact hT.slot p sp op rest hpc h2
          rsvd := fun g op rest h1 h2 h3 => by cases h1
          inA := fun j e he => by
            rcases hT.inA j e he with h1 | ⟨h1, -, h3⟩
            · exact .inl h1
            · exact .inr ⟨h1, ⟨p, sp', rfl⟩, h3⟩
          inR := fun j e he => by
            obtain ⟨-, ⟨g, h1, h2⟩, -⟩ := hT.inR j e he
            rw [hpc] at h1; cases h1
          inB := hT.inB }

/-- The end of an operation that was placed. -/
theorem lin_ret (h : LInv rsv Val Bef A R B s) (ht : s.threads[i]? = some t) (hrs : rsv fr.start = false) {p : Nat}
    {sp : SPC α} (hpc : t.pc = .slot p sp) (htodo : t.todo = op :: rest) {r : Res α} (hv : ∀ r', Val p op r' → r' = r)
    (hbef : ∀ x y, Bef' x y → Bef x y ∨
      Now fr ⟨m', s.threads.set i ⟨rest, .front fr.start, t.done ++ [(op, r)]⟩⟩ x y) :
    LInv rsv Val Bef' A R B ⟨m', s.threads.set i ⟨rest, .front fr.start, t.done ++ [(op, r)]⟩⟩ := by
  have hT := h.thr i t ht
  have hlast : (t.done ++ [(op, r)])[t.done.length]? = some (op, r) := by simp
  have hmem : ((i, t.done.length), op, r) ∈ A := by
    obtain ⟨r', h1, h2⟩ := hT.slot p sp op rest hpc htodo
    rw [hv r' h2] at h1
    exact h1
  have hold : ∀ (j : Nat) e, t.done[j]? = some e → (t.done ++ [(op, r)])[j]? = some e := by
    intro j e he
    rw [List.getElem?_append_left (List.getElem?_eq_some_iff.1 he).1]; exact he
  refine master h ht hrs hbef (List.prefix_append _ _) (fun _ _ => Iff.rfl) (fun _ _ => Iff.rfl) (fun _ _ => Iff.rfl) ?_
    h.nodup h.order
  exact { ret := fun j e he => by
            replace he : (t.done ++ [(op, r)])[j]? = some e := he
            by_cases hj : j < t.done.length
            · rw [List.getElem?_append_left hj] at he
              exact hT.ret j e he
            · have : j = t.done.length := by
                have := (List.getElem?_eq_some_iff.1 he).1
                simp at this
                omega
              subst this
              rw [hlast] at he
              cases he
              exact .inl hmem
          slot := fun p sp op rest h1 h2 => by cases h1
          rsvd := fun g op rest h1 h2 h3 => by
            simp only [PC.front.injEq] at h1
            rw [← h1, hrs] at h2; cases h2
          inA := fun j e he => by
            rcases hT.inA j e he with h1 | ⟨h1, -, h3⟩
            · exact .inl (hold j e h1)
            · left
              subst h1
              have hnd : (A.map (·.1)).Nodup := by
                have := h.nodup
                unfold ids at this
                exact (List.nodup_append.1 (List.nodup_append.1 this).1).1
              have := List.inj_on_of_nodup_map hnd he hmem rfl
              cases this
              exact hlast
          inR := fun j e he => by
            obtain ⟨-, ⟨g, h1, h2⟩, -⟩ := hT.inR j e he
            rw [hpc] at h1; cases h1
          inB := fun j e he => hold j e (hT.inB j e he) }

/-- The identifier of the running operation is not in the lists as long as it has neither a place nor a reservation. -/
theorem fresh (h : LInv rsv Val Bef A R B s) (ht : s.threads[i]? = some t) {f : F} (hpc : t.pc = .front f)
    (hf : rsv f = false) : (i, t.done.length) ∉ ids A R B := by
  have hT := h.thr i t ht
  intro hx
  rcases mem_ids.1 hx with ⟨e, he⟩ | ⟨e, he⟩ | ⟨e, he⟩
  · rcases hT.inA _ e he with h1 | ⟨-, ⟨p, sp, h2⟩, -⟩
    · simp at h1
    · rw [hpc] at h2; cases h2
  · obtain ⟨-, ⟨g, h1, h2⟩, -⟩ := hT.inR _ e he
    rw [hpc] at h1
    simp only [PC.front.injEq] at h1
    rw [← h1, hf] at h2; cases h2
  · have := hT.inB _ e he
    simp at this

/-- An operation fails. -/
theorem lin_fail (h : LInv rsv Val Bef A R B s) (ht : s.threads[i]? = some t) (hrs : rsv fr.start = false) {f : F}
    (hpc : t.pc = .front f) (hf : rsv f = false) (r : Res α)
    (hbef : ∀ x y, Bef' x y → Bef x y ∨
      Now fr ⟨m', s.threads.set i ⟨rest, .front fr.start, t.done ++ [(op, r)]⟩⟩ x y) :
    LInv rsv Val Bef' A R (B ++ [((i, t.done.length), op, r)])
      ⟨m', s.threads.set i ⟨rest, .front fr.start, t.done ++ [(op, r)]⟩⟩ := by
  have hT := h.thr i t ht
  have hlast : (t.done ++ [(op, r)])[t.done.length]? = some (op, r) := by simp
  have hold : ∀ (j : Nat) e, t.done[j]? = some e → (t.done ++ [(op, r)])[j]? = some e := by
    intro j e he
    rw [List.getElem?_append_left (List.getElem?_eq_some_iff.1 he).1]; exact he
  have hids : ids A R (B ++ [((i, t.done.length), op, r)]) = ids A R B ++ [(i, t.done.length)] := by
    simp [ids]
  refine master h ht hrs hbef (List.prefix_append _ _) (fun _ _ => Iff.rfl) (fun _ _ => Iff.rfl) ?_ ?_ ?_ ?_
  · intro a ha
    simp only [List.mem_append, List.mem_singleton, or_iff_left_iff_imp]
    rintro rfl
    exact absurd rfl ha
  · exact { ret := fun j e he => by
              replace he : (t.done ++ [(op, r)])[j]? = some e := he
              by_cases hj : j < t.done.length
              · rw [List.getElem?_append_left hj] at he
                rcases hT.ret j e he with h1 | h1
                · exact .inl h1
                · exact .inr (List.mem_append_left _ h1)
              · have : j = t.done.length := by
                  have := (List.getElem?_eq_some_iff.1 he).1
                  simp at this
                  omega
                subst this
                rw [hlast] at he
                cases he
                exact .inr (by simp)
            slot := fun p sp op rest h1 h2 => by cases h1
            rsvd := fun g op rest h1 h2 h3 => by
              simp only [PC.front.injEq] at h1
              rw [← h1, hrs] at h2; cases h2
            inA := fun j e he => by
              rcases hT.inA j e he with h1 | ⟨-, ⟨p, sp, h2⟩, -⟩
              · exact .inl (hold j e h1)
              · rw [hpc] at h2; cases h2
            inR := fun j e he => by
              obtain ⟨-, ⟨g, h1, h2⟩, -⟩ := hT.inR j e he
              rw [hpc] at h1
              simp only [PC.front.injEq] at h1
              rw [← h1, hf] at h2; cases h2
            inB := fun j e he => by
              rcases List.mem_append.1 he with h1 | h1
              · exact hold j e (hT.inB j e h1)
              · simp only [List.mem_singleton, Prod.mk.injEq] at h1
                obtain ⟨⟨-, rfl⟩, rfl⟩ := h1
                exact hlast }
  · rw [hids, List.nodup_append]
    refine ⟨h.nodup, by simp, ?_⟩
    intro a ha b hb hab
    simp only [List.mem_singleton] at hb
    subst hab hb
    exact fresh h ht hpc hf ha
  · rw [hids, List.pairwise_append]
    refine ⟨h.order, by simp, ?_⟩
    intro a ha b hb
    simp only [List.mem_singleton] at hb
    subst hb
    exact no_bef h ht a

/-- A reservation while no operation has failed. -/
theorem lin_rsv (h : LInv rsv Val Bef A R [] s) (ht : s.threads[i]? = some t) (hrs : rsv fr.start = false) {f f' : F}
    (hpc : t.pc = .front f) (hf : rsv f = false) (hf' : rsv f' = true) (htodo : t.todo = op :: rest)
    (hbef : ∀ x y, Bef' x y → Bef x y ∨ Now fr ⟨m', s.threads.set i { t with pc := .front f' }⟩ x y) :
    LInv rsv Val Bef' A (R ++ [((i, t.done.length), op)]) [] ⟨m', s.threads.set i { t with pc := .front f' }⟩ := by
  have hT := h.thr i t ht
  have hids : ids A (R ++ [((i, t.done.length), op)]) [] = ids A R [] ++ [(i, t.done.length)] := by
    simp [ids]
  refine master h ht hrs hbef (List.prefix_refl _) (fun _ _ => Iff.rfl) ?_ (fun _ _ => Iff.rfl) ?_ ?_ ?_
  · intro a ha
    simp only [List.mem_append, List.mem_singleton, or_iff_left_iff_imp]
    rintro rfl
    exact absurd rfl ha
  · exact { ret := hT.ret
            slot := fun p sp op rest h1 h2 => by cases h1
            rsvd := fun g op' rest' h1 h2 h3 => by
              replace h3 : t.todo = op' :: rest' := h3
              rw [htodo] at h3
              cases h3
              simp
            inA := fun j e he => by
              rcases hT.inA j e he with h1 | ⟨-, ⟨p, sp, h2⟩, -⟩
              · exact .inl h1
              · rw [hpc] at h2; cases h2
            inR := fun j e he => by
              rcases List.mem_append.1 he with h1 | h1
              · obtain ⟨-, ⟨g, h1, h2⟩, -⟩ := hT.inR j e h1
                rw [hpc] at h1
                simp only [PC.front.injEq] at h1
                rw [← h1, hf] at h2; cases h2
              · simp only [List.mem_singleton, Prod.mk.injEq] at h1
                obtain ⟨⟨-, rfl⟩, rfl⟩ := h1
                exact ⟨rfl, ⟨f', rfl, hf'⟩, rest, htodo⟩
            inB := hT.inB }
  · rw [hids, List.nodup_append]
    refine ⟨h.nodup, by simp, ?_⟩
    intro a ha b hb hab
    simp only [List.mem_singleton] at hb
    subst hab hb
    exact fresh h ht hpc hf ha
  · rw [hids, List.pairwise_append]
    refine ⟨h.order, by simp, ?_⟩
    intro a ha b hb
    simp only [List.mem_singleton] at hb
    subst hb
    exact no_bef h ht a

/-- An operation without a reservation gets its place while nothing is reserved and no operation has failed. -/
theorem lin_place (h : LInv rsv Val Bef A [] [] s) (ht : s.threads[i]? = some t) (hrs : rsv fr.start = false) {f : F}
    (hpc : t.pc = .front f) (hf : rsv f = false) (htodo : t.todo = op :: rest) {p : Nat} {sp : SPC α} {r : Res α}
    (hv : Val p op r)
    (hbef : ∀ x y, Bef' x y → Bef x y ∨ Now fr ⟨m', s.threads.set i { t with pc := .slot p sp }⟩ x y) :
    LInv rsv Val Bef' (A ++ [((i, t.done.length), op, r)]) [] [] ⟨m', s.threads.set i { t with pc := .slot p sp }⟩ := by
  have hT := h.thr i t ht
  have hids : ids (A ++ [((i, t.done.length), op, r)]) [] [] = ids A ([] : List (OpId × Op K α)) [] ++
    [(i, t.done.length)] := by simp [ids]
  refine master h ht hrs hbef (List.prefix_refl _) ?_ (fun _ _ => Iff.rfl) (fun _ _ => Iff.rfl) ?_ ?_ ?_
  · intro a ha
    simp only [List.mem_append, List.mem_singleton, or_iff_left_iff_imp]
    rintro rfl
    exact absurd rfl ha
  · exact { ret := fun j e he => by
              rcases hT.ret j e he with h1 | h1
              · exact .inl (List.mem_append_left _ h1)
              · cases h1
            slot := fun p' sp' op' rest' h1 h2 => by
              replace h2 : t.todo = op' :: rest' := h2
              rw [htodo] at h2
              cases h2
              simp only [PC.slot.injEq] at h1
              rw [← h1.1]
              exact ⟨r, by simp, hv⟩
            rsvd := fun g op rest h1 h2 h3 => by cases h1
            inA := fun j e he => by
              rcases List.mem_append.1 he with h1 | h1
              · rcases hT.inA j e h1 with h1 | ⟨-, ⟨p, sp, h2⟩, -⟩
                · exact .inl h1
                · rw [hpc] at h2; cases h2
              · simp only [List.mem_singleton, Prod.mk.injEq] at h1
                obtain ⟨⟨-, rfl⟩, rfl⟩ := h1
                exact .inr ⟨rfl, ⟨p, sp, rfl⟩, rest, htodo⟩
            inR := fun j e he => by cases he
            inB := fun j e he => by cases he }
  · rw [hids, List.nodup_append]
    refine ⟨h.nodup, by simp, ?_⟩
    intro a ha b hb hab
    simp only [List.mem_singleton] at hb
    subst hab hb
    exact fresh h ht hpc hf ha
  · rw [hids, List.pairwise_append]
    refine ⟨h.order, by simp, ?_⟩
    intro a ha b hb
    simp only [List.mem_singleton] at hb
    subst hb
    exact no_bef h ht a

theorem ids_perm (R1 R2 : List (OpId × Op K α)) (x : OpId) (r : Res α) :
    (ids (A ++ [(x, op, r)]) (R1 ++ R2) B).Perm (ids A (R1 ++ (x, op) :: R2) B) := by
  unfold ids
  simp only [List.map_append, List.map_cons, List.map_nil, List.append_assoc]
  refine List.Perm.append_left _ ?_
  rw [List.cons_append, List.nil_append, List.cons_append]
  exact List.perm_middle.symm

/-- An operation with a reservation gets its place. -/
theorem lin_take {R1 R2 : List (OpId × Op K α)}
    (h : LInv rsv Val Bef A (R1 ++ ((i, t.done.length), op) :: R2) B s) (ht : s.threads[i]? = some t)
    (hrs : rsv fr.start = false) {f : F} (hpc : t.pc = .front f) (htodo : t.todo = op :: rest) {p : Nat} {sp : SPC α}
    {r : Res α} (hv : Val p op r)
    (hbef : ∀ x y, Bef' x y → Bef x y ∨ Now fr ⟨m', s.threads.set i { t with pc := .slot p sp }⟩ x y) :
    LInv rsv Val Bef' (A ++ [((i, t.done.length), op, r)]) (R1 ++ R2) B
      ⟨m', s.threads.set i { t with pc := .slot p sp }⟩ := by
  have hT := h.thr i t ht
  have hnd : (ids (A ++ [((i, t.done.length), op, r)]) (R1 ++ R2) B).Nodup :=
    (ids_perm R1 R2 _ r).nodup_iff.2 h.nodup
  have hnR : ∀ e, ((i, t.done.length), e) ∉ R1 ++ R2 := by
    intro e he
    unfold ids at hnd
    rw [List.append_assoc] at hnd
    refine (List.nodup_append.1 hnd).2.2 (i, t.done.length) (by simp) (i, t.done.length) ?_ rfl
    exact List.mem_append_left _ (List.mem_map.2 ⟨_, he, rfl⟩)
  refine master h ht hrs hbef (List.prefix_refl _) ?_ ?_ (fun _ _ => Iff.rfl) ?_ hnd ?_
  · intro a ha
    simp only [List.mem_append, List.mem_singleton, or_iff_left_iff_imp]
    rintro rfl
    exact absurd rfl ha
  · intro a ha
    simp only [List.mem_append, List.mem_cons]
    constructor
    · rintro (h1 | h1) <;> simp [h1]
    · rintro (h1 | rfl | h1)
      · exact .inl h1
      · exact absurd rfl ha
      · exact .inr h1
  · exact { ret := fun j e he => by
              rcases hT.ret j e he with h1 | h1
              · exact .inl (List.mem_append_left _ h1)
              · exact .inr h1
            slot := fun p' sp' op' rest' h1 h2 => by
              replace h2 : t.todo = op' :: rest' := h2
              rw [htodo] at h2
              cases h2
              simp only [PC.slot.injEq] at h1
              rw [← h1.1]
              exact ⟨r, by simp, hv⟩
            rsvd := fun g op rest h1 h2 h3 => by cases h1
            inA := fun j e he => by
              rcases List.mem_append.1 he with h1 | h1
              · rcases hT.inA j e h1 with h1 | ⟨-, ⟨p, sp, h2⟩, -⟩
                · exact .inl h1
                · rw [hpc] at h2; cases h2
              · simp only [List.mem_singleton, Prod.mk.injEq] at h1
                obtain ⟨⟨-, rfl⟩, rfl⟩ := h1
                exact .inr ⟨rfl, ⟨p, sp, rfl⟩, rest, htodo⟩
            inR := fun j e he => by
              have h1 : ((i, j), e) ∈ R1 ++ ((i, t.done.length), op) :: R2 := by
                simp only [List.mem_append, List.mem_cons] at he ⊢
                rcases he with h1 | h1 <;> simp [h1]
              obtain ⟨rfl, -⟩ := hT.inR j e h1
              exact absurd he (hnR e)
            inB := hT.inB }
  · -- the order
    have ho := h.order
    unfold ids at ho ⊢
    simp only [List.map_append, List.map_cons, List.map_nil] at ho ⊢
    have hz := no_bef h ht
    -- elements of R have not returned
    have hR : ∀ x ∈ R1.map (·.1) ++ R2.map (·.1), ∀ y, ¬ Bef x y := by
      intro x hx y hxy
      have h1 := h.bef x y hxy
      obtain ⟨op', hx'⟩ : ∃ op', (x, op') ∈ R1 ++ ((i, t.done.length), op) :: R2 := by
        simp only [List.mem_append, List.mem_map, Prod.exists, exists_and_right, exists_eq_right] at hx
        rcases hx with ⟨o, hx⟩ | ⟨o, hx⟩
        · exact ⟨o, by simp [hx]⟩
        · exact ⟨o, by simp [hx]⟩
      have hlt := h.known x (mem_ids.2 (.inr (.inl ⟨_, hx'⟩)))
      obtain ⟨j, k⟩ := x
      obtain ⟨u, hu⟩ : ∃ u, s.threads[j]? = some u := ⟨_, List.getElem?_eq_getElem hlt⟩
      obtain ⟨rfl, -⟩ := (h.thr j u hu).inR k op' hx'
      rw [not_ret hu] at h1
      cases h1
    simp only [List.pairwise_append, List.pairwise_cons, List.mem_append, List.mem_cons, List.mem_singleton,
      List.not_mem_nil, or_false, List.mem_map, Prod.exists, exists_and_right, exists_eq_right] at ho ⊢ hR
    obtain ⟨⟨o1, ⟨o2, ⟨o3, o4⟩, o5⟩, o6⟩, o7, o8⟩ := ho
    refine ⟨⟨⟨o1, ⟨by simp, List.Pairwise.nil⟩, ?_⟩, ⟨o2, o4, ?_⟩, ?_⟩, o7, ?_⟩
    · rintro a - b rfl
      exact hz a
    · intro a ha b hb
      exact hR b (.inr hb) a
    · rintro a (ha | rfl) b hb
      · exact o6 a ha b (by rcases hb with hb | hb <;> simp [hb])
      · exact hR b hb _
    · rintro a ((ha | rfl) | ha) b hb
      · exact o8 a (.inl ha) b hb
      · exact o8 _ (.inr (.inr (.inl rfl))) b hb
      · exact o8 a (.inr (by rcases ha with ha | ha <;> simp [ha])) b hb

end

/-- A step that changes nothing. -/
theorem lin_id (h : LInv rsv Val Bef A R B s) (hrs : rsv fr.start = false)
    (hbef : ∀ x y, Bef' x y → Bef x y ∨ Now fr s x y) : LInv rsv Val Bef' A R B s := by
  refine ⟨h.nodup, h.thr, h.known, ?_, ?_⟩
  · intro x y hxy
    rcases hbef x y hxy with h1 | h1
    · exact h.bef x y h1
    · exact h1.1
  · refine List.Pairwise.imp_of_mem ?_ h.order
    intro a b ha hb hab hB
    rcases hbef b a hB with h1 | h1
    · exact hab h1
    · exact h1.2 (called_of hrs h.thr h.known ha)

theorem before_nil {m : Mem C α} {progs : List (List (Op K α))} {x y : OpId} :
    ¬ Before fr m progs [] x y := by
  rintro ⟨n, h, -⟩
  simp only [List.take_nil] at h
  unfold exec at h
  rw [run_nil] at h
  unfold resAt init at h
  simp only [List.getElem?_map] at h
  cases hx : progs[x.1]? <;> simp [hx] at h

theorem before_snoc {m : Mem C α} {progs : List (List (Op K α))} {sched : List Nat} {i : Nat} {x y : OpId}
    (h : Before fr m progs (sched ++ [i]) x y) :
    Before fr m progs sched x y ∨ Now fr (exec fr m progs (sched ++ [i])) x y := by
  obtain ⟨n, h1, h2⟩ := h
  by_cases hn : n ≤ sched.length
  · left
    rw [List.take_append_of_le_length hn] at h1 h2
    exact ⟨n, h1, h2⟩
  · right
    rw [List.take_of_length_le (by simp; omega)] at h1 h2
    exact ⟨h1, h2⟩

theorem lin_init (fr : Front C K F) (hrs : rsv fr.start = false) (m : Mem C α) (progs : List (List (Op K α))) :
    LInv rsv Val (Before fr m progs []) [] [] [] (init fr m progs) := by
  refine ⟨by simp [ids], ?_, by simp [ids], fun x y h => absurd h before_nil, by simp [ids]⟩
  intro i t ht
  simp only [init, List.getElem?_map, Option.map_eq_some_iff] at ht
  obtain ⟨pr, -, rfl⟩ := ht
  exact { ret := fun j e he => by simp at he
          slot := fun p sp op rest h1 h2 => by cases h1
          rsvd := fun g op rest h1 h2 h3 => by
            simp only [PC.front.injEq] at h1
            rw [← h1, hrs] at h2; cases h2
          inA := fun j e he => by cases he
          inR := fun j e he => by cases he
          inB := fun j e he => by cases he }

/-! ### Sequential runs -/

variable {atBack : K → Bool} {cap : Nat}

theorem SeqRun.append {l m m' : List α} {E E' : List (Op K α × Res α)} (h : SeqRun atBack cap l E m)
    (h' : SeqRun atBack cap m E' m') : SeqRun atBack cap l (E ++ E') m' := by
  induction E generalizing l with
  | nil => cases h; exact h'
  | cons e E ih =>
    obtain ⟨m1, h1, h2⟩ := h
    exact ⟨m1, h1, ih h2⟩

theorem SeqRun.snoc {l m m' : List α} {E : List (Op K α × Res α)} {e : Op K α × Res α} (h : SeqRun atBack cap l E m)
    (h' : SeqStep atBack cap m e m') : SeqRun atBack cap l (E ++ [e]) m' :=
  h.append ⟨m', h', rfl⟩

theorem seqRun_fails {m : List α} {E : List (Op K α × Res α)} (h : ∀ e ∈ E, SeqStep atBack cap m e m) :
    SeqRun atBack cap m E m := by
  induction E with
  | nil => rfl
  | cons e E ih => exact ⟨m, h e (by simp), ih (fun e he => h e (by simp [he]))⟩

/-- Pushes with a reservation succeed one after another. -/
theorem seqRun_pushes (R : List (OpId × Op K α)) (m : List α) (hp : ∀ r ∈ R, r.2.isPush = true)
    (hc : m.length + R.length ≤ cap) :
    ∃ m', SeqRun atBack cap m (R.map (fun r => (r.2, Res.pushed))) m' ∧ m'.length = m.length + R.length := by
  induction R generalizing m with
  | nil => exact ⟨m, rfl, by simp⟩
  | cons r R ih =>
    obtain ⟨x, op⟩ := r
    cases op with
    | pop k => have := hp _ List.mem_cons_self; simp [Op.isPush] at this
    | push k v =>
      simp only [List.length_cons] at hc
      obtain ⟨m', h1, h2⟩ := ih (if atBack k then m ++ [v] else v :: m) (fun r hr => hp r (by simp [hr])) (by
        split <;> simp <;> omega)
      refine ⟨m', ⟨_, ⟨by omega, rfl⟩, h1⟩, ?_⟩
      rw [h2]
      split <;> simp <;> omega

/-- Pops with a reservation succeed one after another. -/
theorem seqRun_pops (R : List (OpId × Op K α)) (m : List α) (hp : ∀ r ∈ R, r.2.isPush = false)
    (hc : R.length ≤ m.length) :
    ∃ (E : List (LE K α)) (m' : List α), E.map (fun e => (e.1, e.2.1)) = R ∧ SeqRun atBack cap m (E.map (·.2)) m' ∧
      m'.length + R.length = m.length := by
  induction R generalizing m with
  | nil => exact ⟨[], m, rfl, rfl, by simp⟩
  | cons r R ih =>
    obtain ⟨x, op⟩ := r
    cases op with
    | push k v => have := hp _ List.mem_cons_self; simp [Op.isPush] at this
    | pop k =>
      simp only [List.length_cons] at hc
      obtain ⟨m1, v, hm⟩ : ∃ (m1 : List α) (v : α), m = if atBack k then m1 ++ [v] else v :: m1 := by
        have hne : m ≠ [] := by rintro rfl; simp at hc
        cases atBack k with
        | true => exact ⟨m.dropLast, m.getLast hne, (List.dropLast_append_getLast hne).symm⟩
        | false => cases m with
          | nil => exact absurd rfl hne
          | cons a m => exact ⟨m, a, by simp⟩
      have hl : m.length = m1.length + 1 := by rw [hm]; split <;> simp
      obtain ⟨E, m', h1, h2, h3⟩ := ih m1 (fun r hr => hp r (by simp [hr])) (by omega)
      refine ⟨(x, .pop k, .popped v) :: E, m', by simp [h1], ⟨m1, hm, h2⟩, ?_⟩
      simp only [List.length_cons]
      omega

end Stdgpu.SLin
