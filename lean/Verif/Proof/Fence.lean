import Verif.Spec.Fence
import Verif.Proof.Conc
/-! Fences. -/
namespace Stdgpu.Fence
open Stdgpu.Conc Stdgpu.Spec
open Stdgpu.SlotConc (upd)
variable {V : Type}

theorem Reorder.perm {l l' : List (Instr V)} (h : Reorder l l') : l'.Perm l := by
  induction h with
  | refl => exact List.Perm.refl _
  | swap h hi ih => exact ((List.Perm.swap _ _ _).append_left _).trans ih

theorem Reorder.split {l1 l2 l' : List (Instr V)} (h : Reorder (l1 ++ .fence :: l2) l') :
    ∃ l1' l2', l' = l1' ++ .fence :: l2' ∧ Reorder l1 l1' ∧ Reorder l2 l2' := by
  induction h with
  | refl => exact ⟨l1, l2, rfl, .refl, .refl⟩
  | @swap p q a b h hi ih =>
    obtain ⟨l1', l2', e, r1, r2⟩ := ih
    obtain ⟨x, y, hx, hy, -⟩ := id hi
    rcases List.append_eq_append_iff.1 e with ⟨as, e1, e2⟩ | ⟨bs, e1, e2⟩
    · -- l1' = p ++ as
      cases as with
      | nil => simp only [List.nil_append, List.cons.injEq] at e2; rw [e2.1] at hx; simp [Instr.loc] at hx
      | cons a' as =>
        cases as with
        | nil =>
          simp only [List.cons_append, List.nil_append, List.cons.injEq] at e2
          rw [e2.2.1] at hy; simp [Instr.loc] at hy
        | cons b' as =>
          simp only [List.cons_append, List.cons.injEq] at e2
          obtain ⟨rfl, rfl, rfl⟩ := e2
          subst e1
          exact ⟨p ++ b :: a :: as, l2', by simp, .swap r1 hi, r2⟩
    · cases bs with
      | nil =>
        simp only [List.nil_append, List.cons.injEq] at e2
        rw [← e2.1] at hx; simp [Instr.loc] at hx
      | cons f bs =>
        simp only [List.cons_append, List.cons.injEq] at e2
        obtain ⟨rfl, rfl⟩ := e2
        subst e1
        exact ⟨l1', bs ++ b :: a :: q, by simp, r1, .swap r2 hi⟩

theorem apply_comm {a b : Instr V} (h : Independent a b) (m : Nat → V) : apply (apply m a) b = apply (apply m b) a := by
  obtain ⟨x, y, hx, hy, hne⟩ := h
  cases a <;> cases b <;> simp only [Instr.loc, Option.some.injEq, reduceCtorEq] at hx hy <;> subst hx <;> subst hy <;>
    simp only [apply] <;> first | rfl | skip
  all_goals
    funext z
    simp only [upd, if_neg hne, if_neg hne.symm]
    split
    · next e => subst e; rw [if_neg (by first | exact hne | exact hne.symm)]
    · rfl

theorem Reorder.exec {l l' : List (Instr V)} (h : Reorder l l') (m : Nat → V) : l'.foldl apply m = l.foldl apply m := by
  induction h with
  | refl => rfl
  | swap h hi ih =>
    rw [← ih]
    simp only [List.foldl_append, List.foldl_cons]
    rw [apply_comm hi]

theorem apply_eq {c : Instr V} {x : Nat} (h : ¬ Writes c x) (m : Nat → V) : apply m c x = m x := by
  cases c with
  | read => rfl
  | fence => rfl
  | write y v =>
    simp only [apply, upd]
    split
    · next e => subst e; exact (h (.inl ⟨v, rfl⟩)).elim
    · rfl
  | rmw id y f =>
    simp only [apply, upd]
    split
    · next e => subst e; exact (h (.inr ⟨id, f, rfl⟩)).elim
    · rfl

theorem apply_silent {flag : Nat} {signal : V → Prop} {c : Instr V} (h : Silent flag signal c) {m : Nat → V}
    (hm : ¬ signal (m flag)) : ¬ signal (apply m c flag) := by
  cases c with
  | read => exact hm
  | fence => exact hm
  | write y v =>
    simp only [apply, upd]
    split
    · next e => subst e; exact h.1 v rfl
    · exact hm
  | rmw id y f =>
    simp only [apply, upd]
    split
    · next e => subst e; exact h.2 id f rfl _ hm
    · exact hm

/-- For a location that only the accesses of a list change, the value depends on this location alone. -/
theorem apply_congr {c : Instr V} {m m' : Nat → V} {x : Nat} (h : m x = m' x) : apply m c x = apply m' c x := by
  cases c with
  | read => exact h
  | fence => exact h
  | write y v => simp only [apply, upd]; split <;> first | rfl | exact h
  | rmw id y f =>
    simp only [apply, upd]
    split
    · next e => subst e; rw [h]
    · exact h

theorem mem_obtained {c : Instr V} {m : Nat → V} {id : Nat} {u : V} (h : (id, u) ∈ obtained m c) : id ∈ ident c := by
  cases c <;> simp only [obtained, List.mem_singleton, Prod.mk.injEq, List.not_mem_nil] at h <;> simp [ident, h.1]

theorem nodup_ident {l : List (Instr V)} (hn : (l.flatMap ident).Nodup) {k k' : Instr V} (hk : k ∈ l) (hk' : k' ∈ l) {x : Nat}
    (h : x ∈ ident k) (h' : x ∈ ident k') : k = k' := by
  induction l with
  | nil => simp at hk
  | cons y l ih =>
    rw [List.flatMap_cons, List.nodup_append] at hn
    rcases List.mem_cons.1 hk with rfl | hk <;> rcases List.mem_cons.1 hk' with rfl | hk'
    · rfl
    · exact (hn.2.2 x h x (List.mem_flatMap.2 ⟨k', by assumption, h'⟩) rfl).elim
    · exact (hn.2.2 x h' x (List.mem_flatMap.2 ⟨k, by assumption, h⟩) rfl).elim
    · exact ih hn.2.1 hk hk'

section
variable {m : Nat → V} {D : Nat → Prop} {flag : Nat} {signal : V → Prop} {a b c : Nat} {WA T PB RB : List (Instr V)}

/-- State of the publisher. -/
def Before (m : Nat → V) (D : Nat → Prop) (flag : Nat) (signal : V → Prop) (WA T : List (Instr V)) (s : Nat → V) (t : Thread V) :
    Prop :=
  ∃ d w, WA = d ++ w ∧ t.rest = w ++ .fence :: T ∧ (∀ x, D x → s x = d.foldl apply m x) ∧ ¬ signal (s flag)

def Published (m : Nat → V) (D : Nat → Prop) (WA T : List (Instr V)) (s : Nat → V) (t : Thread V) : Prop :=
  t.rest <:+ T ∧ ∀ x, D x → s x = WA.foldl apply m x

/-- Log of the consumer. -/
def Consumer (m : Nat → V) (D : Nat → Prop) (signal : V → Prop) (c : Nat) (WA PB RB : List (Instr V)) (pub : Prop) (t : Thread V) :
    Prop :=
  ((∃ p, p <:+ PB ∧ t.rest = p ++ .fence :: RB) ∧ (∀ e ∈ t.log, e.1 ∉ RB.flatMap ident) ∧
    ((∃ u, (c, u) ∈ t.log ∧ signal u) → pub)) ∨
  (t.rest <:+ RB ∧ ((∃ u, (c, u) ∈ t.log ∧ signal u) → pub ∧
    ∀ id x, Instr.read id x ∈ RB → D x → ∀ u, (id, u) ∈ t.log → u = WA.foldl apply m x))

structure PInv (m : Nat → V) (D : Nat → Prop) (flag : Nat) (signal : V → Prop) (a b c : Nat) (WA T PB RB : List (Instr V))
    (s : Sys (Nat → V) (Thread V)) : Prop where
  pa : ∃ t, s.threads[a]? = some t ∧ (Before m D flag signal WA T s.shared t ∨ Published m D WA T s.shared t)
  pb : ∃ t, s.threads[b]? = some t ∧
    Consumer m D signal c WA PB RB (∃ t, s.threads[a]? = some t ∧ Published m D WA T s.shared t) t
  others : ∀ j t, j ≠ a → s.threads[j]? = some t → ∀ i ∈ t.rest, Silent flag signal i ∧ ∀ x, D x → ¬ Writes i x

theorem suffix_of_cons {α : Type} {x : α} {r l : List α} (h : x :: r <:+ l) : r <:+ l := (List.suffix_cons x r).trans h

theorem PInv.step (hab : a ≠ b) (hW : ∀ i ∈ WA, Silent flag signal i) (hT : ∀ i ∈ T, ∀ x, D x → ¬ Writes i x)
    (hids : ((PB ++ .fence :: RB).flatMap ident).Nodup) (hflag : ∀ id x, Instr.read id x ∈ PB → id = c → x = flag)
    (hrmw : ∀ id x f, Instr.rmw id x f ∈ PB → id = c → x = flag) (hc : c ∈ PB.flatMap ident)
    {s : Sys (Nat → V) (Thread V)} (h : PInv m D flag signal a b c WA T PB RB s)
    (i : Nat) (t : Thread V) (hi : s.threads[i]? = some t) :
    PInv m D flag signal a b c WA T PB RB ⟨(Fence.step s.shared t).1, s.threads.set i (Fence.step s.shared t).2⟩ := by
  have hlt := (List.getElem?_eq_some_iff.1 hi).1
  obtain ⟨rest, log⟩ := t
  cases rest with
  | nil =>
    have : (⟨(Fence.step s.shared ⟨[], log⟩).1, s.threads.set i (Fence.step s.shared ⟨[], log⟩).2⟩ : Sys (Nat → V) (Thread V)) = s := by
      show (⟨s.shared, s.threads.set i ⟨[], log⟩⟩ : Sys (Nat → V) (Thread V)) = s
      rw [set_self _ _ _ hi]
    rw [this]; exact h
  | cons k r =>
    show PInv m D flag signal a b c WA T PB RB ⟨apply s.shared k, s.threads.set i ⟨r, log ++ obtained s.shared k⟩⟩
    obtain ⟨ta, hta, pa⟩ := h.pa
    obtain ⟨tb, htb, pb⟩ := h.pb
    have others : ∀ j t, j ≠ a → (s.threads.set i ⟨r, log ++ obtained s.shared k⟩)[j]? = some t →
        ∀ i ∈ t.rest, Silent flag signal i ∧ ∀ x, D x → ¬ Writes i x := by
      intro j t hj ht i' hi'
      by_cases e : i = j
      · subst e
        rw [List.getElem?_set_self hlt] at ht
        cases ht
        exact h.others i _ hj hi i' (List.mem_cons_of_mem _ hi')
      · rw [List.getElem?_set_ne e] at ht
        exact h.others j t hj ht i' hi'
    by_cases ea : i = a
    · -- the publisher
      subst ea
      rw [hi] at hta
      cases hta
      have hb : (s.threads.set i ⟨r, log ++ obtained s.shared k⟩)[b]? = some tb := by rw [List.getElem?_set_ne hab]; exact htb
      have haa : (s.threads.set i ⟨r, log ++ obtained s.shared k⟩)[i]? = some ⟨r, log ++ obtained s.shared k⟩ :=
        List.getElem?_set_self hlt
      have mono : ∀ {q : Prop}, (Published m D WA T s.shared ⟨k :: r, log⟩ → q) →
          Consumer m D signal c WA PB RB (∃ t, s.threads[i]? = some t ∧ Published m D WA T s.shared t) tb →
          Consumer m D signal c WA PB RB q tb := by
        intro q hq hcons
        have hq' : (∃ t, s.threads[i]? = some t ∧ Published m D WA T s.shared t) → q := by
          rintro ⟨t, ht, hp⟩
          rw [hi] at ht; cases ht
          exact hq hp
        rcases hcons with ⟨c1, c2, c3⟩ | ⟨c1, c2⟩
        · exact .inl ⟨c1, c2, fun h => hq' (c3 h)⟩
        · exact .inr ⟨c1, fun h => ⟨hq' (c2 h).1, (c2 h).2⟩⟩
      rcases pa with ⟨d, w, e1, e2, e3, e4⟩ | ⟨e1, e2⟩
      · have hnp : ¬ Published m D WA T s.shared ⟨k :: r, log⟩ := by
          rintro ⟨g1, -⟩
          have := g1.length_le
          simp only at e2 this
          rw [e2] at this
          simp at this
          omega
        cases w with
        | nil =>
          simp only [List.nil_append, List.cons.injEq] at e2
          obtain ⟨rfl, rfl⟩ := e2
          simp only [List.append_nil] at e1
          subst e1
          exact ⟨⟨_, haa, .inr ⟨List.suffix_refl _, e3⟩⟩, ⟨tb, hb, mono (fun hp => (hnp hp).elim) pb⟩, others⟩
        | cons k' w =>
          simp only [List.cons_append, List.cons.injEq] at e2
          obtain ⟨rfl, rfl⟩ := e2
          refine ⟨⟨_, haa, .inl ⟨d ++ [k], w, by simp [e1], rfl, ?_, ?_⟩⟩, ⟨tb, hb, mono (fun hp => (hnp hp).elim) pb⟩, others⟩
          · intro x hx
            rw [List.foldl_append]
            exact apply_congr (e3 x hx)
          · exact apply_silent (hW k (by rw [e1]; simp)) e4
      · have hk : k ∈ T := e1.mem (by simp)
        have hp : Published m D WA T (apply s.shared k) ⟨r, log ++ obtained s.shared k⟩ :=
          ⟨suffix_of_cons e1, fun x hx => by rw [apply_eq (hT k hk x hx)]; exact e2 x hx⟩
        exact ⟨⟨_, haa, .inr hp⟩, ⟨tb, hb, mono (fun _ => ⟨_, haa, hp⟩) pb⟩, others⟩
    · -- somebody else: the data and the silence stay
      have hk := h.others i _ ea hi k (by simp)
      have haa : (s.threads.set i ⟨r, log ++ obtained s.shared k⟩)[a]? = some ta := by rw [List.getElem?_set_ne ea]; exact hta
      have pa' : Before m D flag signal WA T (apply s.shared k) ta ∨ Published m D WA T (apply s.shared k) ta := by
        rcases pa with ⟨d, w, e1, e2, e3, e4⟩ | ⟨e1, e2⟩
        · exact .inl ⟨d, w, e1, e2, fun x hx => by rw [apply_eq (hk.2 x hx)]; exact e3 x hx, apply_silent hk.1 e4⟩
        · exact .inr ⟨e1, fun x hx => by rw [apply_eq (hk.2 x hx)]; exact e2 x hx⟩
      have pubmono : (∃ t, s.threads[a]? = some t ∧ Published m D WA T s.shared t) →
          ∃ t, (s.threads.set i ⟨r, log ++ obtained s.shared k⟩)[a]? = some t ∧ Published m D WA T (apply s.shared k) t := by
        rintro ⟨t, ht, g1, g2⟩
        rw [hta] at ht; cases ht
        exact ⟨ta, haa, g1, fun x hx => by rw [apply_eq (hk.2 x hx)]; exact g2 x hx⟩
      refine ⟨⟨ta, haa, pa'⟩, ?_, others⟩
      by_cases eb : i = b
      · subst eb
        rw [hi] at htb
        cases htb
        refine ⟨_, List.getElem?_set_self hlt, ?_⟩
        have disj : ∀ x, x ∈ PB.flatMap ident → x ∉ RB.flatMap ident := by
          intro x h1 h2
          rw [List.flatMap_append, List.nodup_append] at hids
          exact hids.2.2 x h1 x (by simpa [List.flatMap_cons, ident] using h2) rfl
        rcases pb with ⟨⟨p, c1, c2⟩, c3, c4⟩ | ⟨c1, c2⟩
        · cases p with
          | nil =>
            simp only [List.nil_append, List.cons.injEq] at c2
            obtain ⟨rfl, rfl⟩ := c2
            right
            refine ⟨List.suffix_refl _, ?_⟩
            have e0 : obtained s.shared (Instr.fence : Instr V) = [] := rfl
            rw [e0, List.append_nil] at pubmono ⊢
            intro hu
            refine ⟨pubmono (c4 hu), fun id x hr hx u hm => ?_⟩
            exact (c3 _ hm (List.mem_flatMap.2 ⟨_, hr, by simp [ident]⟩)).elim
          | cons k' p =>
            simp only [List.cons_append, List.cons.injEq] at c2
            obtain ⟨rfl, rfl⟩ := c2
            have hkP : k ∈ PB := c1.mem (by simp)
            left
            refine ⟨⟨p, suffix_of_cons c1, rfl⟩, ?_, ?_⟩
            · intro e he
              rcases List.mem_append.1 he with he | he
              · exact c3 e he
              · exact disj _ (List.mem_flatMap.2 ⟨k, hkP, mem_obtained he⟩)
            · rintro ⟨u, hu, hs⟩
              rcases List.mem_append.1 hu with hu | hu
              · exact pubmono (c4 ⟨u, hu, hs⟩)
              · -- the read of the flag
                have hval : u = s.shared flag := by
                  cases k with
                  | read id x =>
                    simp only [obtained, List.mem_singleton, Prod.mk.injEq] at hu
                    rw [hu.2, hflag id x hkP hu.1.symm]
                  | rmw id x f =>
                    simp only [obtained, List.mem_singleton, Prod.mk.injEq] at hu
                    rw [hu.2, hrmw id x f hkP hu.1.symm]
                  | write x v => simp [obtained] at hu
                  | fence => simp [obtained] at hu
                rcases pa with ⟨d, w, e1, e2, e3, e4⟩ | hp
                · rw [hval] at hs; exact (e4 hs).elim
                · exact pubmono ⟨ta, hta, hp⟩
        · right
          have hkR : k ∈ RB := c1.mem (by simp)
          refine ⟨suffix_of_cons c1, ?_⟩
          rintro ⟨u, hu, hs⟩
          have hold : ∃ u, (c, u) ∈ log ∧ signal u := by
            rcases List.mem_append.1 hu with hu | hu
            · exact ⟨u, hu, hs⟩
            · exact (disj c hc (List.mem_flatMap.2 ⟨k, hkR, mem_obtained hu⟩)).elim
          obtain ⟨g1, g2⟩ := c2 hold
          refine ⟨pubmono g1, fun id x hr hx u' hm => ?_⟩
          rcases List.mem_append.1 hm with hm | hm
          · exact g2 id x hr hx u' hm
          · have hidk := mem_obtained hm
            obtain ⟨tp, ht, -, hv⟩ := g1
            -- the access is the read itself
            have hkr : k = .read id x := by
              have hn : (RB.flatMap ident).Nodup := by
                rw [List.flatMap_append, List.nodup_append] at hids
                simpa [List.flatMap_cons, ident] using hids.2.1
              exact nodup_ident hn hkR hr hidk (by simp [ident])
            rw [hkr] at hm
            simp only [obtained, List.mem_singleton, Prod.mk.injEq, true_and] at hm
            rw [hm]
            exact hv x hx
      · refine ⟨tb, by rw [List.getElem?_set_ne eb]; exact htb, ?_⟩
        rcases pb with ⟨c1, c2, c3⟩ | ⟨c1, c2⟩
        · exact .inl ⟨c1, c2, fun h => pubmono (c3 h)⟩
        · exact .inr ⟨c1, fun h => ⟨pubmono (c2 h).1, (c2 h).2⟩⟩

end

theorem publication {m : Nat → V} {progs : List (List (Instr V))} {D : Nat → Prop} {flag : Nat} {signal : V → Prop} {a b c : Nat}
    {W p2 tail pre c1 R : List (Instr V)}
    (h : Publication m progs D flag signal a b W (.fence :: p2) tail pre (c1 ++ [.fence]) R) {k : Instr V} (hk : k ∈ c1)
    (hkc : c ∈ ident k) (hkf : k.loc = some flag) {s : Sys (Nat → V) (Thread V)} (hs : Weak m progs s) :
    Seen m D signal b W R c s := by
  obtain ⟨progs', sched, hlen, hre, rfl⟩ := hs
  have ha' : a < progs.length := (List.getElem?_eq_some_iff.1 h.pa).1
  have hb' : b < progs.length := (List.getElem?_eq_some_iff.1 h.pb).1
  obtain ⟨A', hA⟩ : ∃ A', progs'[a]? = some A' := ⟨_, List.getElem?_eq_getElem (by omega)⟩
  obtain ⟨B', hB⟩ : ∃ B', progs'[b]? = some B' := ⟨_, List.getElem?_eq_getElem (by omega)⟩
  have rA := hre a _ _ h.pa hA
  have rB := hre b _ _ h.pb hB
  rw [show W ++ Instr.fence :: p2 ++ tail = W ++ .fence :: (p2 ++ tail) by simp] at rA
  rw [show pre ++ (c1 ++ [Instr.fence]) ++ R = (pre ++ c1) ++ .fence :: R by simp] at rB
  obtain ⟨WA, T, rfl, rW, rT⟩ := rA.split
  obtain ⟨PB, RB, rfl, rP, rR⟩ := rB.split
  have hids := h.ids
  rw [show pre ++ (c1 ++ [Instr.fence]) ++ R = (pre ++ c1) ++ .fence :: R by simp] at hids
  have hids' : ((PB ++ .fence :: RB).flatMap ident).Nodup := by
    have hp : (PB ++ .fence :: RB).Perm ((pre ++ c1) ++ .fence :: R) := rP.perm.append (rR.perm.cons _)
    exact ((hp.flatMap_right ident).nodup_iff).2 hids
  have hkP : k ∈ pre ++ c1 := List.mem_append_right _ hk
  have hn1 : ((pre ++ c1).flatMap ident).Nodup := by
    rw [List.flatMap_append, List.nodup_append] at hids
    exact hids.1
  have huniq : ∀ k' ∈ PB, c ∈ ident k' → k'.loc = some flag := by
    intro k' hk' hc'
    rw [nodup_ident hn1 (rP.perm.mem_iff.1 hk') hkP hc' hkc]
    exact hkf
  have key : PInv m D flag signal a b c WA T PB RB (run step (init m progs') sched) := by
    refine run_inv (f := step) (PInv m D flag signal a b c WA T PB RB) ?_ _ ?_ sched
    · intro s i t hs hi
      refine hs.step h.ne ?_ ?_ hids' ?_ ?_ ?_ i t hi
      · intro i hi
        exact h.prepW i (rW.perm.mem_iff.1 hi)
      · intro i hi x hx
        have := rT.perm.mem_iff.1 hi
        exact h.after i (by simp only [List.cons_append]; exact List.mem_cons_of_mem _ this) x hx
      · rintro id x hm rfl
        simpa [Instr.loc] using huniq _ hm (by simp [ident])
      · rintro id x f hm rfl
        simpa [Instr.loc] using huniq _ hm (by simp [ident])
      · exact List.mem_flatMap.2 ⟨k, rP.perm.mem_iff.2 hkP, hkc⟩
    · refine ⟨⟨⟨WA ++ .fence :: T, []⟩, by simp [init, hA], .inl ⟨[], WA, rfl, rfl, fun x hx => rfl, h.start⟩⟩,
        ⟨⟨PB ++ .fence :: RB, []⟩, by simp [init, hB], .inl ⟨⟨PB, List.suffix_refl _, rfl⟩, by simp, by simp⟩⟩, ?_⟩
      intro j t hj ht i hi
      simp only [init, List.getElem?_map, Option.map_eq_some_iff] at ht
      obtain ⟨p', hp', rfl⟩ := ht
      have hjl := (List.getElem?_eq_some_iff.1 hp').1
      have hp : progs[j]? = some (progs[j]'(by omega)) := List.getElem?_eq_getElem (by omega)
      exact h.others j _ hj hp i ((hre j _ _ hp hp').perm.mem_iff.1 hi)
  intro t ht hu id x hr hx u hm
  obtain ⟨tb, htb, hc⟩ := key.pb
  rw [ht] at htb
  cases htb
  have hrB : Instr.read id x ∈ RB := rR.perm.mem_iff.2 hr
  rcases hc with ⟨-, g2, -⟩ | ⟨-, g2⟩
  · exact (g2 _ hm (List.mem_flatMap.2 ⟨_, hrB, by simp [ident]⟩)).elim
  · rw [(g2 hu).2 id x hrB hx u hm, rW.exec]

end Stdgpu.Fence
