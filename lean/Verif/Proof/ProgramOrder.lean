import Verif.Spec.ProgramOrder
import Verif.Spec.QLinear
import Verif.Proof.Conc
import Mathlib.Data.List.Nodup
import Mathlib.Data.List.Induction
/-!
A linearization of an execution contains the calls of every thread in the order of its program (C96).
-/
namespace Stdgpu.SLin
open Stdgpu.SlotConc Stdgpu.Conc Stdgpu.Spec

variable {C K F α : Type}

/-- Strictly sorted lists: containment is being a sublist. -/
theorem sublist_of_sorted {β : Type} (g : β → Nat) : ∀ (E D : List β), D.Pairwise (fun a b => g a < g b) →
    E.Pairwise (fun a b => g a < g b) → (∀ x ∈ D, x ∈ E) → D.Sublist E := by
  intro E
  induction E with
  | nil =>
    intro D _ _ h
    cases D with
    | nil => exact List.Sublist.refl _
    | cons d D => exact absurd (h d (by simp)) (by simp)
  | cons e E ih =>
    intro D hD hE h
    cases D with
    | nil => exact List.nil_sublist _
    | cons d D =>
      rw [List.pairwise_cons] at hD hE
      by_cases hde : d = e
      · subst hde
        refine List.Sublist.cons_cons _ (ih D hD.2 hE.2 ?_)
        intro x hx
        rcases List.mem_cons.1 (h x (by simp [hx])) with rfl | h1
        · exact absurd (hD.1 _ hx) (by omega)
        · exact h1
      · have hd : d ∈ E := by
          rcases List.mem_cons.1 (h d (by simp)) with h1 | h1
          · exact absurd h1 hde
          · exact h1
        refine List.Sublist.cons _ (ih (d :: D) (List.pairwise_cons.2 hD) hE.2 ?_)
        intro x hx
        rcases List.mem_cons.1 (h x hx) with rfl | h1
        · have h2 := hE.1 _ hd
          rcases List.mem_cons.1 hx with rfl | h3
          · exact hd
          · have := hD.1 _ h3
            omega
        · exact h1

/-- A step of a thread returns at most one call, and the thread is then at the beginning of the next one. -/
theorem step_done (fr : Front C K F) (m : Mem C α) (t : Thread K F α) :
    (step fr m t).2.done = t.done ∨
    (∃ e, (step fr m t).2.done = t.done ++ [e]) ∧ (step fr m t).2.pc = .front fr.start := by
  unfold step
  split
  · exact .inl rfl
  · split
    · dsimp only
      split
      · exact .inl rfl
      · exact .inr ⟨⟨_, rfl⟩, rfl⟩
      · exact .inl rfl
    · dsimp only
      split
      · exact .inl rfl
      · exact .inr ⟨⟨_, rfl⟩, rfl⟩

/-- When call `j` of thread `i` returned, call `j+1` was not yet called. -/
theorem returned_at (fr : Front C K F) (m : Mem C α) (progs : List (List (Op K α))) (sched : List Nat) (i j : Nat)
    (t : Thread K F α) (ht : (exec fr m progs sched).threads[i]? = some t) (hj : j < t.done.length) :
    ∃ n t', (exec fr m progs (sched.take n)).threads[i]? = some t' ∧ t'.done.length = j + 1 ∧ t'.pc = .front fr.start := by
  induction sched using List.reverseRecOn generalizing t with
  | nil =>
    simp only [exec, run_nil, init, List.getElem?_map, Option.map_eq_some_iff] at ht
    obtain ⟨p, -, rfl⟩ := ht
    simp at hj
  | append_singleton sched k ih =>
    have hrun : exec fr m progs (sched ++ [k]) = stepAt (step fr) (exec fr m progs sched) k := by
      simp only [exec, run_append]; rfl
    have hpre : ∀ n, n ≤ sched.length → (sched ++ [k]).take n = sched.take n := by
      intro n hn; rw [List.take_append_of_le_length hn]
    have old : ∀ u, (exec fr m progs sched).threads[i]? = some u → j < u.done.length →
        ∃ n t', (exec fr m progs ((sched ++ [k]).take n)).threads[i]? = some t' ∧ t'.done.length = j + 1 ∧
          t'.pc = .front fr.start := by
      intro u hu hju
      obtain ⟨n, t', h1, h2⟩ := ih u hu hju
      refine ⟨min n sched.length, t', ?_, h2⟩
      rw [hpre _ (by omega)]
      have : sched.take (min n sched.length) = sched.take n := by
        rcases Nat.le_total n sched.length with h | h
        · rw [Nat.min_eq_left h]
        · rw [Nat.min_eq_right h, List.take_length, List.take_of_length_le h]
      rw [this]; exact h1
    have ht' := ht
    rw [hrun] at ht
    unfold stepAt at ht
    split at ht
    · exact old t ht hj
    · next u hu =>
      dsimp only at ht
      by_cases hik : i = k
      · subst hik
        have hlt : i < (exec fr m progs sched).threads.length := (List.getElem?_eq_some_iff.1 hu).1
        rw [List.getElem?_set_self hlt] at ht
        cases ht
        rcases step_done fr (exec fr m progs sched).shared u with h1 | ⟨⟨e, h1⟩, h2⟩
        · rw [h1] at hj
          exact old u hu hj
        · by_cases hju : j < u.done.length
          · exact old u hu hju
          · refine ⟨(sched ++ [i]).length, _, by rw [List.take_length]; exact ht', ?_, h2⟩
            rw [h1] at hj ⊢
            simp only [List.length_append, List.length_singleton] at hj ⊢
            omega
      · rw [List.getElem?_set_ne (fun h => hik h.symm)] at ht
        exact old t ht hj

/-- The calls of a thread are executed one after another. -/
theorem before_same (fr : Front C K F) (m : Mem C α) (progs : List (List (Op K α))) (sched : List Nat) (i j k : Nat)
    (hjk : j < k) (hk : Called fr (exec fr m progs sched) (i, k)) : Before fr m progs sched (i, j) (i, k) := by
  obtain ⟨t, ht, hc⟩ := hk
  have hj : j < t.done.length := by
    simp only at hc
    omega
  obtain ⟨n, t', h1, h2, h3⟩ := returned_at fr m progs sched i j t ht hj
  refine ⟨n, ?_, ?_⟩
  · simp only [resAt, h1, Option.bind_some]
    rw [List.getElem?_eq_getElem (by omega)]; rfl
  · rintro ⟨u, hu, hc'⟩
    rw [h1] at hu
    cases hu
    simp only at hc'
    rcases hc' with h | ⟨-, h⟩
    · omega
    · exact h h3

/-- What `Linearization` and `QLinearization` have in common. -/
structure Core (fr : Front C K F) (m : Mem C α) (progs : List (List (Op K α))) (sched : List Nat)
    (L : List (OpId × Op K α × Res α)) : Prop where
  nodup : (L.map (·.1)).Nodup
  returned : ∀ x e, resAt (exec fr m progs sched) x = some e → (x, e) ∈ L
  called : ∀ x e, (x, e) ∈ L → Called fr (exec fr m progs sched) x ∧ opAt progs x = some e.1
  order : L.Pairwise (fun a b => ¬ Before fr m progs sched b.1 a.1)

/-- The calls of a thread that have returned, with their identities. -/
def tagged (i : Nat) (d : List (Op K α × Res α)) : List (OpId × Op K α × Res α) :=
  d.zipIdx.map (fun ej => ((i, ej.2), ej.1))

theorem mem_tagged {i : Nat} {d : List (Op K α × Res α)} {a : OpId × Op K α × Res α} :
    a ∈ tagged i d ↔ a.1.1 = i ∧ d[a.1.2]? = some a.2 := by
  simp only [tagged, List.mem_map, Prod.exists, List.mk_mem_zipIdx_iff_getElem?]
  constructor
  · rintro ⟨x, y, n, h, rfl⟩
    exact ⟨rfl, h⟩
  · rintro ⟨h1, h2⟩
    exact ⟨a.2.1, a.2.2, a.1.2, h2, by rw [← h1]⟩

theorem tagged_map (i : Nat) (d : List (Op K α × Res α)) : (tagged i d).map (·.2) = d := by
  simp only [tagged, List.map_map]
  exact List.zipIdx_map_fst 0 d

theorem tagged_sorted (i : Nat) (d : List (Op K α × Res α)) :
    (tagged i d).Pairwise (fun a b => a.1.2 < b.1.2) := by
  have h : ((tagged i d).map (fun a => a.1.2)).Pairwise (· < ·) := by
    have : (tagged i d).map (fun a => a.1.2) = List.range' 0 d.length := by
      simp only [tagged, List.map_map]
      exact List.zipIdx_map_snd 0 d
    rw [this]
    exact List.pairwise_lt_range'
  exact List.pairwise_map.1 h

/-- A linearization contains the calls of a thread in the order of its program. -/
theorem Core.thread_sublist {fr : Front C K F} {m : Mem C α} {progs : List (List (Op K α))} {sched : List Nat}
    {L : List (OpId × Op K α × Res α)} (h : Core fr m progs sched L) (i : Nat) :
    (callsBy (exec fr m progs sched) i).Sublist (L.map (·.2)) := by
  unfold callsBy
  split
  · exact List.nil_sublist _
  · next t ht =>
    have hs : (tagged i t.done).Sublist (L.filter (fun a => decide (a.1.1 = i))) := by
      refine sublist_of_sorted (fun a => a.1.2) _ _ (tagged_sorted _ _) ?_ ?_
      · have h1 : L.Pairwise (fun a b => a.1 ≠ b.1) := List.pairwise_map.1 h.nodup
        have h2 := (h1.and h.order).filter (fun a => decide (a.1.1 = i))
        refine h2.imp_of_mem ?_
        intro a b ha hb hab
        simp only [List.mem_filter, decide_eq_true_eq] at ha hb
        obtain ⟨hne, hord⟩ := hab
        by_contra hlt
        have hlt' : b.1.2 < a.1.2 := by
          rcases Nat.lt_or_ge b.1.2 a.1.2 with h | h
          · exact h
          · exact absurd (Prod.ext (ha.2.trans hb.2.symm) (by omega)) hne
        refine hord ?_
        have hc := (h.called a.1 a.2 ha.1).1
        have ea : a.1 = (i, a.1.2) := Prod.ext ha.2 rfl
        have eb : b.1 = (i, b.1.2) := Prod.ext hb.2 rfl
        rw [ea] at hc
        rw [ea, eb]
        exact before_same fr m progs sched i _ _ hlt' hc
      · intro a ha
        rw [mem_tagged] at ha
        simp only [List.mem_filter, decide_eq_true_eq]
        refine ⟨h.returned a.1 a.2 ?_, ha.1⟩
        simp only [resAt, ha.1, ht, Option.bind_some]
        exact ha.2
    have h2 := (hs.trans List.filter_sublist).map (·.2)
    rwa [tagged_map] at h2

/-- All calls that have returned, with their identities. -/
def allTagged (ts : List (Thread K F α)) : List (OpId × Op K α × Res α) :=
  ts.zipIdx.flatMap (fun ti => tagged ti.2 ti.1.done)

theorem allTagged_map (s : Sys (Mem C α) (Thread K F α)) : (allTagged s.threads).map (·.2) = results s := by
  simp only [allTagged, List.map_flatMap, tagged_map, results]
  rw [← List.flatMap_map (fun p : Thread K F α × Nat => p.1) (fun t : Thread K F α => t.done), List.zipIdx_map_fst]

theorem mem_allTagged {s : Sys (Mem C α) (Thread K F α)} {a : OpId × Op K α × Res α} :
    a ∈ allTagged s.threads ↔ resAt s a.1 = some a.2 := by
  simp only [allTagged, List.mem_flatMap, Prod.exists, List.mk_mem_zipIdx_iff_getElem?, mem_tagged, resAt,
    Option.bind_eq_some_iff]
  constructor
  · rintro ⟨t, i, h1, rfl, h3⟩
    exact ⟨t, h1, h3⟩
  · rintro ⟨t, h1, h3⟩
    exact ⟨t, _, h1, rfl, h3⟩

theorem allTagged_nodup (ts : List (Thread K F α)) : (allTagged ts).Nodup := by
  unfold allTagged
  rw [List.nodup_flatMap]
  refine ⟨fun x _ => ?_, ?_⟩
  · exact (tagged_sorted x.2 x.1.done).imp (fun {a b} h => by rintro rfl; omega)
  · have h : (ts.zipIdx.map (·.2)).Pairwise (· ≠ ·) := by
      have : ts.zipIdx.map (·.2) = List.range' 0 ts.length := List.zipIdx_map_snd 0 ts
      rw [this]
      exact List.nodup_range'
    refine (List.pairwise_map.1 h).imp ?_
    intro a b hab x hx hy
    rw [mem_tagged] at hx hy
    exact hab (hx.1.symm.trans hy.1)

/-- When all threads have finished, a linearization consists of exactly the calls with their results. -/
theorem Core.perm {fr : Front C K F} {m : Mem C α} {progs : List (List (Op K α))} {sched : List Nat}
    {L : List (OpId × Op K α × Res α)} (h : Core fr m progs sched L)
    (hprog : ∀ (i : Nat) (t : Thread K F α), (exec fr m progs sched).threads[i]? = some t →
      progs[i]? = some (t.done.map (·.1) ++ t.todo))
    (hf : Finished (exec fr m progs sched)) : (L.map (·.2)).Perm (results (exec fr m progs sched)) := by
  rw [← allTagged_map]
  refine List.Perm.map _ ((List.perm_ext_iff_of_nodup h.nodup.of_map (allTagged_nodup _)).2 (fun a => ?_))
  rw [mem_allTagged]
  refine ⟨fun ha => ?_, fun ha => h.returned a.1 a.2 ha⟩
  obtain ⟨⟨t, ht, -⟩, hop⟩ := h.called a.1 a.2 ha
  have hp := hprog _ _ ht
  rw [hf t (List.mem_of_getElem? ht), List.append_nil] at hp
  have hlt : a.1.2 < t.done.length := by
    simp only [opAt, hp, Option.bind_some, List.getElem?_map] at hop
    obtain ⟨e, he, -⟩ := Option.map_eq_some_iff.1 hop
    exact (List.getElem?_eq_some_iff.1 he).1
  have hres : resAt (exec fr m progs sched) a.1 = some t.done[a.1.2] := by
    simp only [resAt, ht, Option.bind_some]
    exact List.getElem?_eq_getElem hlt
  have h3 := h.returned _ _ hres
  have := List.inj_on_of_nodup_map h.nodup ha h3 rfl
  exact hres.trans (congrArg some (congrArg Prod.snd this).symm)

/-! ### Sequences of pushes and of pops -/

/-- The values pushed at one end in a sequence of calls. -/
def pushes (b : K → Bool) (E : List (Op K α × Res α)) : List α :=
  E.filterMap (fun e => if b e.1.kind then pushVal e else none)

def pops (b : K → Bool) (E : List (Op K α × Res α)) : List α :=
  E.filterMap (fun e => if b e.1.kind then popVal e else none)

theorem seqRun_push {atBack : K → Bool} {cap : Nat} {E : List (Op K α × Res α)} {l l' : List α}
    (h : SeqRun atBack cap l E l') (hp : ∀ e ∈ E, e.1.isPush = true) :
    l' = (pushes (fun k => !atBack k) E).reverse ++ l ++ pushes atBack E := by
  induction E generalizing l with
  | nil => cases h; simp [pushes]
  | cons e E ih =>
    obtain ⟨m1, h1, h2⟩ := h
    have h3 := ih h2 (fun e he => hp e (List.mem_cons_of_mem _ he))
    obtain ⟨op, r⟩ := e
    have hpe := hp _ (List.mem_cons_self ..)
    cases op with
    | pop k => simp [Op.isPush] at hpe
    | push k x =>
      cases r <;> simp only [SeqStep] at h1
      · obtain ⟨-, rfl⟩ := h1
        rw [h3]
        by_cases hk : atBack k = true
        · simp [pushes, Op.kind, pushVal, hk]
        · simp [pushes, Op.kind, pushVal, hk]
      · obtain ⟨-, rfl⟩ := h1
        rw [h3]
        simp [pushes, pushVal]

theorem seqRun_pop {atBack : K → Bool} {cap : Nat} {E : List (Op K α × Res α)} {l l' : List α}
    (h : SeqRun atBack cap l E l') (hp : ∀ e ∈ E, e.1.isPush = false) :
    l = pops (fun k => !atBack k) E ++ l' ++ (pops atBack E).reverse := by
  induction E generalizing l with
  | nil => cases h; simp [pops]
  | cons e E ih =>
    obtain ⟨m1, h1, h2⟩ := h
    have h3 := ih h2 (fun e he => hp e (List.mem_cons_of_mem _ he))
    obtain ⟨op, r⟩ := e
    have hpe := hp _ (List.mem_cons_self ..)
    cases op with
    | push k x => simp [Op.isPush] at hpe
    | pop k =>
      cases r <;> simp only [SeqStep] at h1
      · rw [h1]
        by_cases hk : atBack k = true
        · simp only [hk, if_true]
          rw [h3]
          simp [pops, Op.kind, popVal, hk]
        · simp only [hk]
          rw [h3]
          simp [pops, Op.kind, popVal, hk]
      · obtain ⟨rfl, rfl⟩ := h1
        rw [h3]
        simp [pops, popVal]

theorem qRun_seq {cap : Nat} {E : List (Op K α × Res α)} {l l' : List α} (h : QRun cap l E l') :
    l ++ E.filterMap pushVal = E.filterMap popVal ++ l' := by
  induction E generalizing l with
  | nil => cases h; simp
  | cons e E ih =>
    obtain ⟨m1, h1, h2⟩ := h
    have h3 := ih h2
    obtain ⟨op, r⟩ := e
    cases op <;> cases r <;> simp only [QStep] at h1
    · obtain ⟨-, rfl⟩ := h1
      simp only [List.filterMap_cons, pushVal, popVal]
      rw [← h3]; simp
    · subst h1
      simp only [List.filterMap_cons, pushVal, popVal, List.cons_append]
      rw [← h3]
    · subst h1
      simp only [List.filterMap_cons, pushVal, popVal]
      exact h3

end Stdgpu.SLin
