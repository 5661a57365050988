import Verif.Spec.ULinear
import Verif.Proof.Conc
import Mathlib.Data.List.Induction
import Mathlib.Data.List.Basic
import Mathlib.Data.List.Nodup
/-! Linearization points of the operations of the unordered containers. -/
namespace Stdgpu.UnorderedConc
open Stdgpu.Conc
open Stdgpu.Unordered
open Stdgpu.Spec
variable {K V : Type} {P : Params K V}

def IPC.eff (b : Nat) : IPC → Option Nat
  | .setB => some b
  | .link _ n => some n
  | _ => none

def IPC.pend : IPC → Option Nat
  | .unlock _ (some n) => some n
  | _ => none

def EPC.eff : EPC → Bool
  | .resetB _ | .wr _ _ _ | .zero _ _ => true
  | _ => false

def EPC.pend : EPC → Bool
  | .cntB _ | .desB _ | .reset _ _ | .cnt _ _ | .des _ _ | .push _ _ => true
  | .unlockB _ ok | .unlock1 _ _ ok | .unlock2 _ ok => ok
  | _ => false

/-- The step about to be done makes the operation take effect. -/
def eff (P : Params K V) (t : Tab V) : Cur K V → Option (Op K V × Res)
  | .ins v pc => (pc.eff (bucket P t (P.keyOf v))).map (fun n => (.insert v, .inserted n))
  | .era k pc => if pc.eff then some (.erase k, .erased) else none
  | _ => none

/-- The operation has taken effect and will return this result. -/
def pend : Cur K V → Option (Op K V × Res)
  | .ins v pc => pc.pend.map (fun n => (.insert v, .inserted n))
  | .era k pc => if pc.pend then some (.erase k, .erased) else none
  | _ => none

def effRes : Res → Bool
  | .inserted _ | .erased => true
  | _ => false

/-- The operation being executed. -/
def curOp : Cur K V → Option (Op K V)
  | .idle => none
  | .ins v _ => some (.insert v)
  | .era k _ => some (.erase k)
  | .fnd k _ => some (.find k)

theorem curOp_idle : curOp (K := K) (V := V) .idle = none := rfl

/-- One step of a running operation. -/
def Ctl (P : Params K V) (tab : Tab V) (t t' : Thread K V) : Prop :=
  (t'.done = t.done ∧ t'.todo = t.todo ∧ curOp t'.cur = curOp t.cur ∧
    ((∃ e, eff P tab t.cur = some e ∧ pend t.cur = none ∧ pend t'.cur = some e ∧ curOp t.cur = some e.1) ∨
      eff P tab t.cur = none ∧ pend t'.cur = pend t.cur)) ∨
  ∃ e, t'.done = t.done ++ [e] ∧ t'.todo = t.todo ∧ t'.cur = .idle ∧ curOp t.cur = some e.1 ∧ eff P tab t.cur = none ∧
    (pend t.cur = some e ∨ pend t.cur = none ∧ effRes e.2 = false)

def ICtl (b : Nat) (pc : IPC) : Next IPC (Option Nat) → Prop
  | .go pc' => (∃ n, pc.eff b = some n ∧ pc.pend = none ∧ pc'.pend = some n) ∨ (pc.eff b = none ∧ pc'.pend = pc.pend)
  | .ret r => pc.eff b = none ∧ pc.pend = r

theorem ictl (m : Shared V) (v : V) (b : Nat) (eq : V → Bool) (ex : Ex) (pc : IPC) :
    ICtl b pc (insStep m v b eq ex pc).2.2 := by
  cases pc <;> simp only [insStep] <;> (repeat' split) <;> simp_all [ICtl, IPC.eff, IPC.pend]

def ECtl (pc : EPC) : Next EPC Bool → Prop
  | .go pc' => (pc.eff = true ∧ pc.pend = false ∧ pc'.pend = true) ∨ (pc.eff = false ∧ pc'.pend = pc.pend)
  | .ret r => pc.eff = false ∧ pc.pend = r

theorem ectl (m : Shared V) (b : Nat) (eq : V → Bool) (ex : Ex) (pc : EPC) : ECtl pc (eraStep m b eq ex pc).2.2 := by
  cases pc <;> simp only [eraStep] <;> (repeat' split) <;> simp_all [ECtl, EPC.eff, EPC.pend]

theorem ctl (m : Shared V) (t : Thread K V) (hcur : t.cur ≠ .idle) : Ctl P m.tab t (step P m t).2 := by
  cases hc : t.cur with
  | idle => exact absurd hc hcur
  | ins v pc =>
    have := ictl m v (bucket P m.tab (P.keyOf v)) (fun w => P.keyEq (P.keyOf w) (P.keyOf v)) t.ex pc
    unfold Ctl step
    simp only [hc]
    generalize insStep m v (bucket P m.tab (P.keyOf v)) (fun w => P.keyEq (P.keyOf w) (P.keyOf v)) t.ex pc = r at this ⊢
    rcases r with ⟨m', ex', (pc' | (_ | p))⟩
    · left
      refine ⟨rfl, rfl, rfl, ?_⟩
      rcases this with ⟨n, h1, h2, h3⟩ | ⟨h1, h2⟩
      · exact .inl ⟨(.insert v, .inserted n), by simp [eff, h1], by simp [pend, h2], by simp [pend, h3], rfl⟩
      · exact .inr ⟨by simp [eff, h1], by simp [pend, h2]⟩
    · exact .inr ⟨_, rfl, rfl, rfl, rfl, by simp [eff, this.1], .inr ⟨by simp [pend, this.2], rfl⟩⟩
    · exact .inr ⟨_, rfl, rfl, rfl, rfl, by simp [eff, this.1], .inl (by simp [pend, this.2])⟩
  | era k pc =>
    have := ectl m (bucket P m.tab k) (fun w => P.keyEq (P.keyOf w) k) t.ex pc
    unfold Ctl step
    simp only [hc]
    generalize eraStep m (bucket P m.tab k) (fun w => P.keyEq (P.keyOf w) k) t.ex pc = r at this ⊢
    rcases r with ⟨m', ex', (pc' | (_ | _))⟩
    · left
      refine ⟨rfl, rfl, rfl, ?_⟩
      rcases this with ⟨h1, h2, h3⟩ | ⟨h1, h2⟩
      · exact .inl ⟨(.erase k, .erased), by simp [eff, h1], by simp [pend, h2], by simp [pend, h3], rfl⟩
      · exact .inr ⟨by simp [eff, h1], by simp [pend, h2]⟩
    · exact .inr ⟨_, rfl, rfl, rfl, rfl, by simp [eff, this.1], .inr ⟨by simp [pend, this.2], rfl⟩⟩
    · exact .inr ⟨_, rfl, rfl, rfl, rfl, by simp [eff, this.1], .inl (by simp [pend, this.2])⟩
  | fnd k w =>
    unfold Ctl step
    simp only [hc]
    rcases findStep m (fun w => P.keyEq (P.keyOf w) k) w with ⟨m', (w' | (_ | p))⟩
    · exact .inl ⟨rfl, rfl, rfl, .inr ⟨rfl, rfl⟩⟩
    · exact .inr ⟨_, rfl, rfl, rfl, rfl, rfl, .inr ⟨rfl, rfl⟩⟩
    · exact .inr ⟨_, rfl, rfl, rfl, rfl, rfl, .inr ⟨rfl, rfl⟩⟩

/-- An operation with a known result. -/
abbrev LE (K V : Type) := OpId × Op K V × Res

/-- The operation that is linearized by the next step of thread `i`. `fut` are the results at the end of the execution;
lookups with an `early` result are linearized when they are called, the others when they return; insertions and erasures
that succeed are linearized when they take effect. -/
def emit (P : Params K V) (early : Res → Bool) (fut : OpId → Option (Op K V × Res)) (s : Sys (Shared V) (Thread K V))
    (i : Nat) : List (LE K V) :=
  match s.threads[i]? with
  | none => []
  | some t =>
    match t.cur with
    | .idle =>
      match t.todo with
      | [] => []
      | _ :: _ =>
        match fut (i, t.done.length) with
        | none => []
        | some e => if early e.2 then [((i, t.done.length), e)] else []
    | c =>
      match eff P s.shared.tab c with
      | some e => [((i, t.done.length), e)]
      | none =>
        match (step P s.shared t).2.done.drop t.done.length with
        | [] => []
        | e :: _ => if early e.2 || effRes e.2 then [] else [((i, t.done.length), e)]

theorem emit_run {early : Res → Bool} {fut : OpId → Option (Op K V × Res)} {s : Sys (Shared V) (Thread K V)} {i : Nat}
    {t : Thread K V} (ht : s.threads[i]? = some t) (hc : t.cur ≠ .idle) :
    emit P early fut s i = match eff P s.shared.tab t.cur with
        | some e => [((i, t.done.length), e)]
        | none =>
          match (step P s.shared t).2.done.drop t.done.length with
          | [] => []
          | e :: _ => if early e.2 || effRes e.2 then [] else [((i, t.done.length), e)] := by
  unfold emit
  simp only [ht]

/-- The emissions of a running operation. -/
theorem emit_cases {early : Res → Bool} {fut : OpId → Option (Op K V × Res)} {s : Sys (Shared V) (Thread K V)} {i : Nat}
    {t : Thread K V} (ht : s.threads[i]? = some t) (hc : t.cur ≠ .idle) :
    (∃ e, eff P s.shared.tab t.cur = some e ∧ emit P early fut s i = [((i, t.done.length), e)]) ∨
    (eff P s.shared.tab t.cur = none ∧ (emit P early fut s i = [] ∨ ∃ e, (step P s.shared t).2.done = t.done ++ [e] ∧
      early e.2 = false ∧ effRes e.2 = false ∧ emit P early fut s i = [((i, t.done.length), e)])) := by
  have hem := emit_run (P := P) (early := early) (fut := fut) ht hc
  rw [hem]
  rcases ctl (P := P) s.shared t hc with ⟨hd, -, -, ⟨e, h1, -⟩ | ⟨h1, -⟩⟩ | ⟨e, hd, -, -, -, h1, -⟩
  · left; exact ⟨e, h1, by simp only [h1]⟩
  · right
    refine ⟨h1, .inl ?_⟩
    simp [h1, hd]
  · right
    refine ⟨h1, ?_⟩
    simp only [h1, hd, List.drop_left]
    cases h2 : early e.2 || effRes e.2 with
    | true => left; simp
    | false =>
      right
      rw [Bool.or_eq_false_iff] at h2
      exact ⟨e, rfl, h2.1, h2.2, by simp⟩

/-- The emissions at a call. -/
theorem emit_idle {early : Res → Bool} {fut : OpId → Option (Op K V × Res)} {s : Sys (Shared V) (Thread K V)} {i : Nat}
    {t : Thread K V} (ht : s.threads[i]? = some t) (hc : t.cur = .idle) :
    emit P early fut s i = [] ∨ ∃ e, fut (i, t.done.length) = some e ∧ early e.2 = true ∧
      emit P early fut s i = [((i, t.done.length), e)] := by
  cases htd : t.todo with
  | nil => left; simp only [emit, ht, hc, htd]
  | cons op rest =>
    cases hf : fut (i, t.done.length) with
    | none => left; simp only [emit, ht, hc, htd, hf]
    | some e =>
      cases he : early e.2 with
      | true => right; exact ⟨e, rfl, he, by simp only [emit, ht, hc, htd, hf, he, if_true]⟩
      | false => left; simp [emit, ht, hc, htd, hf, he]

theorem seqRun_one {P : Params K V} {strict : Bool} {m m' : List (Nat × V)} {e : Op K V × Res}
    (h : seqStep P strict m e = some m') : seqRun P strict m [e] = some m' := by
  simp [seqRun, h]

theorem hasKey_false {P : Params K V} {m : List (Nat × V)} {k : K}
    (h : ∀ p v, (p, v) ∈ m → P.keyEq (P.keyOf v) k = false) : hasKey P m k = false := by
  unfold hasKey
  rw [List.any_eq_false]
  rintro ⟨p, v⟩ hm
  simp [h p v hm]

theorem hasKey_true {P : Params K V} {m : List (Nat × V)} {k : K} {p : Nat} {v : V} (hm : (p, v) ∈ m)
    (h : P.keyEq (P.keyOf v) k = true) : hasKey P m k = true := by
  unfold hasKey
  rw [List.any_eq_true]
  exact ⟨_, hm, h⟩

theorem mem_entries {t : Tab V} {p : Nat} {v : V} :
    (p, v) ∈ entries t ↔ p < t.total ∧ t.occ p = true ∧ t.val p = some v := by
  simp only [entries, List.mem_filterMap, List.mem_range]
  constructor
  · rintro ⟨q, hq, h⟩
    split at h
    · next ho =>
      simp only [Option.map_eq_some_iff, Prod.mk.injEq] at h
      obtain ⟨w, hw, rfl, rfl⟩ := h
      exact ⟨hq, ho, hw⟩
    · simp at h
  · rintro ⟨h1, h2, h3⟩
    exact ⟨p, h1, by simp [h2, h3]⟩

/-- The linearization of a part of an execution. -/
def lins (P : Params K V) (early : Res → Bool) (fut : OpId → Option (Op K V × Res)) :
    Sys (Shared V) (Thread K V) → List Nat → List (LE K V)
  | _, [] => []
  | s, i :: l => emit P early fut s i ++ lins P early fut (stepAt (step P) s i) l

theorem lins_append (early : Res → Bool) (fut : OpId → Option (Op K V × Res)) (a b : List Nat) :
    ∀ s, lins P early fut s (a ++ b) = lins P early fut s a ++ lins P early fut (run (step P) s a) b := by
  induction a with
  | nil => intro s; rfl
  | cons i l ih =>
    intro s
    simp only [List.cons_append, lins, ih, run_cons, List.append_assoc]

/-- What is known about the operations linearized so far. -/
structure LinInv (early : Res → Bool) (fut : OpId → Option (Op K V × Res)) (progs : List (List (Op K V))) (L : List (LE K V))
    (s : Sys (Shared V) (Thread K V)) : Prop where
  nodup : (L.map (·.1)).Nodup
  op : ∀ x e, (x, e) ∈ L → opAt progs x = some e.1
  prog : ∀ (i : Nat) (t : Thread K V), s.threads[i]? = some t →
    progs[i]? = some (t.done.map (·.1) ++ (curOp t.cur).toList ++ t.todo)
  ret : ∀ (i : Nat) (t : Thread K V), s.threads[i]? = some t → ∀ a e, t.done[a]? = some e → ((i, a), e) ∈ L
  pnd : ∀ (i : Nat) (t : Thread K V), s.threads[i]? = some t → ∀ e, pend t.cur = some e → ((i, t.done.length), e) ∈ L
  ear : ∀ (i : Nat) (t : Thread K V), s.threads[i]? = some t → t.cur ≠ .idle → ∀ e, fut (i, t.done.length) = some e →
    early e.2 = true → ((i, t.done.length), e) ∈ L
  only : ∀ i a e, ((i, a), e) ∈ L → ∃ t, s.threads[i]? = some t ∧ (a < t.done.length ∨ a = t.done.length ∧
    t.cur ≠ .idle ∧ (pend t.cur = some e ∨ fut (i, a) = some e ∧ early e.2 = true))

section
variable {early : Res → Bool} {fut : OpId → Option (Op K V × Res)} {progs : List (List (Op K V))} {L : List (LE K V)}
  {s : Sys (Shared V) (Thread K V)}

theorem LinInv.rebuild (h : LinInv early fut progs L s) {i : Nat} {t : Thread K V} (ht : s.threads[i]? = some t)
    (m' : Shared V) (t' : Thread K V) (new : List (LE K V))
    (hnew : new = [] ∨ ∃ e, new = [((i, t.done.length), e)] ∧ opAt progs (i, t.done.length) = some e.1 ∧
      ∀ e', ((i, t.done.length), e') ∉ L)
    (hprog : t'.done.map (·.1) ++ (curOp t'.cur).toList ++ t'.todo = t.done.map (·.1) ++ (curOp t.cur).toList ++ t.todo)
    (hdone : t'.done = t.done ∨ ∃ e, t'.done = t.done ++ [e] ∧ ((i, t.done.length), e) ∈ L ++ new)
    (hpnd : ∀ e, pend t'.cur = some e → ((i, t'.done.length), e) ∈ L ++ new)
    (hear : t'.cur ≠ .idle → ∀ e, fut (i, t'.done.length) = some e → early e.2 = true →
      ((i, t'.done.length), e) ∈ L ++ new)
    (honly : ∀ e, ((i, t.done.length), e) ∈ L ++ new → t'.done ≠ t.done ∨
      (t'.cur ≠ .idle ∧ (pend t'.cur = some e ∨ fut (i, t.done.length) = some e ∧ early e.2 = true))) :
    LinInv early fut progs (L ++ new) ⟨m', s.threads.set i t'⟩ := by
  have hlt : i < s.threads.length := (List.getElem?_eq_some_iff.1 ht).1
  have hat : ∀ j u, (s.threads.set i t')[j]? = some u → (j = i ∧ u = t') ∨ (j ≠ i ∧ s.threads[j]? = some u) := by
    intro j u hj
    by_cases e : j = i
    · subst e
      rw [List.getElem?_set_self hlt] at hj
      exact .inl ⟨rfl, (Option.some.inj hj).symm⟩
    · rw [List.getElem?_set_ne (Ne.symm e)] at hj
      exact .inr ⟨e, hj⟩
  refine ⟨?_, ?_, ?_, ?_, ?_, ?_, ?_⟩
  · rcases hnew with rfl | ⟨e, rfl, -, hn⟩
    · simpa using h.nodup
    · rw [List.map_append, List.nodup_append]
      refine ⟨h.nodup, by simp, ?_⟩
      intro a ha b hb hab
      simp only [List.map_cons, List.map_nil, List.mem_singleton] at hb
      subst hab hb
      obtain ⟨⟨x, e'⟩, hx, rfl⟩ := List.mem_map.1 ha
      exact hn e' hx
  · intro x e hx
    rcases List.mem_append.1 hx with hx | hx
    · exact h.op x e hx
    · rcases hnew with rfl | ⟨e', rfl, ho, -⟩
      · simp at hx
      · simp only [List.mem_singleton, Prod.mk.injEq] at hx
        obtain ⟨rfl, rfl⟩ := hx
        exact ho
  · intro j u hj
    rcases hat j u hj with ⟨rfl, rfl⟩ | ⟨-, hj⟩
    · rw [hprog]; exact h.prog j t ht
    · exact h.prog j u hj
  · intro j u hj a e ha
    rcases hat j u hj with ⟨rfl, rfl⟩ | ⟨-, hj⟩
    · rcases hdone with hd | ⟨e', hd, hm⟩
      · rw [hd] at ha
        exact List.mem_append_left _ (h.ret j t ht a e ha)
      · rw [hd] at ha
        by_cases hal : a < t.done.length
        · rw [List.getElem?_append_left hal] at ha
          exact List.mem_append_left _ (h.ret j t ht a e ha)
        · have : a = t.done.length := by
            have := (List.getElem?_eq_some_iff.1 ha).1
            simp at this
            omega
          subst this
          simp at ha
          subst ha
          exact hm
    · exact List.mem_append_left _ (h.ret j u hj a e ha)
  · intro j u hj e he
    rcases hat j u hj with ⟨rfl, rfl⟩ | ⟨-, hj⟩
    · exact hpnd e he
    · exact List.mem_append_left _ (h.pnd j u hj e he)
  · intro j u hj hc e he he'
    rcases hat j u hj with ⟨rfl, rfl⟩ | ⟨-, hj⟩
    · exact hear hc e he he'
    · exact List.mem_append_left _ (h.ear j u hj hc e he he')
  · intro j a e hx
    by_cases hji : j = i
    · subst hji
      refine ⟨t', by simp [hlt], ?_⟩
      have hlen : t'.done = t.done ∨ t'.done.length = t.done.length + 1 := by
        rcases hdone with hd | ⟨e', hd, -⟩
        · exact .inl hd
        · right; rw [hd]; simp
      have hcase : a < t.done.length ∨ a = t.done.length := by
        rcases List.mem_append.1 hx with hx | hx
        · obtain ⟨u, hu, hor⟩ := h.only j a e hx
          rw [ht] at hu; cases hu
          rcases hor with h1 | ⟨h1, -⟩
          · exact .inl h1
          · exact .inr h1
        · rcases hnew with rfl | ⟨e', rfl, -, -⟩
          · simp at hx
          · simp only [List.mem_singleton, Prod.mk.injEq] at hx
            exact .inr hx.1.2
      rcases hcase with hcase | rfl
      · left
        rcases hlen with hd | hd
        · rw [hd]; exact hcase
        · omega
      · rcases honly e hx with h1 | ⟨h1, h2⟩
        · rcases hlen with hd | hd
          · exact absurd hd h1
          · left; omega
        · rcases hlen with hd | hd
          · right; rw [hd]; exact ⟨rfl, h1, h2⟩
          · left; omega
    · obtain ⟨u, hu, hor⟩ : ∃ u, s.threads[j]? = some u ∧ _ := by
        rcases List.mem_append.1 hx with hx | hx
        · exact h.only j a e hx
        · rcases hnew with rfl | ⟨e', rfl, -, -⟩
          · simp at hx
          · simp only [List.mem_singleton, Prod.mk.injEq] at hx
            exact absurd hx.1.1 hji
      exact ⟨u, by simp [List.getElem?_set_ne (Ne.symm hji), hu], hor⟩

theorem opAt_cur (h : LinInv early fut progs L s) {i : Nat} {t : Thread K V} (ht : s.threads[i]? = some t) {op : Op K V}
    (hc : curOp t.cur = some op) : opAt progs (i, t.done.length) = some op := by
  simp [opAt, h.prog i t ht, hc]

theorem opAt_todo (h : LinInv early fut progs L s) {i : Nat} {t : Thread K V} (ht : s.threads[i]? = some t) {op : Op K V}
    {rest : List (Op K V)} (hc : t.cur = .idle) (htd : t.todo = op :: rest) : opAt progs (i, t.done.length) = some op := by
  simp [opAt, h.prog i t ht, hc, htd, curOp]

/-- One step. -/
theorem LinInv.step (h : LinInv early fut progs L s) {i : Nat} {t : Thread K V} (ht : s.threads[i]? = some t)
    (hop : ∀ x e, fut x = some e → opAt progs x = some e.1)
    (hfind : ∀ x e, fut x = some e → early e.2 = true → ∃ k, e.1 = .find k)
    (hfut : ∀ a e, (step P s.shared t).2.done[a]? = some e → fut (i, a) = some e) :
    LinInv early fut progs (L ++ emit P early fut s i) ⟨(step P s.shared t).1, s.threads.set i (step P s.shared t).2⟩ := by
  have hnot : ∀ e', ((i, t.done.length), e') ∈ L → t.cur ≠ .idle ∧ (pend t.cur = some e' ∨
      fut (i, t.done.length) = some e' ∧ early e'.2 = true) := by
    intro e' he'
    obtain ⟨u, hu, hor⟩ := h.only _ _ _ he'
    rw [ht] at hu; cases hu
    rcases hor with h1 | ⟨-, h1, h2⟩
    · exact absurd h1 (lt_irrefl _)
    · exact ⟨h1, h2⟩
  by_cases hc : t.cur = .idle
  · cases htd : t.todo with
    | nil =>
      have e : UnorderedConc.step P s.shared t = (s.shared, t) := by simp only [UnorderedConc.step, hc, htd]
      have em : emit P early fut s i = [] := by simp only [emit, ht, hc, htd]
      rw [e, em]
      refine h.rebuild ht _ _ [] (.inl rfl) rfl (.inl rfl) ?_ ?_ ?_
      · intro e he; rw [hc] at he; simp [pend] at he
      · intro hc'; exact absurd hc hc'
      · intro e he; rw [List.append_nil] at he; exact absurd hc (hnot e he).1
    | cons op rest =>
      have e : UnorderedConc.step P s.shared t = (s.shared, { t with todo := rest, cur := begin P s.shared.tab op }) := by
        simp only [UnorderedConc.step, hc, htd]
      have hb1 : pend (begin P s.shared.tab op) = none := by cases op <;> rfl
      have hb2 : curOp (begin P s.shared.tab op) = some op := by cases op <;> rfl
      have hb3 : begin P s.shared.tab op ≠ .idle := by cases op <;> simp [begin]
      have hno : ∀ e', ((i, t.done.length), e') ∉ L := fun e' he' => (hnot e' he').1 hc
      have em : (emit P early fut s i = [] ∧ ∀ e, fut (i, t.done.length) = some e → early e.2 = false) ∨
          ∃ e, fut (i, t.done.length) = some e ∧ early e.2 = true ∧ emit P early fut s i = [((i, t.done.length), e)] := by
        cases hf : fut (i, t.done.length) with
        | none => left; exact ⟨by simp only [emit, ht, hc, htd, hf], by simp⟩
        | some e =>
          cases he : early e.2 with
          | true => right; exact ⟨e, rfl, he, by simp only [emit, ht, hc, htd, hf, he, if_true]⟩
          | false =>
            left
            refine ⟨by simp [emit, ht, hc, htd, hf, he], ?_⟩
            intro e' h'; cases h'; exact he
      rw [e]
      refine h.rebuild ht _ _ _ ?_ ?_ (.inl rfl) ?_ ?_ ?_
      · rcases em with ⟨em, -⟩ | ⟨e, h1, h2, em⟩
        · exact .inl em
        · exact .inr ⟨e, em, hop _ _ h1, hno⟩
      · simp only [hb2, hc, htd, curOp_idle, Option.toList, List.append_nil, List.append_assoc, List.cons_append, List.nil_append]
      · intro e he; rw [show pend (begin P s.shared.tab op) = _ from hb1] at he; simp at he
      · intro _ e he1 he2
        rcases em with ⟨-, em⟩ | ⟨e', h1, h2, em⟩
        · have := em e he1; rw [he2] at this; simp at this
        · rw [em]
          have : e = e' := Option.some.inj (he1.symm.trans h1)
          subst this
          simp
      · intro e he
        right
        refine ⟨hb3, .inr ?_⟩
        rcases em with ⟨em, -⟩ | ⟨e', h1, h2, em⟩
        · rw [em, List.append_nil] at he; exact absurd he (hno e)
        · rw [em] at he
          rcases List.mem_append.1 he with he | he
          · exact absurd he (hno e)
          · simp at he; subst he; exact ⟨h1, h2⟩
  · have hctl := ctl (P := P) s.shared t hc
    have hem := emit_run (P := P) (early := early) (fut := fut) ht hc
    rw [hem]
    generalize UnorderedConc.step P s.shared t = r at hctl hfut ⊢
    obtain ⟨m', t'⟩ := r
    simp only at hctl hfut ⊢
    rcases hctl with ⟨hd, htd, hco, hor⟩ | ⟨e, hd, htd, hidle, hco, hef, hor⟩
    · have hne : t'.cur ≠ .idle := by
        intro hi
        rw [hi] at hco
        cases hcc : t.cur with
        | idle => exact hc hcc
        | _ => rw [hcc] at hco; simp [curOp] at hco
      rcases hor with ⟨e, h1, h2, h3, h4⟩ | ⟨h1, h2⟩
      · rw [h1]
        have hno : ∀ e', ((i, t.done.length), e') ∉ L := by
          intro e' he'
          rcases (hnot e' he').2 with h5 | ⟨h5, h6⟩
          · rw [h2] at h5; simp at h5
          · obtain ⟨k, hk⟩ := hfind _ _ h5 h6
            have h7 := hop _ _ h5
            rw [opAt_cur h ht h4, hk] at h7
            simp only [Option.some.injEq] at h7
            -- the operation taking effect is not a lookup
            cases hcc : t.cur with
            | idle => exact hc hcc
            | ins v pc => rw [hcc] at h4; simp only [curOp, Option.some.injEq] at h4; rw [← h4] at h7; simp at h7
            | era k pc => rw [hcc] at h4; simp only [curOp, Option.some.injEq] at h4; rw [← h4] at h7; simp at h7
            | fnd k w => rw [hcc] at h1; simp [eff] at h1
        refine h.rebuild ht m' t' _ (.inr ⟨e, rfl, opAt_cur h ht h4, hno⟩) (by rw [hd, hco, htd]) (.inl hd) ?_ ?_ ?_
        · intro e' he'
          rw [h3] at he'
          cases he'
          rw [hd]; simp
        · intro _ e' h5 h6
          rw [hd] at h5 ⊢
          exact List.mem_append_left _ (h.ear i t ht hc e' h5 h6)
        · intro e' he'
          right
          refine ⟨hne, .inl ?_⟩
          rcases List.mem_append.1 he' with he' | he'
          · exact absurd he' (hno e')
          · simp at he'; subst he'; exact h3
      · have hdr : t'.done.drop t.done.length = [] := by rw [hd]; simp
        simp only [h1, hdr]
        refine h.rebuild ht m' t' [] (.inl rfl) (by rw [hd, hco, htd]) (.inl hd) ?_ ?_ ?_
        · intro e' he'
          rw [h2] at he'
          rw [hd, List.append_nil]
          exact h.pnd i t ht e' he'
        · intro _ e' h5 h6
          rw [hd] at h5 ⊢
          exact List.mem_append_left _ (h.ear i t ht hc e' h5 h6)
        · intro e' he'
          right
          rw [List.append_nil] at he'
          refine ⟨hne, ?_⟩
          rw [h2]
          exact (hnot e' he').2
    · have hdr : t'.done.drop t.done.length = [e] := by rw [hd]; simp
      simp only [hef, hdr]
      have hfe : fut (i, t.done.length) = some e := hfut _ _ (by rw [hd]; simp)
      have hnew : ((early e.2 || effRes e.2) = true ∧ ((i, t.done.length), e) ∈ L) ∨
          ((early e.2 || effRes e.2) = false ∧ ∀ e', ((i, t.done.length), e') ∉ L) := by
        cases h5 : early e.2 with
        | true => exact .inl ⟨by simp, h.ear i t ht hc e hfe h5⟩
        | false =>
          rcases hor with h6 | ⟨h6, h7⟩
          · cases h8 : effRes e.2 with
            | true => exact .inl ⟨by simp, h.pnd i t ht e h6⟩
            | false =>
              exfalso
              cases hcc : t.cur <;> rw [hcc] at h6 <;> simp [pend] at h6
              · obtain ⟨n, -, rfl⟩ := h6; simp [effRes] at h8
              · obtain ⟨-, rfl⟩ := h6; simp [effRes] at h8
          · refine .inr ⟨by simp [h7], ?_⟩
            intro e' he'
            rcases (hnot e' he').2 with h8 | ⟨h8, h9⟩
            · rw [h6] at h8; simp at h8
            · rw [hfe] at h8; cases h8; rw [h5] at h9; simp at h9
      refine h.rebuild ht m' t' _ ?_ ?_ ?_ ?_ ?_ ?_
      · rcases hnew with ⟨h5, -⟩ | ⟨h5, h6⟩
        · left; simp [h5]
        · right; exact ⟨e, by simp [h5], opAt_cur h ht hco, h6⟩
      · simp [hd, htd, hidle, hco, curOp_idle]
      · right
        refine ⟨e, hd, ?_⟩
        rcases hnew with ⟨h5, h6⟩ | ⟨h5, h6⟩
        · exact List.mem_append_left _ h6
        · simp [h5]
      · intro e' he'; rw [hidle] at he'; simp [pend] at he'
      · intro hi; exact absurd hidle hi
      · intro e' _
        left
        rw [hd]
        simp

end

/-! ### Whole executions -/

section
variable {t₀ : Tab V} {progs : List (List (Op K V))}

theorem prog_run (sched : List Nat) : ∀ (i : Nat) (t : Thread K V), (uexec P t₀ progs sched).threads[i]? = some t →
    progs[i]? = some (t.done.map (·.1) ++ (curOp t.cur).toList ++ t.todo) := by
  refine run_inv (f := step P) (fun s => ∀ (i : Nat) (t : Thread K V), s.threads[i]? = some t →
    progs[i]? = some (t.done.map (·.1) ++ (curOp t.cur).toList ++ t.todo)) ?_ _ ?_ sched
  · intro s i t h ht j u hu
    have hlt : i < s.threads.length := (List.getElem?_eq_some_iff.1 ht).1
    by_cases hji : j = i
    · subst hji
      rw [List.getElem?_set_self hlt] at hu
      cases hu
      rw [h j t ht]
      congr 1
      by_cases hc : t.cur = .idle
      · cases htd : t.todo with
        | nil =>
          have e : step P s.shared t = (s.shared, t) := by simp only [step, hc, htd]
          rw [e, htd]
        | cons op rest =>
          have e : step P s.shared t = (s.shared, { t with todo := rest, cur := begin P s.shared.tab op }) := by
            simp only [step, hc, htd]
          have hb2 : curOp (begin P s.shared.tab op) = some op := by cases op <;> rfl
          rw [e]
          simp only [hb2, hc, curOp_idle, Option.toList, List.append_nil, List.append_assoc, List.cons_append, List.nil_append]
      · rcases ctl (P := P) s.shared t hc with ⟨h1, h2, h3, -⟩ | ⟨e, h1, h2, h3, h4, -⟩
        · rw [h1, h2, h3]
        · rw [h1, h2, h3, h4]
          simp [curOp_idle]
    · rw [List.getElem?_set_ne (Ne.symm hji)] at hu
      exact h j u hu
  · intro i t ht
    simp only [init, List.getElem?_map, Option.map_eq_some_iff] at ht
    obtain ⟨p, hp, rfl⟩ := ht
    simp [curOp, hp]

theorem uexec_append (a b : List Nat) : uexec P t₀ progs (a ++ b) = run (step P) (uexec P t₀ progs a) b := by
  simp [uexec, run_append]

/-- Results stay. -/
theorem resAt_mono (a b : List Nat) {x : OpId} {e : Op K V × Res} (h : resAt (uexec P t₀ progs a) x = some e) :
    resAt (uexec P t₀ progs (a ++ b)) x = some e := by
  rw [uexec_append]
  generalize uexec P t₀ progs a = s at h
  refine run_inv (f := step P) (fun s => resAt s x = some e) ?_ s h b
  intro s i t h ht
  have hlt : i < s.threads.length := (List.getElem?_eq_some_iff.1 ht).1
  unfold resAt at h ⊢
  by_cases hji : x.1 = i
  · subst hji
    rw [ht] at h
    simp only [Option.bind_some] at h
    simp only [List.getElem?_set_self hlt, Option.bind_some]
    have hlen := (List.getElem?_eq_some_iff.1 h).1
    by_cases hc : t.cur = .idle
    · cases htd : t.todo with
      | nil =>
        have e : step P s.shared t = (s.shared, t) := by simp only [step, hc, htd]
        rw [e]; exact h
      | cons op rest =>
        have e : step P s.shared t = (s.shared, { t with todo := rest, cur := begin P s.shared.tab op }) := by
          simp only [step, hc, htd]
        rw [e]; exact h
    · rcases ctl (P := P) s.shared t hc with ⟨h1, -⟩ | ⟨e, h1, -⟩
      · rw [h1]; exact h
      · rw [h1, List.getElem?_append_left hlen]; exact h
  · simp only [List.getElem?_set_ne (Ne.symm hji)]
    exact h

theorem seqRun_append {strict : Bool} (a b : List (Op K V × Res)) : ∀ m : List (Nat × V),
    seqRun P strict m (a ++ b) = (seqRun P strict m a).bind (fun m' => seqRun P strict m' b) := by
  induction a with
  | nil => intro m; rfl
  | cons e l ih =>
    intro m
    simp only [List.cons_append, seqRun]
    cases seqStep P strict m e with
    | none => rfl
    | some m' => simp [ih]

/-- The results that an operation can have. -/
theorem resAt_find {sched : List Nat} {x : OpId} {e : Op K V × Res} (h : resAt (uexec P t₀ progs sched) x = some e)
    (he : (∃ p, e.2 = .found p) ∨ e.2 = .notFound) : ∃ k, e.1 = .find k := by
  have := run_inv (f := step P) (fun s => ∀ t ∈ s.threads, ∀ e ∈ t.done, ((∃ p, e.2 = .found p) ∨ e.2 = .notFound) →
    ∃ k, e.1 = .find k) ?_ (init t₀ progs) ?_ sched
  · unfold resAt at h
    obtain ⟨t, ht, h⟩ := Option.bind_eq_some_iff.1 h
    exact this t (List.mem_of_getElem? ht) e (List.mem_of_getElem? h) he
  · intro s i t h ht u hu
    rcases mem_set_cases _ _ _ _ hu with rfl | ⟨j, -, hj⟩
    · have hold := h t (List.mem_of_getElem? ht)
      unfold step
      split
      · split <;> exact hold
      all_goals
        split <;> (try exact hold) <;>
          (intro e he; rcases List.mem_append.1 he with he | he
           · exact hold e he
           · simp only [List.mem_singleton] at he
             subst he
             first
             | (intro _; exact ⟨_, rfl⟩)
             | (intro h'; exfalso; split at h' <;> simp at h')
             | (intro h'; exfalso; simp at h'))
    · exact h u (List.mem_of_getElem? hj)
  · intro t ht e he
    simp only [init, List.mem_map] at ht
    obtain ⟨p, -, rfl⟩ := ht
    simp at he

/-- The linearization points give a linearization if every operation may be executed at its point. -/
theorem lin_main (early : Res → Bool) (strict : Bool) (sched : List Nat)
    (hearly : ∀ r, early r = true → (∃ p, r = .found p) ∨ r = .notFound)
    (Q : Sys (Shared V) (Thread K V) → List (Nat × V) → Prop) (hinit : Q (uexec P t₀ progs []) (entries t₀))
    (hstep : ∀ σ i rest t m, sched = σ ++ i :: rest → (uexec P t₀ progs σ).threads[i]? = some t →
      Q (uexec P t₀ progs σ) m → ∃ m', seqRun P strict m
        ((emit P early (resAt (uexec P t₀ progs sched)) (uexec P t₀ progs σ) i).map (·.2)) = some m' ∧
        Q (uexec P t₀ progs (σ ++ [i])) m') :
    ∃ L m, Linearization P strict t₀ progs sched L m ∧ Q (uexec P t₀ progs sched) m := by
  obtain ⟨fut, hfut⟩ : ∃ f, f = resAt (uexec P t₀ progs sched) := ⟨_, rfl⟩
  rw [← hfut] at hstep
  have hop : ∀ x e, fut x = some e → opAt progs x = some e.1 := by
    intro x e h
    subst hfut
    unfold resAt at h
    obtain ⟨t, ht, h⟩ := Option.bind_eq_some_iff.1 h
    have hlen := (List.getElem?_eq_some_iff.1 h).1
    unfold opAt
    rw [prog_run sched _ _ ht]
    simp only [Option.bind_some, List.append_assoc]
    rw [List.getElem?_append_left (by simpa using hlen)]
    simp [h]
  have hfind : ∀ x e, fut x = some e → early e.2 = true → ∃ k, e.1 = .find k := by
    intro x e h he
    subst hfut
    exact resAt_find h (hearly _ he)
  have main : ∀ σ, (∃ rest, sched = σ ++ rest) → LinInv early fut progs (lins P early fut (init t₀ progs) σ)
      (uexec P t₀ progs σ) ∧ ∃ m, seqRun P strict (entries t₀) ((lins P early fut (init t₀ progs) σ).map (·.2)) = some m ∧
      Q (uexec P t₀ progs σ) m := by
    intro σ
    induction σ using List.reverseRecOn with
    | nil =>
      intro _
      refine ⟨⟨by simp [lins], by simp [lins], prog_run [], ?_, ?_, ?_, by simp [lins]⟩, _, rfl, hinit⟩
      · intro i t ht a e h
        simp only [uexec, run_nil, init, List.getElem?_map, Option.map_eq_some_iff] at ht
        obtain ⟨p, hp, rfl⟩ := ht
        simp at h
      · intro i t ht e h
        simp only [uexec, run_nil, init, List.getElem?_map, Option.map_eq_some_iff] at ht
        obtain ⟨p, hp, rfl⟩ := ht
        simp [pend] at h
      · intro i t ht hc e h _
        simp only [uexec, run_nil, init, List.getElem?_map, Option.map_eq_some_iff] at ht
        obtain ⟨p, hp, rfl⟩ := ht
        simp at hc
    | append_singleton σ i ih =>
      rintro ⟨rest, hs⟩
      obtain ⟨hI, m, h1, h2⟩ := ih ⟨i :: rest, by rw [hs]; simp⟩
      have happ : lins P early fut (init t₀ progs) (σ ++ [i]) = lins P early fut (init t₀ progs) σ ++
          emit P early fut (uexec P t₀ progs σ) i := by
        rw [lins_append]
        simp [lins, uexec]
      have hnext : uexec P t₀ progs (σ ++ [i]) = stepAt (step P) (uexec P t₀ progs σ) i := by
        rw [uexec_append]; rfl
      rw [happ]
      cases ht : (uexec P t₀ progs σ).threads[i]? with
      | none =>
        have e1 : emit P early fut (uexec P t₀ progs σ) i = [] := by simp only [emit, ht]
        have e2 : stepAt (step P) (uexec P t₀ progs σ) i = uexec P t₀ progs σ := by simp only [stepAt, ht]
        rw [hnext, e1, e2, List.append_nil]
        exact ⟨hI, m, h1, h2⟩
      | some t =>
        obtain ⟨m', h3, h4⟩ := hstep σ i rest t m (by rw [hs]; simp) ht h2
        have e2 : stepAt (step P) (uexec P t₀ progs σ) i = ⟨(step P (uexec P t₀ progs σ).shared t).1,
            (uexec P t₀ progs σ).threads.set i (step P (uexec P t₀ progs σ).shared t).2⟩ := by simp only [stepAt, ht]
        refine ⟨?_, m', ?_, h4⟩
        · rw [hnext, e2]
          refine hI.step ht hop hfind ?_
          intro a e ha
          rw [hfut]
          have hlt : i < (uexec P t₀ progs σ).threads.length := (List.getElem?_eq_some_iff.1 ht).1
          have := resAt_mono (P := P) (t₀ := t₀) (progs := progs) (σ ++ [i]) rest (x := (i, a)) (e := e) (by
            rw [hnext, e2]
            simp [resAt, hlt, ha])
          rw [hs]
          exact this
        · rw [List.map_append, seqRun_append, h1]
          exact h3
  obtain ⟨hI, m, h1, h2⟩ := main sched ⟨[], by simp⟩
  refine ⟨_, m, ⟨hI.nodup, ?_, ?_, ?_, h1⟩, h2⟩
  · intro x e h
    unfold resAt at h
    obtain ⟨t, ht, h⟩ := Option.bind_eq_some_iff.1 h
    exact hI.ret x.1 t ht x.2 e h
  · intro x e h
    refine ⟨?_, hI.op x e h⟩
    obtain ⟨t, ht, h⟩ := hI.only x.1 x.2 e h
    refine ⟨t, ht, ?_⟩
    unfold numCalled
    rcases h with h | ⟨h, hc, -⟩
    · split <;> omega
    · split
      · next hc' => exact absurd hc' hc
      · omega
  · rw [List.pairwise_iff_getElem]
    rintro p q hp hq hpq ⟨n, hb, hnc⟩
    obtain ⟨hJ, -⟩ := main (sched.take n) ⟨sched.drop n, by simp⟩
    have hpre : lins P early fut (init t₀ progs) (sched.take n) <+: lins P early fut (init t₀ progs) sched := by
      conv_rhs => rw [← List.take_append_drop n sched, lins_append]
      exact List.prefix_append _ _
    generalize hL : lins P early fut (init t₀ progs) sched = L at *
    generalize hL' : lins P early fut (init t₀ progs) (sched.take n) = L' at *
    -- the later element is in the prefix, so the earlier one is
    obtain ⟨e, he⟩ := Option.isSome_iff_exists.1 hb
    unfold resAt at he
    obtain ⟨t, ht, he⟩ := Option.bind_eq_some_iff.1 he
    have hmem := hJ.ret _ t ht _ e he
    obtain ⟨r, hr, hre⟩ := List.getElem_of_mem hmem
    have hrL : r < L.length := lt_of_lt_of_le hr hpre.length_le
    have hrr : L[r] = (L[q].1, e) := by
      rw [← hpre.getElem hr]; exact hre
    have hrq : r = q := by
      have hnd := hI.nodup
      rw [List.nodup_iff_injective_getElem] at hnd
      have := @hnd ⟨r, by simpa using hrL⟩ ⟨q, by simpa using hq⟩ (by simp [hrr])
      simpa using this
    subst hrq
    have hpL : p < L'.length := by omega
    have hpm : L[p] ∈ L' := by
      rw [← hpre.getElem hpL]; exact List.getElem_mem _
    obtain ⟨u, hu, hor⟩ := hJ.only L[p].1.1 L[p].1.2 L[p].2 hpm
    refine hnc ⟨u, hu, ?_⟩
    unfold numCalled
    rcases hor with h | ⟨h, hc, -⟩
    · split <;> omega
    · split
      · next hc' => exact absurd hc' hc
      · omega

end

end Stdgpu.UnorderedConc
