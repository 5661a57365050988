import Verif.Proof.OneLin
import Verif.Proof.DequeLin
/-! A deque used as a queue: the counters. -/
namespace Stdgpu.Deque
open Stdgpu.SlotConc Stdgpu.Conc Stdgpu.Spec
open Stdgpu.Vector (clampSize step_cont step_fail step_go)

variable {α : Type}

/-- Tickets of slot `r`, pushes minus pops, when `n` pushes (including the initial elements) and `q` pops have tickets. -/
def qtick (cap b0 n q r : Nat) : Int :=
  (if ringIdx cap b0 r < n then 1 else 0) - (if ringIdx cap b0 r < q then 1 else 0)

/-- Failed pops of a thread. -/
def failN (t : DThread α) : Nat := t.done.countP (fun e => match e.2 with | .popFailed => true | _ => false)

structure CInv (cap b0 : Nat) (c₀ : Multiset α) (progs : List (List (Op Side α))) (n q : Nat) (s : DSys α) : Prop where
  v : SInv (dfront cap) cap c₀ progs (qtick cap b0 n q) s
  hb : b0 < cap
  beg : s.shared.ctr.begin = (b0 + q) % cap
  endd : s.shared.ctr.endd = (b0 + n) % cap
  hi : n + (s.threads.map (midN true)).sum + (s.threads.map (remS true)).sum ≤ cap
  lo : q + (s.threads.map (midN false)).sum ≤ n + (s.threads.map (midN true)).sum
  sz1 : s.shared.ctr.size + q + (s.threads.map (midN false)).sum ≤ n + (s.threads.map (midN true)).sum
  sz2 : (n : Int) + (s.threads.map (midN true)).sum ≤
    s.shared.ctr.size + q + (s.threads.map (midN false)).sum + (s.threads.map failN).sum

section
variable {cap b0 : Nat} {c₀ : Multiset α} {progs : List (List (Op Side α))} {n q : Nat} {s : DSys α}
  {i : Nat} {t : DThread α} {op : Op Side α} {rest : List (Op Side α)}

theorem cinv_key {n' q' : Nat} {m' : Mem Ctr α} {t' : DThread α} (h : CInv cap b0 c₀ progs n q s)
    (ht : s.threads[i]? = some t)
    (hv : SInv (dfront cap) cap c₀ progs (qtick cap b0 n' q') ⟨m', s.threads.set i t'⟩)
    (hb : m'.ctr.begin = (b0 + q') % cap) (he : m'.ctr.endd = (b0 + n') % cap)
    (h1 : n' + midN true t' + remS true t' ≤ n + midN true t + remS true t)
    (h2 : (q' : Int) + midN false t' - n' - midN true t' ≤ q + midN false t - n - midN true t ∨
      (q' : Int) + midN false t' - n' - midN true t' ≤ s.shared.ctr.size + q + midN false t - n - midN true t)
    (h3 : m'.ctr.size + q' + midN false t' - n' - midN true t' ≤ s.shared.ctr.size + q + midN false t - n - midN true t)
    (h4 : s.shared.ctr.size + q + midN false t + failN t - n - midN true t ≤
      m'.ctr.size + q' + midN false t' + failN t' - n' - midN true t') :
    CInv cap b0 c₀ progs n' q' ⟨m', s.threads.set i t'⟩ := by
  have b1 := h.hi
  have b2 := h.lo
  have b3 := h.sz1
  have b4 := h.sz2
  have a1 := sum_map_set (remS true) s.threads i t t' ht
  have a3 := sum_map_set (midN true) s.threads i t t' ht
  have a4 := sum_map_set (midN false) s.threads i t t' ht
  have a5 := sum_map_set failN s.threads i t t' ht
  exact ⟨hv, h.hb, hb, he, by simp only; omega, by simp only; omega, by simp only; omega, by simp only; omega⟩

theorem c1 (op : Op Side α) (rest : List (Op Side α)) (b : Bool) : (op :: rest).countP (fun op => op.isPush == b) =
    (if op.isPush = b then 1 else 0) + rest.countP (fun op => op.isPush == b) := by
  rw [List.countP_cons]; simp; omega

/-- A step on a slot. -/
theorem cinv_slot (h : CInv cap b0 c₀ progs n q s) (ht : s.threads[i]? = some t) (htodo : t.todo = op :: rest) {p : Nat}
    {sp : SPC α} (hpc : t.pc = .slot p sp) :
    CInv cap b0 c₀ progs n q ⟨(step (dfront cap) s.shared t).1, s.threads.set i (step (dfront cap) s.shared t).2⟩ := by
  have hmem := List.mem_of_getElem? ht
  have hv := slot_step h.v i t ht p sp hpc
  obtain ⟨-, op', rest', e1, hfit⟩ := (h.v.shape t hmem).1 p sp hpc
  have hfit' : sp.fits op := by rw [htodo] at e1; simp at e1; rw [e1.1]; exact hfit
  cases hr' : (slotStep s.shared.slots op p sp).2 with
  | inl s' =>
    have e : step (dfront cap) s.shared t =
        ({ s.shared with slots := (slotStep s.shared.slots op p sp).1 }, { t with pc := .slot p s' }) := by
      simp only [step, htodo, hpc, hr']
    rw [e] at hv ⊢
    refine cinv_key h ht hv h.beg h.endd ?_ (.inl ?_) ?_ ?_ <;> simp [remS, midN, hpc, failN]
  | inr r =>
    have e : step (dfront cap) s.shared t =
        ({ s.shared with slots := (slotStep s.shared.slots op p sp).1 },
          { todo := rest, pc := .front (dfront cap).start, done := t.done ++ [(op, r)] }) := by
      simp only [step, htodo, hpc, hr']
    rw [e] at hv ⊢
    refine cinv_key h ht hv h.beg h.endd ?_ (.inl ?_) ?_ ?_ <;> simp [remS, midN, hpc, failN, htodo, dfront]

/-- A step of the front end that does not hand out a slot. A push does not fail. -/
theorem cinv_front (h : CInv cap b0 c₀ progs n q s) (ht : s.threads[i]? = some t) (htodo : t.todo = op :: rest) {f : FPC}
    (hpc : t.pc = .front f) (hf : f ≠ .pos) :
    CInv cap b0 c₀ progs n q ⟨(step (dfront cap) s.shared t).1, s.threads.set i (step (dfront cap) s.shared t).2⟩ ∧
    ((∃ f' c, step (dfront cap) s.shared t = ({ s.shared with ctr := c }, { t with pc := .front f' })) ∨
     (op.isPush = false ∧ ∃ c, step (dfront cap) s.shared t = ({ s.shared with ctr := c },
        ⟨rest, .front (dfront cap).start, t.done ++ [(op, .popFailed)]⟩))) := by
  have hmem := List.mem_of_getElem? ht
  have b1 := h.hi
  have b3 := h.sz1
  have hb0 := h.hb
  have r1 := le_sum_map (remS true) s.threads t hmem
  have r3 := le_sum_map (midN true) s.threads t hmem
  have r4 := le_sum_map (midN false) s.threads t hmem
  have hv : ∀ c' o, (dfront cap).step s.shared.ctr op.isPush op.kind f = (c', o) → (∀ p, o ≠ .go p) →
      SInv (dfront cap) cap c₀ progs (qtick cap b0 n q)
        ⟨(step (dfront cap) s.shared t).1, s.threads.set i (step (dfront cap) s.shared t).2⟩ := by
    intro c' o e ho
    refine front_step h.v i t ht f hpc op rest htodo ?_
    rw [e]; cases o with
    | go p => exact absurd rfl (ho p)
    | _ => intro q _; rfl
  have hfr : op.isPush = false → failRes op = .popFailed := by
    cases op with
    | push k x => simp [Op.isPush]
    | pop k => intro; rfl
  rcases dfront_cases cap s.shared.ctr op.isPush op.kind f with ⟨h1, e⟩ | ⟨h1, e, h2, h3⟩ | ⟨h1, hb, h2, e⟩ |
    ⟨h1, hb, h2, e⟩ | ⟨h1, hb, h2, e⟩ | ⟨h1, hb, h2, e⟩ | ⟨h1, e⟩
  · have hv := hv _ _ e (by simp)
    have e' := step_cont s.shared t htodo hpc e
    rw [e'] at hv ⊢
    refine ⟨cinv_key h ht hv h.beg h.endd ?_ (.inl ?_) ?_ ?_, .inl ⟨_, _, rfl⟩⟩ <;> simp [remS, midN, hpc, h1, failN]
  · have q1 : remS true t = (op :: rest).countP (fun op => op.isPush == true) := by simp [remS, hpc, h1, htodo]
    rw [c1] at q1
    cases hb : op.isPush with
    | true => have := h2 hb; simp [hb] at q1; omega
    | false =>
      have hv := hv _ _ e (by simp)
      have e' := step_fail s.shared t htodo hpc e
      rw [hfr hb] at e'
      rw [e'] at hv ⊢
      refine ⟨cinv_key h ht hv h.beg h.endd ?_ (.inl ?_) ?_ ?_, .inr ⟨rfl, _, rfl⟩⟩ <;>
        simp [remS, midN, hpc, h1, failN, htodo, hb, dfront]
  · have hv := hv _ _ e (by simp)
    have e' := step_cont s.shared t htodo hpc e
    rw [e'] at hv ⊢
    refine ⟨cinv_key h ht hv h.beg h.endd ?_ (.inl ?_) ?_ ?_, .inl ⟨_, _, rfl⟩⟩ <;>
      simp [remS, midN, hpc, h1, failN, htodo, hb] <;> omega
  · have q1 : remS true t = (op :: rest).countP (fun op => op.isPush == true) := by simp [remS, hpc, h1, htodo]
    rw [c1] at q1; simp [hb] at q1; omega
  · have hv := hv _ _ e (by simp)
    have e' := step_cont s.shared t htodo hpc e
    rw [e'] at hv ⊢
    refine ⟨cinv_key h ht hv h.beg h.endd ?_ (.inr ?_) ?_ ?_, .inl ⟨_, _, rfl⟩⟩ <;>
      simp [remS, midN, hpc, h1, failN, htodo, hb] <;> omega
  · have hv := hv _ _ e (by simp)
    have e' := step_fail s.shared t htodo hpc e
    rw [hfr hb] at e'
    rw [e'] at hv ⊢
    refine ⟨cinv_key h ht hv h.beg h.endd ?_ (.inl ?_) ?_ ?_, .inr ⟨hb, _, rfl⟩⟩ <;>
      simp [remS, midN, hpc, h1, failN, htodo, hb, dfront] <;> omega
  · exact absurd h1 hf

theorem ring_self {k : Nat} (hb : b0 < cap) (hk : k < cap) : ringIdx cap b0 ((b0 + k) % cap) = k := by
  rw [wrap_eq _ _ _ hb (by omega)]
  unfold ringIdx
  split <;> split <;> omega

theorem ring_inj {k p : Nat} (hb : b0 < cap) (hp : p < cap) (h : ringIdx cap b0 p = k) : p = (b0 + k) % cap := by
  subst h
  unfold ringIdx
  split
  · rw [wrap_eq _ _ _ hb (by omega)]; split <;> omega
  · rw [wrap_eq _ _ _ hb (by omega)]; split <;> omega

theorem wrap_inc {k : Nat} (hb : b0 < cap) (hk : k < cap) :
    (if (b0 + k) % cap + 1 = cap then 0 else (b0 + k) % cap + 1) = (b0 + (k + 1)) % cap := by
  rw [wrap_eq _ _ _ hb (by omega), wrap_eq _ _ _ hb (by omega)]
  split <;> split <;> split <;> omega

/-- A push gets its slot. -/
theorem cinv_push {x : α} (h : CInv cap b0 c₀ progs n q s) (ht : s.threads[i]? = some t)
    (htodo : t.todo = .push .back x :: rest) (hpc : t.pc = .front .pos) :
    n < cap ∧ ∃ c, step (dfront cap) s.shared t = ({ s.shared with ctr := c }, { t with pc := .slot ((b0 + n) % cap) .tryLock }) ∧
    CInv cap b0 c₀ progs (n + 1) q ⟨(step (dfront cap) s.shared t).1, s.threads.set i (step (dfront cap) s.shared t).2⟩ := by
  have hmem := List.mem_of_getElem? ht
  have b1 := h.hi
  have hb0 := h.hb
  have r3 := le_sum_map (midN true) s.threads t hmem
  have q1 : midN true t = 1 := by simp [midN, hpc, htodo, Op.isPush]
  have hn : n < cap := by omega
  have hlt : (b0 + n) % cap < cap := Nat.mod_lt _ (by omega)
  have e : (dfront cap).step s.shared.ctr (Op.push Side.back x).isPush (Op.push Side.back x).kind .pos =
      ({ s.shared.ctr with endd := (b0 + (n + 1)) % cap }, .go ((b0 + n) % cap)) := by
    show (_, _) = _
    simp only [Op.isPush, Op.kind, position, if_true, h.endd]
    rw [fetchIncMod_eq _ _ hlt]
    simp only [wrap_inc hb0 hn]
  have e' := step_go s.shared t htodo hpc e
  refine ⟨hn, _, e', ?_⟩
  have hv : SInv (dfront cap) cap c₀ progs (qtick cap b0 (n + 1) q)
      ⟨(step (dfront cap) s.shared t).1, s.threads.set i (step (dfront cap) s.shared t).2⟩ := by
    refine front_step h.v i t ht .pos hpc _ rest htodo ?_
    rw [e]
    refine ⟨hlt, fun r hr => ?_⟩
    simp only [Op.isPush, if_true]
    unfold qtick
    by_cases hrp : r = (b0 + n) % cap
    · subst hrp
      rw [ring_self hb0 hn]
      simp
      omega
    · have : ringIdx cap b0 r ≠ n := fun e => hrp (ring_inj hb0 hr e)
      rw [if_neg hrp]
      split <;> split <;> split <;> omega
  rw [e'] at hv ⊢
  refine cinv_key h ht hv h.beg rfl ?_ (.inl ?_) ?_ ?_ <;> simp [remS, midN, hpc, failN, htodo, Op.isPush]
  all_goals omega

/-- A pop gets its slot. -/
theorem cinv_pop (h : CInv cap b0 c₀ progs n q s) (ht : s.threads[i]? = some t)
    (htodo : t.todo = .pop .front :: rest) (hpc : t.pc = .front .pos) :
    q < cap ∧ ∃ c, step (dfront cap) s.shared t = ({ s.shared with ctr := c }, { t with pc := .slot ((b0 + q) % cap) .tryLock }) ∧
    CInv cap b0 c₀ progs n (q + 1) ⟨(step (dfront cap) s.shared t).1, s.threads.set i (step (dfront cap) s.shared t).2⟩ := by
  have hmem := List.mem_of_getElem? ht
  have b1 := h.hi
  have b2 := h.lo
  have hb0 := h.hb
  have r3 := le_sum_map (midN false) s.threads t hmem
  have q1 : midN false t = 1 := by simp [midN, hpc, htodo, Op.isPush]
  have hn : q < cap := by omega
  have hlt : (b0 + q) % cap < cap := Nat.mod_lt _ (by omega)
  have e : (dfront cap).step s.shared.ctr (Op.pop Side.front : Op Side α).isPush (Op.pop Side.front : Op Side α).kind .pos =
      ({ s.shared.ctr with begin := (b0 + (q + 1)) % cap }, .go ((b0 + q) % cap)) := by
    show (_, _) = _
    simp only [Op.isPush, Op.kind, position, Bool.false_eq_true, if_false, h.beg]
    rw [fetchIncMod_eq _ _ hlt]
    simp only [wrap_inc hb0 hn]
  have e' := step_go s.shared t htodo hpc e
  refine ⟨hn, _, e', ?_⟩
  have hv : SInv (dfront cap) cap c₀ progs (qtick cap b0 n (q + 1))
      ⟨(step (dfront cap) s.shared t).1, s.threads.set i (step (dfront cap) s.shared t).2⟩ := by
    refine front_step h.v i t ht .pos hpc _ rest htodo ?_
    rw [e]
    refine ⟨hlt, fun r hr => ?_⟩
    simp only [Op.isPush]
    unfold qtick
    by_cases hrp : r = (b0 + q) % cap
    · subst hrp
      rw [ring_self hb0 hn]
      simp
      omega
    · have : ringIdx cap b0 r ≠ q := fun e => hrp (ring_inj hb0 hr e)
      rw [if_neg hrp]
      split <;> split <;> split <;> omega
  rw [e'] at hv ⊢
  refine cinv_key h ht hv rfl h.endd ?_ (.inl ?_) ?_ ?_ <;> simp [remS, midN, hpc, failN, htodo, Op.isPush]
  all_goals omega

end
end Stdgpu.Deque
