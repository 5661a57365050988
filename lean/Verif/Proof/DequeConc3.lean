import Verif.Proof.DequeConc
/-! Deque, all programs and schedules (also those that cross a boundary): the slots handed out always form a ring
segment when they are counted with sign and wrap-arounds, and the size counter differs from the length of that segment by
at most the failed operations. -/
namespace Stdgpu.Deque
open Stdgpu.SlotConc Stdgpu.Conc Stdgpu.Spec
open Stdgpu.Vector (clampSize step_cont step_fail step_go)
open Stdgpu.Atomic (fetchIncMod fetchDecMod)

variable {α : Type}

/-- Pushes minus pops that were given slot `q`, if `_end` has wrapped `w` times more often than `_begin`. -/
def wtick (c : Ctr) (w : Int) (q : Nat) : Int := w + (if q < c.endd then 1 else 0) - (if q < c.begin then 1 else 0)

/-- The operation returned false. -/
def failR (b : Bool) : Res α → Bool
  | .pushFailed => b
  | .popFailed => !b
  | _ => false

/-- Number of failed pushes (pops) of a thread. -/
def failC (b : Bool) (t : DThread α) : Nat := t.done.countP (fun e => failR b e.2)

structure WInv (cap : Nat) (c₀ : Multiset α) (programs : List (List (Op Side α))) (w : Int) (s : DSys α) : Prop where
  v : SInv (dfront cap) cap c₀ programs (wtick s.shared.ctr w) s
  begin : s.shared.ctr.begin < cap
  endd : s.shared.ctr.endd < cap
  hi : s.shared.ctr.size ≤ (cap * w + s.shared.ctr.endd - s.shared.ctr.begin : Int) + (s.threads.map (midN true)).sum -
    (s.threads.map (midN false)).sum + (s.threads.map (failC true)).sum
  lo : (cap * w + s.shared.ctr.endd - s.shared.ctr.begin : Int) + (s.threads.map (midN true)).sum -
    (s.threads.map (midN false)).sum - (s.threads.map (failC false)).sum ≤ s.shared.ctr.size

/-- The slot and the new counters of an operation. -/
theorem wtick_position {cap : Nat} {c : Ctr} {w : Int} (hb : c.begin < cap) (he : c.endd < cap) (b : Bool) (k : Side) :
    let r := position cap c b k
    r.1 < cap ∧ r.2.begin < cap ∧ r.2.endd < cap ∧ r.2.size = c.size ∧ ∃ w' : Int,
      (cap * w' + r.2.endd - r.2.begin : Int) = cap * w + c.endd - c.begin + (if b then 1 else -1) ∧
      ∀ q, q < cap → wtick r.2 w' q = wtick c w q + (if q = r.1 then (if b then 1 else -1) else 0) := by
  intro r
  obtain ⟨h1, h2, h3, h4⟩ := position_lt cap c b k hb he
  refine ⟨h1, h2, h3, h4, ?_⟩
  have hm1 : (cap : Int) * (w + 1) = cap * w + cap := by rw [Int.mul_add, Int.mul_one]
  have hm2 : (cap : Int) * (w - 1) = cap * w - cap := by rw [Int.mul_sub, Int.mul_one]
  cases k <;> cases b <;> simp only [r, position, Bool.false_eq_true, if_false, if_true]
  · rw [fetchIncMod_eq _ _ hb]
    by_cases hw : c.begin + 1 = cap
    · refine ⟨w - 1, by simp only [if_pos hw]; omega, fun q hq => ?_⟩
      simp only [wtick, if_pos hw]
      split <;> split <;> (try split) <;> (try split) <;> omega
    · refine ⟨w, by simp only [if_neg hw]; omega, fun q hq => ?_⟩
      simp only [wtick, if_neg hw]
      split <;> split <;> (try split) <;> (try split) <;> omega
  · rw [fetchDecMod_eq _ _ hb]
    by_cases hw : c.begin = 0
    · refine ⟨w + 1, by simp only [if_pos hw]; omega, fun q hq => ?_⟩
      simp only [wtick, if_pos hw]
      split <;> split <;> (try split) <;> (try split) <;> omega
    · refine ⟨w, by simp only [if_neg hw]; omega, fun q hq => ?_⟩
      simp only [wtick, if_neg hw]
      split <;> split <;> (try split) <;> (try split) <;> omega
  · rw [fetchDecMod_eq _ _ he]
    by_cases hw : c.endd = 0
    · refine ⟨w - 1, by simp only [if_pos hw]; omega, fun q hq => ?_⟩
      simp only [wtick, if_pos hw]
      split <;> split <;> (try split) <;> (try split) <;> omega
    · refine ⟨w, by simp only [if_neg hw]; omega, fun q hq => ?_⟩
      simp only [wtick, if_neg hw]
      split <;> split <;> (try split) <;> (try split) <;> omega
  · rw [fetchIncMod_eq _ _ he]
    by_cases hw : c.endd + 1 = cap
    · refine ⟨w + 1, by simp only [if_pos hw]; omega, fun q hq => ?_⟩
      simp only [wtick, if_pos hw]
      split <;> split <;> (try split) <;> (try split) <;> omega
    · refine ⟨w, by simp only [if_neg hw]; omega, fun q hq => ?_⟩
      simp only [wtick, if_neg hw]
      split <;> split <;> (try split) <;> (try split) <;> omega

theorem failC_append (b : Bool) (rest : List (Op Side α)) (pc : PC FPC α) (d : List (Op Side α × Res α)) (e : Op Side α × Res α) :
    failC b (⟨rest, pc, d ++ [e]⟩ : DThread α) = d.countP (fun e => failR b e.2) + (if failR b e.2 then 1 else 0) := by
  simp [failC, List.countP_append, List.countP_cons]

theorem winv_step {cap : Nat} {c₀ : Multiset α} {programs : List (List (Op Side α))} (w : Int)
    (s : DSys α) (i : Nat) (t : DThread α) (h : WInv cap c₀ programs w s) (ht : s.threads[i]? = some t) :
    ∃ w', WInv cap c₀ programs w'
      ⟨(step (dfront cap) s.shared t).1, s.threads.set i (step (dfront cap) s.shared t).2⟩ := by
  have hmem := List.mem_of_getElem? ht
  cases htodo : t.todo with
  | nil => exact ⟨w, by rw [done_step i t ht htodo]; exact h⟩
  | cons op rest =>
    have b1 := h.hi
    have b2 := h.lo
    have key : ∀ (w' : Int) (m' : Mem Ctr α) (t' : DThread α), step (dfront cap) s.shared t = (m', t') →
        SInv (dfront cap) cap c₀ programs (wtick (step (dfront cap) s.shared t).1.ctr w')
          ⟨(step (dfront cap) s.shared t).1, s.threads.set i (step (dfront cap) s.shared t).2⟩ →
        m'.ctr.begin < cap → m'.ctr.endd < cap →
        m'.ctr.size - s.shared.ctr.size ≤ (cap * w' + m'.ctr.endd - m'.ctr.begin : Int) -
          (cap * w + s.shared.ctr.endd - s.shared.ctr.begin) + midN true t' - midN true t - midN false t' + midN false t +
          failC true t' - failC true t →
        (cap * w' + m'.ctr.endd - m'.ctr.begin : Int) -
          (cap * w + s.shared.ctr.endd - s.shared.ctr.begin) + midN true t' - midN true t - midN false t' + midN false t -
          failC false t' + failC false t ≤ m'.ctr.size - s.shared.ctr.size →
        ∃ w', WInv cap c₀ programs w'
          ⟨(step (dfront cap) s.shared t).1, s.threads.set i (step (dfront cap) s.shared t).2⟩ := by
      intro w' m' t' e hr h1 h2 h3 h4
      rw [e] at hr ⊢
      have a1 := sum_map_set (failC true) s.threads i t t' ht
      have a2 := sum_map_set (failC false) s.threads i t t' ht
      have a3 := sum_map_set (midN true) s.threads i t t' ht
      have a4 := sum_map_set (midN false) s.threads i t t' ht
      refine ⟨w', hr, h1, h2, ?_, ?_⟩
      · simp only; omega
      · simp only; omega
    have stay : ∀ (f : FPC) (c' : Ctr) (o : FOut FPC), t.pc = .front f →
        (dfront cap).step s.shared.ctr op.isPush op.kind f = (c', o) → (∀ p, o ≠ .go p) →
        c'.begin = s.shared.ctr.begin → c'.endd = s.shared.ctr.endd →
        SInv (dfront cap) cap c₀ programs (wtick (step (dfront cap) s.shared t).1.ctr w)
          ⟨(step (dfront cap) s.shared t).1, s.threads.set i (step (dfront cap) s.shared t).2⟩ := by
      intro f c' o hpc e ho h1 h2
      have hc : (step (dfront cap) s.shared t).1.ctr = c' := by
        simp only [step, htodo, hpc, e]; split <;> rfl
      have hw : wtick c' w = wtick s.shared.ctr w := by funext q; simp only [wtick, h1, h2]
      rw [hc, hw]
      refine front_step h.v i t ht f hpc op rest htodo ?_
      rw [e]; cases o with
      | go p => exact absurd rfl (ho p)
      | _ => intro q _; rfl
    cases hpc : t.pc with
    | slot p sp =>
      have hc : (step (dfront cap) s.shared t).1.ctr = s.shared.ctr := by
        simp only [step, htodo, hpc]; split <;> rfl
      have hr : SInv (dfront cap) cap c₀ programs (wtick (step (dfront cap) s.shared t).1.ctr w)
          ⟨(step (dfront cap) s.shared t).1, s.threads.set i (step (dfront cap) s.shared t).2⟩ := by
        rw [hc]; exact slot_step h.v i t ht p sp hpc
      obtain ⟨-, op', rest', e1, hfit⟩ := (h.v.shape t hmem).1 p sp hpc
      have hfit' : sp.fits op := by rw [htodo] at e1; simp at e1; rw [e1.1]; exact hfit
      cases hr' : (slotStep s.shared.slots op p sp).2 with
      | inl s' =>
        refine key w { s.shared with slots := (slotStep s.shared.slots op p sp).1 } { t with pc := .slot p s' } ?_ hr
          h.begin h.endd ?_ ?_
        · simp only [step, htodo, hpc, hr']
        · simp [failC, midN, hpc]
        · simp [failC, midN, hpc]
      | inr r =>
        have hnf : ∀ b, failR b r = false := by
          intro b
          rcases slotStep_inr _ _ _ _ hfit' _ hr' with ⟨-, h'⟩ | ⟨-, v, h'⟩ <;> simp [h', failR]
        refine key w { s.shared with slots := (slotStep s.shared.slots op p sp).1 }
          { todo := rest, pc := .front (dfront cap).start, done := t.done ++ [(op, r)] } ?_ hr h.begin h.endd ?_ ?_
        · simp only [step, htodo, hpc, hr']
        · rw [failC_append, hnf]; simp [failC, midN, hpc, dfront]
        · rw [failC_append, hnf]; simp [failC, midN, hpc, dfront]
    | front f =>
      rcases dfront_cases cap s.shared.ctr op.isPush op.kind f with ⟨h1, e⟩ | ⟨h1, e, h2, h3⟩ | ⟨h1, hb, h2, e⟩ |
        ⟨h1, hb, h2, e⟩ | ⟨h1, hb, h2, e⟩ | ⟨h1, hb, h2, e⟩ | ⟨h1, e⟩
      · refine key w _ _ (step_cont _ _ htodo hpc e) (stay f _ _ hpc e (by simp) rfl rfl) h.begin h.endd ?_ ?_ <;>
          simp [failC, midN, hpc, h1]
      · refine key w _ _ (step_fail _ _ htodo hpc e) (stay f _ _ hpc e (by simp) rfl rfl) h.begin h.endd ?_ ?_ <;>
          rw [failC_append] <;> simp [failC, midN, hpc, h1, dfront]
      · refine key w _ _ (step_cont _ _ htodo hpc e) (stay f _ _ hpc e (by simp) rfl rfl) h.begin h.endd ?_ ?_ <;>
          simp [failC, midN, hpc, h1, htodo, hb] <;> omega
      · have hf : failRes op = (.pushFailed : Res α) := by cases op <;> simp_all [failRes, Op.isPush]
        refine key w _ _ (step_fail _ _ htodo hpc e) (stay f _ _ hpc e (by simp) rfl rfl) h.begin h.endd ?_ ?_ <;>
          rw [failC_append, hf] <;> simp [failC, midN, hpc, h1, dfront, failR] <;> omega
      · refine key w _ _ (step_cont _ _ htodo hpc e) (stay f _ _ hpc e (by simp) rfl rfl) h.begin h.endd ?_ ?_ <;>
          simp [failC, midN, hpc, h1, htodo, hb] <;> omega
      · have hf : failRes op = (.popFailed : Res α) := by cases op <;> simp_all [failRes, Op.isPush]
        refine key w _ _ (step_fail _ _ htodo hpc e) (stay f _ _ hpc e (by simp) rfl rfl) h.begin h.endd ?_ ?_ <;>
          rw [failC_append, hf] <;> simp [failC, midN, hpc, h1, dfront, failR] <;> omega
      · subst h1
        obtain ⟨p1, p2, p3, p4, w', p5, p6⟩ := wtick_position (w := w) h.begin h.endd op.isPush op.kind
        have hc : (step (dfront cap) s.shared t).1.ctr = (position cap s.shared.ctr op.isPush op.kind).2 := by
          simp only [step, htodo, hpc, e]
        refine key w' _ _ (step_go _ _ htodo hpc e) ?_ p2 p3 ?_ ?_
        · rw [hc]
          refine front_step h.v i t ht .pos hpc op rest htodo ?_
          rw [e]; exact ⟨p1, p6⟩
        all_goals
          simp only [p4]
          cases hb : op.isPush <;> simp only [hb, if_true, if_false, Bool.false_eq_true] at p5 ⊢ <;>
            simp [failC, midN, hpc, htodo, hb] <;> omega

theorem winv_init {d : Deq α} {l : List α} (h : Holds d l) (programs : List (List (Op Side α))) :
    ∃ w, WInv (cap d) (l : Multiset α) programs w (init (dfront (cap d)) d programs) := by
  have hr := dring_init h programs
  have hb := h.begin
  have hlen := h.len
  have he : d.ctr.endd = _ := h.endd
  rw [wrap_eq _ _ _ hb hlen] at he
  have z : ∀ (g : DThread α → Nat), (∀ p, g ⟨p, .front (dfront (cap d)).start, []⟩ = 0) →
      ((init (dfront (cap d)) d programs).threads.map g).sum = 0 := by
    intro g hg; apply (sum_map_eq_zero _ _).2
    intro t ht
    simp only [init, List.mem_map] at ht
    obtain ⟨p, -, rfl⟩ := ht
    exact hg p
  have z1 := z (midN true) (by intro p; simp [midN, dfront])
  have z2 := z (midN false) (by intro p; simp [midN, dfront])
  have z3 := z (failC true) (by intro p; simp [failC])
  have z4 := z (failC false) (by intro p; simp [failC])
  have hsz : (init (dfront (cap d)) d programs).shared.ctr = d.ctr := rfl
  have hd : d.ctr.size = l.length := h.size
  by_cases hw : d.ctr.begin + l.length < cap d
  · rw [if_pos hw] at he
    have ht : wtick d.ctr 0 = rtick (cap d) d.ctr.begin l.length ∨ True := Or.inr trivial
    refine ⟨0, ?_, h.begin, by show d.ctr.endd < _; omega, ?_, ?_⟩
    · have hv := hr.v
      refine ⟨hv.hcap, hv.err, hv.prog, hv.len, hv.shape, hv.knows, hv.locks, fun p hp => ?_, hv.live, hv.cons⟩
      rw [hv.ticks p hp]
      show rtick (cap d) d.ctr.begin l.length p = wtick d.ctr 0 p
      unfold rtick wtick ringIdx
      split <;> split <;> (try split) <;> (try split) <;> omega
    · rw [z1, z2, z3, hsz]; omega
    · rw [z1, z2, z4, hsz]; omega
  · rw [if_neg hw] at he
    refine ⟨1, ?_, h.begin, by show d.ctr.endd < _; omega, ?_, ?_⟩
    · have hv := hr.v
      refine ⟨hv.hcap, hv.err, hv.prog, hv.len, hv.shape, hv.knows, hv.locks, fun p hp => ?_, hv.live, hv.cons⟩
      rw [hv.ticks p hp]
      show rtick (cap d) d.ctr.begin l.length p = wtick d.ctr 1 p
      unfold rtick wtick ringIdx
      split <;> split <;> (try split) <;> (try split) <;> omega
    · rw [z1, z2, z3, hsz]; omega
    · rw [z1, z2, z4, hsz]; omega

theorem winv_run {d : Deq α} {l : List α} (h : Holds d l) (programs : List (List (Op Side α))) (sched : List Nat) :
    ∃ w, WInv (cap d) (l : Multiset α) programs w (run (step (dfront (cap d))) (init (dfront (cap d)) d programs) sched) :=
  run_inv (fun s => ∃ w, WInv (cap d) (l : Multiset α) programs w s)
    (fun s i t hs ht => by obtain ⟨w, hw⟩ := hs; exact winv_step w s i t hw ht) _ (winv_init h programs) sched

/-- In a quiet state the occupied slots are a ring segment that starts at `_begin` and ends at `_end`. -/
theorem winv_ring {cap : Nat} {c₀ : Multiset α} {programs : List (List (Op Side α))} {w : Int} {s : DSys α}
    (h : WInv cap c₀ programs w s) (hq : Quiet s) :
    ∃ n : Nat, DRing cap c₀ programs n s ∧ (n : Int) = cap * w + s.shared.ctr.endd - s.shared.ctr.begin := by
  have hb := h.begin
  have he := h.endd
  have ht : ∀ q, q < cap → 0 ≤ wtick s.shared.ctr w q ∧ wtick s.shared.ctr w q ≤ 1 := by
    intro q hq'
    have := quiet_occ h.v hq q hq'
    cases ho : s.shared.slots.occ q <;> rw [ho] at this <;> simp at this <;> omega
  have h1 := ht (cap - 1) (by omega)
  have h2 := ht s.shared.ctr.endd he
  have h3 := ht s.shared.ctr.begin hb
  have hw : (w = 0 ∧ s.shared.ctr.begin ≤ s.shared.ctr.endd) ∨ (w = 1 ∧ s.shared.ctr.endd ≤ s.shared.ctr.begin) := by
    unfold wtick at h1 h2 h3
    rw [if_neg (by omega), if_neg (by omega)] at h1
    rw [if_neg (by omega)] at h2
    rw [if_neg (by omega : ¬ s.shared.ctr.begin < s.shared.ctr.begin)] at h3
    split at h2 <;> split at h3 <;> omega
  have mk : ∀ n : Nat, n ≤ cap → s.shared.ctr.endd = (s.shared.ctr.begin + n) % cap →
      (∀ q, q < cap → rtick cap s.shared.ctr.begin n q = wtick s.shared.ctr w q) → DRing cap c₀ programs n s := by
    intro n hn hen hr
    refine ⟨?_, hb, hn, hen⟩
    have hv := h.v
    refine ⟨hv.hcap, hv.err, hv.prog, hv.len, hv.shape, hv.knows, hv.locks, fun p hp => ?_, hv.live, hv.cons⟩
    rw [hv.ticks p hp, hr p hp]
  rcases hw with ⟨rfl, hle⟩ | ⟨rfl, hle⟩
  · refine ⟨s.shared.ctr.endd - s.shared.ctr.begin, mk _ (by omega) ?_ ?_, by omega⟩
    · rw [wrap_eq _ _ _ hb (by omega), if_pos (by omega)]; omega
    · intro q hq'
      unfold rtick wtick ringIdx
      split <;> split <;> (try split) <;> (try split) <;> omega
  · refine ⟨cap + s.shared.ctr.endd - s.shared.ctr.begin, mk _ (by omega) ?_ ?_, by omega⟩
    · rw [wrap_eq _ _ _ hb (by omega), if_neg (by omega)]; omega
    · intro q hq'
      unfold rtick wtick ringIdx
      split <;> split <;> (try split) <;> (try split) <;> omega

end Stdgpu.Deque
