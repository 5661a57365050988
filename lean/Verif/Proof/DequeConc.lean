import Verif.Proof.SlotQuiet
import Verif.Proof.VectorConc
import Verif.Proof.Deque
/-! Invariants of concurrent deque operations. -/
namespace Stdgpu.Deque
open Stdgpu.SlotConc Stdgpu.Conc Stdgpu.Spec
open Stdgpu.Vector (clampSize step_cont step_fail step_go)
open Stdgpu.Atomic (fetchIncMod fetchDecMod)

variable {α : Type}

abbrev DThread (α : Type) := Thread Side FPC α
abbrev DSys (α : Type) := Sys (Mem Ctr α) (DThread α)

theorem inc_lt {v cap : Nat} (hv : v < cap) : (if v + 1 = cap then 0 else v + 1) < cap := by split <;> omega
theorem dec_lt {v cap : Nat} (hv : v < cap) : (if v = 0 then cap - 1 else v - 1) < cap := by split <;> omega

theorem position_lt (cap : Nat) (c : Ctr) (b : Bool) (k : Side) (hb : c.begin < cap) (he : c.endd < cap) :
    (position cap c b k).1 < cap ∧ (position cap c b k).2.begin < cap ∧ (position cap c b k).2.endd < cap ∧
      (position cap c b k).2.size = c.size := by
  cases k <;> cases b <;> simp only [position, Bool.false_eq_true, if_false, if_true]
  · rw [fetchIncMod_eq _ _ hb]; exact ⟨hb, inc_lt hb, he, trivial⟩
  · rw [fetchDecMod_eq _ _ hb]; exact ⟨dec_lt hb, dec_lt hb, he, trivial⟩
  · rw [fetchDecMod_eq _ _ he]; exact ⟨dec_lt he, hb, dec_lt he, trivial⟩
  · rw [fetchIncMod_eq _ _ he]; exact ⟨he, hb, inc_lt he, trivial⟩

/-- The possible outcomes of a step of the front end. -/
theorem dfront_cases (cap : Nat) (c : Ctr) (b : Bool) (k : Side) (f : FPC) :
    (f = .check ∧ (dfront cap).step c b k f = (c, .cont .size)) ∨
    (f = .check ∧ (dfront cap).step c b k f = (c, .fail) ∧
      (b = true → (cap : Int) ≤ c.size ∨ cap = 0) ∧ (b = false → c.size ≤ 0 ∨ cap = 0)) ∨
    (f = .size ∧ b = true ∧ c.size < cap ∧ (dfront cap).step c b k f = ({ c with size := c.size + 1 }, .cont .pos)) ∨
    (f = .size ∧ b = true ∧ (cap : Int) ≤ c.size ∧ (dfront cap).step c b k f = ({ c with size := c.size + 1 }, .fail)) ∨
    (f = .size ∧ b = false ∧ 0 < c.size ∧ (dfront cap).step c b k f = ({ c with size := c.size - 1 }, .cont .pos)) ∨
    (f = .size ∧ b = false ∧ c.size ≤ 0 ∧ (dfront cap).step c b k f = ({ c with size := c.size - 1 }, .fail)) ∨
    (f = .pos ∧ (dfront cap).step c b k f = ((position cap c b k).2, .go (position cap c b k).1)) := by
  cases f with
  | check =>
    cases b with
    | false =>
      by_cases hc : clampSize cap c.size = 0
      · right; left
        refine ⟨rfl, by simp [dfront, hc], by simp, fun _ => ?_⟩
        unfold clampSize at hc; split at hc
        · omega
        · split at hc <;> omega
      · left
        exact ⟨rfl, by simp [dfront, hc]⟩
    | true =>
      by_cases hc : clampSize cap c.size = cap
      · right; left
        refine ⟨rfl, by simp [dfront, hc], fun _ => ?_, by simp⟩
        unfold clampSize at hc; split at hc
        · omega
        · split at hc <;> omega
      · left
        exact ⟨rfl, by simp [dfront, hc]⟩
  | size =>
    cases b with
    | true =>
      by_cases hc : c.size < cap
      · right; right; left; exact ⟨rfl, rfl, hc, by simp [dfront, hc]⟩
      · right; right; right; left; exact ⟨rfl, rfl, by omega, by simp [dfront, hc]⟩
    | false =>
      by_cases hc : c.size > 0
      · right; right; right; right; left; exact ⟨rfl, rfl, hc, by simp [dfront, hc]⟩
      · right; right; right; right; right; left; exact ⟨rfl, rfl, by omega, by simp [dfront, hc]⟩
  | pos => right; right; right; right; right; right; exact ⟨rfl, rfl⟩

/-! ### For all programs -/

structure DInv (cap : Nat) (c₀ : Multiset α) (programs : List (List (Op Side α))) (s : DSys α) : Prop where
  inv : ∃ tick, SInv (dfront cap) cap c₀ programs tick s
  begin : s.shared.ctr.begin < cap
  endd : s.shared.ctr.endd < cap

theorem dinv_step {cap : Nat} {c₀ : Multiset α} {programs : List (List (Op Side α))} (s : DSys α) (i : Nat)
    (t : DThread α) (h : DInv cap c₀ programs s) (ht : s.threads[i]? = some t) :
    DInv cap c₀ programs ⟨(step (dfront cap) s.shared t).1, s.threads.set i (step (dfront cap) s.shared t).2⟩ := by
  obtain ⟨tick, hi⟩ := h.inv
  cases htodo : t.todo with
  | nil => rw [done_step i t ht htodo]; exact h
  | cons op rest =>
    cases hpc : t.pc with
    | slot p sp =>
      have hc : (step (dfront cap) s.shared t).1.ctr = s.shared.ctr := by
        simp only [step, htodo, hpc]; split <;> rfl
      refine ⟨⟨tick, slot_step hi i t ht p sp hpc⟩, ?_, ?_⟩ <;> simp only [hc]
      · exact h.begin
      · exact h.endd
    | front f =>
      have hc : (step (dfront cap) s.shared t).1.ctr = ((dfront cap).step s.shared.ctr op.isPush op.kind f).1 := by
        simp only [step, htodo, hpc]; split <;> rfl
      have hstay : ∀ c' o, (dfront cap).step s.shared.ctr op.isPush op.kind f = (c', o) → (∀ p, o ≠ .go p) →
          c'.begin = s.shared.ctr.begin → c'.endd = s.shared.ctr.endd →
          DInv cap c₀ programs ⟨(step (dfront cap) s.shared t).1, s.threads.set i (step (dfront cap) s.shared t).2⟩ := by
        intro c' o e ho h1 h2
        refine ⟨⟨tick, front_step hi i t ht f hpc op rest htodo ?_⟩, ?_, ?_⟩
        · rw [e]; cases o with
          | go p => exact absurd rfl (ho p)
          | _ => intro q _; rfl
        · simp only [hc, e, h1]; exact h.begin
        · simp only [hc, e, h2]; exact h.endd
      rcases dfront_cases cap s.shared.ctr op.isPush op.kind f with ⟨-, e⟩ | ⟨-, e, -⟩ | ⟨-, -, -, e⟩ |
        ⟨-, -, -, e⟩ | ⟨-, -, -, e⟩ | ⟨-, -, -, e⟩ | ⟨-, e⟩
      iterate 6 exact hstay _ _ e (by simp) rfl rfl
      obtain ⟨h1, h2, h3, -⟩ := position_lt cap s.shared.ctr op.isPush op.kind h.begin h.endd
      refine ⟨⟨fun q => tick q + (if q = (position cap s.shared.ctr op.isPush op.kind).1 then
        (if op.isPush then 1 else -1) else 0), front_step hi i t ht f hpc op rest htodo ?_⟩, ?_, ?_⟩
      · rw [e]; exact ⟨h1, fun q hq => rfl⟩
      · simp only [hc, e]; exact h2
      · simp only [hc, e]; exact h3

/-! ### Ring tickets -/

/-- Number of operations that were given slot `p`, pushes minus pops, when `n` elements start at `begin`. -/
def rtick (cap begin n q : Nat) : Int := if ringIdx cap begin q < n then 1 else 0

structure DRing (cap : Nat) (c₀ : Multiset α) (programs : List (List (Op Side α))) (n : Nat) (s : DSys α) : Prop where
  v : SInv (dfront cap) cap c₀ programs (rtick cap s.shared.ctr.begin n) s
  begin : s.shared.ctr.begin < cap
  le : n ≤ cap
  endd : s.shared.ctr.endd = (s.shared.ctr.begin + n) % cap

/-- The slot given to a push. -/
theorem ring_push {cap : Nat} {c : Ctr} {n : Nat} (hb : c.begin < cap) (hn : n < cap)
    (he : c.endd = (c.begin + n) % cap) (k : Side) :
    let r := position cap c true k
    r.1 < cap ∧ r.2.begin < cap ∧ r.2.size = c.size ∧ r.2.endd = (r.2.begin + (n + 1)) % cap ∧
    (∀ q, q < cap → rtick cap r.2.begin (n + 1) q = rtick cap c.begin n q + (if q = r.1 then 1 else 0)) := by
  have hpos : 0 < cap := by omega
  rw [wrap_eq _ _ _ hb (by omega)] at he
  have hel : c.endd < cap := by split at he <;> omega
  cases k with
  | back =>
    simp only [position, if_true]
    rw [fetchIncMod_eq _ _ hel]
    refine ⟨hel, hb, trivial, ?_, ?_⟩
    · show (if c.endd + 1 = cap then 0 else c.endd + 1) = (c.begin + (n + 1)) % cap
      rw [wrap_eq _ _ _ hb (by omega)]; split at he <;> split <;> split <;> omega
    · intro q hq
      show rtick cap c.begin (n + 1) q = rtick cap c.begin n q + (if q = c.endd then 1 else 0)
      unfold rtick ringIdx
      split at he <;> (by_cases h1 : c.begin ≤ q) <;> simp only [h1, if_true, if_false] <;>
        split <;> split <;> split <;> omega
  | front =>
    simp only [position, if_true]
    rw [fetchDecMod_eq _ _ hb]
    obtain ⟨p, hp⟩ : ∃ p, p = if c.begin = 0 then cap - 1 else c.begin - 1 := ⟨_, rfl⟩
    simp only [← hp]
    have hel' : p < cap := by split at hp <;> omega
    refine ⟨hel', hel', trivial, ?_, ?_⟩
    · show c.endd = (p + (n + 1)) % cap
      rw [wrap_eq _ _ _ hel' (by omega)]; split at he <;> split at hp <;> split <;> omega
    · intro q hq
      show rtick cap p (n + 1) q = rtick cap c.begin n q + (if q = p then 1 else 0)
      unfold rtick ringIdx
      split at hp <;> (by_cases h1 : c.begin ≤ q) <;> simp only [h1, if_true, if_false] <;> (by_cases h2 : p ≤ q) <;>
        simp only [h2, if_true, if_false] <;> split <;> split <;> split <;> omega

/-- The slot given to a pop. -/
theorem ring_pop {cap : Nat} {c : Ctr} {n : Nat} (hb : c.begin < cap) (hn : n + 1 ≤ cap)
    (he : c.endd = (c.begin + (n + 1)) % cap) (k : Side) :
    let r := position cap c false k
    r.1 < cap ∧ r.2.begin < cap ∧ r.2.size = c.size ∧ r.2.endd = (r.2.begin + n) % cap ∧
    (∀ q, q < cap → rtick cap r.2.begin n q = rtick cap c.begin (n + 1) q + (if q = r.1 then -1 else 0)) := by
  have hpos : 0 < cap := by omega
  rw [wrap_eq _ _ _ hb (by omega)] at he
  have hel : c.endd < cap := by split at he <;> omega
  cases k with
  | front =>
    simp only [position, Bool.false_eq_true, if_false]
    rw [fetchIncMod_eq _ _ hb]
    obtain ⟨p, hp⟩ : ∃ p, p = if c.begin + 1 = cap then 0 else c.begin + 1 := ⟨_, rfl⟩
    simp only [← hp]
    have hel' : p < cap := by split at hp <;> omega
    refine ⟨hb, hel', trivial, ?_, ?_⟩
    · show c.endd = (p + n) % cap
      rw [wrap_eq _ _ _ hel' (by omega)]; split at he <;> split at hp <;> split <;> omega
    · intro q hq
      show rtick cap p n q = rtick cap c.begin (n + 1) q + (if q = c.begin then -1 else 0)
      unfold rtick ringIdx
      split at hp <;> (by_cases h1 : c.begin ≤ q) <;> simp only [h1, if_true, if_false] <;> (by_cases h2 : p ≤ q) <;>
        simp only [h2, if_true, if_false] <;> split <;> split <;> split <;> omega
  | back =>
    simp only [position, Bool.false_eq_true, if_false]
    rw [fetchDecMod_eq _ _ hel]
    obtain ⟨p, hp⟩ : ∃ p, p = if c.endd = 0 then cap - 1 else c.endd - 1 := ⟨_, rfl⟩
    simp only [← hp]
    have hel' : p < cap := by split at hp <;> omega
    refine ⟨hel', hb, trivial, ?_, ?_⟩
    · show p = (c.begin + n) % cap
      rw [wrap_eq _ _ _ hb (by omega)]; split at he <;> split at hp <;> split <;> omega
    · intro q hq
      show rtick cap c.begin n q = rtick cap c.begin (n + 1) q + (if q = p then -1 else 0)
      unfold rtick ringIdx
      split at he <;> split at hp <;> (by_cases h1 : c.begin ≤ q) <;> simp only [h1, if_true, if_false] <;>
        split <;> split <;> split <;> omega

section
variable {cap : Nat} {c₀ : Multiset α} {programs : List (List (Op Side α))} {n : Nat} {s : DSys α}
  {i : Nat} {t : DThread α} {op : Op Side α} {rest : List (Op Side α)}

/-- A step that does not hand out a slot. -/
theorem dring_stay (h : DRing cap c₀ programs n s) (ht : s.threads[i]? = some t) (f : FPC) (hpc : t.pc = .front f)
    (htodo : t.todo = op :: rest) (c' : Ctr) (o : FOut FPC)
    (e : (dfront cap).step s.shared.ctr op.isPush op.kind f = (c', o)) (ho : ∀ p, o ≠ .go p)
    (h1 : c'.begin = s.shared.ctr.begin) (h2 : c'.endd = s.shared.ctr.endd) :
    DRing cap c₀ programs n ⟨(step (dfront cap) s.shared t).1, s.threads.set i (step (dfront cap) s.shared t).2⟩ := by
  have hc : (step (dfront cap) s.shared t).1.ctr = c' := by
    simp only [step, htodo, hpc, e]; split <;> rfl
  refine ⟨?_, ?_, h.le, ?_⟩
  · simp only [hc, h1]
    refine front_step h.v i t ht f hpc op rest htodo ?_
    rw [e]; cases o with
    | go p => exact absurd rfl (ho p)
    | _ => intro q _; rfl
  · simp only [hc, h1]; exact h.begin
  · simp only [hc, h1, h2]; exact h.endd

theorem dring_slot (h : DRing cap c₀ programs n s) (ht : s.threads[i]? = some t) (p : Nat) (sp : SPC α)
    (hpc : t.pc = .slot p sp) :
    DRing cap c₀ programs n ⟨(step (dfront cap) s.shared t).1, s.threads.set i (step (dfront cap) s.shared t).2⟩ := by
  have hc : (step (dfront cap) s.shared t).1.ctr = s.shared.ctr := by
    cases htodo : t.todo with
    | nil => simp only [step, htodo]
    | cons op rest => simp only [step, htodo, hpc]; split <;> rfl
  refine ⟨?_, ?_, h.le, ?_⟩ <;> simp only [hc]
  · exact slot_step h.v i t ht p sp hpc
  · exact h.begin
  · exact h.endd

theorem dring_push (h : DRing cap c₀ programs n s) (ht : s.threads[i]? = some t) (hpc : t.pc = .front .pos)
    (htodo : t.todo = op :: rest) (hp : op.isPush = true) (hn : n < cap) :
    DRing cap c₀ programs (n + 1)
      ⟨(step (dfront cap) s.shared t).1, s.threads.set i (step (dfront cap) s.shared t).2⟩ := by
  obtain ⟨h1, h2, h3, h4, h5⟩ := ring_push h.begin hn h.endd op.kind
  have e : (dfront cap).step s.shared.ctr op.isPush op.kind .pos =
    ((position cap s.shared.ctr true op.kind).2, .go (position cap s.shared.ctr true op.kind).1) := by rw [hp]; rfl
  have hc : (step (dfront cap) s.shared t).1.ctr = (position cap s.shared.ctr true op.kind).2 := by
    simp only [step, htodo, hpc, e]
  refine ⟨?_, ?_, by omega, ?_⟩
  · simp only [hc]
    refine front_step h.v i t ht .pos hpc op rest htodo ?_
    rw [e, hp]; exact ⟨h1, fun q hq => by simpa using h5 q hq⟩
  · simp only [hc]; exact h2
  · simp only [hc]; exact h4

theorem dring_pop (h : DRing cap c₀ programs (n + 1) s) (ht : s.threads[i]? = some t) (hpc : t.pc = .front .pos)
    (htodo : t.todo = op :: rest) (hp : op.isPush = false) :
    DRing cap c₀ programs n
      ⟨(step (dfront cap) s.shared t).1, s.threads.set i (step (dfront cap) s.shared t).2⟩ := by
  have hle := h.le
  obtain ⟨h1, h2, h3, h4, h5⟩ := ring_pop h.begin hle h.endd op.kind
  have e : (dfront cap).step s.shared.ctr op.isPush op.kind .pos =
    ((position cap s.shared.ctr false op.kind).2, .go (position cap s.shared.ctr false op.kind).1) := by rw [hp]; rfl
  have hc : (step (dfront cap) s.shared t).1.ctr = (position cap s.shared.ctr false op.kind).2 := by
    simp only [step, htodo, hpc, e]
  refine ⟨?_, ?_, by omega, ?_⟩
  · simp only [hc]
    refine front_step h.v i t ht .pos hpc op rest htodo ?_
    rw [e, hp]; exact ⟨h1, fun q hq => by simpa using h5 q hq⟩
  · simp only [hc]; exact h2
  · simp only [hc]; exact h4

end

theorem dring_init {d : Deq α} {l : List α} (h : Holds d l) (programs : List (List (Op Side α))) :
    DRing (cap d) (l : Multiset α) programs l.length (init (dfront (cap d)) d programs) := by
  refine ⟨?_, h.begin, h.len, h.endd⟩
  have hc : contents (cap d) d.slots.data = (l : Multiset α) := by
    rw [contents_eq]
    unfold liveIn
    refine Multiset.coe_eq_coe.2 ?_
    have h1 : (List.range' 0 (cap d - 0)).filterMap d.slots.data =
        ((List.range (cap d)).map (ringIdx (cap d) d.ctr.begin)).filterMap (fun i => l[i]?) := by
      rw [List.filterMap_map, ← List.range_eq_range', Nat.sub_zero]
      apply List.filterMap_congr
      intro q hq
      exact h.data q (List.mem_range.1 hq)
    rw [h1]
    refine ((ringIdx_perm h.begin).filterMap _).trans ?_
    rw [List.range_eq_range']
    have h2 := liveIn_split (fun i => l[i]?) 0 l.length (cap d) (by omega) h.len
    rw [liveIn_list l _ (le_refl _), liveIn_none _ l.length (cap d)
      (fun p hp _ => List.getElem?_eq_none hp)] at h2
    unfold liveIn at h2
    simp at h2
    rw [h2]
  rw [← hc]
  refine sinv_init d programs rfl h.err h.locks ?_ ?_
  · intro p hp
    rw [h.data p hp, h.occ p hp]
    by_cases hl : ringIdx (cap d) d.ctr.begin p < l.length
    · rw [List.getElem?_eq_getElem hl]; simp [hl]
    · rw [List.getElem?_eq_none (by omega)]; simp; omega
  · intro p hp
    rw [h.occ p hp]
    show rtick (cap d) d.ctr.begin l.length p = _
    unfold rtick
    by_cases hl : ringIdx (cap d) d.ctr.begin p < l.length <;> simp [hl]

/-! ### Quiet states -/

theorem dring_final {cap : Nat} {c₀ : Multiset α} {programs : List (List (Op Side α))} {n : Nat} {s : DSys α}
    (h : DRing cap c₀ programs n s) (hq : Quiet s) :
    ∃ l : List α, l.length = n ∧
      (∀ q, q < cap → s.shared.slots.data q = l[ringIdx cap s.shared.ctr.begin q]?) ∧
      (∀ q, q < cap → s.shared.slots.occ q = decide (ringIdx cap s.shared.ctr.begin q < n)) ∧
      (∀ q, q < cap → s.shared.slots.locks q = false) ∧
      c₀ + (pushedVals s : Multiset α) = (l : Multiset α) + (poppedVals s : Multiset α) := by
  have hb := h.begin
  have hn := h.le
  have hocc : ∀ q, q < cap → s.shared.slots.occ q = decide (ringIdx cap s.shared.ctr.begin q < n) := by
    intro q hq'
    have := quiet_occ h.v hq q hq'
    unfold rtick at this
    cases ho : s.shared.slots.occ q <;> rw [ho] at this <;> split at this <;> simp at this ⊢ <;> omega
  have hlive := fun q hq' => quiet_live h.v hq q hq'
  have hcons := quiet_cons h.v hq
  -- data in ring order
  obtain ⟨g, hg⟩ : ∃ g : Nat → Option α, ∀ i, g i = s.shared.slots.data ((s.shared.ctr.begin + i) % cap) :=
    ⟨_, fun _ => rfl⟩
  have hring : ∀ q, q < cap → (s.shared.ctr.begin + ringIdx cap s.shared.ctr.begin q) % cap = q := by
    intro q hq'
    have := ringIdx_lt hb hq'
    rw [wrap_eq _ _ _ hb (by omega)]
    unfold ringIdx
    by_cases h1 : s.shared.ctr.begin ≤ q
    · simp only [if_pos h1]; split <;> omega
    · simp only [if_neg h1]; split <;> omega
  have hgd : ∀ q, q < cap → s.shared.slots.data q = g (ringIdx cap s.shared.ctr.begin q) := by
    intro q hq'; rw [hg, hring q hq']
  have hidx : ∀ i, i < cap → ringIdx cap s.shared.ctr.begin ((s.shared.ctr.begin + i) % cap) = i := by
    intro i hi
    rw [wrap_eq _ _ _ hb (by omega)]; unfold ringIdx; split <;> split <;> omega
  have hgs : ∀ i, i < cap → (g i).isSome = decide (i < n) := by
    intro i hi
    have hlt : (s.shared.ctr.begin + i) % cap < cap := Nat.mod_lt _ (by omega)
    rw [hg, hlive _ hlt, hocc _ hlt, hidx i hi]
  have hsome : ∀ i, 0 ≤ i → i < n → (g i).isSome := by
    intro i _ hi; rw [hgs i (by omega)]; simpa using hi
  have hnone : ∀ i, n ≤ i → i < cap → g i = none := by
    intro i h1 h2
    have := hgs i h2
    rw [show decide (i < n) = false by simp; omega] at this
    simpa using this
  refine ⟨liveIn g 0 n, by rw [liveIn_length _ _ _ hsome]; omega, ?_, hocc, fun q hq' => quiet_locks h.v hq q hq', ?_⟩
  · intro q hq'
    rw [hgd q hq']
    by_cases hc : ringIdx cap s.shared.ctr.begin q < n
    · rw [liveIn_get _ _ _ hsome _ (by omega)]; simp
    · rw [List.getElem?_eq_none (by rw [liveIn_length _ _ _ hsome]; omega), hnone _ (by omega) (ringIdx_lt hb hq')]
  · rw [hcons]
    congr 1
    refine Multiset.coe_eq_coe.2 ?_
    have h1 : liveIn s.shared.slots.data 0 cap =
        ((List.range cap).map (ringIdx cap s.shared.ctr.begin)).filterMap g := by
      unfold liveIn
      rw [List.filterMap_map, ← List.range_eq_range', Nat.sub_zero]
      apply List.filterMap_congr
      intro q hq'
      exact hgd q (List.mem_range.1 hq')
    rw [h1]
    refine ((ringIdx_perm hb).filterMap _).trans ?_
    have h2 := liveIn_split g 0 n cap (by omega) hn
    rw [liveIn_none g n cap hnone, List.append_nil] at h2
    rw [← h2]
    unfold liveIn
    rw [List.range_eq_range', Nat.sub_zero]

theorem holds_final {cap' : Nat} {c₀ : Multiset α} {programs : List (List (Op Side α))} {n : Nat} {s : DSys α}
    (h : DRing cap' c₀ programs n s) (hq : Quiet s) (hs : s.shared.ctr.size = n) :
    ∃ l : List α, Holds s.shared l ∧ c₀ + (pushedVals s : Multiset α) = (l : Multiset α) + (poppedVals s : Multiset α) := by
  obtain ⟨l, h1, h2, h3, h4, h5⟩ := dring_final h hq
  have hc : cap s.shared = cap' := h.v.hcap
  have hb := h.begin
  have hle := h.le
  refine ⟨l, ⟨by omega, by omega, by omega, by omega, ?_, ?_, ?_, h.v.err, ?_⟩, h5⟩
  · rw [hc, h1]; exact h.endd
  · rw [hc]; exact h4
  · rw [hc, h1]; exact h3
  · rw [hc]; exact h2

/-! ### No boundary crossing -/

/-- Pushes (pops) of this thread that have not updated `_size` yet. -/
def remS (b : Bool) (t : DThread α) : Nat :=
  match t.pc with
  | .front .check | .front .size => t.todo.countP (fun op => op.isPush == b)
  | _ => t.todo.tail.countP (fun op => op.isPush == b)

/-- The thread is a push (pop) between its two counter updates. -/
def midN (b : Bool) (t : DThread α) : Nat :=
  match t.pc, t.todo with
  | .front .pos, op :: _ => if op.isPush = b then 1 else 0
  | _, _ => 0

structure RoomInv (cap : Nat) (c₀ : Multiset α) (programs : List (List (Op Side α))) (n : Nat) (s : DSys α) : Prop where
  r : DRing cap c₀ programs n s
  hi : n + (s.threads.map (midN true)).sum + (s.threads.map (remS true)).sum ≤ cap
  lo : (s.threads.map (midN false)).sum + (s.threads.map (remS false)).sum ≤ n
  sz : s.shared.ctr.size = (n : Int) + (s.threads.map (midN true)).sum - (s.threads.map (midN false)).sum
  ok : ∀ t ∈ s.threads, ∀ e ∈ t.done, e.2 ≠ Res.pushFailed ∧ e.2 ≠ Res.popFailed

theorem roomInv_step {cap : Nat} {c₀ : Multiset α} {programs : List (List (Op Side α))} (n : Nat)
    (s : DSys α) (i : Nat) (t : DThread α) (h : RoomInv cap c₀ programs n s) (ht : s.threads[i]? = some t) :
    ∃ n', RoomInv cap c₀ programs n'
      ⟨(step (dfront cap) s.shared t).1, s.threads.set i (step (dfront cap) s.shared t).2⟩ := by
  have hmem := List.mem_of_getElem? ht
  cases htodo : t.todo with
  | nil => exact ⟨n, by rw [done_step i t ht htodo]; exact h⟩
  | cons op rest =>
    have b1 := h.hi
    have b2 := h.lo
    have b3 := h.sz
    have key : ∀ (n' : Nat) (m' : Mem Ctr α) (t' : DThread α), step (dfront cap) s.shared t = (m', t') →
        DRing cap c₀ programs n' ⟨(step (dfront cap) s.shared t).1, s.threads.set i (step (dfront cap) s.shared t).2⟩ →
        n' + midN true t' + remS true t' + n ≤ n + midN true t + remS true t + n →
        midN false t' + remS false t' + n ≤ midN false t + remS false t + n' →
        m'.ctr.size - n' - midN true t' + midN false t' = s.shared.ctr.size - n - midN true t + midN false t →
        (∀ e ∈ t'.done, e ∈ t.done ∨ (e.2 ≠ Res.pushFailed ∧ e.2 ≠ Res.popFailed)) →
        ∃ n', RoomInv cap c₀ programs n'
          ⟨(step (dfront cap) s.shared t).1, s.threads.set i (step (dfront cap) s.shared t).2⟩ := by
      intro n' m' t' e hr h1 h2 h3 h4
      rw [e] at hr ⊢
      have a1 := sum_map_set (remS true) s.threads i t t' ht
      have a2 := sum_map_set (remS false) s.threads i t t' ht
      have a3 := sum_map_set (midN true) s.threads i t t' ht
      have a4 := sum_map_set (midN false) s.threads i t t' ht
      refine ⟨n', hr, ?_, ?_, ?_, ?_⟩
      · simp only; omega
      · simp only; omega
      · simp only; omega
      · intro x hx w he
        rcases mem_set_cases _ _ _ _ hx with rfl | ⟨j, -, hj⟩
        · rcases h4 w he with h5 | h5
          · exact h.ok t hmem w h5
          · exact h5
        · exact h.ok x (List.mem_of_getElem? hj) w he
    have r1 := le_sum_map (remS true) s.threads t hmem
    have r2 := le_sum_map (remS false) s.threads t hmem
    have r3 := le_sum_map (midN true) s.threads t hmem
    have r4 := le_sum_map (midN false) s.threads t hmem
    cases hpc : t.pc with
    | slot p sp =>
      have hr := dring_slot h.r ht p sp hpc
      obtain ⟨-, op', rest', e1, hfit⟩ := (h.r.v.shape t hmem).1 p sp hpc
      have hfit' : sp.fits op := by rw [htodo] at e1; simp at e1; rw [e1.1]; exact hfit
      cases hr' : (slotStep s.shared.slots op p sp).2 with
      | inl s' =>
        refine key n { s.shared with slots := (slotStep s.shared.slots op p sp).1 } { t with pc := .slot p s' } ?_ hr
          ?_ ?_ ?_ ?_
        · simp only [step, htodo, hpc, hr']
        · simp [remS, midN, hpc]
        · simp [remS, midN, hpc]
        · simp [midN, hpc]
        · intro e he; exact Or.inl he
      | inr r =>
        refine key n { s.shared with slots := (slotStep s.shared.slots op p sp).1 }
          { todo := rest, pc := .front (dfront cap).start, done := t.done ++ [(op, r)] } ?_ hr ?_ ?_ ?_ ?_
        · simp only [step, htodo, hpc, hr']
        · simp [remS, midN, hpc, htodo, dfront]
        · simp [remS, midN, hpc, htodo, dfront]
        · simp [midN, hpc, dfront]
        · intro e he
          simp only [List.mem_append, List.mem_singleton] at he
          rcases he with he | rfl
          · exact Or.inl he
          · right
            rcases slotStep_inr _ _ _ _ hfit' _ hr' with ⟨-, h'⟩ | ⟨-, v, h'⟩ <;> simp [h']
    | front f =>
      have c1 : ∀ b, (op :: rest).countP (fun op => op.isPush == b) =
          (if op.isPush = b then 1 else 0) + rest.countP (fun op => op.isPush == b) := by
        intro b; rw [List.countP_cons]; simp; omega
      have hle := h.r.le
      have hb0 := h.r.begin
      rcases dfront_cases cap s.shared.ctr op.isPush op.kind f with ⟨h1, e⟩ | ⟨h1, e, h2, h3⟩ | ⟨h1, hb, h2, e⟩ |
        ⟨h1, hb, h2, e⟩ | ⟨h1, hb, h2, e⟩ | ⟨h1, hb, h2, e⟩ | ⟨h1, e⟩
      · refine key n _ _ (step_cont _ _ htodo hpc e) (dring_stay h.r ht f hpc htodo _ _ e (by simp) rfl rfl)
          ?_ ?_ ?_ (fun _ hx => Or.inl hx) <;> simp [remS, midN, hpc, h1]
      · exfalso
        have q1 : remS true t = (op :: rest).countP (fun op => op.isPush == true) := by simp [remS, hpc, h1, htodo]
        have q2 : remS false t = (op :: rest).countP (fun op => op.isPush == false) := by simp [remS, hpc, h1, htodo]
        rw [c1] at q1 q2
        cases hb : op.isPush with
        | true => have := h2 hb; simp [hb] at q1 q2; omega
        | false => have := h3 hb; simp [hb] at q1 q2; omega
      · refine key n _ _ (step_cont _ _ htodo hpc e) (dring_stay h.r ht f hpc htodo _ _ e (by simp) rfl rfl)
          ?_ ?_ ?_ (fun _ hx => Or.inl hx) <;> simp [remS, midN, hpc, h1, htodo, hb] <;> omega
      · exfalso
        have q1 : remS true t = (op :: rest).countP (fun op => op.isPush == true) := by simp [remS, hpc, h1, htodo]
        rw [c1] at q1; simp [hb] at q1; omega
      · refine key n _ _ (step_cont _ _ htodo hpc e) (dring_stay h.r ht f hpc htodo _ _ e (by simp) rfl rfl)
          ?_ ?_ ?_ (fun _ hx => Or.inl hx) <;> simp [remS, midN, hpc, h1, htodo, hb] <;> omega
      · exfalso
        have q1 : remS false t = (op :: rest).countP (fun op => op.isPush == false) := by simp [remS, hpc, h1, htodo]
        rw [c1] at q1; simp [hb] at q1; omega
      · subst h1
        have hsz : ∀ b, (position cap s.shared.ctr b op.kind).2.size = s.shared.ctr.size := by
          intro b; unfold position; cases op.kind <;> cases b <;> rfl
        cases hb : op.isPush with
        | true =>
          have q1 : midN true t = 1 := by simp [midN, hpc, htodo, hb]
          refine key (n + 1) _ _ (step_go _ _ htodo hpc e) (dring_push h.r ht hpc htodo hb (by omega))
            ?_ ?_ ?_ (fun _ hx => Or.inl hx) <;> simp [remS, midN, hpc, htodo, hb, hsz] <;> omega
        | false =>
          have q1 : midN false t = 1 := by simp [midN, hpc, htodo, hb]
          obtain ⟨n0, rfl⟩ : ∃ n0, n = n0 + 1 := ⟨n - 1, by omega⟩
          refine key n0 _ _ (step_go _ _ htodo hpc e) (dring_pop h.r ht hpc htodo hb)
            ?_ ?_ ?_ (fun _ hx => Or.inl hx) <;> simp [remS, midN, hpc, htodo, hb, hsz] <;> omega

end Stdgpu.Deque
