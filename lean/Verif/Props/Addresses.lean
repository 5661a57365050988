import Verif.Proof.Locations
import Verif.Proof.FootprintU
import Verif.Props.Objects
import Verif.Props.Races
import Verif.Props.UnorderedConc
/-!
C87: concurrent operations on a container touch only the memory of this container.

`Props/Objects.lean` (C65) says which memory a container owns; here the shared variables that a step of the concurrent
models accesses are placed in that memory (`Spec.varRange`), and the theorems say that every access of every execution is
inside a live block of the container, that different variables do not overlap (bits share words, which C13 covers), and that
the variables listed are all that a step reads or writes.
-/
namespace Stdgpu.Props
open Stdgpu.Spec Stdgpu.Objects Stdgpu.Conc
open Stdgpu.Memory (Sys Block MemType AOp)
open Stdgpu.SlotConc (SLoc)
open Stdgpu.UnorderedConc (ULoc)
open Stdgpu.UnorderedConc.Lc (Dims linv_run)

/-- The variable exists in a container of the kind. -/
def VarOk : Kind → Var → Prop
  | .vector n _, .s x => x.Ok n ∧ x ≠ .begin_ ∧ x ≠ .end_
  | .deque n _, .s x => x.Ok n
  | .unordered bc ec _, .u x =>
    match x with
    | .val p | .off p | .lock p | .occ p => p < bc + ec
    | .count => True
    | .ex y => y.Ok ec ∧ y ≠ .begin_ ∧ y ≠ .end_
  | _, _ => False

theorem vec_ctr {α : Type} {t : SlotConc.Thread Unit Vector.FPC α} : ∀ x ∈ Vector.locs t, x ≠ .begin_ ∧ x ≠ .end_ := by
  obtain ⟨todo, pc, done⟩ := t
  intro x hx
  unfold Vector.locs at hx
  cases todo with
  | nil => cases hx
  | cons op rest =>
    cases pc with
    | front f =>
      cases op with
      | push k y => simp [SlotConc.slocs] at hx; simp [hx]
      | pop k =>
        simp only [SlotConc.slocs] at hx
        split at hx <;> simp at hx
        · rcases hx with rfl | rfl <;> simp
        · simp [hx]
    | slot p s =>
      simp only [SlotConc.slocs, List.mem_singleton] at hx
      subst hx
      cases s <;> simp [SlotConc.SPC.loc]

theorem walk_lt {n : Nat} {w : UnorderedConc.Walk} (h : UnorderedConc.Lc.Walk.Lt n w) (ec esz : Nat) :
    ∀ m, n ≤ m + ec → VarOk (.unordered m ec esz) (.u w.loc) := by
  intro m hm
  cases w <;> simp only [UnorderedConc.Lc.Walk.Lt] at h <;> simp only [UnorderedConc.Walk.loc, VarOk] <;> omega

theorem hop_lt' {n : Nat} {w : UnorderedConc.Hop} (h : UnorderedConc.Lc.Hop.Lt n w) (ec esz : Nat) :
    ∀ m, n ≤ m + ec → VarOk (.unordered m ec esz) (.u w.loc) := by
  intro m hm
  cases w <;> simp only [UnorderedConc.Lc.Hop.Lt] at h <;> simp only [UnorderedConc.Hop.loc, VarOk] <;> omega

theorem touches_ok {k : Kind} {x : Var} (hk : PosKind k) (h : Touches k x) : VarOk k x := by
  cases h with
  | @vector α n esz v l hh hn programs sched t ht x hx =>
    subst hn
    have hi := Vector.vinv_run hh programs sched
    refine ⟨SlotConc.slocs_ok (floc := fun _ _ _ => .size) hk.1 (fun _ _ _ => trivial) (fun p s e => ((hi.shape t ht).1 p s e).1) x hx, vec_ctr x hx⟩
  | @deque α n esz d l hh hn programs sched t ht x hx =>
    subst hn
    obtain ⟨tick, hi⟩ := (dinv_run hh programs sched).inv
    refine SlotConc.slocs_ok hk.1 ?_ (fun p s e => ((hi.shape t ht).1 p s e).1) x hx
    intro b side f
    cases f <;> cases side <;> trivial
  | @unordered K V P bc ec esz c hl hb hr programs sched hu t ht x hx =>
    obtain ⟨⟨chain, free, hrep⟩, e1, e2⟩ := UnorderedConc.preachable_rep hl hk.1 hb hr
    have hcap : Vector.cap c.excess = ec := by rw [hrep.excessCap, e1, e2]; omega
    obtain ⟨l1, l2, l3, l4, l5⟩ := linv_run hrep programs sched
    obtain ⟨hex, hc⟩ := l5 t ht
    have hbk : ∀ k, Unordered.bucket P c k < bc + ec := fun k => by
      have := Unordered.bucket_lt P c k hrep.bc_pos hrep.bc_lt
      omega
    have hexl : ∀ y ∈ (Vector.locs t.ex).map ULoc.ex, VarOk (.unordered bc ec esz) (.u y) := by
      intro y hy
      obtain ⟨z, hz, rfl⟩ := List.mem_map.1 hy
      exact ⟨SlotConc.slocs_ok (floc := fun _ _ _ => .size) hk.2.1 (fun _ _ _ => trivial) (fun p s e => hcap ▸ (hex.pc p s e).1) z hz, vec_ctr z hz⟩
    rw [e2] at hc
    obtain ⟨todo, cur, ex, done⟩ := t
    cases cur with
    | idle => cases hx
    | fnd k w =>
      simp only [UnorderedConc.locs, List.mem_singleton] at hx
      subst hx
      exact walk_lt hc ec esz bc (Nat.le_refl _)
    | ins v pc =>
      have hb' := hbk (P.keyOf v)
      cases pc <;> simp only [UnorderedConc.locs, UnorderedConc.IPC.locs, List.mem_singleton] at hx <;>
        simp only [UnorderedConc.Lc.CLt, UnorderedConc.Lc.ILt] at hc <;>
        first
        | exact hexl x hx
        | (subst hx
           first
           | exact walk_lt hc ec esz bc (Nat.le_refl _)
           | exact walk_lt hc.2 ec esz bc (Nat.le_refl _)
           | exact hop_lt' hc ec esz bc (Nat.le_refl _)
           | exact hop_lt' hc.2 ec esz bc (Nat.le_refl _)
           | trivial
           | exact hb'
           | exact hc
           | exact hc.1
           | exact hc.2
           | exact ⟨trivial, by simp, by simp⟩)
    | era k pc =>
      cases pc <;> simp only [UnorderedConc.locs, UnorderedConc.EPC.locs, List.mem_singleton] at hx <;>
        simp only [UnorderedConc.Lc.CLt, UnorderedConc.Lc.ELt] at hc <;>
        first
        | exact hexl x hx
        | (subst hx
           first
           | exact walk_lt hc ec esz bc (Nat.le_refl _)
           | exact walk_lt hc.2 ec esz bc (Nat.le_refl _)
           | exact walk_lt hc.2.2 ec esz bc (Nat.le_refl _)
           | exact hop_lt' hc.2 ec esz bc (Nat.le_refl _)
           | exact hop_lt' hc.2.2 ec esz bc (Nat.le_refl _)
           | trivial
           | exact hc
           | exact hc.1
           | exact hc.2)

/-! ### Placement -/

theorem elem_in {base n esz p : Nat} (h : p < n) : (elemRange base esz p).In (arrayBlock base n esz) := by
  have : (p + 1) * esz ≤ n * esz := Nat.mul_le_mul_right _ h
  have h' : p * esz + esz ≤ n * esz := by rw [Nat.add_mul] at this; omega
  simp only [Range.In, elemRange, arrayBlock]
  constructor
  · omega
  · have : ((p * esz + esz : Nat) : Int) ≤ ((n * esz : Nat) : Int) := by exact_mod_cast h'
    push_cast at this ⊢
    omega

theorem word_in {o : BitsetObj} {n p : Nat} (h : p < n) : (wordRange o p).In ⟨o.bits, bitBytes n, .device⟩ := by
  simp only [Range.In, wordRange, bitBytes]
  omega

theorem atomic_in (o : AtomicObj) : (atomicRange o).In ⟨o.value, 4, .device⟩ := by
  simp only [Range.In, atomicRange]
  omega

/-- Number of the block of a variable among the blocks of the container. -/
def fieldIx : Kind → Var → Nat
  | .vector _ _, .s x => match x with | .lock _ => 0 | .occ _ => 1 | .size => 2 | _ => 3
  | .deque _ _, .s x => match x with | .lock _ => 0 | .occ _ => 1 | .size => 2 | .begin_ => 3 | .end_ => 4 | .data _ => 5
  | .unordered _ _ _, .u x =>
    match x with
    | .occ _ => 0 | .count => 1 | .lock _ => 3 | .off _ => 5 | .val _ => 9
    | .ex (.lock _) => 2 | .ex (.occ _) => 6 | .ex .size => 7 | .ex _ => 8
  | _, _ => 0

theorem placed (isz : Nat) {k : Kind} {o : Obj} {x : Var} (hf : Fits k o) (h : VarOk k x) :
    ∃ r b, varRange isz k o x = some r ∧ (blocks isz k o)[fieldIx k x]? = some b ∧ r.In b ∧ b.ty = .device := by
  cases k <;> cases o <;> cases x <;> simp only [VarOk, Fits] at h hf
  · rename_i x
    cases x <;> simp only [SLoc.Ok] at h
    · exact ⟨_, _, rfl, rfl, elem_in h.1, rfl⟩
    · exact ⟨_, _, rfl, rfl, word_in h.1, rfl⟩
    · exact ⟨_, _, rfl, rfl, word_in h.1, rfl⟩
    · exact ⟨_, _, rfl, rfl, atomic_in _, rfl⟩
    · exact absurd rfl h.2.1
    · exact absurd rfl h.2.2
  · rename_i x
    cases x <;> simp only [SLoc.Ok] at h
    · exact ⟨_, _, rfl, rfl, elem_in h, rfl⟩
    · exact ⟨_, _, rfl, rfl, word_in h, rfl⟩
    · exact ⟨_, _, rfl, rfl, word_in h, rfl⟩
    · exact ⟨_, _, rfl, rfl, atomic_in _, rfl⟩
    · exact ⟨_, _, rfl, rfl, atomic_in _, rfl⟩
    · exact ⟨_, _, rfl, rfl, atomic_in _, rfl⟩
  · rename_i x
    cases x with
    | val p => exact ⟨_, _, rfl, rfl, elem_in h, rfl⟩
    | off p => exact ⟨_, _, rfl, rfl, elem_in h, rfl⟩
    | lock p => exact ⟨_, _, rfl, rfl, word_in h, rfl⟩
    | occ p => exact ⟨_, _, rfl, rfl, word_in h, rfl⟩
    | count => exact ⟨_, _, rfl, rfl, atomic_in _, rfl⟩
    | ex y =>
      cases y <;> simp only [SLoc.Ok] at h
      · exact ⟨_, _, rfl, rfl, elem_in h.1, rfl⟩
      · exact ⟨_, _, rfl, rfl, word_in h.1, rfl⟩
      · exact ⟨_, _, rfl, rfl, word_in h.1, rfl⟩
      · exact ⟨_, _, rfl, rfl, atomic_in _, rfl⟩
      · exact absurd rfl h.2.1
      · exact absurd rfl h.2.2

theorem In.apart {r r' : Range} {b b' : Block} (h : r.In b) (h' : r'.In b') (ha : Apart b b') : r.Apart r' := by
  simp only [Range.In, Apart, Range.Apart] at *
  omega

theorem elem_apart {base esz p q : Nat} (h : p ≠ q) : (elemRange base esz p).Apart (elemRange base esz q) := by
  simp only [Range.Apart, elemRange]
  rcases Nat.lt_or_gt_of_ne h with h | h
  · left
    have := Nat.mul_le_mul_right esz (Nat.succ_le_of_lt h)
    rw [Nat.succ_mul] at this
    omega
  · right
    have := Nat.mul_le_mul_right esz (Nat.succ_le_of_lt h)
    rw [Nat.succ_mul] at this
    omega

theorem word_apart {o : BitsetObj} {p q : Nat} : (wordRange o p).Apart (wordRange o q) ∨ p / 32 = q / 32 := by
  simp only [Range.Apart, wordRange]
  omega

theorem word_or (o : BitsetObj) {p q : Nat} {x y : Var} (_h : x ≠ y) (hs : SameWord x y ↔ p / 32 = q / 32 := by rfl) :
    (wordRange o p).Apart (wordRange o q) ∨ (wordRange o p = wordRange o q ∧ SameWord x y) := by
  rcases word_apart (o := o) (p := p) (q := q) with h | h
  · exact .inl h
  · exact .inr ⟨by simp only [wordRange, h], hs.2 h⟩

/-- Variables in the same block. -/
theorem same_field {isz : Nat} {k : Kind} {o : Obj} {x y : Var} {r r' : Range} (hxy : x ≠ y) (hx : VarOk k x) (hy : VarOk k y)
    (h : fieldIx k x = fieldIx k y) (hr : varRange isz k o x = some r) (hr' : varRange isz k o y = some r') :
    r.Apart r' ∨ (r = r' ∧ SameWord x y) := by
  cases k <;> cases x <;> cases y <;> simp only [VarOk] at hx hy
  all_goals cases o <;> simp only [varRange, reduceCtorEq] at hr hr'
  all_goals rename_i x y o
  · cases x <;> cases y <;> simp only [fieldIx] at h <;> first | exact absurd h (by decide) | skip
    all_goals simp [vectorRange] at hr hr'
    all_goals subst hr
    all_goals subst hr'
    · exact .inl (elem_apart fun e => hxy (by rw [e]))
    · exact word_or _ hxy
    · exact word_or _ hxy
    · exact absurd rfl hxy
  · cases x <;> cases y <;> simp only [fieldIx] at h <;> first | exact absurd h (by decide) | skip
    all_goals simp [dequeRange] at hr hr'
    all_goals subst hr
    all_goals subst hr'
    · exact .inl (elem_apart fun e => hxy (by rw [e]))
    · exact word_or _ hxy
    · exact word_or _ hxy
    · exact absurd rfl hxy
    · exact absurd rfl hxy
    · exact absurd rfl hxy
  · cases x with
    | ex x =>
      cases y with
      | ex y =>
        cases x <;> cases y <;> simp only [fieldIx] at h <;> first | exact absurd h (by decide) | skip
        all_goals simp [unorderedRange, vectorRange] at hr hr'
        all_goals subst hr
        all_goals subst hr'
        · exact .inl (elem_apart fun e => hxy (by rw [e]))
        · exact word_or _ hxy
        · exact word_or _ hxy
        · exact absurd rfl hxy
      | _ => cases x <;> simp only [fieldIx] at h <;> exact absurd h (by decide)
    | _ =>
      cases y with
      | ex y => cases y <;> simp only [fieldIx] at h <;> exact absurd h (by decide)
      | _ =>
        simp only [fieldIx] at h
        first
        | exact absurd h (by decide)
        | (simp [unorderedRange] at hr hr'
           subst hr
           subst hr'
           first
           | exact .inl (elem_apart fun e => hxy (by rw [e]))
           | exact word_or _ hxy
           | exact absurd rfl hxy)

/-! ### The theorems -/

theorem track_created {ops : List Op} : ∀ e ∈ track ops, Op.create e.1 ∈ ops := by
  have key : ∀ (ops : List Op) (l : List (Kind × Bool)), ∀ e ∈ ops.foldl trackStep l, (∃ e' ∈ l, e'.1 = e.1) ∨ Op.create e.1 ∈ ops := by
    intro ops
    induction ops with
    | nil => intro l e he; exact .inl ⟨e, he, rfl⟩
    | cons op ops ih =>
      intro l e he
      rcases ih _ e he with ⟨e', h1, h2⟩ | h
      · cases op with
        | create k =>
          simp only [trackStep, List.mem_append, List.mem_singleton] at h1
          rcases h1 with h1 | rfl
          · exact .inl ⟨e', h1, h2⟩
          · right
            simp [← h2]
        | destroy i =>
          simp only [trackStep] at h1
          obtain ⟨j, hj⟩ := List.getElem?_of_mem h1
          rw [List.getElem?_modify] at hj
          cases hl : l[j]? with
          | none => simp [hl] at hj
          | some e0 =>
            simp only [hl, Option.map_eq_map, Option.map_some, Option.some.injEq] at hj
            refine .inl ⟨e0, List.mem_of_getElem? hl, ?_⟩
            rw [← h2, ← hj]
            split <;> rfl
      · exact .inr (List.mem_cons_of_mem _ h)
  intro e he
  rcases key ops [] e he with ⟨e', h, -⟩ | h
  · cases h
  · exact h

/-- C87. Memory safety: whatever objects the program has created and destroyed before, every access of every thread that
works on an existing vector, deque or unordered container is inside one of the live blocks of this container. -/
theorem C87_in_bounds (E : Env) (hE : GoodEnv E) (ops0 : List AOp) (s0 : Sys) (h0 : AfterCalls ops0 s0)
    (ha : ∀ op ∈ ops0, AllocatorCall op) (ops : List Op) (hp : Proper ops) :
    ∃ objs s, execAll E ([], s0) ops = .ok (objs, s) ∧
      ∀ (i : Nat) (k : Kind) (o : Obj), (track ops)[i]? = some (k, true) → objs[i]? = some o → ∀ x, Touches k x →
        ∃ r, varRange E.isz k o x = some r ∧
          ∃ b ∈ blocks E.isz k o, Live s .device b.addr b.bytes ∧ r.In b := by
  obtain ⟨⟨objs, s⟩, e, h⟩ := objects_run hE h0 ha hp
  refine ⟨objs, s, e, ?_⟩
  intro i k o hi ho x hx
  have hk := hp.1 k (track_created _ (List.mem_of_getElem? hi))
  obtain ⟨r, b, h1, h2, h3, h4⟩ := placed E.isz (h.fits i _ o hi ho).1 (touches_ok hk hx)
  have hb := List.mem_of_getElem? h2
  refine ⟨r, h1, b, hb, ?_, h3⟩
  have hm : b ∈ s.heap := h.heap.mem_iff.2 (List.mem_append_left _ (owned_mem E.isz _ _ i k o hi ho b hb))
  rw [← h4]
  exact hm

/-- C87. Isolation: threads that work on different containers never access the same byte, and no thread accesses memory of
the user. -/
theorem C87_isolated (E : Env) (hE : GoodEnv E) (ops0 : List AOp) (s0 : Sys) (h0 : AfterCalls ops0 s0)
    (ha : ∀ op ∈ ops0, AllocatorCall op) (ops : List Op) (hp : Proper ops) :
    ∃ objs s, execAll E ([], s0) ops = .ok (objs, s) ∧
      ∀ (i : Nat) (k : Kind) (o : Obj), (track ops)[i]? = some (k, true) → objs[i]? = some o →
        ∀ x r, Touches k x → varRange E.isz k o x = some r →
        (∀ (j : Nat) (k' : Kind) (o' : Obj), (track ops)[j]? = some (k', true) → objs[j]? = some o' → i ≠ j →
          ∀ y r', Touches k' y → varRange E.isz k' o' y = some r' → r.Apart r') ∧
        ∀ b ∈ s0.heap, ∀ a, r.addr ≤ a → a < r.addr + r.len → ¬ InBlk b a := by
  obtain ⟨⟨objs, s⟩, e, h⟩ := objects_run hE h0 ha hp
  refine ⟨objs, s, e, ?_⟩
  have hpw := Objects.Inv.apart h.inv h.heap
  intro i k o hi ho x r hx hr
  have hk := hp.1 k (track_created _ (List.mem_of_getElem? hi))
  obtain ⟨r1, b, h1, h2, h3, h4⟩ := placed E.isz (h.fits i _ o hi ho).1 (touches_ok hk hx)
  rw [hr] at h1
  cases h1
  have hb := List.mem_of_getElem? h2
  constructor
  · intro j k' o' hj ho' hij y r' hy hr'
    have hk' := hp.1 k' (track_created _ (List.mem_of_getElem? hj))
    obtain ⟨r2, b', g1, g2, g3, g4⟩ := placed E.isz (h.fits j _ o' hj ho').1 (touches_ok hk' hy)
    rw [hr'] at g1
    cases g1
    have hb' := List.mem_of_getElem? g2
    have hrem := owned_remove E.isz _ _ i k o o hi ho
    have hmem : b' ∈ ownedBlocks E.isz ((track ops).modify i (fun e => (e.1, false))) (objs.set i o) := by
      refine owned_mem E.isz _ _ j k' o' ?_ ?_ b' hb'
      · rw [List.getElem?_modify, hj]; simp [hij]
      · rw [List.getElem?_set_ne hij]; exact ho'
    have hpw' := Objects.Inv.apart h.inv (h.heap.trans (hrem.append_right _))
    rw [List.append_assoc, List.pairwise_append] at hpw'
    exact In.apart h3 g3 (hpw'.2.2 b hb b' (List.mem_append_left _ hmem))
  · intro c hc a ha1 ha2 hin
    rw [List.pairwise_append] at hpw
    have := hpw.2.2 b (owned_mem E.isz _ _ i k o hi ho b hb) c hc
    simp only [Apart, Range.In, InBlk] at this h3 hin
    omega

/-- C87. Different variables of a container do not overlap, except for lock bits and for occupied bits that share a word
(which only whole-word atomic operations access, C13). -/
theorem C87_variables_apart (E : Env) (hE : GoodEnv E) (ops0 : List AOp) (s0 : Sys) (h0 : AfterCalls ops0 s0)
    (ha : ∀ op ∈ ops0, AllocatorCall op) (ops : List Op) (hp : Proper ops) :
    ∃ objs s, execAll E ([], s0) ops = .ok (objs, s) ∧
      ∀ (i : Nat) (k : Kind) (o : Obj), (track ops)[i]? = some (k, true) → objs[i]? = some o →
        ∀ x y r r', Touches k x → Touches k y → x ≠ y → varRange E.isz k o x = some r → varRange E.isz k o y = some r' →
          r.Apart r' ∨ (r = r' ∧ SameWord x y) := by
  obtain ⟨⟨objs, s⟩, e, h⟩ := objects_run hE h0 ha hp
  refine ⟨objs, s, e, ?_⟩
  intro i k o hi ho x y r r' hx hy hxy hr hr'
  have hk := hp.1 k (track_created _ (List.mem_of_getElem? hi))
  have hf := (h.fits i _ o hi ho).1
  have ox := touches_ok hk hx
  have oy := touches_ok hk hy
  by_cases hix : fieldIx k x = fieldIx k y
  · exact same_field hxy ox oy hix hr hr'
  · left
    obtain ⟨r1, b, h1, h2, h3, -⟩ := placed E.isz hf ox
    obtain ⟨r2, b', g1, g2, g3, -⟩ := placed E.isz hf oy
    rw [hr] at h1
    rw [hr'] at g1
    cases h1
    cases g1
    have hpw := Objects.Inv.apart h.inv (h.heap.trans ((owned_remove E.isz _ _ i k o o hi ho).append_right _))
    rw [List.append_assoc, List.pairwise_append] at hpw
    have hpb := hpw.1
    rw [List.pairwise_iff_getElem] at hpb
    obtain ⟨l1, e1⟩ := List.getElem?_eq_some_iff.1 h2
    obtain ⟨l2, e2⟩ := List.getElem?_eq_some_iff.1 g2
    rcases Nat.lt_or_gt_of_ne hix with hlt | hlt
    · have := hpb _ _ l1 l2 hlt
      rw [e1, e2] at this
      exact In.apart h3 g3 this
    · have := hpb _ _ l2 l1 hlt
      rw [e1, e2] at this
      rcases In.apart g3 h3 this with q | q
      · exact .inr q
      · exact .inl q

/-! ### Footprints -/

/-- C87. A step on a vector reads and writes only the listed variables: its effect on the thread and on these variables
depends on them alone, and all other variables keep their values. -/
theorem C87_vector_footprint {α : Type} (n : Nat) (m m' : Vector.Vec α) (t : SlotConc.Thread Unit Vector.FPC α)
    (hc : m.slots.cap = m'.slots.cap) (h : ∀ x ∈ Vector.locs t, SameV m m' x) :
    (SlotConc.step (Vector.vfront n) m t).2 = (SlotConc.step (Vector.vfront n) m' t).2 ∧
    (∀ x ∈ Vector.locs t, SameV (SlotConc.step (Vector.vfront n) m t).1 (SlotConc.step (Vector.vfront n) m' t).1 x) ∧
    ∀ x, x ∉ Vector.locs t → SameV (SlotConc.step (Vector.vfront n) m t).1 m x := by
  have key := SlotConc.step_foot (start := Vector.FPC.first) (SlotConc.vfront_ok n) hc
    (fun x hx => SlotConc.same_vec.1 (h x hx))
  exact ⟨key.1, fun x hx => SlotConc.same_vec.2 (key.2 x hx),
    fun x hx => SlotConc.same_vec.2 (SlotConc.step_write (start := Vector.FPC.first) (SlotConc.vfront_ok n) hx)⟩

/-- C87. The same for a deque. -/
theorem C87_deque_footprint {α : Type} (n : Nat) (m m' : Deque.Deq α) (t : SlotConc.Thread Deque.Side Deque.FPC α)
    (hc : m.slots.cap = m'.slots.cap) (h : ∀ x ∈ Deque.locs t, SameD m m' x) :
    (SlotConc.step (Deque.dfront n) m t).2 = (SlotConc.step (Deque.dfront n) m' t).2 ∧
    (∀ x ∈ Deque.locs t, SameD (SlotConc.step (Deque.dfront n) m t).1 (SlotConc.step (Deque.dfront n) m' t).1 x) ∧
    ∀ x, x ∉ Deque.locs t → SameD (SlotConc.step (Deque.dfront n) m t).1 m x := by
  have key := SlotConc.step_foot (start := Deque.FPC.first) (SlotConc.dfront_ok n) hc
    (fun x hx => SlotConc.same_deq.1 (h x hx))
  exact ⟨key.1, fun x hx => SlotConc.same_deq.2 (key.2 x hx),
    fun x hx => SlotConc.same_deq.2 (SlotConc.step_write (start := Deque.FPC.first) (SlotConc.dfront_ok n) hx)⟩

/-- C87. The same for an unordered container. -/
theorem C87_unordered_footprint {K V : Type} (P : Unordered.Params K V) (m m' : UnorderedConc.Shared V)
    (t : UnorderedConc.Thread K V) (hb : m.tab.bc = m'.tab.bc) (ht : m.tab.total = m'.tab.total)
    (hc : Vector.cap m.tab.excess = Vector.cap m'.tab.excess)
    (h : ∀ x ∈ UnorderedConc.locs P m.tab t, SameU m.tab m'.tab x) :
    (UnorderedConc.step P m t).2 = (UnorderedConc.step P m' t).2 ∧
    (∀ x ∈ UnorderedConc.locs P m.tab t, SameU (UnorderedConc.step P m t).1.tab (UnorderedConc.step P m' t).1.tab x) ∧
    ∀ x, x ∉ UnorderedConc.locs P m.tab t → SameU (UnorderedConc.step P m t).1.tab m.tab x :=
  UnorderedConc.Lc.step_foot ⟨ht, hb, hc⟩ h

/-! ### Containers without memory -/

/-- A default-constructed vector, or one that was destroyed: vector.cuh:140, 587. -/
def nullVector : VectorObj := ⟨⟨⟨0, 0⟩⟩, ⟨0, 0⟩, ⟨0⟩, 0⟩

/-- A default-constructed unordered container: impl/unordered_base.cuh:526-540. -/
def nullUnordered : UnorderedObj := ⟨0, ⟨0, 0⟩, ⟨0⟩, nullVector, ⟨⟨0, 0⟩⟩, ⟨0⟩, 0, 0, 0⟩

/-- The bound on the capacity is needed: a vector without memory is empty, and still the first thing that `pop_back` does on
it is to read the element at the null pointer (impl/vector_detail.cuh:245, before the check in 248). -/
theorem C87_counterexample_null_vector (esz : Nat) :
    Vector.Holds (Vector.create 0 : Vector.Vec Nat) [] ∧
    (∃ t ∈ (vrun (Vector.create 0 : Vector.Vec Nat) [[.pop ()]] []).threads, SLoc.data 0 ∈ Vector.locs t) ∧
    vectorRange esz nullVector (.data 0) = some ⟨0, esz⟩ := by
  refine ⟨Vector.create_holds 0, ⟨_, List.mem_singleton.2 rfl, ?_⟩, by simp [vectorRange, elemRange, nullVector]⟩
  simp [Vector.locs, SlotConc.slocs, Vector.FPC.first, Vector.vfront]

/-- The same for an unordered container without memory: looking up any key (also in `contains`, `count` and `erase`) reads
an occupied bit and then an offset at the null pointer (impl/unordered_base_detail.cuh:655-682). -/
theorem C87_counterexample_null_unordered (isz esz : Nat) :
    ∃ t1 ∈ (uexec exP (Unordered.create 0 0) [[.find 7]] [0]).threads,
    ∃ t2 ∈ (uexec exP (Unordered.create 0 0) [[.find 7]] [0, 0]).threads,
      ULoc.occ 0 ∈ UnorderedConc.locs exP (Unordered.create 0 0) t1 ∧
      ULoc.off 0 ∈ UnorderedConc.locs exP (Unordered.create 0 0) t2 ∧
      unorderedRange isz esz nullUnordered (.occ 0) = some ⟨0, 4⟩ ∧
      unorderedRange isz esz nullUnordered (.off 0) = some ⟨0, isz⟩ := by
  refine ⟨_, List.mem_singleton.2 rfl, _, List.mem_singleton.2 rfl, ?_, ?_, ?_, ?_⟩
  · decide +kernel
  · decide +kernel
  · simp [unorderedRange, wordRange, nullUnordered]
  · simp [unorderedRange, elemRange, nullUnordered]

/-! ### Examples -/

theorem any_thread {τ : Type} {ι : Type} [DecidableEq ι] {l : List τ} {f : τ → List ι} {x : ι}
    (h : l.any (fun t => decide (x ∈ f t)) = true) : ∃ t ∈ l, x ∈ f t := by
  simpa using h

/-- Two pushes to an empty vector: the second thread is about to construct its element in slot 1 while the first one, which
has got slot 0, is about to lock it. -/
theorem exTouchV : Touches (.vector 3 8) (.s (.data 1)) ∧ Touches (.vector 3 8) (.s (.lock 0)) := by
  constructor
  · obtain ⟨t, ht, hx⟩ := any_thread (l := (vrun (Vector.create 3 : Vector.Vec Nat)
      [[.push () 7], [.push () 8]] [0, 0, 1, 1, 1, 1]).threads) (f := Vector.locs) (x := .data 1) (by decide +kernel)
    exact .vector (Vector.create_holds 3) rfl _ _ t ht _ hx
  · obtain ⟨t, ht, hx⟩ := any_thread (l := (vrun (Vector.create 3 : Vector.Vec Nat)
      [[.push () 7], [.push () 8]] [0, 0, 1, 1, 1, 1]).threads) (f := Vector.locs) (x := .lock 0) (by decide +kernel)
    exact .vector (Vector.create_holds 3) rfl _ _ t ht _ hx

/-- A push to the front of an empty deque takes the last slot. -/
theorem exTouchD : Touches (.deque 3 4) (.s (.data 2)) := by
  obtain ⟨t, ht, hx⟩ := any_thread (l := (drun (Deque.create 3 : Deque.Deq Nat) [[.push .front 7]] [0, 0, 0, 0, 0]).threads)
    (f := Deque.locs) (x := .data 2) (by decide +kernel)
  exact .deque (Deque.create_holds 3 (by decide)) rfl _ _ t ht _ hx

/-- An erasure that gives a position back to the free list. -/
theorem exTouchU : Touches (.unordered 1 2 12) (.u (.ex (.data 1))) ∧ Touches (.unordered 1 2 12) (.u (.off 0)) := by
  constructor
  · obtain ⟨t, ht, hx⟩ := any_thread (l := (uexec exP (exTab exP 1 2 [.insert (4, 1), .insert (5, 2)])
      [[.erase 5]] (List.replicate 28 0)).threads)
      (f := UnorderedConc.locs exP (exTab exP 1 2 [.insert (4, 1), .insert (5, 2)])) (x := .ex (.data 1)) (by decide +kernel)
    exact .unordered exP_laws (by decide) (exTab_reachable _ _ _ _) _ _ (by decide +kernel) t ht _ hx
  · obtain ⟨t, ht, hx⟩ := any_thread (l := (uexec exP (exTab exP 1 2 [.insert (4, 1), .insert (5, 2)])
      [[.erase 5]] (List.replicate 3 0)).threads)
      (f := UnorderedConc.locs exP (exTab exP 1 2 [.insert (4, 1), .insert (5, 2)])) (x := .off 0) (by decide +kernel)
    exact .unordered exP_laws (by decide) (exTab_reachable _ _ _ _) _ _ (by decide +kernel) t ht _ hx

/-- A program whose containers are used as in the examples. -/
def exUse : List Op := [.create (.vector 3 8), .create (.deque 3 4), .create (.unordered 1 2 12)]

theorem exUse_proper : Proper exUse := by
  constructor
  · intro k hk
    simp [exUse] at hk
    rcases hk with rfl | rfl | rfl <;> simp [PosKind]
  · intro pre i post h e he hu
    have : Op.destroy i ∈ exUse := by rw [h]; simp
    simp [exUse] at this

example : AfterCalls exOps (stateAfter exOps) ∧ (∀ op ∈ exOps, AllocatorCall op) ∧ GoodEnv exEnv ∧ Proper exUse ∧
    track exUse = [(.vector 3 8, true), (.deque 3 4, true), (.unordered 1 2 12, true)] ∧
    Touches (.vector 3 8) (.s (.data 1)) ∧ Touches (.deque 3 4) (.s (.data 2)) ∧ Touches (.unordered 1 2 12) (.u (.off 0)) :=
  ⟨stateAfter_after (by decide +kernel), by simp [exOps, AllocatorCall], exEnv_good, exUse_proper, rfl, exTouchV.1, exTouchD,
    exTouchU.2⟩

end Stdgpu.Props
