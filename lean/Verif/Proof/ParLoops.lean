import Verif.Model.ParLoops
import Verif.Proof.PackedUnordered
import Verif.Props.Algorithm
import Verif.Proof.Vector
import Verif.Proof.Deque
/-! Proofs about parallel loops of the containers (C83). -/
namespace Stdgpu.ParLoops
open Stdgpu.Algorithm Stdgpu.Packed Stdgpu.Spec Stdgpu.Props
open Stdgpu.SlotConc (upd Slots)
open Stdgpu.Bitset (Bitset WF)

variable {w : Nat} {α V M R : Type}

theorem parLoop_some {n : Int} {body : Nat → Body M R} {mem : M} {r : R} {sched : List Nat} {m : M}
    (h : parLoop n body mem r sched = some m) :
    (∀ i, i < n.toNat → (forEachIndex n body mem r sched).pc i = (body i).length) ∧
    m = (forEachIndex n body mem r sched).mem := by
  unfold parLoop at h
  split at h
  · next hc =>
    refine ⟨fun i hi => ?_, (Option.some.inj h).symm⟩
    have := List.all_eq_true.1 hc i (List.mem_range.2 hi)
    simpa using this
  · cases h

theorem parLoop_of_complete {n : Int} {body : Nat → Body M R} {mem : M} {r : R} {sched : List Nat}
    (h : Complete n body (forEachIndex n body mem r sched)) :
    parLoop n body mem r sched = some (forEachIndex n body mem r sched).mem := by
  unfold parLoop
  rw [if_pos]
  rw [List.all_eq_true]
  intro i hi
  rw [h i (List.mem_range.1 hi)]
  simp

/-- Some schedule finishes the loop. -/
theorem parLoop_exists (n : Int) (body : Nat → Body M R) (mem : M) (r : R) : ∃ sched m, parLoop n body mem r sched = some m := by
  obtain ⟨sched, h⟩ := C45_loop_completes n body mem r []
  exact ⟨_, _, parLoop_of_complete h⟩

/-- `loop_inv` with the new registers and counters given by their values. -/
theorem loop_inv' {n : Nat} {body : Nat → Body M R} (I : LoopState M R → Prop)
    (hstep : ∀ (s : LoopState M R) i f (reg' : Nat → R) (pc' : Nat → Nat), I s → i < n → (body i)[s.pc i]? = some f →
      reg' i = (f s.mem (s.reg i)).2 → (∀ j, j ≠ i → reg' j = s.reg j) → pc' i = s.pc i + 1 → (∀ j, j ≠ i → pc' j = s.pc j) →
      I ⟨(f s.mem (s.reg i)).1, reg', pc'⟩) (sched : List Nat) (s : LoopState M R) (h : I s) : I (loopRun n body s sched) := by
  refine loop_inv I (fun s i f hs hi hf => hstep s i f _ _ hs hi hf ?_ ?_ ?_ ?_) sched s h
  · exact if_pos rfl
  · intro j hj; exact if_neg hj
  · exact if_pos rfl
  · intro j hj; exact if_neg hj

/-! ### Words -/

theorem fillWords_eq (b : Bitset w) (hl : b.blocks.length = Bitset.numberBitBlocks w b.size) (x : BitVec w) (sched : List Nat)
    (b' : Bitset w) (h : parLoop (Bitset.numberBitBlocks w b.size) (fillWordBody x) b () sched = some b') :
    b' = { b with blocks := b.blocks.map (fun _ => x) } := by
  obtain ⟨hc, rfl⟩ := parLoop_some h
  have hI := loop_inv' (n := (Bitset.numberBitBlocks w b.size : Int).toNat) (body := fillWordBody x)
    (fun s => s.mem.size = b.size ∧ s.mem.blocks.length = b.blocks.length ∧
      ∀ i : Nat, (0 < s.pc i → s.mem.blocks[i]? = b.blocks[i]?.map (fun _ => x)) ∧
        (s.pc i = 0 → s.mem.blocks[i]? = b.blocks[i]?)) (by
      rintro s i f reg' pc' ⟨h1, h2, h3⟩ hi hf - - hpi hpj
      obtain ⟨hlen, hf⟩ := List.getElem?_eq_some_iff.1 hf
      simp only [fillWordBody, List.length_singleton] at hlen
      have hp : s.pc i = 0 := by omega
      simp only [fillWordBody, hp, List.getElem_cons_zero] at hf
      subst hf
      refine ⟨h1, by simpa using h2, fun j => ?_⟩
      dsimp only
      rw [List.getElem?_set]
      by_cases hj : i = j
      · subst hj
        have hlt : i < b.blocks.length := by omega
        rw [if_pos rfl, if_pos (by omega), List.getElem?_eq_getElem hlt]
        exact ⟨fun _ => rfl, fun h0 => by omega⟩
      · rw [if_neg hj, hpj j (Ne.symm hj)]
        exact h3 j) sched (loopInit b ()) ⟨rfl, rfl, fun i => ⟨fun h0 => by simp [loopInit] at h0, fun _ => rfl⟩⟩
  obtain ⟨h1, h2, h3⟩ := hI
  generalize hs : forEachIndex (Bitset.numberBitBlocks w b.size : Int) (fillWordBody x) b () sched = s at *
  have hs' : loopRun (Bitset.numberBitBlocks w b.size : Int).toNat (fillWordBody x) (loopInit b ()) sched = s := hs
  rw [hs'] at h1 h2 h3
  have hb : s.mem.blocks = b.blocks.map (fun _ => x) := by
    apply List.ext_getElem?
    intro i
    rw [List.getElem?_map]
    by_cases hi : i < b.blocks.length
    · refine (h3 i).1 ?_
      rw [hc i (by omega)]
      simp [fillWordBody]
    · rw [List.getElem?_eq_none (by omega), List.getElem?_eq_none (by omega)]; simp
  rcases hm : s.mem with ⟨bl, sz⟩
  rw [hm] at hb h1
  simp only at hb h1
  rw [hb, h1]

theorem flipWords_eq (b : Bitset w) (hl : b.blocks.length = Bitset.numberBitBlocks w b.size) (sched : List Nat)
    (b' : Bitset w) (h : flipWords b sched = some b') : b' = Bitset.flipAll b := by
  obtain ⟨hc, rfl⟩ := parLoop_some h
  have hI := loop_inv' (n := (Bitset.numberBitBlocks w b.size : Int).toNat) (body := flipWordBody (w := w))
    (fun s => s.mem.size = b.size ∧ s.mem.blocks.length = b.blocks.length ∧ ∀ i : Nat,
      (s.pc i = 1 → s.reg i = b.blocks[i]?) ∧ (1 < s.pc i → s.mem.blocks[i]? = b.blocks[i]?.map (fun x => ~~~x)) ∧
      (s.pc i ≤ 1 → s.mem.blocks[i]? = b.blocks[i]?)) (by
      rintro s i f reg' pc' ⟨h1, h2, h3⟩ hi hf hri hrj hpi hpj
      obtain ⟨hlen, hf⟩ := List.getElem?_eq_some_iff.1 hf
      simp only [flipWordBody, List.length_cons, List.length_nil] at hlen
      rcases (by omega : s.pc i = 0 ∨ s.pc i = 1) with hp | hp
      · simp only [flipWordBody, hp, List.getElem_cons_zero] at hf
        subst hf
        refine ⟨h1, h2, fun j => ?_⟩
        dsimp only at hri ⊢
        by_cases e : j = i
        · subst e
          refine ⟨fun _ => hri.trans ((h3 j).2.2 (by omega)), fun h0 => by omega, fun _ => (h3 j).2.2 (by omega)⟩
        · rw [hpj j e, hrj j e]; exact h3 j
      · have hlt : i < b.blocks.length := by omega
        have hr := (h3 i).1 hp
        rw [List.getElem?_eq_getElem hlt] at hr
        simp only [flipWordBody, hp, List.getElem_cons_succ, List.getElem_cons_zero] at hf
        subst hf
        dsimp only at hri ⊢
        rw [hr]
        refine ⟨h1, by simpa using h2, fun j => ?_⟩
        dsimp only
        rw [List.getElem?_set]
        by_cases e : i = j
        · subst e
          rw [if_pos rfl, if_pos (by omega), List.getElem?_eq_getElem hlt]
          exact ⟨fun h0 => by omega, fun _ => rfl, fun h0 => by omega⟩
        · rw [if_neg e, hpj j (Ne.symm e), hrj j (Ne.symm e)]; exact h3 j) sched (loopInit b none)
      ⟨rfl, rfl, fun i => ⟨fun hi => by simp [loopInit] at hi, fun hi => by simp [loopInit] at hi, fun _ => rfl⟩⟩
  obtain ⟨h1, h2, h3⟩ := hI
  generalize hs : forEachIndex (Bitset.numberBitBlocks w b.size : Int) (flipWordBody (w := w)) b none sched = s at *
  have hs' : loopRun (Bitset.numberBitBlocks w b.size : Int).toNat flipWordBody (loopInit b none) sched = s := hs
  rw [hs'] at h1 h2 h3
  have hb : s.mem.blocks = b.blocks.map (fun x => ~~~x) := by
    apply List.ext_getElem?
    intro i
    rw [List.getElem?_map]
    by_cases hi : i < b.blocks.length
    · refine (h3 i).2.1 ?_
      rw [hc i (by omega)]
      simp [flipWordBody]
    · rw [List.getElem?_eq_none (by omega), List.getElem?_eq_none (by omega)]; simp
  rcases hm : s.mem with ⟨bl, sz⟩
  rw [hm] at hb h1
  simp only at hb h1
  rw [hb, h1]
  rfl

theorem _root_.Stdgpu.Spec.Bits.len {b : Bitset w} {n : Nat} {f : Nat → Bool} (h : Bits b n f) :
    b.blocks.length = Bitset.numberBitBlocks w b.size := h.wf.len

theorem resetWords_bits {b : Bitset w} {n : Nat} {f : Nat → Bool} (h : Bits b n f) {sched : List Nat} {b' : Bitset w}
    (e : resetWords b sched = some b') : Bits b' n (fun _ => false) := by
  have := fillWords_eq b h.len 0 sched b' e
  subst this
  have hw := h.wf
  refine Bits.of_wf (Bitset.map_blocks_wf hw _) h.size ?_
  intro i hi
  rw [Bitset.bitAt_map hw _ i (by rw [h.size]; exact hi) (fun _ => false) (by intro blk m hm; simp)]

theorem setWords_bits {b : Bitset w} {n : Nat} {f : Nat → Bool} (h : Bits b n f) {sched : List Nat} {b' : Bitset w}
    (e : setWords b sched = some b') : Bits b' n (fun _ => true) := by
  have := fillWords_eq b h.len _ sched b' e
  subst this
  have hw := h.wf
  refine Bits.of_wf (Bitset.map_blocks_wf hw _) h.size ?_
  intro i hi
  rw [Bitset.bitAt_map hw _ i (by rw [h.size]; exact hi) (fun _ => true) (by intro blk m hm; simp [hm])]

/-! ### Slots -/

/-- The slots in the middle of a loop over `[b, b + n)` that writes `f i` and then the bit `o`. -/
def mid (v : Slots α) (b n : Nat) (f : Nat → Option α) (o : Bool) (pc : Nat → Nat) : Slots α :=
  { v with data := fun p => if b ≤ p ∧ p < b + n ∧ 0 < pc (p - b) then f (p - b) else v.data p,
           occ := fun p => if b ≤ p ∧ p < b + n ∧ 1 < pc (p - b) then o else v.occ p }

theorem setBit_packs {m : PSlots w α} {v : Slots α} (h : PacksS m v) (q : Nat) (hq : q < v.cap) (o : Bool) :
    PacksS (setBit m (q : Int) o) { v with occ := upd v.occ q o } := by
  unfold setBit
  rw [if_neg (by omega), Int.toNat_natCast]
  obtain ⟨b', e, hb⟩ := h.occ.set q hq o
  have e' : (if o then Bitset.set m.occ q true else Bitset.reset m.occ q) = some (v.occ q, b') := by
    cases o
    · exact e
    · exact e
  rw [e']
  exact ⟨h.cap, h.data, h.err, h.locks, hb⟩

theorem slotLoop (n b : Nat) {m : PSlots w α} {v : Slots α} (h : PacksS m v) (f : Nat → Option α) (o : Bool)
    (body : Nat → Body (PSlots w α) Unit) (hlen : ∀ i, (body i).length ≤ 2)
    (h1 : ∀ i, i < n → ∀ m' : PSlots w α, m'.cap = v.cap → m'.data (b + i) = v.data (b + i) → ∀ g, (body i)[0]? = some g →
      (g m' ()).1 = { m' with data := upd m'.data (b + i) (f i) })
    (h2 : ∀ i, i < n → ∀ g, (body i)[1]? = some g → ∀ m', (g m' ()).1 = setBit m' ((b + i : Nat) : Int) o)
    (hb : b + n ≤ v.cap) (sched : List Nat) :
    PacksS (forEachIndex n body m () sched).mem (mid v b n f o (forEachIndex n body m () sched).pc) := by
  refine loop_inv' (n := (n : Int).toNat) (body := body) (fun s => PacksS s.mem (mid v b n f o s.pc)) ?_ sched (loopInit m ()) ?_
  · intro s i g reg' pc' hs hi hg _ _ hpi hpj
    rw [Int.toNat_natCast] at hi
    have hl := (List.getElem?_eq_some_iff.1 hg).1
    have := hlen i
    dsimp only
    have hne : ∀ p, p ≠ b + i → b ≤ p → pc' (p - b) = s.pc (p - b) := fun p h1 h2 => hpj _ (by omega)
    have hpi' : pc' (b + i - b) = s.pc i + 1 := by rw [Nat.add_sub_cancel_left]; exact hpi
    rcases (by omega : s.pc i = 0 ∨ s.pc i = 1) with hp | hp
    · rw [hp] at hg
      have hd : s.mem.data (b + i) = v.data (b + i) := by
        rw [hs.data]; simp [mid, hp]
      have e := h1 i hi s.mem hs.cap hd g hg
      rw [show s.reg i = () from rfl, e]
      refine ⟨hs.cap, ?_, hs.err, hs.locks, ?_⟩
      · dsimp only
        rw [hs.data]
        funext p
        simp only [mid, upd]
        by_cases hpe : p = b + i
        · subst hpe; rw [if_pos rfl, if_pos]
          · congr 1; omega
          · exact ⟨by omega, by omega, by omega⟩
        · rw [if_neg hpe]
          refine if_congr ⟨?_, ?_⟩ rfl rfl
          · rintro ⟨a1, a2, a3⟩; rw [← hne p hpe a1] at a3; exact ⟨a1, a2, a3⟩
          · rintro ⟨a1, a2, a3⟩; rw [hne p hpe a1] at a3; exact ⟨a1, a2, a3⟩
      · refine hs.occ.congr fun p hp' => ?_
        simp only [mid]
        refine if_congr ⟨?_, ?_⟩ rfl rfl
        · rintro ⟨a1, a2, a3⟩
          by_cases hpe : p = b + i
          · subst hpe; rw [Nat.add_sub_cancel_left] at a3; omega
          · rw [← hne p hpe a1] at a3; exact ⟨a1, a2, a3⟩
        · rintro ⟨a1, a2, a3⟩
          by_cases hpe : p = b + i
          · subst hpe; omega
          · rw [hne p hpe a1] at a3; exact ⟨a1, a2, a3⟩
    · rw [hp] at hg
      have e := h2 i hi g hg s.mem
      rw [show s.reg i = () from rfl, e]
      have hk := setBit_packs hs (b + i) (by show _ < v.cap; omega) o
      refine ⟨hk.cap, hk.data.trans ?_, hk.err, hk.locks, ?_⟩
      · funext p
        simp only [mid]
        refine if_congr ⟨?_, ?_⟩ rfl rfl
        · rintro ⟨a1, a2, a3⟩
          by_cases hpe : p = b + i
          · subst hpe; exact ⟨a1, a2, by omega⟩
          · rw [← hne p hpe a1] at a3; exact ⟨a1, a2, a3⟩
        · rintro ⟨a1, a2, a3⟩
          by_cases hpe : p = b + i
          · subst hpe; refine ⟨a1, a2, ?_⟩; rw [Nat.add_sub_cancel_left]; omega
          · rw [hne p hpe a1] at a3; exact ⟨a1, a2, a3⟩
      · refine hk.occ.congr fun p hp' => ?_
        simp only [mid, upd]
        by_cases hpe : p = b + i
        · subst hpe
          rw [if_pos rfl, if_pos]
          exact ⟨by omega, by omega, by omega⟩
        · rw [if_neg hpe]
          refine if_congr ⟨?_, ?_⟩ rfl rfl
          · rintro ⟨a1, a2, a3⟩; rw [← hne p hpe a1] at a3; exact ⟨a1, a2, a3⟩
          · rintro ⟨a1, a2, a3⟩; rw [hne p hpe a1] at a3; exact ⟨a1, a2, a3⟩
  · have : mid v b n f o (fun _ => 0) = v := by simp [mid]
    show PacksS m (mid v b n f o (fun _ => 0))
    rw [this]; exact h

theorem mid_congr (v : Slots α) (b n : Nat) (f : Nat → Option α) (o : Bool) (pc pc' : Nat → Nat) (h : ∀ i, i < n → pc i = pc' i) :
    mid v b n f o pc = mid v b n f o pc' := by
  unfold mid
  congr 1
  · funext p
    refine if_congr ⟨?_, ?_⟩ rfl rfl
    · rintro ⟨a1, a2, a3⟩; rw [h _ (by omega)] at a3; exact ⟨a1, a2, a3⟩
    · rintro ⟨a1, a2, a3⟩; rw [← h _ (by omega)] at a3; exact ⟨a1, a2, a3⟩
  · funext p
    refine if_congr ⟨?_, ?_⟩ rfl rfl
    · rintro ⟨a1, a2, a3⟩; rw [h _ (by omega)] at a3; exact ⟨a1, a2, a3⟩
    · rintro ⟨a1, a2, a3⟩; rw [← h _ (by omega)] at a3; exact ⟨a1, a2, a3⟩

theorem slotLoop_done (n b : Nat) {m : PSlots w α} {v : Slots α} (h : PacksS m v) (f : Nat → Option α) (o : Bool) (k : Nat)
    (body : Nat → Body (PSlots w α) Unit) (hlen : ∀ i, (body i).length = k) (hk : k ≤ 2)
    (h1 : ∀ i, i < n → ∀ m' : PSlots w α, m'.cap = v.cap → m'.data (b + i) = v.data (b + i) → ∀ g, (body i)[0]? = some g →
      (g m' ()).1 = { m' with data := upd m'.data (b + i) (f i) })
    (h2 : ∀ i, i < n → ∀ g, (body i)[1]? = some g → ∀ m', (g m' ()).1 = setBit m' ((b + i : Nat) : Int) o)
    (hb : b + n ≤ v.cap) (sched : List Nat) {m' : PSlots w α} (hm : parLoop (n : Int) body m () sched = some m') :
    PacksS m' (mid v b n f o (fun _ => k)) := by
  obtain ⟨hc, rfl⟩ := parLoop_some hm
  have := slotLoop n b h f o body (fun i => by rw [hlen]; exact hk) h1 h2 hb sched
  rw [mid_congr v b n f o _ (fun _ => k)] at this
  · exact this
  · intro i hi
    rw [hc i (by rw [Int.toNat_natCast]; exact hi), hlen]

theorem destroyLoop {m : PSlots w α} {v : Slots α} (h : PacksS m v) (b n : Nat) (hb : b + n ≤ v.cap)
    (hd : ∀ i, i < n → (v.data (b + i)).isSome) (sched : List Nat) {m' : PSlots w α}
    (hm : parLoop (n : Int) (destroyBody (b : Int)) m () sched = some m') :
    PacksS m' (mid v b n (fun _ => none) false (fun _ => 1)) := by
  refine slotLoop_done n b h _ _ 1 _ (fun i => rfl) (by omega) ?_ ?_ hb sched hm
  · intro i hi m' hc hda g hg
    cases hg
    have hq : ((b : Int) + (i : Int)).toNat = b + i := by omega
    simp only [destroy]
    rw [if_neg (by omega), hq, hda]
    have := hd i hi
    have : (v.data (b + i)).isNone = false := by simpa using this
    rw [this, Bool.or_false]
  · intro i hi g hg; cases hg

theorem insertLoop {m : PSlots w α} {v : Slots α} (h : PacksS m v) (b : Nat) (xs : List α) (hb : b + xs.length ≤ v.cap)
    (hd : ∀ i, i < xs.length → v.data (b + i) = none) (sched : List Nat) {m' : PSlots w α}
    (hm : parLoop (xs.length : Int) (insertBody (b : Int) xs) m () sched = some m') :
    PacksS m' (mid v b xs.length (fun i => xs[i]?) true (fun _ => 2)) := by
  refine slotLoop_done xs.length b h _ _ 2 _ (fun i => rfl) (by omega) ?_ ?_ hb sched hm
  · intro i hi m' hc hda g hg
    cases hg
    have hq : ((b : Int) + (i : Int)).toNat = b + i := by omega
    simp only [construct]
    rw [if_neg, hq, hda, hd i hi]
    · simp
    · rw [List.getElem?_eq_getElem hi]; simp; omega
  · intro i hi g hg; cases hg; intro m'; simp

theorem eraseLoop {m : PSlots w α} {v : Slots α} (h : PacksS m v) (b n : Nat) (hb : b + n ≤ v.cap)
    (hd : ∀ i, i < n → (v.data (b + i)).isSome) (sched : List Nat) {m' : PSlots w α}
    (hm : parLoop (n : Int) (eraseBody (b : Int)) m () sched = some m') :
    PacksS m' (mid v b n (fun _ => none) false (fun _ => 2)) := by
  refine slotLoop_done n b h _ _ 2 _ (fun i => rfl) (by omega) ?_ ?_ hb sched hm
  · intro i hi m' hc hda g hg
    cases hg
    have hq : ((b : Int) + (i : Int)).toNat = b + i := by omega
    simp only [destroy]
    rw [if_neg (by omega), hq, hda]
    have := hd i hi
    have : (v.data (b + i)).isNone = false := by simpa using this
    rw [this, Bool.or_false]
  · intro i hi g hg; cases hg; intro m'; simp

/-! ### vector -/

theorem vsize_eq {m : PMem w Int α} {v : Vector.Vec α} {l : List α} (h : Packs m v) (hl : Vector.Holds v l) : vsize m = l.length := by
  rw [← Vector.size_eq hl]
  unfold vsize Vector.size Vector.cap
  rw [h.cap, h.ctr]

theorem vinsert_holds {m : PMem w Int α} {v : Vector.Vec α} {l : List α} (h : Packs m v) (hl : Vector.Holds v l) (pos : Int)
    (xs : List α) (sched : List Nat) {m' : PMem w Int α} (hm : vinsert m pos xs sched = some m') :
    ∃ v', Packs m' v' ∧ Vector.cap v' = Vector.cap v ∧
      Vector.Holds v' (if pos = l.length ∧ l.length + xs.length ≤ Vector.cap v then l ++ xs else l) := by
  have hs := vsize_eq h hl
  have hcap : m.slots.cap = Vector.cap v := h.cap
  unfold vinsert at hm
  rw [hs] at hm
  by_cases hp : pos = l.length
  · rw [if_neg (by simpa using hp)] at hm
    by_cases hc : l.length + xs.length ≤ Vector.cap v
    · rw [if_neg (by omega)] at hm
      obtain ⟨s, es, em⟩ := Option.bind_eq_some_iff.1 hm
      cases em
      have hk := insertLoop h.slots l.length xs hc (fun i hi => by rw [hl.data _ (by omega)]; simp) sched es
      refine ⟨{ slots := _, ctr := _ }, Packs.mk' hk rfl, rfl, ?_⟩
      rw [if_pos ⟨hp, hc⟩]
      refine ⟨by rw [List.length_append]; exact hc, by simp, hl.locks, ?_, hl.err, ?_⟩
      · intro p hp
        have hp' : p < Vector.cap v := hp
        show (if _ then true else v.slots.occ p) = _
        rw [hl.occ p hp']
        by_cases hh : l.length ≤ p ∧ p < l.length + xs.length
        · rw [if_pos ⟨hh.1, hh.2, by show _ < 2; omega⟩]; simp; omega
        · rw [if_neg (fun x => hh ⟨x.1, x.2.1⟩)]; simp; omega
      · intro p hp
        have hp' : p < Vector.cap v := hp
        show (if _ then xs[p - l.length]? else v.slots.data p) = _
        rw [hl.data p hp']
        by_cases hh : l.length ≤ p ∧ p < l.length + xs.length
        · rw [if_pos ⟨hh.1, hh.2, by show _ < 2; omega⟩, List.getElem?_append_right hh.1]
        · rw [if_neg (fun x => hh ⟨x.1, x.2.1⟩)]
          by_cases hlt : p < l.length
          · rw [List.getElem?_append_left hlt]
          · rw [List.getElem?_eq_none (by omega), List.getElem?_eq_none (by simp; omega)]
    · rw [if_pos (by omega)] at hm
      cases hm
      exact ⟨v, h, rfl, by rw [if_neg (fun x => hc x.2)]; exact hl⟩
  · rw [if_pos (by simpa using hp)] at hm
    cases hm
    exact ⟨v, h, rfl, by rw [if_neg (fun x => hp x.1)]; exact hl⟩

theorem verase_holds {m : PMem w Int α} {v : Vector.Vec α} {l : List α} (h : Packs m v) (hl : Vector.Holds v l) (b e : Int)
    (hbe : b ≤ e) (sched : List Nat) {m' : PMem w Int α} (hm : verase m b e sched = some m') :
    ∃ v', Packs m' v' ∧ Vector.cap v' = Vector.cap v ∧
      Vector.Holds v' (if e = l.length ∧ 0 ≤ b then l.take b.toNat else l) := by
  have hs := vsize_eq h hl
  have hcap : m.slots.cap = Vector.cap v := h.cap
  have hlen := hl.len
  unfold verase at hm
  rw [hs] at hm
  by_cases he : e = l.length
  · rw [if_neg (by simpa using he)] at hm
    by_cases hb : 0 ≤ b
    · obtain ⟨B, rfl⟩ := Int.eq_ofNat_of_zero_le hb
      rw [if_neg (by omega), show (l.length : Int) - (e - (B : Int)) = (B : Int) by omega,
        show e - (B : Int) = ((l.length - B : Nat) : Int) by omega] at hm
      obtain ⟨s, es, em⟩ := Option.bind_eq_some_iff.1 hm
      cases em
      have hc : B + (l.length - B) ≤ v.slots.cap := by have : v.slots.cap = Vector.cap v := rfl; omega
      have hk := eraseLoop h.slots B (l.length - B) hc
        (fun i hi => by rw [hl.data _ (by omega), List.getElem?_eq_getElem (by omega)]; rfl) sched es
      refine ⟨{ slots := _, ctr := _ }, Packs.mk' hk rfl, rfl, ?_⟩
      rw [if_pos ⟨he, hb⟩, Int.toNat_natCast]
      have hBl : B ≤ l.length := by omega
      have htl : (l.take B).length = B := by rw [List.length_take]; omega
      refine ⟨by rw [htl]; show B ≤ Vector.cap v; omega, by rw [htl], hl.locks, ?_, hl.err, ?_⟩
      · intro p hp
        have hp' : p < Vector.cap v := hp
        show (if _ then false else v.slots.occ p) = _
        rw [hl.occ p hp', htl]
        by_cases hh : B ≤ p ∧ p < B + (l.length - B)
        · rw [if_pos ⟨hh.1, hh.2, by show _ < 2; omega⟩]; simp; omega
        · rw [if_neg (fun x => hh ⟨x.1, x.2.1⟩)]; simp; omega
      · intro p hp
        have hp' : p < Vector.cap v := hp
        show (if _ then none else v.slots.data p) = _
        rw [hl.data p hp']
        by_cases hh : B ≤ p ∧ p < B + (l.length - B)
        · rw [if_pos ⟨hh.1, hh.2, by show _ < 2; omega⟩, List.getElem?_eq_none (by omega)]
        · rw [if_neg (fun x => hh ⟨x.1, x.2.1⟩)]
          by_cases hlt : p < B
          · rw [List.getElem?_take_of_lt hlt]
          · rw [List.getElem?_eq_none (by omega), List.getElem?_eq_none (by omega)]
    · rw [if_pos (by omega)] at hm
      cases hm
      exact ⟨v, h, rfl, by rw [if_neg (fun x => hb x.2)]; exact hl⟩
  · rw [if_pos (by simpa using he)] at hm
    cases hm
    exact ⟨v, h, rfl, by rw [if_neg (fun x => he x.1)]; exact hl⟩

theorem vclear_holds {m : PMem w Int α} {v : Vector.Vec α} {l : List α} (h : Packs m v) (hl : Vector.Holds v l)
    (sched sched' : List Nat) {m' : PMem w Int α} (hm : vclear m sched sched' = some m') :
    ∃ v', Packs m' v' ∧ Vector.cap v' = Vector.cap v ∧ Vector.Holds v' [] := by
  have hs := vsize_eq h hl
  have hlen := hl.len
  unfold vclear at hm
  rw [hs] at hm
  by_cases he : l = []
  · subst he
    rw [if_pos (by simp)] at hm
    cases hm
    exact ⟨v, h, rfl, hl⟩
  · rw [if_neg (by simpa using he)] at hm
    obtain ⟨s, es, em⟩ := Option.bind_eq_some_iff.1 hm
    obtain ⟨o, eo, em⟩ := Option.bind_eq_some_iff.1 em
    cases em
    have hk := destroyLoop h.slots 0 l.length (by rw [Nat.zero_add]; exact hlen)
      (fun i hi => by rw [hl.data _ (by omega), List.getElem?_eq_getElem (by omega)]; rfl) sched es
    have ho := resetWords_bits hk.occ eo
    refine ⟨{ slots := { mid v.slots 0 l.length (fun _ => none) false (fun _ => 1) with occ := fun _ => false }, ctr := 0 },
      ⟨hk.cap, hk.data, hk.err, rfl, hk.locks, ho⟩, rfl, ?_⟩
    refine ⟨by simp, rfl, hl.locks, by simp, hl.err, ?_⟩
    intro p hp
    have hp' : p < Vector.cap v := hp
    show (if _ then none else v.slots.data p) = _
    rw [hl.data p hp']
    by_cases hh : p < l.length
    · rw [if_pos ⟨by omega, by omega, by show 0 < 1; omega⟩]; simp
    · rw [if_neg (fun x => hh (by omega)), List.getElem?_eq_none (by omega)]; simp

/-! ### Loops that write one cell of an array per index -/

theorem cellLoop {β : Type} (n start : Nat) (g : Nat → β) (body : Nat → Body (Nat → β) Unit)
    (hbody : ∀ i, body i = [fun m r => (upd m (start + i) (g i), r)]) (m : Nat → β) (sched : List Nat) {m' : Nat → β}
    (hm : parLoop (n : Int) body m () sched = some m') :
    ∀ p, (start ≤ p ∧ p < start + n → m' p = g (p - start)) ∧ (¬ (start ≤ p ∧ p < start + n) → m' p = m p) := by
  obtain ⟨hc, rfl⟩ := parLoop_some hm
  have hI := loop_inv' (n := (n : Int).toNat) (body := body)
    (fun s => ∀ p, (start ≤ p ∧ p < start + n ∧ 0 < s.pc (p - start) → s.mem p = g (p - start)) ∧
      (¬ (start ≤ p ∧ p < start + n ∧ 0 < s.pc (p - start)) → s.mem p = m p)) (by
      intro s i f reg' pc' hs hi hf _ _ hpi hpj
      rw [Int.toNat_natCast] at hi
      rw [hbody] at hf
      obtain ⟨hlen, hf⟩ := List.getElem?_eq_some_iff.1 hf
      simp only [List.length_singleton] at hlen
      have hp : s.pc i = 0 := by omega
      simp only [hp, List.getElem_cons_zero] at hf
      subst hf
      intro p
      simp only [upd]
      by_cases hpe : p = start + i
      · subst hpe
        rw [if_pos rfl, Nat.add_sub_cancel_left]
        exact ⟨fun _ => rfl, fun h => absurd ⟨by omega, by omega, by omega⟩ h⟩
      · rw [if_neg hpe]
        by_cases hr : start ≤ p
        · rw [hpj (p - start) (by omega)]; exact hs p
        · exact ⟨fun h => absurd h.1 hr, fun _ => (hs p).2 (fun h => hr h.1)⟩) sched (loopInit m ())
      (fun p => ⟨fun h => by simp [loopInit] at h, fun _ => rfl⟩)
  intro p
  refine ⟨fun h => (hI p).1 ⟨h.1, h.2, ?_⟩, fun h => (hI p).2 (fun x => h ⟨x.1, x.2.1⟩)⟩
  have := hc (p - start) (by rw [Int.toNat_natCast]; omega)
  rw [hbody] at this
  have e : (loopRun (n : Int).toNat body (loopInit m ()) sched).pc (p - start) = 1 := this
  omega

/-! ### deque -/

open Stdgpu.Deque (inBlock)

theorem destroyBlocks_packs : ∀ (bs : List (Nat × Nat)), bs.Pairwise (fun a b => ∀ q, ¬ (inBlock a q ∧ inBlock b q)) →
    ∀ (scheds : List (List Nat)) (m : PSlots w α) (v : Slots α), PacksS m v →
    (∀ b ∈ bs, ∀ q, inBlock b q → (v.data q).isSome) → (∀ b ∈ bs, b.1 + b.2 ≤ v.cap) → ∀ m', destroyBlocks bs scheds m = some m' →
    ∃ v', PacksS m' v' ∧ v'.cap = v.cap ∧ v'.locks = v.locks ∧ v'.err = v.err ∧
      ∀ q, ((∃ b ∈ bs, inBlock b q) → v'.data q = none) ∧ ((¬ ∃ b ∈ bs, inBlock b q) → v'.data q = v.data q) := by
  intro bs
  induction bs with
  | nil => intro _ scheds m v h _ _ m' hm; cases hm; exact ⟨v, h, rfl, rfl, rfl, by simp⟩
  | cons b bs ih =>
    intro hd scheds m v h hs hb m' hm
    have hd' := List.pairwise_cons.1 hd
    unfold destroyBlocks at hm
    obtain ⟨s, es, em⟩ := Option.bind_eq_some_iff.1 hm
    have hk := destroyLoop h b.1 b.2 (hb b (by simp)) (fun i hi => hs b (by simp) _ ⟨by omega, by omega⟩) _ es
    have e6 : ∀ q, (inBlock b q → (mid v b.1 b.2 (fun _ => none) false (fun _ => 1)).data q = none) ∧
        (¬ inBlock b q → (mid v b.1 b.2 (fun _ => none) false (fun _ => 1)).data q = v.data q) := by
      intro q
      simp only [mid]
      exact ⟨fun hq => by rw [if_pos ⟨hq.1, hq.2, by omega⟩], fun hq => by rw [if_neg (fun x => hq ⟨x.1, x.2.1⟩)]⟩
    obtain ⟨v', k1, k2, k3, k4, k5⟩ := ih hd'.2 _ s _ hk (by
      intro b' hb' q hq
      rw [(e6 q).2 (fun hc => hd'.1 b' hb' q ⟨hc, hq⟩)]
      exact hs b' (by simp [hb']) q hq) (fun b' hb' => hb b' (by simp [hb'])) m' em
    refine ⟨v', k1, k2, k3, k4, fun q => ⟨?_, ?_⟩⟩
    · intro ⟨b', hb', hq⟩
      by_cases hc : ∃ b ∈ bs, inBlock b q
      · exact (k5 q).1 hc
      · rw [(k5 q).2 hc]
        rcases List.mem_cons.1 hb' with rfl | hb'
        · exact (e6 q).1 hq
        · exact absurd ⟨b', hb', hq⟩ hc
    · intro hn
      rw [(k5 q).2 (fun ⟨b', hb', hq⟩ => hn ⟨b', by simp [hb'], hq⟩), (e6 q).2 (fun hq => hn ⟨b, by simp, hq⟩)]

theorem dblocks_eq {m : PMem w Deque.Ctr α} {d : Deque.Deq α} (h : Packs m d) : dblocks m = Deque.blocks d := by
  unfold dblocks Deque.blocks Deque.full Deque.size Deque.cap
  rw [h.cap, h.ctr]
  simp only [beq_iff_eq]

theorem dclear_holds {m : PMem w Deque.Ctr α} {d : Deque.Deq α} {l : List α} (h : Packs m d) (hl : Deque.Holds d l)
    (scheds : List (List Nat)) (sched' : List Nat) {m' : PMem w Deque.Ctr α} (hm : dclear m scheds sched' = some m') :
    ∃ d', Packs m' d' ∧ Deque.cap d' = Deque.cap d ∧ Deque.Holds d' [] := by
  have hs := Deque.size_eq hl
  have hs' : Vector.clampSize m.slots.cap m.ctr.size = l.length := by
    rw [← hs, h.cap, h.ctr]; rfl
  unfold dclear at hm
  rw [hs', dblocks_eq h] at hm
  by_cases he : l = []
  · subst he
    rw [if_pos (by simp)] at hm
    cases hm
    exact ⟨d, h, rfl, hl⟩
  · rw [if_neg (by simpa using he)] at hm
    obtain ⟨s, es, em⟩ := Option.bind_eq_some_iff.1 hm
    obtain ⟨o, eo, em⟩ := Option.bind_eq_some_iff.1 em
    cases em
    have hdis : (Deque.blocks d).Pairwise (fun a b => ∀ q, ¬ (inBlock a q ∧ inBlock b q)) := by
      unfold Deque.blocks
      split
      · simp
      · split
        · simp
        · simp [inBlock]; intro q; omega
    have hbnd : ∀ b ∈ Deque.blocks d, b.1 + b.2 ≤ d.slots.cap := by
      intro b hb
      by_cases h0 : b.2 = 0
      · have h1 := hl.begin
        have h2 : d.ctr.endd < Deque.cap d := by rw [hl.endd]; exact Nat.mod_lt _ hl.pos
        have hcap : d.slots.cap = Deque.cap d := rfl
        unfold Deque.blocks at hb
        split at hb
        · simp at hb; subst hb; simp only [hcap]; omega
        · split at hb
          · simp at hb; subst hb; simp only [hcap]; omega
          · simp at hb; rcases hb with rfl | rfl
            · simp only [hcap]; omega
            · simp only [hcap]; omega
      · have := ((Deque.blocks_mem hl (b.1 + b.2 - 1)).1 ⟨b, hb, ⟨by omega, by omega⟩⟩).1
        have hcap : d.slots.cap = Deque.cap d := rfl
        omega
    obtain ⟨v', k1, k2, k3, k4, k5⟩ := destroyBlocks_packs _ hdis scheds m.slots d.slots h.slots (by
      intro b hb q hq
      obtain ⟨g1, g2⟩ := (Deque.blocks_mem hl q).1 ⟨b, hb, hq⟩
      rw [hl.data q g1, List.getElem?_eq_getElem g2]; rfl) hbnd s es
    have ho := resetWords_bits k1.occ eo
    refine ⟨{ slots := { v' with occ := fun _ => false }, ctr := ⟨0, 0, 0⟩ },
      ⟨k1.cap, k1.data, k1.err, rfl, k1.locks, ho⟩, k2, ?_⟩
    have hc : v'.cap = Deque.cap d := k2
    refine Deque.holds_of v'.cap _ _ _ _ _ _ _ _ (by rw [hc]; exact hl.pos) (by simp) (by simp) (by rw [hc]; exact hl.pos)
      (by simp) ?_ (by simp) (by rw [k4]; exact hl.err) ?_
    · intro q hq; rw [k3]; exact hl.locks q (by omega)
    · intro q hq
      have hq' : q < Deque.cap d := by omega
      rw [List.getElem?_nil]
      by_cases hc : Deque.ringIdx (Deque.cap d) d.ctr.begin q < l.length
      · exact (k5 q).1 ((Deque.blocks_mem hl q).2 ⟨hq', hc⟩)
      · rw [(k5 q).2 (fun hh => hc ((Deque.blocks_mem hl q).1 hh).2), hl.data q hq', List.getElem?_eq_none (by omega)]

theorem writeBlocks_eq : ∀ (bs : List (Nat × Nat)) (scheds : List (List Nat)) (start : Nat) (m m' : Nat → Nat),
    writeBlocks bs scheds start m = some m' →
    (∀ k x, (bs.flatMap (fun b => List.range' b.1 b.2))[k]? = some x → m' (start + k) = x) ∧ (∀ p, p < start → m' p = m p) := by
  intro bs
  induction bs with
  | nil => intro scheds start m m' hm; cases hm; exact ⟨by simp, fun _ _ => rfl⟩
  | cons b bs ih =>
    intro scheds start m m' hm
    unfold writeBlocks at hm
    obtain ⟨m1, es, em⟩ := Option.bind_eq_some_iff.1 hm
    have hk := cellLoop b.2 start (fun i => b.1 + i) (iotaBody start b.1) (fun i => rfl) m _ es
    obtain ⟨i1, i2⟩ := ih _ _ _ _ em
    refine ⟨?_, ?_⟩
    · intro k x hx
      rw [List.flatMap_cons] at hx
      by_cases hkb : k < b.2
      · rw [List.getElem?_append_left (by simpa using hkb), List.getElem?_range' hkb] at hx
        rw [i2 _ (by omega), (hk _).1 ⟨by omega, by omega⟩]
        have := Option.some.inj hx
        rw [← this]; simp
      · rw [List.getElem?_append_right (by simp; omega), List.length_range'] at hx
        have := i1 _ _ hx
        rw [← this]; congr 1; omega
    · intro p hp
      rw [i2 p (by omega), (hk p).2 (by omega)]

/-- The array of positions of `device_range()`. -/
theorem drange_eq {m : PMem w Deque.Ctr α} {d : Deque.Deq α} (h : Packs m d) (scheds : List (List Nat)) (old : Nat → Nat)
    {m' : Nat → Nat} (hm : drange m scheds old = some m') (n : Nat) (hn : n = (Deque.rangeIndices d).length) :
    (List.range n).map m' = Deque.rangeIndices d := by
  unfold drange at hm
  rw [dblocks_eq h] at hm
  have := (writeBlocks_eq _ _ _ _ _ hm).1
  apply List.ext_getElem?
  intro k
  by_cases hk : k < n
  · rw [List.getElem?_map, List.getElem?_range hk]
    have hx : (Deque.rangeIndices d)[k]? = some ((Deque.rangeIndices d)[k]'(by omega)) := List.getElem?_eq_getElem _
    rw [hx]
    have h2 := this k _ hx
    rw [Nat.zero_add] at h2
    simp [h2]
  · rw [List.getElem?_eq_none (by simp; omega), List.getElem?_eq_none (by omega)]

end Stdgpu.ParLoops
