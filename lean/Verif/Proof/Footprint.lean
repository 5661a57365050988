import Verif.Spec.Addresses
/-! C87: the variables listed by `locs` are the footprints of the steps. -/
namespace Stdgpu.SlotConc
open Stdgpu.Spec

section
variable {C K F α : Type}

/-- Vectors and deques at once. -/
def Same (cs : C → C → SLoc → Prop) (m m' : Mem C α) : SLoc → Prop
  | .data p => m.slots.data p = m'.slots.data p
  | .lock p => m.slots.locks p = m'.slots.locks p
  | .occ p => m.slots.occ p = m'.slots.occ p
  | x => cs m.ctr m'.ctr x

def SLoc.isCtr : SLoc → Bool
  | .data _ | .lock _ | .occ _ => false
  | _ => true

theorem Same.of_slots {cs : C → C → SLoc → Prop} {m m' : Mem C α} {x : SLoc} (hx : x.isCtr = true) (h : cs m.ctr m'.ctr x) :
    Same cs m m' x := by
  cases x <;> first | exact h | cases hx

theorem Same.ctr {cs : C → C → SLoc → Prop} {m m' : Mem C α} {x : SLoc} (hx : x.isCtr = true) (h : Same cs m m' x) :
    cs m.ctr m'.ctr x := by
  cases x <;> first | exact h | cases hx

/-- What the front end has to satisfy. -/
structure FrontOk (cs : C → C → SLoc → Prop) (fr : Front C K F) (floc : Bool → K → F → SLoc) : Prop where
  refl : ∀ c x, cs c c x
  ctr : ∀ b k f, (floc b k f).isCtr = true
  read : ∀ c c' b k f, cs c c' (floc b k f) →
    (fr.step c b k f).2 = (fr.step c' b k f).2 ∧ cs (fr.step c b k f).1 (fr.step c' b k f).1 (floc b k f)
  write : ∀ c b k f x, x ≠ floc b k f → cs (fr.step c b k f).1 c x

theorem Same.rfl' {cs : C → C → SLoc → Prop} (h : ∀ c x, cs c c x) (m : Mem C α) (x : SLoc) : Same cs m m x := by
  cases x <;> first | exact rfl | exact h _ _

theorem slot_foot {m m' : Slots α} {op : Op K α} {p : Nat} {s : SPC α} (hc : m.cap = m'.cap) :
    (match s.loc p with
      | .data q => m.data q = m'.data q
      | .lock q => m.locks q = m'.locks q
      | .occ q => m.occ q = m'.occ q
      | _ => True) →
    (slotStep m op p s).2 = (slotStep m' op p s).2 ∧
    (match s.loc p with
      | .data q => (slotStep m op p s).1.data q = (slotStep m' op p s).1.data q
      | .lock q => (slotStep m op p s).1.locks q = (slotStep m' op p s).1.locks q
      | .occ q => (slotStep m op p s).1.occ q = (slotStep m' op p s).1.occ q
      | _ => True) := by
  intro h
  cases s <;> cases op <;> simp only [SPC.loc] at h ⊢ <;> simp only [slotStep, hc, h, upd] <;>
    (repeat' split) <;> simp_all [upd]

theorem slot_write {m : Slots α} {op : Op K α} {p : Nat} {s : SPC α} :
    (∀ q, SLoc.data q ≠ s.loc p → (slotStep m op p s).1.data q = m.data q) ∧
    (∀ q, SLoc.lock q ≠ s.loc p → (slotStep m op p s).1.locks q = m.locks q) ∧
    (∀ q, SLoc.occ q ≠ s.loc p → (slotStep m op p s).1.occ q = m.occ q) := by
  refine ⟨?_, ?_, ?_⟩ <;> intro q h <;> cases s <;> cases op <;> simp only [SPC.loc] at h <;> simp only [slotStep] <;>
    (repeat' split) <;> simp_all [upd]

variable {cs : C → C → SLoc → Prop} {fr : Front C K F} {floc : Bool → K → F → SLoc} {start : F → Bool}

theorem step_foot (hf : FrontOk cs fr floc) {m m' : Mem C α} {t : Thread K F α} (hc : m.slots.cap = m'.slots.cap)
    (h : ∀ x ∈ slocs start floc t, Same cs m m' x) :
    (step fr m t).2 = (step fr m' t).2 ∧ ∀ x ∈ slocs start floc t, Same cs (step fr m t).1 (step fr m' t).1 x := by
  obtain ⟨todo, pc, done⟩ := t
  cases todo with
  | nil => exact ⟨rfl, by simp [slocs]⟩
  | cons op rest =>
    cases pc with
    | front f =>
      have hk : floc op.isPush op.kind f ∈ slocs start floc ⟨op :: rest, .front f, done⟩ ∧
          ∀ x ∈ slocs start floc ⟨op :: rest, .front f, done⟩, x = floc op.isPush op.kind f ∨ x = .data 0 := by
        cases op with
        | push k y => simp [slocs, Op.isPush, Op.kind]
        | pop k =>
          simp only [slocs, Op.isPush, Op.kind]
          split <;> simp
      have hcs := (h _ hk.1).ctr (hf.ctr _ _ _)
      obtain ⟨r1, r2⟩ := hf.read _ _ op.isPush op.kind f hcs
      constructor
      · simp only [step]
        rw [r1]
        split <;> rfl
      · have e1 : (step fr m ⟨op :: rest, .front f, done⟩).1 = { m with ctr := (fr.step m.ctr op.isPush op.kind f).1 } := by
          simp only [step]; split <;> rfl
        have e2 : (step fr m' ⟨op :: rest, .front f, done⟩).1 = { m' with ctr := (fr.step m'.ctr op.isPush op.kind f).1 } := by
          simp only [step]; split <;> rfl
        rw [e1, e2]
        intro x hx
        rcases hk.2 x hx with rfl | rfl
        · exact Same.of_slots (hf.ctr _ _ _) r2
        · exact h _ hx
    | slot p s =>
      have h' := h (s.loc p) (by simp [slocs])
      have key := slot_foot (op := op) (s := s) (p := p) hc (by cases s <;> exact h')
      constructor
      · simp only [step]
        rw [key.1]
        split <;> rfl
      · have e1 : ∀ n : Mem C α, (step fr n ⟨op :: rest, .slot p s, done⟩).1 = { n with slots := (slotStep n.slots op p s).1 } := by
          intro n
          simp only [step]; split <;> rfl
        rw [e1, e1]
        intro x hx
        simp only [slocs, List.mem_singleton] at hx
        subst hx
        have k2 := key.2
        cases s <;> exact k2

theorem step_write (hf : FrontOk cs fr floc) {m : Mem C α} {t : Thread K F α} {x : SLoc} (hx : x ∉ slocs start floc t) :
    Same cs (step fr m t).1 m x := by
  obtain ⟨todo, pc, done⟩ := t
  cases todo with
  | nil => exact Same.rfl' hf.refl _ _
  | cons op rest =>
    cases pc with
    | front f =>
      have hne : x ≠ floc op.isPush op.kind f := by
        rintro rfl
        apply hx
        cases op with
        | push k y => simp [slocs, Op.isPush, Op.kind]
        | pop k =>
          simp only [slocs, Op.isPush, Op.kind]
          split <;> simp
      have e1 : (step fr m ⟨op :: rest, .front f, done⟩).1 = { m with ctr := (fr.step m.ctr op.isPush op.kind f).1 } := by
        simp only [step]; split <;> rfl
      rw [e1]
      have hw := hf.write m.ctr op.isPush op.kind f x hne
      cases x <;> first | exact rfl | exact hw
    | slot p s =>
      have e1 : (step fr m ⟨op :: rest, .slot p s, done⟩).1 = { m with slots := (slotStep m.slots op p s).1 } := by
        simp only [step]; split <;> rfl
      rw [e1]
      simp only [slocs, List.mem_singleton] at hx
      obtain ⟨w1, w2, w3⟩ := slot_write (m := m.slots) (op := op) (p := p) (s := s)
      cases x with
      | data q => exact w1 q hx
      | lock q => exact w2 q hx
      | occ q => exact w3 q hx
      | size => exact hf.refl _ _
      | begin_ => exact hf.refl _ _
      | end_ => exact hf.refl _ _

theorem step_cap {fr : Front C K F} {m : Mem C α} {t : Thread K F α} : (step fr m t).1.slots.cap = m.slots.cap := by
  obtain ⟨todo, pc, done⟩ := t
  cases todo with
  | nil => rfl
  | cons op rest =>
    cases pc with
    | front f => simp only [step]; split <;> rfl
    | slot p s =>
      have : (slotStep m.slots op p s).1.cap = m.slots.cap := by
        cases s <;> cases op <;> simp only [slotStep] <;> (repeat' split) <;> rfl
      simp only [step]; split <;> exact this

end

/-! ### Vectors and deques -/

theorem same_vec {α : Type} {m m' : Vector.Vec α} {x : SLoc} :
    SameV m m' x ↔ Same (fun c c' x => x = .size → c = c') m m' x := by
  cases x <;> simp [SameV, Same]

def dcs (c c' : Deque.Ctr) : SLoc → Prop
  | .size => c.size = c'.size
  | .begin_ => c.begin = c'.begin
  | .end_ => c.endd = c'.endd
  | _ => True

theorem same_deq {α : Type} {m m' : Deque.Deq α} {x : SLoc} : SameD m m' x ↔ Same dcs m m' x := by
  cases x <;> simp [SameD, Same, dcs]

theorem vfront_ok (n : Nat) : FrontOk (fun c c' x => x = SLoc.size → c = c') (Vector.vfront n) (fun _ _ _ => .size) := by
  refine ⟨fun _ _ _ => rfl, fun _ _ _ => rfl, ?_, ?_⟩
  · intro c c' b k f h
    have := h rfl
    subst this
    exact ⟨rfl, fun _ => rfl⟩
  · intro c b k f x hx h
    exact absurd h hx

theorem dfront_ok (n : Nat) : FrontOk dcs (Deque.dfront n)
    (fun _ side f => match f, side with | .pos, .back => .end_ | .pos, .front => .begin_ | _, _ => .size) := by
  refine ⟨fun c x => by cases x <;> trivial, fun b k f => by cases f <;> cases k <;> rfl, ?_, ?_⟩
  · intro c c' b k f h
    cases f <;> cases k <;> cases b <;> simp only [dcs] at h <;>
      simp only [Deque.dfront, Deque.position, h, dcs] <;> (repeat' split) <;> simp_all
  · intro c b k f x hx
    cases f <;> cases k <;> cases b <;> cases x <;> simp only [Deque.dfront, Deque.position, dcs] <;>
      (repeat' split) <;> simp_all

end Stdgpu.SlotConc
