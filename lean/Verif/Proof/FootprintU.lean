import Verif.Proof.Footprint
/-! C87: the variables listed by `UnorderedConc.locs` are the footprints of the steps. -/
namespace Stdgpu.UnorderedConc.Lc
open Stdgpu.Conc
open Stdgpu.SlotConc (upd SLoc)
open Stdgpu.Unordered
open Stdgpu.Spec
open Stdgpu.Vector (FPC vfront)
variable {K V : Type}

/-- The tables have the same sizes. -/
structure Dims (t t' : Tab V) : Prop where
  total : t.total = t'.total
  bc : t.bc = t'.bc
  cap : Vector.cap t.excess = Vector.cap t'.excess

theorem sameV_refl {α : Type} (m : Vector.Vec α) (x : SLoc) : SameV m m x := by cases x <;> first | rfl | trivial
theorem sameU_refl (t : Tab V) (x : ULoc) : SameU t t x := by cases x <;> first | exact sameV_refl _ _ | exact rfl | exact ⟨rfl, rfl⟩

variable {m m' : Shared V} {eq : V → Bool} {ex : Ex} {v : V} {b : Nat}

theorem hop_same (hd : Dims m.tab m'.tab) {w : Nat} (h : m.tab.off w = m'.tab.off w) : hop m.tab w = hop m'.tab w := by
  simp only [hop, h, hd.total]

theorem find_foot (hd : Dims m.tab m'.tab) {w : Walk} (h : SameU m.tab m'.tab w.loc) :
    (findStep m eq w).2 = (findStep m' eq w).2 ∧ (findStep m eq w).1.tab = m.tab ∧ (findStep m' eq w).1.tab = m'.tab := by
  cases w with
  | occ w => simp only [Walk.loc, SameU] at h; simp [findStep, h]
  | val w =>
    simp only [Walk.loc, SameU] at h
    simp only [findStep, h]
    cases m'.tab.val w <;> simp
  | off1 w => simp only [Walk.loc, SameU] at h; simp [findStep, h]
  | off2 w =>
    simp only [Walk.loc, SameU] at h
    simp only [findStep, hop_same hd h]
    cases hop m'.tab w <;> simp

theorem end_foot (hd : Dims m.tab m'.tab) {w : Hop} (h : SameU m.tab m'.tab w.loc) :
    (endStep m w).2 = (endStep m' w).2 ∧ (endStep m w).1.tab = m.tab ∧ (endStep m' w).1.tab = m'.tab := by
  cases w with
  | off1 w => simp only [Hop.loc, SameU] at h; simp [endStep, h]
  | off2 w =>
    simp only [Hop.loc, SameU] at h
    simp only [endStep, hop_same hd h]
    cases hop m'.tab w <;> simp

theorem prev_foot (hd : Dims m.tab m'.tab) {x : Nat} {w : Hop} (h : SameU m.tab m'.tab w.loc) :
    (prevStep m x w).2 = (prevStep m' x w).2 ∧ (prevStep m x w).1.tab = m.tab ∧ (prevStep m' x w).1.tab = m'.tab := by
  cases w with
  | off1 w => simp only [Hop.loc, SameU] at h; simp [prevStep, h]
  | off2 w =>
    simp only [Hop.loc, SameU] at h
    simp only [prevStep, hop_same hd h]
    cases hop m'.tab w <;> simp

theorem ex_foot (hd : Dims m.tab m'.tab) (h : ∀ x ∈ (Vector.locs ex).map ULoc.ex, SameU m.tab m'.tab x) :
    (exStep m ex).2 = (exStep m' ex).2 ∧
      ∀ x ∈ (Vector.locs ex).map ULoc.ex, SameU (exStep m ex).1.tab (exStep m' ex).1.tab x := by
  have hc : m.tab.excess.slots.cap = m'.tab.excess.slots.cap := hd.cap
  have := SlotConc.step_foot (m := m.tab.excess) (m' := m'.tab.excess) (t := ex)
    (start := FPC.first) (SlotConc.vfront_ok (Vector.cap m.tab.excess)) hc
    (fun x hx => SlotConc.same_vec.1 (h (.ex x) (List.mem_map_of_mem hx)))
  obtain ⟨h1, h2⟩ := this
  simp only [exStep, ← hd.cap]
  refine ⟨h1, ?_⟩
  intro x hx
  obtain ⟨y, hy, rfl⟩ := List.mem_map.1 hx
  exact SlotConc.same_vec.2 (h2 y hy)

theorem ex_write {x : ULoc} (hx : x ∉ (Vector.locs ex).map ULoc.ex) : SameU (exStep m ex).1.tab m.tab x := by
  cases x with
  | ex y =>
    have hy : y ∉ Vector.locs ex := fun h => hx (List.mem_map_of_mem h)
    exact SlotConc.same_vec.2 (SlotConc.step_write (start := FPC.first)
      (SlotConc.vfront_ok (Vector.cap m.tab.excess)) hy)
  | val p => exact ⟨rfl, rfl⟩
  | off p => rfl
  | lock p => rfl
  | occ p => rfl
  | count => rfl

/-- What a step with the locations `l` may do. -/
structure Foot {R : Type} (l : List ULoc) (m m' : Shared V) (r r' : Shared V × Ex × R) : Prop where
  same : r.2 = r'.2
  out : ∀ x ∈ l, SameU r.1.tab r'.1.tab x
  frame : ∀ x, x ∉ l → SameU r.1.tab m.tab x

theorem ins_foot (hd : Dims m.tab m'.tab) {pc : IPC} (h : ∀ x ∈ pc.locs b ex, SameU m.tab m'.tab x) :
    Foot (pc.locs b ex) m m' (insStep m v b eq ex pc) (insStep m' v b eq ex pc) := by
  cases pc with
  | full =>
    simp only [IPC.locs, List.mem_singleton, forall_eq, SameU] at h
    refine ⟨?_, by simpa [IPC.locs, SameU, insStep] using h, fun x _ => sameU_refl _ _⟩
    simp only [insStep, full, size, h, hd.total]
    rfl
  | exc =>
    simp only [IPC.locs, List.mem_singleton, forall_eq, SameU, SameV] at h
    refine ⟨?_, by simpa [IPC.locs, SameU, SameV, insStep] using h, fun x _ => sameU_refl _ _⟩
    simp only [insStep, Vector.empty, Vector.size, h, hd.cap]
    rfl
  | c1 w =>
    obtain ⟨h1, h2, h3⟩ := find_foot (eq := eq) hd (h w.loc (by simp [IPC.locs]))
    simp only [insStep]
    generalize findStep m eq w = r at h1 h2 ⊢
    generalize findStep m' eq w = r' at h1 h3 ⊢
    obtain ⟨n, r⟩ := r
    obtain ⟨n', r'⟩ := r'
    dsimp only at h1 h2 h3
    subst h1
    rcases r with W | (_ | p) <;> dsimp only <;> refine ⟨rfl, ?_, ?_⟩ <;> dsimp only <;> rw [h2] <;>
      first | (rw [h3]; exact h) | exact fun x _ => sameU_refl _ _
  | occ1 =>
    simp only [IPC.locs, List.mem_singleton, forall_eq, SameU] at h
    refine ⟨?_, by simpa [IPC.locs, SameU, insStep] using h, fun x _ => sameU_refl _ _⟩
    simp only [insStep, h]
  | lockB =>
    simp only [IPC.locs, List.mem_singleton, forall_eq, SameU] at h
    simp only [insStep, h]
    split
    · exact ⟨rfl, by simpa [IPC.locs, SameU] using h, fun x _ => sameU_refl _ _⟩
    · refine ⟨rfl, by simp [IPC.locs, SameU, setLock, upd], ?_⟩
      intro x hx
      cases x <;> simp_all [IPC.locs, SameU, setLock, upd, sameV_refl]
  | c2 w =>
    obtain ⟨h1, h2, h3⟩ := find_foot (eq := eq) hd (h w.loc (by simp [IPC.locs]))
    simp only [insStep]
    generalize findStep m eq w = r at h1 h2 ⊢
    generalize findStep m' eq w = r' at h1 h3 ⊢
    obtain ⟨n, r⟩ := r
    obtain ⟨n', r'⟩ := r'
    dsimp only at h1 h2 h3
    subst h1
    rcases r with W | (_ | p) <;> dsimp only <;> refine ⟨rfl, ?_, ?_⟩ <;> dsimp only <;> rw [h2] <;>
      first | (rw [h3]; exact h) | exact fun x _ => sameU_refl _ _
  | occ2 =>
    simp only [IPC.locs, List.mem_singleton, forall_eq, SameU] at h
    refine ⟨?_, by simpa [IPC.locs, SameU, insStep] using h, fun x _ => sameU_refl _ _⟩
    simp only [insStep, h]
  | e1 w =>
    obtain ⟨h1, h2, h3⟩ := end_foot hd (h w.loc (by simp [IPC.locs]))
    simp only [insStep]
    generalize endStep m w = r at h1 h2 ⊢
    generalize endStep m' w = r' at h1 h3 ⊢
    obtain ⟨n, r⟩ := r
    obtain ⟨n', r'⟩ := r'
    dsimp only at h1 h2 h3
    subst h1
    rcases r with W | p <;> dsimp only <;> refine ⟨rfl, ?_, ?_⟩ <;> dsimp only <;> rw [h2] <;>
      first | (rw [h3]; exact h) | exact fun x _ => sameU_refl _ _
  | lockE e =>
    simp only [IPC.locs, List.mem_singleton, forall_eq, SameU] at h
    simp only [insStep, h]
    split
    · exact ⟨rfl, by simpa [IPC.locs, SameU] using h, fun x _ => sameU_refl _ _⟩
    · refine ⟨rfl, by simp [IPC.locs, SameU, setLock, upd], ?_⟩
      intro x hx
      cases x <;> simp_all [IPC.locs, SameU, setLock, upd, sameV_refl]
  | e2 e w =>
    obtain ⟨h1, h2, h3⟩ := end_foot hd (h w.loc (by simp [IPC.locs]))
    simp only [insStep]
    generalize endStep m w = r at h1 h2 ⊢
    generalize endStep m' w = r' at h1 h3 ⊢
    obtain ⟨n, r⟩ := r
    obtain ⟨n', r'⟩ := r'
    dsimp only at h1 h2 h3
    subst h1
    rcases r with W | p <;> dsimp only <;> refine ⟨rfl, ?_, ?_⟩ <;> dsimp only <;> rw [h2] <;>
      first | (rw [h3]; exact h) | exact fun x _ => sameU_refl _ _
  | c3 e e' w =>
    obtain ⟨h1, h2, h3⟩ := find_foot (eq := eq) hd (h w.loc (by simp [IPC.locs]))
    simp only [insStep]
    generalize findStep m eq w = r at h1 h2 ⊢
    generalize findStep m' eq w = r' at h1 h3 ⊢
    obtain ⟨n, r⟩ := r
    obtain ⟨n', r'⟩ := r'
    dsimp only at h1 h2 h3
    subst h1
    rcases r with W | (_ | p) <;> dsimp only <;> (try split) <;> refine ⟨rfl, ?_, ?_⟩ <;> dsimp only <;> rw [h2] <;>
      first | (rw [h3]; exact h) | exact fun x _ => sameU_refl _ _
  | pop e =>
    simp only [IPC.locs] at h ⊢
    obtain ⟨h1, h2⟩ := ex_foot hd h
    have h3 : ∀ x, x ∉ (Vector.locs ex).map ULoc.ex → SameU (exStep m ex).1.tab m.tab x := fun x hx => ex_write hx
    simp only [insStep]
    generalize exStep m ex = r at h1 h2 h3 ⊢
    generalize exStep m' ex = r' at h1 h2 ⊢
    obtain ⟨n, x⟩ := r
    obtain ⟨n', x'⟩ := r'
    dsimp only at h1 h2 h3
    subst h1
    dsimp only
    split
    · split <;> exact ⟨rfl, h2, h3⟩
    · exact ⟨rfl, h2, h3⟩
  | unlock p r =>
    refine ⟨rfl, by simp [IPC.locs, SameU, insStep, setLock, upd], ?_⟩
    intro x hx
    cases x <;> simp_all [IPC.locs, SameU, insStep, setLock, upd, sameV_refl]
  | _ =>
    simp only [IPC.locs, List.mem_singleton, forall_eq, SameU] at h
    refine ⟨rfl, by simp [IPC.locs, SameU, insStep, constructAt, addCount, setOcc, setOff, upd, h], ?_⟩
    intro x hx
    cases x <;> simp_all [IPC.locs, SameU, insStep, constructAt, addCount, setOcc, setOff, upd, sameV_refl]

theorem era_foot (hd : Dims m.tab m'.tab) {pc : EPC} (h : ∀ x ∈ pc.locs ex, SameU m.tab m'.tab x) :
    Foot (pc.locs ex) m m' (eraStep m b eq ex pc) (eraStep m' b eq ex pc) := by
  cases pc with
  | f1 w =>
    obtain ⟨h1, h2, h3⟩ := find_foot (eq := eq) hd (h w.loc (by simp [EPC.locs]))
    simp only [eraStep]
    generalize findStep m eq w = r at h1 h2 ⊢
    generalize findStep m' eq w = r' at h1 h3 ⊢
    obtain ⟨n, r⟩ := r
    obtain ⟨n', r'⟩ := r'
    dsimp only at h1 h2 h3
    subst h1
    rcases r with W | (_ | p) <;> dsimp only <;> refine ⟨rfl, ?_, ?_⟩ <;> dsimp only <;> rw [h2] <;>
      first | (rw [h3]; exact h) | exact fun x _ => sameU_refl _ _
  | f2 p w =>
    obtain ⟨h1, h2, h3⟩ := find_foot (eq := eq) hd (h w.loc (by simp [EPC.locs]))
    simp only [eraStep]
    generalize findStep m eq w = r at h1 h2 ⊢
    generalize findStep m' eq w = r' at h1 h3 ⊢
    obtain ⟨n, r⟩ := r
    obtain ⟨n', r'⟩ := r'
    dsimp only at h1 h2 h3
    subst h1
    rcases r with W | p <;> dsimp only <;> refine ⟨rfl, ?_, ?_⟩ <;> dsimp only <;> rw [h2] <;>
      first | (rw [h3]; exact h) | exact fun x _ => sameU_refl _ _
  | f3 p q w =>
    obtain ⟨h1, h2, h3⟩ := find_foot (eq := eq) hd (h w.loc (by simp [EPC.locs]))
    simp only [eraStep]
    generalize findStep m eq w = r at h1 h2 ⊢
    generalize findStep m' eq w = r' at h1 h3 ⊢
    obtain ⟨n, r⟩ := r
    obtain ⟨n', r'⟩ := r'
    dsimp only at h1 h2 h3
    subst h1
    rcases r with W | p <;> dsimp only <;> refine ⟨rfl, ?_, ?_⟩ <;> dsimp only <;> rw [h2] <;>
      first | (rw [h3]; exact h) | exact fun x _ => sameU_refl _ _
  | p1 p w =>
    obtain ⟨h1, h2, h3⟩ := prev_foot (x := p) hd (h w.loc (by simp [EPC.locs]))
    simp only [eraStep]
    generalize prevStep m p w = r at h1 h2 ⊢
    generalize prevStep m' p w = r' at h1 h3 ⊢
    obtain ⟨n, r⟩ := r
    obtain ⟨n', r'⟩ := r'
    dsimp only at h1 h2 h3
    subst h1
    rcases r with W | p <;> dsimp only <;> refine ⟨rfl, ?_, ?_⟩ <;> dsimp only <;> rw [h2] <;>
      first | (rw [h3]; exact h) | exact fun x _ => sameU_refl _ _
  | p2 p q it w =>
    obtain ⟨h1, h2, h3⟩ := prev_foot (x := p) hd (h w.loc (by simp [EPC.locs]))
    simp only [eraStep]
    generalize prevStep m p w = r at h1 h2 ⊢
    generalize prevStep m' p w = r' at h1 h3 ⊢
    obtain ⟨n, r⟩ := r
    obtain ⟨n', r'⟩ := r'
    dsimp only at h1 h2 h3
    subst h1
    rcases r with W | p <;> dsimp only <;> refine ⟨rfl, ?_, ?_⟩ <;> dsimp only <;> rw [h2] <;>
      first | (rw [h3]; exact h) | exact fun x _ => sameU_refl _ _
  | push p q =>
    simp only [EPC.locs] at h ⊢
    obtain ⟨h1, h2⟩ := ex_foot hd h
    have h3 : ∀ x, x ∉ (Vector.locs ex).map ULoc.ex → SameU (exStep m ex).1.tab m.tab x := fun x hx => ex_write hx
    simp only [eraStep]
    generalize exStep m ex = r at h1 h2 h3 ⊢
    generalize exStep m' ex = r' at h1 h2 ⊢
    obtain ⟨n, x⟩ := r
    obtain ⟨n', x'⟩ := r'
    dsimp only at h1 h2 h3
    subst h1
    exact ⟨rfl, h2, h3⟩
  | lockB p | lock1 p q | lock2 p q =>
    simp only [EPC.locs, List.mem_singleton, forall_eq, SameU] at h
    simp only [eraStep, h]
    split
    · exact ⟨rfl, by simpa [EPC.locs, SameU] using h, fun x _ => sameU_refl _ _⟩
    · refine ⟨rfl, by simp [EPC.locs, SameU, setLock, upd], ?_⟩
      intro x hx
      cases x <;> simp_all [EPC.locs, SameU, setLock, upd, sameV_refl]
  | _ =>
    simp only [EPC.locs, List.mem_singleton, forall_eq, SameU] at h
    refine ⟨by simp [eraStep, h], by simp [EPC.locs, SameU, eraStep, destroyAt, addCount, setOcc, setOff, setLock, upd, h], ?_⟩
    intro x hx
    cases x <;> simp_all [EPC.locs, SameU, eraStep, destroyAt, addCount, setOcc, setOff, setLock, upd, sameV_refl]

variable {P : Params K V}

theorem step_foot {t : Thread K V} (hd : Dims m.tab m'.tab) (h : ∀ x ∈ locs P m.tab t, SameU m.tab m'.tab x) :
    (step P m t).2 = (step P m' t).2 ∧ (∀ x ∈ locs P m.tab t, SameU (step P m t).1.tab (step P m' t).1.tab x) ∧
      ∀ x, x ∉ locs P m.tab t → SameU (step P m t).1.tab m.tab x := by
  obtain ⟨todo, cur, ex, done⟩ := t
  have hb : ∀ k, bucket P m'.tab k = bucket P m.tab k := fun k => by unfold bucket; rw [hd.bc]
  cases cur with
  | idle =>
    cases todo with
    | nil => exact ⟨rfl, by simp [locs], fun x _ => sameU_refl _ _⟩
    | cons op rest =>
      refine ⟨?_, by simp [locs], fun x _ => sameU_refl _ _⟩
      cases op <;> simp [step, begin, hb]
  | ins v pc =>
    have key := ins_foot (v := v) (eq := fun w => P.keyEq (P.keyOf w) (P.keyOf v)) (b := bucket P m.tab (P.keyOf v)) (ex := ex)
      hd (pc := pc) h
    simp only [step, hb, locs]
    generalize insStep m v (bucket P m.tab (P.keyOf v)) (fun w => P.keyEq (P.keyOf w) (P.keyOf v)) ex pc = r at key ⊢
    generalize insStep m' v (bucket P m.tab (P.keyOf v)) (fun w => P.keyEq (P.keyOf w) (P.keyOf v)) ex pc = r' at key ⊢
    obtain ⟨k1, k2, k3⟩ := key
    obtain ⟨n, x, r⟩ := r
    obtain ⟨n', x', r'⟩ := r'
    cases k1
    rcases r with pc' | (_ | p) <;> exact ⟨rfl, k2, k3⟩
  | era k pc =>
    have key := era_foot (eq := fun w => P.keyEq (P.keyOf w) k) (b := bucket P m.tab k) (ex := ex) hd (pc := pc) h
    simp only [step, hb, locs]
    generalize eraStep m (bucket P m.tab k) (fun w => P.keyEq (P.keyOf w) k) ex pc = r at key ⊢
    generalize eraStep m' (bucket P m.tab k) (fun w => P.keyEq (P.keyOf w) k) ex pc = r' at key ⊢
    obtain ⟨k1, k2, k3⟩ := key
    obtain ⟨n, x, r⟩ := r
    obtain ⟨n', x', r'⟩ := r'
    cases k1
    rcases r with pc' | ok <;> exact ⟨rfl, k2, k3⟩
  | fnd k w =>
    obtain ⟨h1, h2, h3⟩ := find_foot (eq := fun w => P.keyEq (P.keyOf w) k) hd (w := w) (h w.loc (by simp [locs]))
    simp only [step]
    generalize findStep m (fun w => P.keyEq (P.keyOf w) k) w = r at h1 h2 ⊢
    generalize findStep m' (fun w => P.keyEq (P.keyOf w) k) w = r' at h1 h3 ⊢
    obtain ⟨n, r⟩ := r
    obtain ⟨n', r'⟩ := r'
    dsimp only at h1 h2 h3
    subst h1
    rcases r with W | (_ | p) <;> dsimp only <;> refine ⟨rfl, ?_, ?_⟩ <;> (try dsimp only) <;> rw [h2] <;>
      first | (rw [h3]; exact h) | exact fun x _ => sameU_refl _ _

end Stdgpu.UnorderedConc.Lc
