import Verif.Model.StoreBuffer
import Verif.Proof.Conc
/-
Executions with store buffers are sequentially consistent when every atomic operation is preceded by a fence: the thread of
the sequentially consistent execution stands at the oldest write of the buffer.
-/
namespace Stdgpu.StoreBuffer
open Stdgpu.Conc

variable {σ τ : Type}

/-- Where the thread of the sequentially consistent execution stands. -/
def WThread.pos (w : WThread τ) : τ := (w.buf ++ [w.cur]).headD w.cur

/-- The writes in the buffer are consecutive steps of the thread, and the next access is not a read. -/
def Chain (step : σ → τ → σ × τ) (kind : τ → Kind) : List τ → τ → Prop
  | [], _ => True
  | [a], t => kind a = .write ∧ (∀ m, (step m a).2 = t) ∧ kind t ≠ .read
  | a :: b :: l, t => kind a = .write ∧ (∀ m, (step m a).2 = b) ∧ Chain step kind (b :: l) t

theorem Chain.snoc {step : σ → τ → σ × τ} {kind : τ → Kind} : ∀ {l : List τ} {t t' : τ}, Chain step kind l t →
    kind t = .write → (∀ m, (step m t).2 = t') → kind t' ≠ .read → Chain step kind (l ++ [t]) t'
  | [], _, _, _, h1, h2, h3 => ⟨h1, h2, h3⟩
  | [_], _, _, ⟨a1, a2, _⟩, h1, h2, h3 => ⟨a1, a2, h1, h2, h3⟩
  | _ :: b :: l, _, _, ⟨a1, a2, a3⟩, h1, h2, h3 => ⟨a1, a2, Chain.snoc a3 h1 h2 h3⟩

/-- What the thread programs have to satisfy; `I` is an invariant of their local states. -/
structure Laws (step : σ → τ → σ × τ) (kind : τ → Kind) (I : τ → Prop) : Prop where
  inv : ∀ m t, I t → I (step m t).2
  /-- a plain write does not influence the thread -/
  det : ∀ m m' t, I t → kind t = .write → (step m t).2 = (step m' t).2
  /-- after a plain write comes a plain write or an atomic operation -/
  next : ∀ m t, I t → kind t = .write → kind (step m t).2 ≠ .read

/-- The writes of a buffer are performed in order: the machine enforces it, or there is never more than one. -/
def Ordered (step : σ → τ → σ × τ) (kind : τ → Kind) (I : τ → Prop) (inOrder : τ → τ → Bool) : Prop :=
  (∀ a b, inOrder a b = true) ∨ ∀ m t, I t → kind t = .write → kind (step m t).2 = .atomic

/-- The relation between the execution with buffers and the sequentially consistent one. -/
structure Sim (step : σ → τ → σ × τ) (kind : τ → Kind) (I : τ → Prop) (inOrder : τ → τ → Bool) (W : Sys σ (WThread τ)) (S : Sys σ τ) :
    Prop where
  mem : S.shared = W.shared
  threads : S.threads = W.threads.map WThread.pos
  chain : ∀ w ∈ W.threads, Chain step kind w.buf w.cur
  inv : ∀ w ∈ W.threads, I w.cur ∧ ∀ a ∈ w.buf, I a
  ord : (∀ a b, inOrder a b = true) ∨ ∀ w ∈ W.threads, w.buf = [] ∨ (w.buf.length = 1 ∧ kind w.cur = .atomic)

theorem pos_nil (t : τ) : (⟨t, []⟩ : WThread τ).pos = t := rfl
theorem pos_cons (t a : τ) (l : List τ) : (⟨t, a :: l⟩ : WThread τ).pos = a := rfl

theorem mem_set_of {α : Type} {l : List α} {i : Nat} {a x : α} (h : x ∈ l.set i a) : x ∈ l ∨ x = a := by
  rcases List.mem_or_eq_of_mem_set h with h | h
  · exact .inl h
  · exact .inr h

theorem set_self {α β : Type} {f : α → β} {l : List α} {i : Nat} {a : α} (x : α) (h : l[i]? = some a) (hf : f x = f a) :
    (l.set i x).map f = l.map f := by
  rw [List.map_set, hf]
  apply List.ext_getElem?
  intro j
  rw [List.getElem?_set]
  split
  · rename_i hj; subst hj
    simp only [List.getElem?_map, h, Option.map_some, List.length_map]
    have : i < l.length := by
      by_contra hc
      rw [List.getElem?_eq_none (by omega)] at h; cases h
    simp [this]
  · rfl

section
variable {step : σ → τ → σ × τ} {kind : τ → Kind} {I : τ → Prop} {inOrder : τ → τ → Bool}

theorem Sim.init (s : Sys σ τ) (hI : ∀ t ∈ s.threads, I t) : Sim step kind I inOrder (winit s) s := by
  refine ⟨rfl, ?_, ?_, ?_, .inr ?_⟩
  · simp only [winit, List.map_map]
    conv_lhs => rw [← List.map_id s.threads]
    rfl
  all_goals
    intro w hw
    simp only [winit, List.mem_map] at hw
    obtain ⟨t, ht, rfl⟩ := hw
  · trivial
  · exact ⟨hI t ht, by simp⟩
  · exact .inl rfl

theorem Sim.step_one (L : Laws step kind I) (O : Ordered step kind I inOrder) {W : Sys σ (WThread τ)} {S : Sys σ τ}
    (h : Sim step kind I inOrder W S) (e : Ev) :
    ∃ sched, Sim step kind I inOrder (wstep step kind true inOrder W e) (run step S sched) := by
  obtain ⟨m, ws⟩ := W
  obtain ⟨m', ts⟩ := S
  obtain ⟨hm, ht, hc, hi, ho⟩ := h
  dsimp only at hm ht hc hi ho
  subst hm ht
  cases e with
  | exec i =>
    simp only [wstep]
    rcases hw : ws[i]? with _ | w
    · exact ⟨[], ⟨rfl, rfl, hc, hi, ho⟩⟩
    have hmem : w ∈ ws := List.mem_of_getElem? hw
    obtain ⟨t, buf⟩ := w
    have hch := hc _ hmem
    obtain ⟨hit, hib⟩ := hi _ hmem
    dsimp only at hch hit hib
    have hpos : (ws.map WThread.pos)[i]? = some (⟨t, buf⟩ : WThread τ).pos := by simp [hw]
    simp only [execThread]
    rcases hk : kind t with _ | _ | _
    · -- atomic
      rcases buf with _ | ⟨a, l⟩
      · refine ⟨[i], ?_⟩
        simp only [run, List.foldl_cons, List.foldl_nil, stepAt, hpos, pos_nil]
        refine ⟨rfl, ?_, ?_, ?_, ?_⟩
        · simp [List.map_set, pos_nil]
        · intro w hw'
          rcases mem_set_of hw' with h | rfl
          · exact hc _ h
          · trivial
        · intro w hw'
          rcases mem_set_of hw' with h | rfl
          · exact hi _ h
          · exact ⟨L.inv _ _ hit, by simp⟩
        · refine ho.imp id (fun ho w hw' => ?_)
          rcases mem_set_of hw' with h | rfl
          · exact ho _ h
          · exact .inl rfl
      · refine ⟨[], ?_⟩
        simp only [List.isEmpty_cons, Bool.not_false, Bool.and_true, if_true, run, List.foldl_nil]
        refine ⟨rfl, (set_self _ hw rfl).symm, ?_, ?_, ?_⟩
        · intro w hw'
          rcases mem_set_of hw' with h | rfl
          · exact hc _ h
          · exact hch
        · intro w hw'
          rcases mem_set_of hw' with h | rfl
          · exact hi _ h
          · exact ⟨hit, hib⟩
        · refine ho.imp id (fun ho w hw' => ?_)
          rcases mem_set_of hw' with h | rfl
          · exact ho _ h
          · exact ho _ hmem
    · -- read: the buffer is empty
      have hb : buf = [] := by
        rcases buf with _ | ⟨a, l⟩
        · rfl
        · exfalso
          have key : ∀ (l : List τ) (a : τ), Chain step kind (a :: l) t → kind t ≠ .read := by
            intro l
            induction l with
            | nil => intro a h; exact h.2.2
            | cons b l ih => intro a h; exact ih b h.2.2
          exact key l a hch hk
      subst hb
      refine ⟨[i], ?_⟩
      simp only [run, List.foldl_cons, List.foldl_nil, stepAt, hpos, pos_nil, List.isEmpty_nil, if_true, view]
      refine ⟨rfl, ?_, ?_, ?_, ?_⟩
      · simp [List.map_set, pos_nil]
      · intro w hw'
        rcases mem_set_of hw' with h | rfl
        · exact hc _ h
        · trivial
      · intro w hw'
        rcases mem_set_of hw' with h | rfl
        · exact hi _ h
        · exact ⟨L.inv _ _ hit, by simp⟩
      · refine ho.imp id (fun ho w hw' => ?_)
        rcases mem_set_of hw' with h | rfl
        · exact ho _ h
        · exact .inl rfl
    · -- write
      refine ⟨[], ?_⟩
      simp only [run, List.foldl_nil]
      refine ⟨rfl, ?_, ?_, ?_, ?_⟩
      · refine (set_self _ hw ?_).symm
        rcases buf with _ | ⟨a, l⟩ <;> rfl
      · intro w hw'
        rcases mem_set_of hw' with h | rfl
        · exact hc _ h
        · exact hch.snoc hk (fun m' => L.det _ _ _ hit hk) (L.next _ _ hit hk)
      · intro w hw'
        rcases mem_set_of hw' with h | rfl
        · exact hi _ h
        · refine ⟨L.inv _ _ hit, fun a ha => ?_⟩
          rcases List.mem_append.1 ha with ha | ha
          · exact hib a ha
          · rw [List.mem_singleton.1 ha]; exact hit
      · rcases ho with ho | ho
        · exact .inl ho
        · rcases O with O | O
          · exact .inl O
          · refine .inr (fun w hw' => ?_)
            rcases mem_set_of hw' with h | rfl
            · exact ho _ h
            · have := ho _ hmem
              dsimp only at this
              rcases this with h | ⟨_, h⟩
              · subst h; exact .inr ⟨rfl, O _ _ hit hk⟩
              · rw [hk] at h; cases h
  | flush i k =>
    simp only [wstep]
    rcases hw : ws[i]? with _ | w
    · exact ⟨[], ⟨rfl, rfl, hc, hi, ho⟩⟩
    have hmem : w ∈ ws := List.mem_of_getElem? hw
    obtain ⟨t, buf⟩ := w
    have hch := hc _ hmem
    obtain ⟨hit, hib⟩ := hi _ hmem
    dsimp only at hch hit hib
    have hpos : (ws.map WThread.pos)[i]? = some (⟨t, buf⟩ : WThread τ).pos := by simp [hw]
    have stay : Sim step kind I inOrder ⟨m', ws.set i ⟨t, buf⟩⟩ ⟨m', ws.map WThread.pos⟩ := by
      refine ⟨rfl, (set_self _ hw rfl).symm, ?_, ?_, ?_⟩
      · intro w hw'
        rcases mem_set_of hw' with h | rfl
        · exact hc _ h
        · exact hch
      · intro w hw'
        rcases mem_set_of hw' with h | rfl
        · exact hi _ h
        · exact ⟨hit, hib⟩
      · refine ho.imp id (fun ho w hw' => ?_)
        rcases mem_set_of hw' with h | rfl
        · exact ho _ h
        · exact ho _ hmem
    simp only [flushThread]
    rcases hb : buf[k]? with _ | a
    · exact ⟨[], stay⟩
    dsimp only
    by_cases hany : (buf.take k).any (fun x => inOrder x a) = true
    · rw [if_pos hany]; exact ⟨[], stay⟩
    rw [if_neg hany]
    have hk : k = 0 := by
      rcases ho with ho | ho
      · rcases buf with _ | ⟨b, l⟩
        · cases hb
        · rcases k with _ | k
          · rfl
          · exfalso; apply hany; simp [ho]
      · have := ho _ hmem
        dsimp only at this
        rcases this with h | ⟨h, _⟩
        · subst h; cases hb
        · have : k < buf.length := by
            by_contra hcon
            rw [List.getElem?_eq_none (by omega)] at hb; cases hb
          omega
    subst hk
    rcases buf with _ | ⟨b, l⟩
    · cases hb
    simp only [List.getElem?_cons_zero, Option.some.injEq] at hb
    subst hb
    refine ⟨[i], ?_⟩
    simp only [run, List.foldl_cons, List.foldl_nil, stepAt, hpos, pos_cons, List.eraseIdx_cons_zero]
    refine ⟨rfl, ?_, ?_, ?_, ?_⟩
    · simp only [List.map_set]
      congr 1
      rcases l with _ | ⟨c, l⟩
      · exact hch.2.1 m'
      · exact hch.2.1 m'
    · intro w hw'
      rcases mem_set_of hw' with h | rfl
      · exact hc _ h
      · rcases l with _ | ⟨c, l⟩
        · trivial
        · exact hch.2.2
    · intro w hw'
      rcases mem_set_of hw' with h | rfl
      · exact hi _ h
      · exact ⟨hit, fun a ha => hib a (List.mem_cons_of_mem _ ha)⟩
    · refine ho.imp id (fun ho w hw' => ?_)
      rcases mem_set_of hw' with h | rfl
      · exact ho _ h
      · have := ho _ hmem
        dsimp only at this
        rcases this with h | ⟨h, _⟩
        · cases h
        · left; simpa using h

theorem sim_run (L : Laws step kind I) (O : Ordered step kind I inOrder) (s : Sys σ τ) (hI : ∀ t ∈ s.threads, I t)
    (evs : List Ev) : ∃ sched, Sim step kind I inOrder (wrun step kind true inOrder s evs) (run step s sched) := by
  have key : ∀ (evs : List Ev) (W : Sys σ (WThread τ)) (sched : List Nat), Sim step kind I inOrder W (run step s sched) →
      ∃ sched, Sim step kind I inOrder (evs.foldl (wstep step kind true inOrder) W) (run step s sched) := by
    intro evs
    induction evs with
    | nil => exact fun W sched h => ⟨sched, h⟩
    | cons e evs ih =>
      intro W sched h
      obtain ⟨sched', h'⟩ := h.step_one L O e
      rw [← run_append] at h'
      exact ih _ _ h'
  exact key evs _ [] (Sim.init s hI)

/-- Observations that plain writes do not change are those of the sequentially consistent execution. -/
theorem Sim.obs {W : Sys σ (WThread τ)} {S : Sys σ τ} (h : Sim step kind I inOrder W S) {β : Type} (f : τ → β)
    (hf : ∀ m t, I t → kind t = .write → f (step m t).2 = f t) (m0 : σ) : (visible W).threads.map f = S.threads.map f := by
  rw [h.threads]
  simp only [visible, List.map_map]
  apply List.map_congr_left
  intro w hw
  have hc := h.chain w hw
  obtain ⟨_, hb⟩ := h.inv w hw
  obtain ⟨t, buf⟩ := w
  dsimp only [Function.comp] at *
  have key : ∀ (l : List τ), Chain step kind l t → (∀ a ∈ l, I a) → f t = f (⟨t, l⟩ : WThread τ).pos := by
    intro l
    induction l with
    | nil => intros; rfl
    | cons a l ih =>
      intro hc hI
      have := hf m0 a (hI a (List.mem_cons_self ..))
      rcases l with _ | ⟨b, l⟩
      · obtain ⟨h1, h2, _⟩ := hc
        rw [pos_cons, ← this h1, h2]
      · obtain ⟨h1, h2, h3⟩ := hc
        rw [ih h3 (fun a ha => hI a (List.mem_cons_of_mem _ ha)), pos_cons, pos_cons, ← this h1, h2]
  exact key buf hc hb

/-- When the next access of no thread can follow a plain write, the buffers are empty and the states agree. -/
theorem Sim.final {W : Sys σ (WThread τ)} {S : Sys σ τ} (h : Sim step kind I inOrder W S) (m0 : σ)
    (hf : ∀ w ∈ W.threads, ∀ a, I a → kind a = .write → (step m0 a).2 ≠ w.cur) :
    (∀ w ∈ W.threads, w.buf = []) ∧ visible W = S := by
  have hb : ∀ w ∈ W.threads, w.buf = [] := by
    intro w hw
    have hc := h.chain w hw
    obtain ⟨_, hb⟩ := h.inv w hw
    have hf' := hf w hw
    obtain ⟨t, buf⟩ := w
    dsimp only at *
    have key : ∀ (l : List τ) (a : τ), Chain step kind (a :: l) t → (∀ x ∈ a :: l, I x) → False := by
      intro l
      induction l with
      | nil => intro a h hI; exact hf' a (hI a (List.mem_cons_self ..)) h.1 (h.2.1 m0)
      | cons b l ih => intro a h hI; exact ih b h.2.2 (fun x hx => hI x (List.mem_cons_of_mem _ hx))
    rcases buf with _ | ⟨a, l⟩
    · rfl
    · exact (key l a hc hb).elim
  refine ⟨hb, ?_⟩
  obtain ⟨m', ts⟩ := S
  have h1 := h.mem
  have h2 := h.threads
  dsimp only at h1 h2
  subst h1 h2
  simp only [visible, Sys.mk.injEq, true_and]
  apply List.map_congr_left
  intro w hw
  have := hb w hw
  obtain ⟨t, buf⟩ := w
  dsimp only at this
  subst this; rfl

end

end Stdgpu.StoreBuffer
