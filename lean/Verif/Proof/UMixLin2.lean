import Verif.Proof.UMixLin
import Verif.Proof.ULinTimes
/-! Concurrent insertions, erasures and lookups when different keys have different buckets: every lookup is right at some
moment between its call and its return. -/
namespace Stdgpu.UnorderedConc.Mx
open Stdgpu.Conc
open Stdgpu.SlotConc (upd)
open Stdgpu.Unordered
open Stdgpu.Vector (FPC vfront countBits VInv)
open Stdgpu.Spec
variable {K V : Type} {P : Params K V} (E : Start P)

/-- At some moment of operation `a` of thread `i`, the table satisfied `φ`. -/
def Since (σ : List Nat) (i a : Nat) (φ : Tab V → Prop) : Prop :=
  ∃ n ≤ σ.length, ∃ t, (at_ P E.t₀ E.progs σ n).threads[i]? = some t ∧ t.done.length = a ∧ t.cur ≠ .idle ∧
    φ (at_ P E.t₀ E.progs σ n).shared.tab

variable {E} {σ : List Nat} {i a : Nat} {φ ψ : Tab V → Prop}

theorem Since.app (h : Since E σ i a φ) (τ : List Nat) : Since E (σ ++ τ) i a φ := by
  obtain ⟨n, hn, t, h1⟩ := h
  refine ⟨n, by simp; omega, t, ?_⟩
  unfold at_ at h1 ⊢
  rw [List.take_append_of_le_length hn]
  exact h1

theorem since_now {t : Thread K V} (ht : (uexec P E.t₀ E.progs σ).threads[i]? = some t) (ha : t.done.length = a)
    (hc : t.cur ≠ .idle) (h : φ (uexec P E.t₀ E.progs σ).shared.tab) : Since E σ i a φ := by
  refine ⟨σ.length, le_refl _, t, ?_⟩
  unfold at_
  rw [List.take_length]
  exact ⟨ht, ha, hc, h⟩

theorem Since.imp (hl : KeyLaws P) (h : Since E σ i a φ) (hi : ∀ τ, G E τ → φ τ → ψ τ) : Since E σ i a ψ := by
  obtain ⟨n, hn, t, h1, h2, h3, h4⟩ := h
  obtain ⟨xp, hI⟩ := inv_run E hl (σ.take n)
  exact ⟨n, hn, t, h1, h2, h3, hi _ hI.g h4⟩

variable (E) in
/-- What a lookup of `k` has seen; `t` is the present table. -/
def WH (σ : List Nat) (i a : Nat) (t : Tab V) (k : K) : Walk → Prop
  | .occ w => w = bkt P E.t₀.bc k ∨ (Since E σ i a (fun τ => Lk E τ (bkt P E.t₀.bc k) w) ∧
      (Since E σ i a (Abs E k) ∨ Lk E t (bkt P E.t₀.bc k) w))
  | .val w => (w = bkt P E.t₀.bc k ∧ Since E σ i a (fun τ => τ.occ w = true)) ∨
      (Since E σ i a (fun τ => Lk E τ (bkt P E.t₀.bc k) w) ∧ (Since E σ i a (Abs E k) ∨ Lk E t (bkt P E.t₀.bc k) w))
  | .off1 w => Since E σ i a (Abs E k) ∨ (w = bkt P E.t₀.bc k ∧ ∃ n, Lk E t (bkt P E.t₀.bc k) n)
  | .off2 _ => True

/-- The other threads. -/
theorem WH.stable (hl : KeyLaws P) {t t' : Tab V} {e : Option (Op K V × Res)} {k : K} {W : Walk} {j : Nat}
    (h : WH E σ i a t k W) (g : G E t) (g' : G E t') (hc : Ch E t t' e)
    (hnow : Abs E k t' → Since E (σ ++ [j]) i a (Abs E k)) : WH E (σ ++ [j]) i a t' k W := by
  have hlk : ∀ n, Lk E t (bkt P E.t₀.bc k) n → Since E (σ ++ [j]) i a (Abs E k) ∨ Lk E t' (bkt P E.t₀.bc k) n := by
    intro n hn
    rcases hc.lk hn with h1 | ⟨h1, h2⟩
    · exact .inr h1
    · exact .inl (hnow (abs_empty hl g' (by rw [h2]; exact (g.lk _ _ hn).2.2.2.1) h1))
  have hor : ∀ n, Since E σ i a (Abs E k) ∨ Lk E t (bkt P E.t₀.bc k) n →
      Since E (σ ++ [j]) i a (Abs E k) ∨ Lk E t' (bkt P E.t₀.bc k) n := by
    rintro n (h1 | h1)
    · exact .inl (h1.app _)
    · exact hlk n h1
  cases W with
  | occ w =>
    rcases h with h | ⟨h1, h2⟩
    · exact .inl h
    · exact .inr ⟨h1.app _, hor w h2⟩
  | val w =>
    rcases h with ⟨h, h'⟩ | ⟨h1, h2⟩
    · exact .inl ⟨h, h'.app _⟩
    · exact .inr ⟨h1.app _, hor w h2⟩
  | off1 w =>
    rcases h with h | ⟨h1, n, hn⟩
    · exact .inl (h.app _)
    · rcases hlk n hn with h | h
      · exact .inl h
      · exact .inr ⟨h1, n, h⟩
  | off2 w => trivial

/-- If something else of the bucket is stored, then the key is not. -/
theorem abs_other (hl : KeyLaws P) {t : Tab V} (g : G E t) {k : K} {p : Nat} {v : V} (h : In E t p v)
    (hb : bkt P E.t₀.bc (P.keyOf v) = bkt P E.t₀.bc k) (hk : P.keyEq (P.keyOf v) k = false) : Abs E k t := by
  intro q w hw
  cases hwk : P.keyEq (P.keyOf w) k with
  | false => rfl
  | true =>
    have hpq := h.pos g hw (hb.trans (bkt_congr hl _ hwk).symm)
    subst hpq
    have := h.1
    rw [hw.1] at this
    cases this
    rw [hk] at hwk; simp at hwk

/-- One step of a lookup. -/
theorem walk_step (hl : KeyLaws P) {t : Thread K V} {m : Shared V} (hm : m = (uexec P E.t₀ E.progs σ).shared)
    (ht : (uexec P E.t₀ E.progs σ).threads[i]? = some t) (ha : t.done.length = a) (hc : t.cur ≠ .idle)
    {k : K} {W : Walk} (hW : WK E m.tab (bkt P E.t₀.bc k) W) (h : WH E σ i a m.tab k W) :
    (∀ W', (findStep m (fun w => P.keyEq (P.keyOf w) k) W).2 = .inl W' → WH E σ i a m.tab k W') ∧
    (∀ p, (findStep m (fun w => P.keyEq (P.keyOf w) k) W).2 = .inr (some p) → Since E σ i a (Pres E k p)) ∧
    ((findStep m (fun w => P.keyEq (P.keyOf w) k) W).2 = .inr none → Since E σ i a (Abs E k)) := by
  obtain ⟨xp, hI⟩ := inv_run E hl σ
  have g := hI.g
  rw [← hm] at g
  have hb := E.bkt_lt k
  have hbt : bkt P E.t₀.bc k < E.t₀.total := Nat.lt_of_lt_of_le hb E.rep.bc_le
  have now : ∀ {φ : Tab V → Prop}, φ m.tab → Since E σ i a φ := by
    intro φ h
    exact since_now ht ha hc (by rw [← hm]; exact h)
  rcases findStep_mx g k W hW with ⟨W', st, e, -, c1, c2, c3, c4⟩ | ⟨p, st, e, rfl, hM⟩ | ⟨e, w, rfl, h0⟩
  · rw [e]
    refine ⟨?_, by simp, by simp⟩
    rintro _ he
    cases he
    cases W' with
    | occ w =>
      obtain ⟨-, ⟨h1, -⟩ | h1⟩ := c4 w rfl
      · exact .inl h1
      · exact .inr ⟨now h1, .inr h1⟩
    | val w =>
      obtain ⟨rfl, ho⟩ := c1 w rfl
      rcases h with rfl | h
      · exact .inl ⟨rfl, now ho⟩
      · exact .inr h
    | off1 w =>
      rcases c2 w rfl with ⟨rfl, ho⟩ | ⟨rfl, v, hv, hkv⟩
      · rcases h with rfl | ⟨h1, h2⟩
        · rcases g.offB _ hb with h0 | h0
          · exact .inl (now (abs_empty hl g ho h0))
          · exact .inr ⟨rfl, h0⟩
        · rcases h2 with h2 | h2
          · exact .inl h2
          · rw [(g.lk _ _ h2).1] at ho; simp at ho
      · rcases h with ⟨rfl, h1⟩ | ⟨h1, h2⟩
        · left
          obtain ⟨-, v', hv', hu, hbv⟩ := hW
          rw [hv] at hv'; cases hv'
          refine h1.imp hl (fun τ gτ ho => ?_)
          obtain ⟨y, hy, huy, hby⟩ := gτ.occG _ hbt ho
          have hyk : P.keyEq (P.keyOf y) k = false := by
            cases hyk : P.keyEq (P.keyOf y) k with
            | false => rfl
            | true =>
              have h3 := E.sep _ _ hu huy ((hbv hb).trans (hby hb).symm)
              rw [hl.trans _ _ _ h3 hyk] at hkv; simp at hkv
          exact abs_other hl gτ ⟨hy, .inl ⟨hb, ho⟩⟩ (hby hb) hyk
        · rcases h2 with h2 | h2
          · exact .inl h2
          · left
            obtain ⟨-, -, -, -, y, hy, -, hby⟩ := g.lk _ _ h2
            rw [hv] at hy; cases hy
            exact now (abs_other hl g ⟨hv, .inr ⟨_, h2⟩⟩ hby hkv)
    | off2 w => trivial
  · rw [e]
    refine ⟨by simp, ?_, by simp⟩
    intro q he
    simp only [Sum.inr.injEq, Option.some.injEq] at he
    subst he
    obtain ⟨v, hv, hkv⟩ := hM
    obtain ⟨-, v', hv', hu, -⟩ := hW
    rw [hv] at hv'; cases hv'
    have hbv := bkt_congr hl E.t₀.bc hkv
    rcases h with ⟨rfl, h1⟩ | ⟨h1, -⟩
    · refine h1.imp hl (fun τ gτ ho => ?_)
      obtain ⟨y, hy, huy, hby⟩ := gτ.occG _ hbt ho
      exact ⟨y, ⟨hy, .inl ⟨hb, ho⟩⟩, hl.trans _ _ _ (E.sep _ _ huy hu ((hby hb).trans hbv.symm)) hkv⟩
    · refine h1.imp hl (fun τ gτ hlk => ?_)
      obtain ⟨-, -, -, -, y, hy, huy, hby⟩ := gτ.lk _ _ hlk
      exact ⟨y, ⟨hy, .inr ⟨_, hlk⟩⟩, hl.trans _ _ _ (E.sep _ _ huy hu (hby.trans hbv.symm)) hkv⟩
  · rw [e]
    refine ⟨by simp, by simp, fun _ => ?_⟩
    rcases h with h | ⟨rfl, n, hn⟩
    · exact h
    · exact absurd h0 hn.ne0

/-! ### The history -/

theorem ins_next (m : Shared V) (v : V) (b : Nat) (eq : V → Bool) (ex : Ex) (pc : IPC) :
    (∀ W', (insStep m v b eq ex pc).2.2 = .go (.c1 W') → W' = .occ b ∨ ∃ W, pc = .c1 W ∧ (findStep m eq W).2 = .inl W') ∧
    ((insStep m v b eq ex pc).2.2 = .ret none → (pc = .full ∧ full m.tab = true) ∨
      (pc = .exc ∧ Vector.empty m.tab.excess = true) ∨ ∃ W p, pc = .c1 W ∧ (findStep m eq W).2 = .inr (some p)) := by
  cases pc with
  | c1 w =>
    simp only [insStep]
    rcases hr : findStep m eq w with ⟨m', (w' | (_ | p))⟩
    · exact ⟨fun W' h => .inr ⟨w, rfl, by simp only [Next.go.injEq, IPC.c1.injEq] at h; rw [hr, h]⟩, by simp⟩
    · exact ⟨by simp, by simp⟩
    · exact ⟨by simp, fun _ => .inr (.inr ⟨w, p, rfl, by rw [hr]⟩)⟩
  | full =>
    simp only [insStep]
    cases hf : full m.tab <;> simp
  | exc =>
    simp only [insStep]
    cases hf : Vector.empty m.tab.excess
    · refine ⟨fun W' h => ?_, by simp⟩
      simp only [Bool.false_eq_true, if_false, Next.go.injEq, IPC.c1.injEq] at h
      exact .inl h.symm
    · simp
  | unlock p r => cases r <;> simp [insStep]
  | _ => simp only [insStep]; (repeat' split) <;> simp_all

theorem era_next (m : Shared V) (b : Nat) (eq : V → Bool) (ex : Ex) (pc : EPC) :
    (∀ W', (eraStep m b eq ex pc).2.2 = .go (.f1 W') → W' = .occ b ∨ ∃ W, pc = .f1 W ∧ (findStep m eq W).2 = .inl W') ∧
    ((eraStep m b eq ex pc).2.2 = .ret false → ∃ W, pc = .f1 W ∧ (findStep m eq W).2 = .inr none) := by
  cases pc with
  | f1 w =>
    simp only [eraStep]
    rcases hr : findStep m eq w with ⟨m', (w' | (_ | p))⟩
    · exact ⟨fun W' h => .inr ⟨w, rfl, by simp only [Next.go.injEq, EPC.f1.injEq] at h; rw [hr, h]⟩, by simp⟩
    · exact ⟨by simp, fun _ => ⟨w, rfl, by rw [hr]⟩⟩
    · refine ⟨?_, by simp⟩
      dsimp only
      split <;> simp
  | unlockB p ok => cases ok <;> simp [eraStep, eq_comm]
  | unlock2 q ok => cases ok <;> simp [eraStep, eq_comm]
  | lockB p => simp only [eraStep]; split <;> simp [eq_comm]
  | lock1 p q => simp only [eraStep]; split <;> simp [eq_comm]
  | undo1 p => simp [eraStep, eq_comm]
  | _ => simp only [eraStep]; (repeat' split) <;> simp_all

variable (E) in
def CurH (σ : List Nat) (i a : Nat) (t : Tab V) : Cur K V → Prop
  | .fnd k W => WH E σ i a t k W
  | .era k (.f1 W) => WH E σ i a t k W
  | .ins v (.c1 W) => WH E σ i a t (P.keyOf v) W
  | _ => True

variable (E) in
/-- The key is stored, if this is required. -/
def Stored (strict : Bool) (v : V) (τ : Tab V) : Prop := strict = true → ∃ p, Pres E (P.keyOf v) p τ

variable (E) in
/-- The result of an operation without effect was right at some moment of the operation. -/
def DoneH (strict : Bool) (σ : List Nat) (i a : Nat) : Op K V × Res → Prop
  | (.find k, .found p) => Since E σ i a (Pres E k p)
  | (.find k, .notFound) => Since E σ i a (Abs E k)
  | (.erase k, .notErased) => Since E σ i a (Abs E k)
  | (.insert v, .notInserted) => Since E σ i a (Stored E strict v)
  | (_, r) => effRes r = true

theorem DoneH.app {strict : Bool} {e : Op K V × Res} (h : DoneH E strict σ i a e) (τ : List Nat) :
    DoneH E strict (σ ++ τ) i a e := by
  obtain ⟨op, r⟩ := e
  cases op <;> cases r <;> first | exact Since.app h τ | exact h

variable (E) in
/-- No insertion gives up for lack of space. -/
def Roomy (s : Sys (Shared V) (Thread K V)) : Prop :=
  ∀ t ∈ s.threads, ∀ v, (t.cur = .ins v .full → full s.shared.tab = false) ∧
    (t.cur = .ins v .exc → Vector.empty s.shared.tab.excess = false)

variable (E) in
def Hist (strict : Bool) (σ : List Nat) : Prop :=
  ∀ i t, (uexec P E.t₀ E.progs σ).threads[i]? = some t →
    CurH E σ i t.done.length (uexec P E.t₀ E.progs σ).shared.tab t.cur ∧
    ∀ a e, t.done[a]? = some e → DoneH E strict σ i a e

theorem getElem?_concat_cases {α : Type} {l : List α} {x y : α} {n : Nat} (h : (l ++ [x])[n]? = some y) :
    l[n]? = some y ∨ (n = l.length ∧ y = x) := by
  rw [List.getElem?_append] at h
  split at h
  · exact .inl h
  · next hn =>
    right
    rcases Nat.lt_or_ge 0 (n - l.length) with h1 | h1
    · rw [List.getElem?_eq_none (by simp; omega)] at h; simp at h
    · have : n = l.length := by omega
      subst this
      simp at h
      exact ⟨rfl, h.symm⟩

theorem Hist.step (hl : KeyLaws P) {strict : Bool} (h : Hist E strict σ) (j : Nat)
    (hroom : strict = true → Roomy (uexec P E.t₀ E.progs σ)) : Hist E strict (σ ++ [j]) := by
  obtain ⟨xp, hI⟩ := inv_run E hl σ
  have hnext : uexec P E.t₀ E.progs (σ ++ [j]) = stepAt (UnorderedConc.step P) (uexec P E.t₀ E.progs σ) j := by
    rw [uexec_append]; rfl
  cases htj : (uexec P E.t₀ E.progs σ).threads[j]? with
  | none =>
    have e2 : stepAt (UnorderedConc.step P) (uexec P E.t₀ E.progs σ) j = uexec P E.t₀ E.progs σ := by simp only [stepAt, htj]
    rw [e2] at hnext
    intro i t ht
    rw [hnext] at ht ⊢
    obtain ⟨h1, h2⟩ := h i t ht
    refine ⟨?_, fun a e he => (h2 a e he).app _⟩
    have hst := fun (k : K) (W : Walk) (hc : t.cur ≠ .idle) (hw : WH E σ i t.done.length (uexec P E.t₀ E.progs σ).shared.tab k W) =>
      hw.stable hl (j := j) hI.g hI.g (.keep rfl rfl rfl) (fun habs => (since_now ht rfl hc habs).app _)
    unfold CurH at h1 ⊢
    split
    all_goals first
      | (next hc => rw [hc] at h1; exact hst _ _ (by rw [hc]; simp) h1)
      | trivial
  | some u =>
    have hu := htj
    obtain ⟨xp', hI'⟩ := inv_run E hl (σ ++ [j])
    have hch := hI.change htj
    have e2 : stepAt (UnorderedConc.step P) (uexec P E.t₀ E.progs σ) j =
        ⟨(UnorderedConc.step P (uexec P E.t₀ E.progs σ).shared u).1,
          (uexec P E.t₀ E.progs σ).threads.set j (UnorderedConc.step P (uexec P E.t₀ E.progs σ).shared u).2⟩ := by
      simp only [stepAt, htj]
    rw [e2] at hnext
    have htab : (uexec P E.t₀ E.progs (σ ++ [j])).shared.tab = (UnorderedConc.step P (uexec P E.t₀ E.progs σ).shared u).1.tab := by
      rw [hnext]
    intro i t ht
    have ht0 := ht
    have hthr : (uexec P E.t₀ E.progs (σ ++ [j])).threads =
      (uexec P E.t₀ E.progs σ).threads.set j (UnorderedConc.step P (uexec P E.t₀ E.progs σ).shared u).2 := by rw [hnext]
    rw [hthr] at ht
    by_cases hij : i = j
    · subst hij
      have htt : t = (UnorderedConc.step P (uexec P E.t₀ E.progs σ).shared u).2 := by
        rw [List.getElem?_set_self (by exact (List.getElem?_eq_some_iff.1 hu).1)] at ht
        exact (Option.some.inj ht).symm
      obtain ⟨h1, h2⟩ := h i u hu
      have hk := hI.knows u (List.mem_of_getElem? hu)
      have hbc := hI.g.bc
      have gm := hI.g
      generalize hs : (uexec P E.t₀ E.progs σ).shared = m at *
      cases hcur : u.cur with
      | idle =>
        cases htd : u.todo with
        | nil =>
          have : t = u := by rw [htt]; simp only [UnorderedConc.step, hcur, htd]
          subst this
          refine ⟨?_, fun a e he => (h2 a e he).app _⟩
          rw [hcur]; trivial
        | cons op rest =>
          have : t = { u with todo := rest, cur := begin P m.tab op } := by rw [htt]; simp only [UnorderedConc.step, hcur, htd]
          subst this
          refine ⟨?_, fun a e he => (h2 a e he).app _⟩
          cases op with
          | insert v => trivial
          | erase k => exact .inl (by rw [bucket_eq, hbc])
          | find k => exact .inl (by rw [bucket_eq, hbc])
      | fnd k W =>
        rw [hcur] at hk h1
        have hft := (findStep_tab m (fun w => P.keyEq (P.keyOf w) k) W).1
        obtain ⟨w1, w2, w3⟩ := walk_step hl hs.symm hu rfl (by rw [hcur]; simp) hk.2 h1
        have hst : (UnorderedConc.step P m u).1.tab = m.tab := step_fnd_fst hcur
        rcases hr : findStep m (fun w => P.keyEq (P.keyOf w) k) W with ⟨m', (W' | (_ | p))⟩
        · have : t = { u with cur := .fnd k W' } := by rw [htt]; simp only [UnorderedConc.step, hcur, hr]
          subst this
          refine ⟨?_, fun a e he => (h2 a e he).app _⟩
          rw [htab, hst]
          exact (w1 W' (by rw [hr])).stable hl gm gm (.keep rfl rfl rfl)
            (fun habs => (since_now hu rfl (by rw [hcur]; simp) (by rw [hs]; exact habs)).app _)
        · have : t = { u with cur := .idle, done := u.done ++ [(.find k, .notFound)] } := by
            rw [htt]; simp only [UnorderedConc.step, hcur, hr]
          subst this
          refine ⟨trivial, fun a e he => ?_⟩
          rcases getElem?_concat_cases he with h3 | ⟨rfl, rfl⟩
          · exact (h2 a e h3).app _
          · exact (w3 (by rw [hr])).app _
        · have : t = { u with cur := .idle, done := u.done ++ [(.find k, .found p)] } := by
            rw [htt]; simp only [UnorderedConc.step, hcur, hr]
          subst this
          refine ⟨trivial, fun a e he => ?_⟩
          rcases getElem?_concat_cases he with h3 | ⟨rfl, rfl⟩
          · exact (h2 a e h3).app _
          · exact (w2 p (by rw [hr])).app _
      | era k pc =>
        rw [hcur] at hk h1
        obtain ⟨n1, n2⟩ := era_next m (bkt P m.tab.bc k) (fun w => P.keyEq (P.keyOf w) k) u.ex pc
        have hwalk : ∀ W, pc = .f1 W → WK E m.tab (bkt P E.t₀.bc k) W ∧ WH E σ i u.done.length m.tab k W := by
          rintro W rfl
          exact ⟨hk.2, h1⟩
        rcases hr : eraStep m (bkt P m.tab.bc k) (fun w => P.keyEq (P.keyOf w) k) u.ex pc with ⟨m', ex', (pc' | ok)⟩
        · have : t = { u with cur := .era k pc', ex := ex' } := by rw [htt, Er.step_era_go hcur hr]
          subst this
          refine ⟨?_, fun a e he => (h2 a e he).app _⟩
          unfold CurH
          split
          · next hc => cases hc
          · next k' W' hc =>
            cases hc
            rcases n1 W' (by rw [hr]) with h3 | ⟨W, rfl, h3⟩
            · subst h3
              exact .inl (by rw [hbc])
            · obtain ⟨x1, x2⟩ := hwalk W rfl
              obtain ⟨w1, -, -⟩ := walk_step hl hs.symm hu rfl (by rw [hcur]; simp) x1 x2
              have hst : (UnorderedConc.step P m u).1.tab = m.tab := by
                rw [Er.step_era_fst hcur]
                have hft := (findStep_tab m (fun w => P.keyEq (P.keyOf w) k) W).1
                simp only [eraStep]
                generalize findStep m (fun w => P.keyEq (P.keyOf w) k) W = r at hft
                rcases r with ⟨m'', (w' | (_ | p))⟩ <;> exact hft
              rw [htab, hst]
              exact (w1 W' h3).stable hl gm gm (.keep rfl rfl rfl)
                (fun habs => (since_now hu rfl (by rw [hcur]; simp) (by rw [hs]; exact habs)).app _)
          · next hc => cases hc
          · trivial
        · have : t = { u with cur := .idle, ex := ex', done := u.done ++ [(.erase k, if ok then .erased else .notErased)] } := by
            rw [htt, Er.step_era_ret hcur hr]
          subst this
          refine ⟨trivial, fun a e he => ?_⟩
          rcases getElem?_concat_cases he with h3 | ⟨rfl, rfl⟩
          · exact (h2 a e h3).app _
          · cases ok with
            | true => rfl
            | false =>
              obtain ⟨W, rfl, h3⟩ := n2 (by rw [hr])
              obtain ⟨x1, x2⟩ := hwalk W rfl
              obtain ⟨-, -, w3⟩ := walk_step hl hs.symm hu rfl (by rw [hcur]; simp) x1 x2
              exact (w3 h3).app _
      | ins v pc =>
        rw [hcur] at hk h1
        obtain ⟨n1, n2⟩ := ins_next m v (bkt P m.tab.bc (P.keyOf v)) (eqOf P v) u.ex pc
        have hwalk : ∀ W, pc = .c1 W → WK E m.tab (bkt P E.t₀.bc (P.keyOf v)) W ∧
            WH E σ i u.done.length m.tab (P.keyOf v) W := by
          rintro W rfl
          exact ⟨hk.2.2, h1⟩
        rcases hr : insStep m v (bkt P m.tab.bc (P.keyOf v)) (eqOf P v) u.ex pc with ⟨m', ex', (pc' | (_ | q))⟩
        · have : t = { u with cur := .ins v pc', ex := ex' } := by rw [htt, step_ins_go hcur hr]
          subst this
          refine ⟨?_, fun a e he => (h2 a e he).app _⟩
          unfold CurH
          split
          · next hc => cases hc
          · next hc => cases hc
          · next v' W' hc =>
            cases hc
            rcases n1 W' (by rw [hr]) with h3 | ⟨W, rfl, h3⟩
            · subst h3
              exact .inl (by rw [hbc])
            · obtain ⟨x1, x2⟩ := hwalk W rfl
              obtain ⟨w1, -, -⟩ := walk_step hl hs.symm hu rfl (by rw [hcur]; simp) x1 x2
              have hst : (UnorderedConc.step P m u).1.tab = m.tab := by
                rw [step_ins_fst hcur]
                have hft := (findStep_tab m (eqOf P v) W).1
                simp only [insStep]
                generalize findStep m (eqOf P v) W = r at hft
                rcases r with ⟨m'', (w' | (_ | p))⟩ <;> exact hft
              rw [htab, hst]
              exact (w1 W' h3).stable hl gm gm (.keep rfl rfl rfl)
                (fun habs => (since_now hu rfl (by rw [hcur]; simp) (by rw [hs]; exact habs)).app _)
          · trivial
        · have : t = { u with cur := .idle, ex := ex', done := u.done ++ [(.insert v, .notInserted)] } := by
            rw [htt, step_ins_none hcur hr]
          subst this
          refine ⟨trivial, fun a e he => ?_⟩
          rcases getElem?_concat_cases he with h3 | ⟨rfl, rfl⟩
          · exact (h2 a e h3).app _
          · refine Since.app ?_ _
            by_cases hstr : strict = true
            · have hR := hroom hstr u (List.mem_of_getElem? hu) v
              rw [hs, hcur] at hR
              rcases n2 (by rw [hr]) with ⟨rfl, h3⟩ | ⟨rfl, h3⟩ | ⟨W, p, rfl, h3⟩
              · rw [hR.1 rfl] at h3; simp at h3
              · rw [hR.2 rfl] at h3; simp at h3
              · obtain ⟨x1, x2⟩ := hwalk W rfl
                obtain ⟨-, w2, -⟩ := walk_step hl hs.symm hu rfl (by rw [hcur]; simp) x1 x2
                exact (w2 p h3).imp hl (fun τ _ hp _ => ⟨p, hp⟩)
            · exact since_now hu rfl (by rw [hcur]; simp) (fun hc => absurd hc hstr)
        · have : t = { u with cur := .idle, ex := ex', done := u.done ++ [(.insert v, .inserted q)] } := by
            rw [htt, step_ins_some hcur hr]
          subst this
          refine ⟨trivial, fun a e he => ?_⟩
          rcases getElem?_concat_cases he with h3 | ⟨rfl, rfl⟩
          · exact (h2 a e h3).app _
          · rfl
    · rw [List.getElem?_set_ne (Ne.symm hij)] at ht
      obtain ⟨h1, h2⟩ := h i t ht
      refine ⟨?_, fun a e he => (h2 a e he).app _⟩
      have g' := hI'.g
      rw [htab] at g' ⊢
      have hst := fun (k : K) (W : Walk) (hc : t.cur ≠ .idle) (hw : WH E σ i t.done.length (uexec P E.t₀ E.progs σ).shared.tab k W) =>
        hw.stable hl (j := j) hI.g g' hch (fun habs => since_now ht0 rfl hc (by rw [htab]; exact habs))
      unfold CurH at h1 ⊢
      split
      all_goals first
        | (next hc => rw [hc] at h1; exact hst _ _ (by rw [hc]; simp) h1)
        | trivial

theorem hist_run (hl : KeyLaws P) (strict : Bool) (sched : List Nat)
    (hroom : strict = true → ∀ σ, σ <+: sched → Roomy (uexec P E.t₀ E.progs σ)) : Hist E strict sched := by
  induction sched using List.reverseRecOn with
  | nil =>
    intro i t ht
    obtain ⟨p, -, rfl⟩ := init_mem (List.mem_of_getElem? ht)
    exact ⟨trivial, by simp⟩
  | append_singleton σ j ih =>
    refine (ih (fun hs τ hτ => hroom hs τ (hτ.trans (List.prefix_append _ _)))).step hl j
      (fun hs => hroom hs σ (List.prefix_append _ _))

/-- Every execution has a linearization. -/
theorem mixed_linearizable (hl : KeyLaws P) (strict : Bool) (sched : List Nat)
    (hroom : strict = true → ∀ σ, σ <+: sched → Roomy (uexec P E.t₀ E.progs σ)) :
    ∃ L m, Linearization P strict E.t₀ E.progs sched L m ∧ Q E (uexec P E.t₀ E.progs sched) m := by
  refine lin_times strict sched (Q E) q_init ?_ ?_
  · intro σ i rest t m _ ht hQ
    obtain ⟨xp, hI⟩ := inv_run E hl σ
    obtain ⟨xp', hI'⟩ := inv_run E hl (σ ++ [i])
    have hch := hI.change ht
    have hnext : uexec P E.t₀ E.progs (σ ++ [i]) = stepAt (step P) (uexec P E.t₀ E.progs σ) i := by
      rw [uexec_append]; rfl
    have htab : (uexec P E.t₀ E.progs (σ ++ [i])).shared.tab = (step P (uexec P E.t₀ E.progs σ).shared t).1.tab := by
      rw [hnext]; simp only [stepAt, ht]
    have g' := hI'.g
    rw [htab] at g'
    constructor
    · intro e he
      rw [he] at hch
      obtain ⟨m', h1, h2, h3⟩ := hch.effect hl (strict := strict) hI.g g' hQ.1 hQ.2
      exact ⟨m', h1, h2, by rw [htab]; exact h3⟩
    · intro he
      refine ⟨hQ.1, fun p v => ?_⟩
      rw [htab, hch.quiet he p v]
      exact hQ.2 p v
  · intro x e hx he
    unfold resAt at hx
    obtain ⟨t, ht, hx⟩ := Option.bind_eq_some_iff.1 hx
    have hD := (hist_run hl strict sched hroom x.1 t ht).2 x.2 e hx
    have use : ∀ φ : Tab V → Prop, Since E sched x.1 x.2 φ →
        (∀ τ m, φ τ.shared.tab → Q E τ m → seqStep P strict m e = some m) →
        ∃ n ≤ sched.length, ∃ t, (at_ P E.t₀ E.progs sched n).threads[x.1]? = some t ∧ t.done.length = x.2 ∧ t.cur ≠ .idle ∧
        ∀ m, Q E (at_ P E.t₀ E.progs sched n) m → seqStep P strict m e = some m := by
      rintro φ ⟨n, hn, t, h1, h2, h3, h4⟩ himp
      exact ⟨n, hn, t, h1, h2, h3, fun m hm => himp _ m h4 hm⟩
    obtain ⟨op, r⟩ := e
    have absent : ∀ k τ m, Abs E k τ.shared.tab → Q E τ m → hasKey P m k = false := by
      intro k τ m hA hQ
      exact hasKey_false (fun p w hw => hA p w ((hQ.2 p w).1 hw))
    cases op <;> cases r <;> first | (simp only [DoneH] at hD; rw [hD] at he; simp at he; done) | skip
    · refine use _ hD (fun τ m hφ hQ => ?_)
      cases strict with
      | false => simp [seqStep]
      | true =>
        obtain ⟨p, w, h1, h2⟩ := hφ rfl
        simp [seqStep, hasKey_true ((hQ.2 p w).2 h1) h2]
    · refine use _ hD (fun τ m hφ hQ => ?_)
      simp [seqStep, absent _ _ _ hφ hQ]
    · refine use _ hD (fun τ m hφ hQ => ?_)
      obtain ⟨w, h1, h2⟩ := hφ
      have hany : m.any (fun e => e.1 == ‹Nat› && P.keyEq (P.keyOf e.2) ‹K›) = true := by
        rw [List.any_eq_true]
        exact ⟨_, (hQ.2 _ w).2 h1, by simp [h2]⟩
      simp only [seqStep, hany, if_true]
    · refine use _ hD (fun τ m hφ hQ => ?_)
      simp [seqStep, absent _ _ _ hφ hQ]

end Stdgpu.UnorderedConc.Mx
