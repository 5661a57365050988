import Verif.Proof.UMix8
import Verif.Proof.UProgEra2
/-! Progress of concurrent insertions, erasures and lookups when different keys have different buckets: single threads and
the free list. -/
namespace Stdgpu.UnorderedConc.Mx
open Stdgpu.Conc
open Stdgpu.SlotConc (upd)
open Stdgpu.Unordered
open Stdgpu.Vector (FPC vfront countBits VInv)
open Stdgpu.Spec
variable {K V : Type} {P : Params K V}

/-! ### `pop_back` while no other thread uses the free list -/

/-- Thread `i` executes one `pop_back`, the others do nothing; if it fails, the list is empty or its counter, which was
too large, is smaller. -/
def Pop1 (cap i : Nat) (c0 : Int) (s : Vector.VSys Nat) : Prop :=
  ∃ x, s.threads[i]? = some x ∧ (∀ j y, j ≠ i → s.threads[j]? = some y → y.todo = []) ∧
    ((x.todo = [.pop ()] ∧ ∀ f, x.pc = .front f → s.shared.ctr = c0) ∨
     (x.todo = [] ∧ ∀ op res, x.done.getLast? = some (op, res) → (∀ n, res ≠ .popped n) →
        Vector.clampSize cap s.shared.ctr = 0 ∨ ((cap : Int) < c0 ∧ s.shared.ctr = c0 - 1)))

theorem pop1_step {cap i : Nat} {c0 : Int} {c₀ : Multiset Nat} {xp : List (List (SlotConc.Op Unit Nat))} (s : Vector.VSys Nat)
    (j : Nat) (y : Vector.VThread Nat) (hv : VInv cap c₀ xp s) (h : Pop1 cap i c0 s) (hy : s.threads[j]? = some y) :
    Pop1 cap i c0 ⟨(SlotConc.step (vfront cap) s.shared y).1, s.threads.set j (SlotConc.step (vfront cap) s.shared y).2⟩ := by
  obtain ⟨x, hx, ho, hc⟩ := h
  by_cases hj : j = i
  · subst hj
    have e : x = y := by rw [hx] at hy; exact Option.some.inj hy
    subst e
    have hlt := (List.getElem?_eq_some_iff.1 hx).1
    have hsh := hv.shape x (List.mem_of_getElem? hx)
    refine ⟨_, by simp [hlt]; rfl, ?_, ?_⟩
    · intro k z hk hz
      rcases getElem?_set_cases _ _ _ _ _ hz with ⟨e, -⟩ | ⟨-, hz⟩
      · exact absurd e hk
      · exact ho k z hk hz
    · rcases hc with ⟨h1, h2⟩ | ⟨h1, h2⟩
      · cases hpc : x.pc with
        | front f =>
          have hctr := h2 f hpc
          simp only [SlotConc.step, h1, hpc, SlotConc.Op.isPush, SlotConc.Op.kind]
          rcases Vector.vfront_cases cap s.shared.ctr false () f with ⟨h3, e', h4, h5⟩ | ⟨h3, e', h4, h5⟩ | ⟨h3, h4, -⟩ | ⟨h3, h4, -⟩ |
            ⟨h3, -, h4, h5, e'⟩ | ⟨h3, -, h4, e'⟩
          · rw [e']; left; exact ⟨rfl, fun _ _ => hctr⟩
          · rw [e']; right
            refine ⟨rfl, fun op res _ _ => .inl ?_⟩
            have := h5 rfl
            show Vector.clampSize cap s.shared.ctr = 0
            unfold Vector.clampSize
            split
            · rfl
            · split <;> omega
          · simp at h4
          · simp at h4
          · rw [e']; left; refine ⟨rfl, fun f hf => ?_⟩; simp at hf
          · rw [e']; right
            refine ⟨rfl, fun op res _ _ => ?_⟩
            rcases h4 with h4 | h4
            · left
              show Vector.clampSize cap (s.shared.ctr - 1) = 0
              unfold Vector.clampSize
              split
              · rfl
              · split <;> omega
            · right
              exact ⟨by omega, by show s.shared.ctr - 1 = c0 - 1; omega⟩
        | slot p sp =>
          obtain ⟨-, op, rest, e1, hfit⟩ := hsh.1 p sp hpc
          rw [h1] at e1; cases e1
          have hr : ∀ r, (SlotConc.slotStep s.shared.slots (.pop ()) p sp).2 = .inr r → ∃ n, r = .popped n := by
            intro r hr
            cases sp <;> simp only [SlotConc.slotStep] at hr
            all_goals (try (split at hr <;> (try split at hr) <;> simp at hr))
            all_goals (try simp at hr)
            subst hr
            rename_i r
            cases r <;> simp [SlotConc.SPC.fits, SlotConc.Op.isPush] at hfit
            exact ⟨_, rfl⟩
          simp only [SlotConc.step, h1, hpc]
          generalize SlotConc.slotStep s.shared.slots (.pop ()) p sp = r at hr ⊢
          obtain ⟨r1, r2⟩ := r
          cases r2 with
          | inl s' => left; exact ⟨rfl, fun f hf => by simp at hf⟩
          | inr res =>
            right
            refine ⟨rfl, fun op res' hl hn => ?_⟩
            obtain ⟨n, rfl⟩ := hr res rfl
            simp at hl
            exact absurd hl.2.symm (hn n)
      · right
        have : SlotConc.step (vfront cap) s.shared x = (s.shared, x) := by simp [SlotConc.step, h1]
        rw [this]
        exact ⟨h1, h2⟩
  · have h0 := ho j y hj hy
    have : SlotConc.step (vfront cap) s.shared y = (s.shared, y) := by simp [SlotConc.step, h0]
    rw [this]
    refine ⟨x, ?_, ?_, hc⟩
    · show (s.threads.set j y)[i]? = some x
      rw [set_self _ _ _ hy]; exact hx
    · show ∀ (k : Nat) (z : Vector.VThread Nat), k ≠ i → (s.threads.set j y)[k]? = some z → z.todo = []
      rw [set_self _ _ _ hy]; exact ho

theorem pop1_run {cap i : Nat} {c0 : Int} {c₀ : Multiset Nat} {xp : List (List (SlotConc.Op Unit Nat))} (s : Vector.VSys Nat)
    (hv : VInv cap c₀ xp s) (h : Pop1 cap i c0 s) (σ : List Nat) : Pop1 cap i c0 (run (SlotConc.step (vfront cap)) s σ) :=
  (run_inv (f := SlotConc.step (vfront cap)) (fun s => VInv cap c₀ xp s ∧ Pop1 cap i c0 s)
    (fun s j y ⟨h1, h2⟩ hy => ⟨Vector.vinv_step s j y h1 hy, pop1_step s j y h1 h2 hy⟩) s ⟨hv, h⟩ σ).2

/-- `drain`, with the execution of the free list. -/
theorem drain_ex (P : Params K V) {cap : Nat} {c₀ : Multiset Nat} {xp : List (List (SlotConc.Op Unit Nat))}
    {s : Sys (Shared V) (Thread K V)} (hw : WellEx s) (hv : VInv cap c₀ xp (exSys s)) :
    ∃ σ' σ, exSys (run (step P) s σ') = run (SlotConc.step (vfront cap)) (exSys s) σ ∧
      (∀ t ∈ (run (step P) s σ').threads, t.ex.todo = []) ∧
      ∀ (j : Nat) (t : Thread K V), s.threads[j]? = some t → ∃ t', (run (step P) s σ').threads[j]? = some t' ∧ Dr t t' := by
  obtain ⟨σ, hσ⟩ := SlotConc.can_finish (vfront cap) (fun f => match f with | .check => 1 | .rmw => 0) (by
      intro c b k f c' f' e
      rcases Vector.vfront_cases cap c b k f with ⟨h1, e', -⟩ | ⟨h1, e', -⟩ | ⟨h1, -, -, -, e'⟩ | ⟨h1, -, -, e'⟩ |
        ⟨h1, -, -, -, e'⟩ | ⟨h1, -, -, e'⟩ <;> rw [e] at e' <;> simp at e'
      rw [h1, e'.2]; simp)
    (VInv cap c₀ xp) (fun s i t hs ht => Vector.vinv_step s i t hs ht)
    (fun s hs => ⟨_, hs, fun p _ => by unfold Vector.vtick; split <;> simp⟩) (exSys s) hv
  obtain ⟨σ', h1, h2⟩ := lift P cap σ s hw hv.hcap
  refine ⟨σ', σ, h1, ?_, h2⟩
  intro t ht
  rw [← h1] at hσ
  exact hσ t.ex (List.mem_map_of_mem ht)

/-- The call of one thread on the free list is completed. -/
theorem drain_one_ex (P : Params K V) {cap : Nat} {c₀ : Multiset Nat} {xp : List (List (SlotConc.Op Unit Nat))}
    {s : Sys (Shared V) (Thread K V)} (hw : WellEx s) (hv : VInv cap c₀ xp (exSys s)) {i : Nat} {t : Thread K V}
    (ht : s.threads[i]? = some t) (ho : ∀ j u, j ≠ i → s.threads[j]? = some u → u.ex.todo = []) :
    ∃ σ σx m' t', run (step P) s σ = ⟨m', s.threads.set i t'⟩ ∧ Dr t t' ∧ t'.ex.todo = [] ∧
      exSys (⟨m', s.threads.set i t'⟩ : Sys (Shared V) (Thread K V)) = run (SlotConc.step (vfront cap)) (exSys s) σx := by
  obtain ⟨σ, σx, h0, h1, h2⟩ := drain_ex P hw hv
  obtain ⟨t', h3, h4⟩ := h2 i t ht
  have : (run (step P) s σ).threads = s.threads.set i t' := by
    apply List.ext_getElem?
    intro j
    by_cases hj : j = i
    · subst hj
      rw [h3, List.getElem?_set_self (List.getElem?_eq_some_iff.1 ht).1]
    · rw [List.getElem?_set_ne (fun e => hj e.symm)]
      cases hu : s.threads[j]? with
      | none =>
        rw [List.getElem?_eq_none_iff] at hu ⊢
        rw [length_run]; exact hu
      | some u =>
        obtain ⟨u', h5, h6⟩ := h2 j u hu
        rcases h6 with rfl | ⟨h7, -⟩
        · exact h5
        · exact absurd (ho j u hj hu) h7
  refine ⟨σ, σx, (run (step P) s σ).shared, t', by rw [← this], h4, h1 t' (List.mem_of_getElem? h3), ?_⟩
  rw [← h0, ← this]

/-! ### Walks end -/
section
variable {E : Start P} {xp : List (List (SlotConc.Op Unit Nat))} {s : Sys (Shared V) (Thread K V)}

theorem G.line {tab : Tab V} (g : G E tab) {b w : Nat} (hb : b < E.t₀.bc) (hw : At E tab b w) :
    ∃ l, Linked tab.off w l ∧ (∀ u ∈ w :: l, u < tab.total) := by
  have hbt : b < E.t₀.total := Nat.lt_of_lt_of_le hb E.rep.bc_le
  rcases hw with rfl | ⟨hw, h0⟩
  · rcases g.offB w hb with h0 | ⟨n, hn⟩
    · exact ⟨[], h0, by intro u hu; rw [g.total]; simp at hu; omega⟩
    · refine ⟨[n], ⟨hn.ne0, hn.2.2, (g.lk _ _ hn).2.2.1⟩, ?_⟩
      intro u hu
      rw [g.total]
      simp at hu
      rcases hu with rfl | rfl
      · exact hbt
      · exact hn.2.1.2
  · refine ⟨[], h0, ?_⟩
    intro u hu
    rw [g.total]; simp at hu
    rw [hu]; exact hw.2

theorem WK.at {tab : Tab V} {b : Nat} {W : Walk} (h : WK E tab b W) :
    ∃ w, At E tab b w ∧ (W = .occ w ∨ W = .val w ∨ W = .off1 w ∨ W = .off2 w) ∧ (W = .val w → (tab.val w).isSome = true) := by
  cases W with
  | occ w => exact ⟨w, h, .inl rfl, by simp⟩
  | val w =>
    obtain ⟨h1, v, h2, -⟩ := h
    exact ⟨w, h1, .inr (.inl rfl), fun _ => by rw [h2]; rfl⟩
  | off1 w => exact ⟨w, h, .inr (.inr (.inl rfl)), by simp⟩
  | off2 w => exact ⟨w, .inl h, .inr (.inr (.inr rfl)), by simp⟩

theorem wt_of {tab : Tab V} (g : G E tab) {b : Nat} (hb : b < E.t₀.bc) {W : Walk} (eq : V → Bool) (h : WK E tab b W) :
    ∃ r, WT tab eq W r := by
  obtain ⟨w, h1, h2, h3⟩ := WK.at h
  obtain ⟨l, h4, h5⟩ := g.line hb h1
  refine walk_total W h2 eq h4 h5 ?_ h3
  intro u hu ho
  have hu' := h5 u hu
  rw [g.total] at hu'
  obtain ⟨v, h6, -⟩ := g.occG u hu' ho
  rw [h6]; rfl

theorem HK.at {tab : Tab V} {b : Nat} {W : Hop} (h : HK E tab b W) : ∃ w, At E tab b w ∧ (W = .off1 w ∨ W = .off2 w) := by
  cases W with
  | off1 w => exact ⟨w, h, .inl rfl⟩
  | off2 w => exact ⟨w, .inl h, .inr rfl⟩

theorem ht_of {tab : Tab V} (g : G E tab) {b : Nat} (hb : b < E.t₀.bc) {W : Hop} (h : HK E tab b W) : ∃ r, HT tab W r := by
  obtain ⟨w, h1, h2⟩ := HK.at h
  obtain ⟨l, h4, h5⟩ := g.line hb h1
  exact hop_total W h2 h4 h5

theorem pt_of {tab : Tab V} (g : G E tab) {b : Nat} (p : Nat) (hb : b < E.t₀.bc) {W : Hop} (h : HK E tab b W) : ∃ r, PT tab p W r := by
  obtain ⟨w, h1, h2⟩ := HK.at h
  obtain ⟨l, h4, h5⟩ := g.line hb h1
  exact prev_total p W h2 h4 h5

theorem tot_ins {tab : Tab V} (g : G E tab) (k : K) (eq : V → Bool) : UnorderedConc.Tot tab eq (bkt P tab.bc k) := by
  have hb := E.bkt_lt k
  rw [g.bc]
  exact ⟨wt_of g hb eq (W := .occ _) (.inl rfl), ht_of g hb (W := .off1 _) (.inl rfl)⟩

theorem tot_era {tab : Tab V} (g : G E tab) (k : K) (eq : V → Bool) : Er.Tot tab eq (bkt P tab.bc k) := by
  have hb := E.bkt_lt k
  rw [g.bc]
  exact ⟨wt_of g hb eq (W := .occ _) (.inl rfl), fun p => pt_of g p hb (W := .off1 _) (.inl rfl)⟩

/-! ### Threads -/

theorem Inv.wellEx (h : Inv E xp s) : WellEx s := by
  intro t ht hne
  have hk := h.knows t ht
  cases hcur : t.cur with
  | idle => rw [hcur] at hk; exact absurd hk hne
  | fnd k W => rw [hcur] at hk; exact absurd hk.1 hne
  | ins v pc =>
    rw [hcur] at hk
    replace hk := hk.2
    cases pc <;> first | rfl | exact absurd hk hne | exact absurd hk.1 hne
  | era k pc =>
    rw [hcur] at hk
    simp only [Knows] at hk
    cases pc <;> first | rfl | exact absurd hk.1 hne | exact hk.elim

theorem LW.wk {tab : Tab V} (g : G E tab) {b : Nat} (hb : b < E.t₀.bc) {W : Walk} (h : LW E tab b W) : WK E tab b W := by
  have hbt : b < E.t₀.total := Nat.lt_of_lt_of_le hb E.rep.bc_le
  have hat : ∀ w, Lk E tab b w → At E tab b w := fun w hw => .inr ⟨hw.2.1, (g.lk _ _ hw).2.2.1⟩
  cases W with
  | occ w =>
    rcases h with h | h
    · exact .inl h
    · exact hat w h
  | val w =>
    rcases h with ⟨rfl, h⟩ | h
    · exact ⟨.inl rfl, g.occG _ hbt h⟩
    · exact ⟨hat w h, g.occG _ h.2.1.2 (g.lk _ _ h).1⟩
  | off1 w => exact .inl h.1
  | off2 w => exact h.1

theorem Inv.settlesI (h : Inv E xp s) {t : Thread K V} (ht : t ∈ s.threads) {v : V} {pc : IPC}
    (hcur : t.cur = .ins v pc) (hex : t.ex.todo = []) : UnorderedConc.Settles P v s.shared t := by
  have hk := h.knows t ht
  rw [hcur] at hk
  replace hk := hk.2
  have hb := E.bkt_lt (P.keyOf v)
  have htot : UnorderedConc.Tot s.shared.tab (eqOf P v) (bOf P s.shared v) := tot_ins h.g _ _
  cases pc with
  | full => exact .inr (.inr ⟨_, _, .refl _ _ _, rfl, rfl, hcur⟩)
  | exc => exact settles_exc htot hcur
  | c1 W => obtain ⟨r, hr⟩ := wt_of h.g hb (eqOf P v) hk.2; exact settles_c1 htot hr hcur
  | occ1 => exact settles_occ1 htot hcur
  | lockB => exact UnorderedConc.settles_lockB htot hcur
  | c2 W => obtain ⟨r, hr⟩ := wt_of h.g hb (eqOf P v) (LW.wk h.g hb hk.2.2); exact settles_c2 hr hcur
  | occ2 => exact settles_occ2 hcur
  | consB => exact .inl (idle_consB hcur)
  | cntB => exact .inl (UnorderedConc.idle_cntB hcur)
  | setB => exact .inl (idle_setB hcur)
  | e1 W => obtain ⟨r, hr⟩ := ht_of h.g hb hk.2; exact settles_e1 htot hr hcur
  | lockE e => exact settles_lockE htot hcur
  | e2 e W => obtain ⟨r, hr⟩ := ht_of h.g hb hk.2.2.2.1; exact settles_e2 htot hr hcur
  | c3 e e' W => obtain ⟨r, hr⟩ := wt_of h.g hb (eqOf P v) hk.2.2.1; exact settles_c3 hr hcur
  | pop e =>
    have : t.ex.todo = [.pop ()] := hk.1
    rw [hex] at this
    simp at this
  | cons e n => exact .inl (idle_cons hcur)
  | off e n => exact .inl (idle_off hcur)
  | cnt e n => exact .inl (idle_cnt hcur)
  | set e n => exact .inl (idle_set hcur)
  | link e n => exact .inl (idle_link hcur)
  | unlock p r =>
    cases r with
    | none => exact .inr (.inr (again_unlock hcur))
    | some n => exact .inl (idle_unlock hcur)

theorem Inv.settlesE (h : Inv E xp s) {t : Thread K V} (ht : t ∈ s.threads) {k : K} {pc : EPC}
    (hcur : t.cur = .era k pc) (hex : t.ex.todo = []) : Er.Settles P k s.shared t := by
  have hk := h.knows t ht
  rw [hcur] at hk
  simp only [Knows] at hk
  have hb := E.bkt_lt k
  have htot : Er.Tot s.shared.tab (Er.eqK P k) (Er.bK P s.shared k) := tot_era h.g k _
  cases pc with
  | f1 W => obtain ⟨r, hr⟩ := wt_of h.g hb (Er.eqK P k) hk.2; exact Er.settles_f1 htot hr hcur
  | lockB p => exact Er.settles_lockB htot hcur
  | f2 p W => obtain ⟨r, hr⟩ := wt_of h.g hb (Er.eqK P k) hk.2.2.2.1; exact Er.settles_f2 hr hcur
  | resetB p => exact .inl (Er.idle_resetB hcur)
  | cntB p => exact .inl (Er.idle_cntB hcur)
  | desB p => exact .inl (Er.idle_desB hcur)
  | unlockB p ok =>
    cases ok with
    | true => exact .inl (Er.idle_unlockB hcur)
    | false => exact .inr (.inr (Er.again_unlockB hcur))
  | p1 p W => obtain ⟨r, hr⟩ := pt_of h.g p hb hk.2.2; exact Er.settles_p1 htot hr hcur
  | lock1 p q => exact Er.settles_lock1 htot hcur
  | lock2 p q => exact Er.settles_lock2 htot hcur
  | undo1 p => exact .inr (.inr (Er.again_undo1 hcur))
  | f3 p q W => obtain ⟨r, hr⟩ := wt_of h.g hb (Er.eqK P k) hk.2.2.2.2.1; exact Er.settles_f3 htot hr hcur
  | p2 p q it W => obtain ⟨r, hr⟩ := pt_of h.g p hb hk.2.2.2.2.1; exact Er.settles_p2 hr hcur
  | rd1 p q => exact .inr (.inl (Er.pushes_rd1 hcur))
  | rd2 p q => exact .inr (.inl (Er.pushes_rd2 hcur))
  | rd3 p q o => exact .inr (.inl (Er.pushes_rd3 hcur))
  | wr p q o => exact .inr (.inl (Er.pushes_wr hcur))
  | zero p q => exact .inr (.inl (Er.pushes_zero hcur))
  | reset p q => exact .inr (.inl (Er.pushes_reset hcur))
  | cnt p q => exact .inr (.inl (Er.pushes_cnt hcur))
  | des p q => exact .inr (.inl (Er.pushes_des hcur))
  | push p q =>
    have : t.ex.todo = [.push () p] := hk.1
    rw [hex] at this
    simp at this
  | unlock1 p q ok =>
    cases ok with
    | true => exact .inl (Er.idle_unlock1 hcur)
    | false => exact .inr (.inr (Er.again_unlock1 hcur))
  | unlock2 q ok =>
    cases ok with
    | true => exact .inl (Er.idle_unlock2 hcur)
    | false => exact .inr (.inr (Er.again_unlock2 hcur))

end
end Stdgpu.UnorderedConc.Mx
