import Verif.Proof.ULin
/-! Linearizations in which the operations that do not change the map are executed at any moment between their call and
their return. -/
namespace Stdgpu.UnorderedConc
open Stdgpu.Conc
open Stdgpu.Unordered
open Stdgpu.Spec
variable {K V : Type} {P : Params K V}

theorem filter_or_perm {α : Type} (l : List α) (p q : α → Bool) (h : ∀ x ∈ l, p x = true → q x = false) :
    (l.filter p ++ l.filter q).Perm (l.filter (fun x => p x || q x)) := by
  induction l with
  | nil => simp
  | cons a l ih =>
    have ih := ih (fun x hx => h x (List.mem_cons_of_mem _ hx))
    have ha := h a (by simp)
    cases hp : p a with
    | true =>
      have hq := ha hp
      simp only [List.filter_cons, hp, hq, Bool.true_or, if_true]
      exact ih.cons a
    | false =>
      cases hq : q a with
      | true =>
        simp only [List.filter_cons, hp, hq, Bool.or_true, if_true]
        exact (List.perm_middle).trans (ih.cons a)
      | false =>
        simp only [List.filter_cons, hp, hq, Bool.or_false]
        exact ih

section
variable {t₀ : Tab V} {progs : List (List (Op K V))}

def never : Res → Bool := fun _ => false

/-- What is emitted by the first steps. -/
theorem linInv_prefix (sched : List Nat) (σ : List Nat) (hσ : ∃ rest, sched = σ ++ rest) :
    LinInv never (resAt (uexec P t₀ progs sched)) progs
      (lins P never (resAt (uexec P t₀ progs sched)) (init t₀ progs) σ) (uexec P t₀ progs σ) := by
  obtain ⟨fut, hfut⟩ : ∃ f, f = resAt (uexec P t₀ progs sched) := ⟨_, rfl⟩
  rw [← hfut]
  have hop : ∀ x e, fut x = some e → opAt progs x = some e.1 := by
    intro x e h
    subst hfut
    unfold resAt at h
    obtain ⟨t, ht, h⟩ := Option.bind_eq_some_iff.1 h
    have hlen := (List.getElem?_eq_some_iff.1 h).1
    unfold opAt
    rw [prog_run sched _ _ ht]
    simp only [Option.bind_some, List.append_assoc]
    rw [List.getElem?_append_left (by simpa using hlen)]
    simp [h]
  induction σ using List.reverseRecOn with
  | nil =>
    refine ⟨by simp [lins], by simp [lins], prog_run [], ?_, ?_, ?_, by simp [lins]⟩
    · intro i t ht a e h
      simp only [uexec, run_nil, init, List.getElem?_map, Option.map_eq_some_iff] at ht
      obtain ⟨p, hp, rfl⟩ := ht
      simp at h
    · intro i t ht e h
      simp only [uexec, run_nil, init, List.getElem?_map, Option.map_eq_some_iff] at ht
      obtain ⟨p, hp, rfl⟩ := ht
      simp [pend] at h
    · intro i t ht hc e h he
      simp [never] at he
  | append_singleton σ i ih =>
    obtain ⟨rest, hs⟩ := hσ
    have hI := ih ⟨i :: rest, by rw [hs]; simp⟩
    have happ : lins P never fut (init t₀ progs) (σ ++ [i]) = lins P never fut (init t₀ progs) σ ++
        emit P never fut (uexec P t₀ progs σ) i := by
      rw [lins_append]
      simp [lins, uexec]
    have hnext : uexec P t₀ progs (σ ++ [i]) = stepAt (step P) (uexec P t₀ progs σ) i := by
      rw [uexec_append]; rfl
    rw [happ]
    cases ht : (uexec P t₀ progs σ).threads[i]? with
    | none =>
      have e1 : emit P never fut (uexec P t₀ progs σ) i = [] := by simp only [emit, ht]
      have e2 : stepAt (step P) (uexec P t₀ progs σ) i = uexec P t₀ progs σ := by simp only [stepAt, ht]
      rw [hnext, e1, e2, List.append_nil]
      exact hI
    | some t =>
      have e2 : stepAt (step P) (uexec P t₀ progs σ) i = ⟨(step P (uexec P t₀ progs σ).shared t).1,
          (uexec P t₀ progs σ).threads.set i (step P (uexec P t₀ progs σ).shared t).2⟩ := by simp only [stepAt, ht]
      rw [hnext, e2]
      refine hI.step ht hop (by intro x e _ he; simp [never] at he) ?_
      intro a e ha
      rw [hfut]
      have hlt : i < (uexec P t₀ progs σ).threads.length := (List.getElem?_eq_some_iff.1 ht).1
      have := resAt_mono (P := P) (t₀ := t₀) (progs := progs) (σ ++ [i]) rest (x := (i, a)) (e := e) (by
        rw [hnext, e2]
        simp [resAt, hlt, ha])
      rw [hs]
      exact this

/-- Emitted operations with a result that does not change the map have returned. -/
theorem lins_read (fut : OpId → Option (Op K V × Res)) (σ : List Nat) :
    ∀ z ∈ lins P never fut (init t₀ progs) σ, effRes z.2.2 = false → resAt (uexec P t₀ progs σ) z.1 = some z.2 := by
  induction σ using List.reverseRecOn with
  | nil => intro z hz; simp [lins] at hz
  | append_singleton σ i ih =>
    have happ : lins P never fut (init t₀ progs) (σ ++ [i]) = lins P never fut (init t₀ progs) σ ++
        emit P never fut (uexec P t₀ progs σ) i := by
      rw [lins_append]
      simp [lins, uexec]
    have hnext : uexec P t₀ progs (σ ++ [i]) = stepAt (step P) (uexec P t₀ progs σ) i := by
      rw [uexec_append]; rfl
    rw [happ]
    intro z hz he
    rcases List.mem_append.1 hz with hz | hz
    · exact resAt_mono σ [i] (ih z hz he)
    · cases ht : (uexec P t₀ progs σ).threads[i]? with
      | none =>
        have e1 : emit P never fut (uexec P t₀ progs σ) i = [] := by simp only [emit, ht]
        rw [e1] at hz; simp at hz
      | some t =>
        have e2 : stepAt (step P) (uexec P t₀ progs σ) i = ⟨(step P (uexec P t₀ progs σ).shared t).1,
            (uexec P t₀ progs σ).threads.set i (step P (uexec P t₀ progs σ).shared t).2⟩ := by simp only [stepAt, ht]
        have hlt : i < (uexec P t₀ progs σ).threads.length := (List.getElem?_eq_some_iff.1 ht).1
        by_cases hc : t.cur = .idle
        · rcases emit_idle (P := P) (early := never) (fut := fut) ht hc with h1 | ⟨e, -, h2, -⟩
          · rw [h1] at hz; simp at hz
          · simp [never] at h2
        · rcases emit_cases (P := P) (early := never) (fut := fut) ht hc with ⟨e, h1, h2⟩ | ⟨h1, h2 | ⟨e, h2, -, -, h3⟩⟩
          · rw [h2] at hz
            simp only [List.mem_singleton] at hz
            subst hz
            exfalso
            cases hcc : t.cur with
            | idle => exact hc hcc
            | ins v pc =>
              rw [hcc] at h1; simp only [eff, Option.map_eq_some_iff] at h1
              obtain ⟨n, -, rfl⟩ := h1
              simp [effRes] at he
            | era k pc =>
              rw [hcc] at h1; simp only [eff] at h1
              split at h1
              · cases h1; simp [effRes] at he
              · simp at h1
            | fnd k w => rw [hcc] at h1; simp [eff] at h1
          · rw [h2] at hz; simp at hz
          · rw [h3] at hz
            simp only [List.mem_singleton] at hz
            subst hz
            rw [hnext, e2]
            simp [resAt, hlt, h2]

theorem numCalled_pos {t : Thread K V} {a : Nat} (h : a < t.done.length ∨ a = t.done.length ∧ t.cur ≠ .idle) : a < numCalled t := by
  unfold numCalled
  rcases h with h | ⟨h, hc⟩
  · split <;> omega
  · split
    · next hc' => exact absurd hc' hc
    · omega

/-- Calls stay. -/
theorem called_mono (a b : List Nat) {x : OpId} (h : Called (uexec P t₀ progs a) x) : Called (uexec P t₀ progs (a ++ b)) x := by
  rw [uexec_append]
  generalize uexec P t₀ progs a = s at h
  refine run_inv (f := step P) (fun s => Called s x) ?_ s h b
  rintro s i t ⟨u, hu, hx⟩ ht
  have hlt : i < s.threads.length := (List.getElem?_eq_some_iff.1 ht).1
  by_cases hji : x.1 = i
  · subst hji
    rw [ht] at hu; cases hu
    refine ⟨(step P s.shared t).2, by simp [hlt], lt_of_lt_of_le hx ?_⟩
    by_cases hc : t.cur = .idle
    · cases htd : t.todo with
      | nil =>
        have e : step P s.shared t = (s.shared, t) := by simp only [step, hc, htd]
        rw [e]
      | cons op rest =>
        have e : step P s.shared t = (s.shared, { t with todo := rest, cur := begin P s.shared.tab op }) := by
          simp only [step, hc, htd]
        rw [e]
        unfold numCalled
        rw [hc]
        dsimp only
        omega
    · have h1 : numCalled t = t.done.length + 1 := by
        unfold numCalled
        split
        · next hc' => exact absurd hc' hc
        · rfl
      rw [h1]
      rcases ctl (P := P) s.shared t hc with ⟨h1, -, h3, -⟩ | ⟨e, h1, -⟩
      · have hne : (step P s.shared t).2.cur ≠ .idle := by
          intro hi
          rw [hi] at h3
          cases hcc : t.cur with
          | idle => exact hc hcc
          | _ => rw [hcc] at h3; simp [curOp] at h3
        unfold numCalled
        rw [h1]
        split
        · next hc' => exact absurd hc' hne
        · omega
      · unfold numCalled
        rw [h1]
        simp
  · exact ⟨u, by simp [List.getElem?_set_ne (Ne.symm hji), hu], hx⟩

variable (P t₀ progs) in
/-- The state after `n` steps. -/
def at_ (sched : List Nat) (n : Nat) : Sys (Shared V) (Thread K V) := uexec P t₀ progs (sched.take n)

/-- Every execution has a linearization if the effective steps change the map as they should, and the result of every
other operation is right at some moment between its call and its return. -/
theorem lin_times (strict : Bool) (sched : List Nat)
    (Q : Sys (Shared V) (Thread K V) → List (Nat × V) → Prop) (hinit : Q (uexec P t₀ progs []) (entries t₀))
    (hstep : ∀ σ i rest t m, sched = σ ++ i :: rest → (uexec P t₀ progs σ).threads[i]? = some t →
      Q (uexec P t₀ progs σ) m →
      (∀ e, eff P (uexec P t₀ progs σ).shared.tab t.cur = some e → ∃ m', seqStep P strict m e = some m' ∧
        Q (uexec P t₀ progs (σ ++ [i])) m') ∧
      (eff P (uexec P t₀ progs σ).shared.tab t.cur = none → Q (uexec P t₀ progs (σ ++ [i])) m))
    (hread : ∀ x e, resAt (uexec P t₀ progs sched) x = some e → effRes e.2 = false →
      ∃ n ≤ sched.length, ∃ t, (at_ P t₀ progs sched n).threads[x.1]? = some t ∧ t.done.length = x.2 ∧ t.cur ≠ .idle ∧
        ∀ m, Q (at_ P t₀ progs sched n) m → seqStep P strict m e = some m) :
    ∃ L m, Linearization P strict t₀ progs sched L m ∧ Q (uexec P t₀ progs sched) m := by
  classical
  obtain ⟨fut, hfut⟩ : ∃ f, f = resAt (uexec P t₀ progs sched) := ⟨_, rfl⟩
  obtain ⟨T, hT⟩ : ∃ T : OpId → Nat, ∀ x e, resAt (uexec P t₀ progs sched) x = some e → effRes e.2 = false →
      T x ≤ sched.length ∧ ∃ t, (at_ P t₀ progs sched (T x)).threads[x.1]? = some t ∧ t.done.length = x.2 ∧ t.cur ≠ .idle ∧
        ∀ m, Q (at_ P t₀ progs sched (T x)) m → seqStep P strict m e = some m := by
    refine ⟨fun x => if h : ∃ n, ∃ e, resAt (uexec P t₀ progs sched) x = some e ∧ effRes e.2 = false ∧ n ≤ sched.length ∧
      ∃ t, (at_ P t₀ progs sched n).threads[x.1]? = some t ∧ t.done.length = x.2 ∧ t.cur ≠ .idle ∧
        ∀ m, Q (at_ P t₀ progs sched n) m → seqStep P strict m e = some m then h.choose else 0, ?_⟩
    intro x e h1 h2
    obtain ⟨n, hn, t, h3⟩ := hread x e h1 h2
    have hex : ∃ n, ∃ e, resAt (uexec P t₀ progs sched) x = some e ∧ effRes e.2 = false ∧ n ≤ sched.length ∧
      ∃ t, (at_ P t₀ progs sched n).threads[x.1]? = some t ∧ t.done.length = x.2 ∧ t.cur ≠ .idle ∧
        ∀ m, Q (at_ P t₀ progs sched n) m → seqStep P strict m e = some m := ⟨n, e, h1, h2, hn, t, h3⟩
    simp only [dif_pos hex]
    obtain ⟨e', h4, -, h5, h6⟩ := hex.choose_spec
    rw [h1] at h4
    cases h4
    exact ⟨h5, h6⟩
  have hJ : ∀ n, LinInv never fut progs (lins P never fut (init t₀ progs) (sched.take n)) (at_ P t₀ progs sched n) := by
    intro n
    rw [hfut]
    exact linInv_prefix sched (sched.take n) ⟨sched.drop n, by simp⟩
  have hI := hJ sched.length
  have hN : at_ P t₀ progs sched sched.length = uexec P t₀ progs sched := by simp [at_]
  rw [hN, List.take_length] at hI
  obtain ⟨L0, hL0⟩ : ∃ l, l = lins P never fut (init t₀ progs) sched := ⟨_, rfl⟩
  rw [← hL0] at hI
  have hread0 : ∀ z ∈ L0, effRes z.2.2 = false → resAt (uexec P t₀ progs sched) z.1 = some z.2 := by
    rw [hL0]; exact lins_read fut sched
  -- the effects of the first `n` steps, the other operations at time `n`
  obtain ⟨Le, hLe⟩ : ∃ f : Nat → List (LE K V), ∀ n, f n = (lins P never fut (init t₀ progs) (sched.take n)).filter (fun z => effRes z.2.2) :=
    ⟨_, fun _ => rfl⟩
  obtain ⟨R, hR⟩ : ∃ f : Nat → List (LE K V), ∀ n, f n = L0.filter (fun z => !effRes z.2.2 && decide (T z.1 = n)) := ⟨_, fun _ => rfl⟩
  obtain ⟨D, hD⟩ : ∃ f : Nat → List (LE K V), ∀ n, f n = (match sched[n]? with
    | some i => (emit P never fut (at_ P t₀ progs sched n) i).filter (fun z => effRes z.2.2) | none => []) := ⟨_, fun _ => rfl⟩
  have hLe0 : Le 0 = [] := by rw [hLe]; simp [lins]
  have hLeS : ∀ n, Le (n + 1) = Le n ++ D n := by
    intro n
    rw [hLe, hLe, hD]
    cases hs : sched[n]? with
    | none =>
      have hle : sched.length ≤ n := List.getElem?_eq_none_iff.1 hs
      rw [List.take_of_length_le hle, List.take_of_length_le (by omega)]
      simp
    | some i =>
      obtain ⟨hn, hi⟩ := List.getElem?_eq_some_iff.1 hs
      rw [List.take_succ, hs, lins_append, List.filter_append]
      simp [lins, at_, uexec]
  obtain ⟨Lp, hLp0, hLpS⟩ : ∃ f : Nat → List (LE K V), f 0 = R 0 ∧ ∀ n, f (n + 1) = f n ++ D n ++ R (n + 1) :=
    ⟨fun n => Nat.rec (R 0) (fun n l => l ++ D n ++ R (n + 1)) n, rfl, fun _ => rfl⟩
  have hperm : ∀ n, (Lp n).Perm (Le n ++ L0.filter (fun z => !effRes z.2.2 && decide (T z.1 ≤ n))) := by
    intro n
    induction n with
    | zero =>
      rw [hLp0, hLe0, hR]
      simp
    | succ n ih =>
      rw [hLpS, hLeS, hR]
      have h1 := filter_or_perm L0 (fun z => !effRes z.2.2 && decide (T z.1 ≤ n)) (fun z => !effRes z.2.2 && decide (T z.1 = n + 1)) (by
        intro z _ hz
        simp only [Bool.and_eq_true, decide_eq_true_eq, Bool.not_eq_true'] at hz
        have : T z.1 ≠ n + 1 := by omega
        simp [this])
      have h2 : (fun z : LE K V => (!effRes z.2.2 && decide (T z.1 ≤ n)) || (!effRes z.2.2 && decide (T z.1 = n + 1))) =
          (fun z => !effRes z.2.2 && decide (T z.1 ≤ n + 1)) := by
        funext z
        rw [← Bool.and_or_distrib_left, ← Bool.decide_or]
        congr 1
        rw [decide_eq_decide]
        omega
      rw [h2] at h1
      have h3 := (ih.append_right (D n)).append_right (L0.filter (fun z => !effRes z.2.2 && decide (T z.1 = n + 1)))
      refine h3.trans ?_
      refine (List.Perm.append_right (l₂ := Le n ++ D n ++ L0.filter (fun z => !effRes z.2.2 && decide (T z.1 ≤ n))) _ ?_).trans ?_
      · rw [List.append_assoc, List.append_assoc]
        exact List.Perm.append_left _ List.perm_append_comm
      · rw [List.append_assoc]
        exact List.Perm.append_left _ h1
  have hpermN : (Lp sched.length).Perm L0 := by
    refine (hperm _).trans ?_
    have e1 : L0.filter (fun z => !effRes z.2.2 && decide (T z.1 ≤ sched.length)) = L0.filter (fun z => !effRes z.2.2) := by
      apply List.filter_congr
      intro z hz
      cases he : effRes z.2.2 with
      | true => simp
      | false => simp [(hT z.1 z.2 (hread0 z hz he) he).1]
    rw [e1, hLe, List.take_length, ← hL0]
    exact List.filter_append_perm _ _
  have hpre : ∀ n d, Lp n <+: Lp (n + d) := by
    intro n d
    induction d with
    | zero => exact List.prefix_refl _
    | succ d ih =>
      refine ih.trans ?_
      rw [← Nat.add_assoc, hLpS, List.append_assoc]
      exact List.prefix_append _ _
  -- legality
  have hreads : ∀ n m, Q (at_ P t₀ progs sched n) m → ∀ l : List (LE K V), (∀ z ∈ l, z ∈ R n) → seqRun P strict m (l.map (·.2)) = some m := by
    intro n m hQ l
    induction l with
    | nil => intro _; rfl
    | cons z l ih =>
      intro hl
      have hz := hl z (by simp)
      rw [hR] at hz
      simp only [List.mem_filter, Bool.and_eq_true, Bool.not_eq_true', decide_eq_true_eq] at hz
      obtain ⟨hz1, hz2, hz3⟩ := hz
      obtain ⟨-, t, -, -, -, h4⟩ := hT z.1 z.2 (hread0 z hz1 hz2) hz2
      rw [hz3] at h4
      simp only [List.map_cons, seqRun, h4 m hQ, Option.bind_some]
      exact ih (fun z hz => hl z (List.mem_cons_of_mem _ hz))
  have hlegal : ∀ n, n ≤ sched.length → ∃ m, seqRun P strict (entries t₀) ((Lp n).map (·.2)) = some m ∧ Q (at_ P t₀ progs sched n) m := by
    intro n
    induction n with
    | zero =>
      intro _
      have h0 : Q (at_ P t₀ progs sched 0) (entries t₀) := by simpa [at_] using hinit
      exact ⟨_, by rw [hLp0]; exact hreads 0 _ h0 (R 0) (fun _ h => h), h0⟩
    | succ n ih =>
      intro hn
      obtain ⟨m, h1, h2⟩ := ih (by omega)
      have hs : sched[n]? = some sched[n] := List.getElem?_eq_getElem (by omega)
      have htk : sched.take (n + 1) = sched.take n ++ [sched[n]] := by rw [List.take_succ, hs]; rfl
      have hsp : sched = sched.take n ++ sched[n] :: sched.drop (n + 1) := by
        conv_lhs => rw [← List.take_append_drop n sched, List.drop_eq_getElem_cons (by omega)]
      have hmid : ∃ m', seqRun P strict m ((D n).map (·.2)) = some m' ∧ Q (at_ P t₀ progs sched (n + 1)) m' := by
        have hnext : uexec P t₀ progs (sched.take n ++ [sched[n]]) = stepAt (step P) (at_ P t₀ progs sched n) sched[n] := by
          rw [uexec_append]; rfl
        cases ht : (at_ P t₀ progs sched n).threads[sched[n]]? with
        | none =>
          have e1 : D n = [] := by rw [hD, hs]; simp only [emit, ht]; rfl
          have e2 : stepAt (step P) (at_ P t₀ progs sched n) sched[n] = at_ P t₀ progs sched n := by simp only [stepAt, ht]
          refine ⟨m, by rw [e1]; rfl, ?_⟩
          unfold at_
          rw [htk, hnext, e2]
          exact h2
        | some t =>
          obtain ⟨h3, h4⟩ := hstep (sched.take n) sched[n] (sched.drop (n + 1)) t m hsp ht h2
          rw [← htk] at h3 h4
          by_cases hc : t.cur = .idle
          · have e0 : eff P (at_ P t₀ progs sched n).shared.tab t.cur = none := by rw [hc]; rfl
            refine ⟨m, ?_, h4 e0⟩
            have e1 : D n = [] := by
              rw [hD, hs]
              rcases emit_idle (P := P) (early := never) (fut := fut) ht hc with h5 | ⟨e, -, h5, -⟩
              · simp only [h5]; rfl
              · simp [never] at h5
            rw [e1]; rfl
          · rcases emit_cases (P := P) (early := never) (fut := fut) ht hc with ⟨e, h5, h6⟩ | ⟨h5, h6⟩
            · obtain ⟨m', h7, h8⟩ := h3 e h5
              refine ⟨m', ?_, h8⟩
              have her : effRes e.2 = true := by
                cases hcc : t.cur with
                | idle => exact absurd hcc hc
                | ins v pc =>
                  rw [hcc] at h5; simp only [eff, Option.map_eq_some_iff] at h5
                  obtain ⟨n, -, rfl⟩ := h5; rfl
                | era k pc =>
                  rw [hcc] at h5; simp only [eff] at h5
                  split at h5
                  · cases h5; rfl
                  · simp at h5
                | fnd k w => rw [hcc] at h5; simp [eff] at h5
              have e1 : D n = [((sched[n], t.done.length), e)] := by
                rw [hD, hs]; simp only [h6]; simp [her]
              rw [e1]
              exact seqRun_one h7
            · refine ⟨m, ?_, h4 h5⟩
              have e1 : D n = [] := by
                rw [hD, hs]
                rcases h6 with h6 | ⟨e, -, -, h7, h6⟩
                · simp only [h6]; rfl
                · simp only [h6]; simp [h7]
              rw [e1]; rfl
      obtain ⟨m', h3, h4⟩ := hmid
      refine ⟨m', ?_, h4⟩
      rw [hLpS, List.map_append, List.map_append, seqRun_append, seqRun_append, h1]
      simp only [Option.bind_some, h3]
      exact hreads (n + 1) m' h4 (R (n + 1)) (fun _ h => h)
  -- what is in the first part has been called, what has returned is in it
  have hcalled : ∀ n, n ≤ sched.length → ∀ z ∈ Lp n, Called (at_ P t₀ progs sched n) z.1 := by
    intro n hn z hz
    rcases List.mem_append.1 ((hperm n).mem_iff.1 hz) with h1 | h1
    · rw [hLe] at h1
      obtain ⟨t, ht, hor⟩ := (hJ n).only z.1.1 z.1.2 z.2 (List.mem_of_mem_filter h1)
      exact ⟨t, ht, numCalled_pos (hor.imp id (fun h => ⟨h.1, h.2.1⟩))⟩
    · simp only [List.mem_filter, Bool.and_eq_true, Bool.not_eq_true', decide_eq_true_eq] at h1
      obtain ⟨h1, h2, h3⟩ := h1
      obtain ⟨-, t, h4, h5, h6, -⟩ := hT z.1 z.2 (hread0 z h1 h2) h2
      have hc : Called (at_ P t₀ progs sched (T z.1)) z.1 := ⟨t, h4, numCalled_pos (.inr ⟨h5.symm, h6⟩)⟩
      have := called_mono (sched.take (T z.1)) ((sched.take n).drop (T z.1)) hc
      have e : sched.take (T z.1) = (sched.take n).take (T z.1) := by rw [List.take_take, Nat.min_eq_left h3]
      rw [e, List.take_append_drop] at this
      exact this
  have hret : ∀ n, n ≤ sched.length → ∀ x, (resAt (at_ P t₀ progs sched n) x).isSome = true → ∃ e, (x, e) ∈ Lp n := by
    intro n hn x hx
    obtain ⟨e, he⟩ := Option.isSome_iff_exists.1 hx
    refine ⟨e, (hperm n).mem_iff.2 ?_⟩
    have hfin : resAt (uexec P t₀ progs sched) x = some e := by
      have := resAt_mono (P := P) (t₀ := t₀) (progs := progs) (sched.take n) (sched.drop n) he
      rwa [List.take_append_drop] at this
    cases her : effRes e.2 with
    | true =>
      refine List.mem_append_left _ ?_
      rw [hLe]
      unfold resAt at he
      obtain ⟨t, ht, he⟩ := Option.bind_eq_some_iff.1 he
      exact List.mem_filter.2 ⟨(hJ n).ret x.1 t ht x.2 e he, her⟩
    | false =>
      refine List.mem_append_right _ ?_
      obtain ⟨h1, t, h4, h5, h6, -⟩ := hT x e hfin her
      refine List.mem_filter.2 ⟨?_, ?_⟩
      · unfold resAt at hfin
        obtain ⟨t, ht, hfin⟩ := Option.bind_eq_some_iff.1 hfin
        exact hI.ret x.1 t ht x.2 e hfin
      · simp only [her, Bool.not_false, Bool.true_and, decide_eq_true_eq]
        by_contra hlt
        have e1 := resAt_mono (P := P) (t₀ := t₀) (progs := progs) (sched.take n) ((sched.take (T x)).drop n) he
        have e2 : sched.take n = (sched.take (T x)).take n := by rw [List.take_take, Nat.min_eq_left (by omega)]
        rw [e2, List.take_append_drop] at e1
        have e3 : resAt (at_ P t₀ progs sched (T x)) x = none := by
          unfold resAt
          rw [h4, ← h5]; simp
        have e4 : resAt (at_ P t₀ progs sched (T x)) x = some e := e1
        rw [e3] at e4; simp at e4
  obtain ⟨m, h1, h2⟩ := hlegal sched.length (le_refl _)
  have hnd : ((Lp sched.length).map (·.1)).Nodup := ((hpermN.map _).nodup_iff).2 hI.nodup
  refine ⟨Lp sched.length, m, ⟨hnd, ?_, ?_, ?_, h1⟩, by rw [hN] at h2; exact h2⟩
  · intro x e h
    rw [hpermN.mem_iff]
    unfold resAt at h
    obtain ⟨t, ht, h⟩ := Option.bind_eq_some_iff.1 h
    exact hI.ret x.1 t ht x.2 e h
  · intro x e h
    refine ⟨?_, hI.op x e (hpermN.mem_iff.1 h)⟩
    have := hcalled _ (le_refl _) _ h
    rw [hN] at this
    exact this
  · rw [List.pairwise_iff_getElem]
    rintro p q hp hq hpq ⟨n, hb, hnc⟩
    -- it is enough to look at the first `n` steps
    obtain ⟨n', hn', he'⟩ : ∃ n', n' ≤ sched.length ∧ uexec P t₀ progs (sched.take n) = at_ P t₀ progs sched n' := by
      by_cases hle : n ≤ sched.length
      · exact ⟨n, hle, rfl⟩
      · refine ⟨sched.length, le_refl _, ?_⟩
        rw [hN, List.take_of_length_le (by omega)]
    rw [he'] at hb hnc
    obtain ⟨e, hm⟩ := hret n' hn' _ hb
    obtain ⟨d, hd⟩ : ∃ d, sched.length = n' + d := ⟨sched.length - n', by omega⟩
    have hpr : Lp n' <+: Lp sched.length := by rw [hd]; exact hpre n' d
    generalize Lp sched.length = L at *
    obtain ⟨r, hr, hre⟩ := List.getElem_of_mem hm
    have hrL : r < L.length := lt_of_lt_of_le hr hpr.length_le
    have hrr : L[r] = (L[q].1, e) := by
      rw [← hpr.getElem hr]; exact hre
    have hrq : r = q := by
      rw [List.nodup_iff_injective_getElem] at hnd
      have := @hnd ⟨r, by simpa using hrL⟩ ⟨q, by simpa using hq⟩ (by simp [hrr])
      simpa using this
    subst hrq
    have hpL : p < (Lp n').length := by omega
    have hpm : L[p] ∈ Lp n' := by
      rw [← hpr.getElem hpL]; exact List.getElem_mem _
    exact hnc (hcalled n' hn' _ hpm)

end
end Stdgpu.UnorderedConc
