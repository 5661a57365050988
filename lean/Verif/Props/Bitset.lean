import Verif.Proof.BitsetConc
import Verif.Proof.AtomicLin
/-!
Property theorems C10–C13 (bitset). Block width `2^k` bits, `k < 64`; sizes below `2^64` (`index_t`).
-/
namespace Stdgpu.Props
open Stdgpu.Bitset Stdgpu.Spec

theorem execAll_refines {w : Nat} (b : Bitset w) (h : WF b) (ops : List Op) (os : List Out) (l : List Bool)
    (hs : boolsExecAll (abs b) ops = some (os, l)) :
    ∃ b', execAll b ops = some (os, b') ∧ WF b' ∧ b'.size = b.size ∧ abs b' = l := by
  induction ops generalizing b os with
  | nil =>
    simp [boolsExecAll] at hs
    obtain ⟨rfl, rfl⟩ := hs
    exact ⟨b, rfl, h, rfl, rfl⟩
  | cons op ops ih =>
    simp only [boolsExecAll] at hs
    have hr := exec_refines h op
    cases he : boolsExec (abs b) op with
    | none => simp [he] at hs
    | some r =>
      obtain ⟨o, l1⟩ := r
      rw [he] at hr
      obtain ⟨b1, hb1, hwf1, hsz1, hab1⟩ := hr
      simp only [he] at hs
      cases hc : boolsExecAll l1 ops with
      | none => simp [hc] at hs
      | some r2 =>
        obtain ⟨os2, l2⟩ := r2
        simp [hc] at hs
        obtain ⟨rfl, rfl⟩ := hs
        obtain ⟨b2, hb2, hwf2, hsz2, hab2⟩ := ih b1 hwf1 os2 (by rw [hab1]; exact hc)
        refine ⟨b2, ?_, hwf2, by rw [hsz2, hsz1], hab2⟩
        simp [execAll, hb1, hb2]

/-- C10. A freshly created bitset, after any history of operations with valid indices, has returned exactly what an
array of booleans (all false at first) returns, without undefined behaviour, and reads back exactly this array. -/
theorem C10_bitset_is_bool_array (k size : Nat) (hk : k < 64) (hsz : size < 2 ^ 64) (ops : List Op)
    (os : List Out) (l : List Bool)
    (hs : boolsExecAll (List.replicate size false) ops = some (os, l)) :
    ∃ b', execAll (create (2 ^ k) size) ops = some (os, b') ∧ b'.size = size ∧ l.length = size ∧
      ∀ n, n < size → test b' n = l[n]? := by
  obtain ⟨b', h1, h2, h3, h4⟩ := execAll_refines _ (create_wf k size hk hsz) ops os l
    (by rw [create_abs]; exact hs)
  have h3' : b'.size = size := h3
  refine ⟨b', h1, h3', by rw [← h4, abs_length, h3'], ?_⟩
  intro n hn
  rw [test_refines h2 n (by omega), ← h4, abs_getElem?]
  simp [h3', hn]

/-- The specification rejects a history only for an index outside `[0,size)`. -/
theorem C10_spec_total (l : List Bool) (op : Op) (h : ∀ n, BitsetConc.idx op = some n → n < l.length) :
    ∃ o l', boolsExec l op = some (o, l') := by
  cases op with
  | setAll | resetAll | flipAll | count => exact ⟨_, _, rfl⟩
  | set n x | reset n | flip n | test n =>
    exact BitsetConc.boolsExec_elem _ _ n rfl (h n rfl)

example : boolsExecAll (List.replicate 40 false) [.set 33 true, .flip 1, .flipAll, .test 33, .count]
    = some ([.bit false, .bit false, .unit, .bit false, .num 38],
        ((List.replicate 40 true).set 33 false).set 1 false) := by decide

/-- C11. In every state reachable by a history from creation, `count()` is the number of valid indices whose bit
reads true (garbage that whole-bitset operations left in the unused tail of the last block is not counted). -/
theorem C11_count (k size : Nat) (hk : k < 64) (hsz : size < 2 ^ 64) (ops : List Op)
    (os : List Out) (l : List Bool)
    (hs : boolsExecAll (List.replicate size false) ops = some (os, l)) :
    ∃ b', execAll (create (2 ^ k) size) ops = some (os, b') ∧
      count b' = (List.range size).countP (fun n => test b' n == some true) := by
  obtain ⟨b', h1, h2, h3, h4⟩ := execAll_refines _ (create_wf k size hk hsz) ops os l
    (by rw [create_abs]; exact hs)
  have h3' : b'.size = size := h3
  refine ⟨b', h1, ?_⟩
  rw [count_eq h2]
  unfold Bitset.abs List.count
  rw [List.countP_map, h3']
  apply List.countP_congr
  intro n hn
  rw [List.mem_range] at hn
  rw [test_refines h2 n (by omega)]
  simp

/-- C12. For every well-formed non-empty bitset: `all` / `any` / `none` mean what they say. -/
theorem C12_all_any_none {w : Nat} (b : Bitset w) (h : WF b) (hs : b.size ≠ 0) :
    (all b = true ↔ ∀ n, n < b.size → test b n = some true) ∧
    (any b = true ↔ ∃ n, n < b.size ∧ test b n = some true) ∧
    (none' b = true ↔ ∀ n, n < b.size → test b n = some false) := by
  have hmem : ∀ x, x ∈ abs b ↔ ∃ n, n < b.size ∧ test b n = some x := by
    intro x
    unfold Bitset.abs
    simp only [List.mem_map, List.mem_range]
    constructor
    · rintro ⟨n, hn, rfl⟩; exact ⟨n, hn, test_refines h n hn⟩
    · rintro ⟨n, hn, e⟩
      rw [test_refines h n hn] at e
      exact ⟨n, hn, by simpa using e⟩
  have hlen := abs_length b
  have hfalse : ∀ n, n < b.size → (test b n = some false ↔ ¬ test b n = some true) := by
    intro n hn; rw [test_refines h n hn]; simp
  refine ⟨?_, ?_, ?_⟩
  · simp only [all, hs, if_false, beq_iff_eq]
    rw [count_eq h, ← hlen, List.count_eq_length]
    constructor
    · intro hc n hn
      have : bitAt b n ∈ abs b := (hmem _).2 ⟨n, by omega, test_refines h n (by omega)⟩
      rw [test_refines h n (by omega), ← hc _ this]
    · intro hc x hx
      obtain ⟨n, hn, e⟩ := (hmem x).1 hx
      rw [hc n (by omega)] at e
      simpa using e
  · simp only [any, hs, if_false, decide_eq_true_eq, gt_iff_lt]
    rw [count_eq h, List.count_pos_iff, hmem]
  · simp only [none', hs, if_false, beq_iff_eq]
    rw [count_eq h, List.count_eq_zero, hmem]
    constructor
    · intro hc n hn
      rw [hfalse n hn]
      exact fun e => hc ⟨n, hn, e⟩
    · rintro hc ⟨n, hn, e⟩
      rw [hc n hn] at e; simp at e

example : WF (create (2 ^ 5) 40) ∧ (create (2 ^ 5) 40).size ≠ 0 :=
  ⟨create_wf 5 40 (by omega) (by omega), by simp [create]⟩

/-- C12, deviation from `std::bitset` for size 0: all three queries return false (for std, `all` and `none` are
vacuously true), so `none` is not the negation of `any` there. -/
theorem C12_empty_bitset {w : Nat} (b : Bitset w) (hs : b.size = 0) :
    all b = false ∧ any b = false ∧ none' b = false := by
  simp [all, any, none', hs]

/-! ### C13 concurrency -/
open Stdgpu.BitsetConc in
/-- C13 (atomicity). For every schedule of every set of threads executing element operations with valid indices
there is one sequential order of all performed operations whose outputs and final bits, according to the
boolean-array specification, are exactly the observed ones; there is no undefined behaviour. -/
theorem C13_linearizable {w : Nat} (b₀ : Bitset w) (hwf : WF b₀) (programs : List (List Op))
    (hv : ValidPrograms b₀.size programs) (sched : List Nat) :
    let s := Conc.run step (init b₀ programs) sched
    s.shared.ub = false ∧
    ∃ L : List BitsetConc.Entry,
      boolsExecAll (abs b₀) (L.map (·.2.1)) = some (L.map (·.2.2), abs s.shared.bits) ∧
      (∀ (i : Nat) (t : Thread), s.threads[i]? = some t →
        BitsetConc.perThread L i = t.done ∧ programs[i]? = some (t.done.map (·.1) ++ t.todo)) ∧
      (∀ e ∈ L, e.1 < s.threads.length) := by
  have h := inv_run b₀ hwf programs hv sched
  obtain ⟨L, h1, h2, h3⟩ := h.lin
  exact ⟨h.ub, L, h1, fun i t ht => ⟨h2 i t ht, h.prog i t ht⟩, h3⟩

open Stdgpu.BitsetConc in
/-- C13 (no interference). If the operations of thread `i` stay inside a set `S` of bits that no other thread
touches (the bits may share blocks with those of other threads), then in every schedule thread `i` gets exactly
the results, and leaves exactly the bits, that it would get when running alone. -/
theorem C13_no_interference {w : Nat} (b₀ : Bitset w) (hwf : WF b₀) (programs : List (List Op))
    (hv : ValidPrograms b₀.size programs) (sched : List Nat) (i : Nat) (t : Thread) (S : Nat → Bool)
    (ht : (Conc.run step (init b₀ programs) sched).threads[i]? = some t)
    (hS : ∀ (j : Nat) (p : List Op), programs[j]? = some p → ∀ op ∈ p, ∀ n, idx op = some n →
      (S n = true ↔ j = i)) :
    ∃ l : List Bool, boolsExecAll (abs b₀) (t.done.map (·.1)) = some (t.done.map (·.2), l) ∧
      ∀ n, S n = true → (abs (Conc.run step (init b₀ programs) sched).shared.bits)[n]? = l[n]? := by
  obtain ⟨-, L, h1, h2, h3⟩ := C13_linearizable b₀ hwf programs hv sched
  generalize Conc.run step (init b₀ programs) sched = s at *
  have hent : ∀ e ∈ L, ∃ p, programs[e.1]? = some p ∧ e.2.1 ∈ p := by
    intro e he
    have hlt := h3 e he
    have hte : s.threads[e.1]? = some s.threads[e.1] := List.getElem?_eq_getElem hlt
    obtain ⟨ha, hb⟩ := h2 _ _ hte
    refine ⟨_, hb, ?_⟩
    rw [List.mem_append]; left
    have : e.2 ∈ BitsetConc.perThread L e.1 := by
      simp only [BitsetConc.perThread, List.mem_map, List.mem_filter]
      exact ⟨e, ⟨he, by simp⟩, rfl⟩
    rw [ha] at this
    exact List.mem_map_of_mem this
  have hidx : ∀ e ∈ L, ∃ n, idx e.2.1 = some n := by
    intro e he
    obtain ⟨p, hp1, hp2⟩ := hent e he
    obtain ⟨n, hn, -⟩ := hv p (List.mem_of_getElem? hp1) _ hp2
    exact ⟨n, hn⟩
  obtain ⟨lf, hr1, hr2⟩ := restrict S (abs b₀) (abs b₀) rfl (fun _ _ => rfl) L hidx _ h1
  have hfil : L.filter (fun e => ((idx e.2.1).map S).getD false) = L.filter (fun e => e.1 == i) := by
    apply List.filter_congr
    intro e he
    obtain ⟨n, hn⟩ := hidx e he
    obtain ⟨p, hp1, hp2⟩ := hent e he
    have := hS _ _ hp1 _ hp2 n hn
    rw [hn]
    simp only [Option.map_some, Option.getD_some]
    apply Bool.eq_iff_iff.2
    rw [this, beq_iff_eq]
  rw [hfil] at hr1
  have hd : t.done = (L.filter (fun e => e.1 == i)).map (·.2) := ((h2 i t ht).1).symm
  refine ⟨lf, ?_, hr2⟩
  rw [hd, List.map_map, List.map_map]
  exact hr1

open Stdgpu.BitsetConc in
theorem setters_outputs (l : List Bool) (n : Nat) (b : Bool) (hl : l[n]? = some b) (L : List BitsetConc.Entry)
    (hop : ∀ e ∈ L, e.2.1 = .set n true) (lf : List Bool)
    (h : boolsExecAll l (L.map (·.2.1)) = some (L.map (·.2.2), lf)) :
    (L.map (·.2.2)).countP (· == .bit false) = (if b = true ∨ L = [] then 0 else 1) ∧
    (L = [] ∨ lf[n]? = some true) := by
  induction L generalizing l b with
  | nil => simp
  | cons e L ih =>
    obtain ⟨i, op, o⟩ := e
    have : op = .set n true := hop (i, op, o) (by simp)
    subst this
    simp only [List.map_cons, boolsExecAll, boolsExec, hl, Option.map_some] at h
    cases hc : boolsExecAll (l.set n true) (L.map (·.2.1)) with
    | none => simp [hc] at h
    | some r =>
      obtain ⟨os, l2⟩ := r
      simp [hc] at h
      obtain ⟨⟨rfl, rfl⟩, rfl⟩ := h
      have hlen : n < l.length := (List.getElem?_eq_some_iff.1 hl).1
      have hset : (l.set n true)[n]? = some true := by rw [List.getElem?_set_self hlen]
      obtain ⟨h1, h2⟩ := ih (l.set n true) true hset (fun e he => hop e (by simp [he])) hc
      refine ⟨?_, Or.inr ?_⟩
      · simp only [List.map_cons, List.countP_cons, h1]
        cases b <;> simp
      · rcases h2 with h2 | h2
        · subst h2
          simp [boolsExecAll] at hc
          rw [← hc]; exact hset
        · exact h2

open Stdgpu.BitsetConc in
/-- C13 (exactly one winner). When any number of threads set the same clear bit, then in every schedule, as soon as
one operation was performed, the bit is set and exactly one performed operation has returned the previous value
false. -/
theorem C13_exactly_one_winner {w : Nat} (b₀ : Bitset w) (hwf : WF b₀) (n : Nat) (hn : n < b₀.size)
    (hclear : test b₀ n = some false) (programs : List (List Op))
    (hp : ∀ p ∈ programs, ∀ op ∈ p, op = .set n true) (sched : List Nat) :
    let s := Conc.run step (init b₀ programs) sched
    let outs := s.threads.flatMap (fun t => t.done.map (·.2))
    outs ≠ [] → outs.countP (· == .bit false) = 1 ∧ test s.shared.bits n = some true := by
  intro s outs hne
  have hv : ValidPrograms b₀.size programs := by
    intro p hpp op hop
    exact ⟨n, by rw [hp p hpp op hop]; rfl, hn⟩
  have hinv := inv_run b₀ hwf programs hv sched
  obtain ⟨-, L, h1, h2, h3⟩ := C13_linearizable b₀ hwf programs hv sched
  have hperm : (L.map (·.2.2)).Perm outs := by
    have hq := (Atomic.perm_filter_range (fun e : BitsetConc.Entry => e.1) s.threads.length L h3).map (·.2.2)
    refine hq.trans (List.Perm.of_eq ?_)
    have e1 : outs = (s.threads.map (fun t => t.done.map (·.2))).flatten := by
      show s.threads.flatMap _ = _; rw [List.flatMap_def]
    rw [e1, Atomic.flatten_eq_flatMap_range, List.map_flatMap, List.length_map]
    apply List.flatMap_congr
    intro i hi
    rw [List.mem_range] at hi
    have ht : s.threads[i]? = some s.threads[i] := List.getElem?_eq_getElem hi
    have h4 := (h2 i _ ht).1
    simp [← h4, BitsetConc.perThread, hi]
  have hop : ∀ e ∈ L, e.2.1 = .set n true := by
    intro e he
    have hlt := h3 e he
    have hte : s.threads[e.1]? = some s.threads[e.1] := List.getElem?_eq_getElem hlt
    obtain ⟨ha, hb⟩ := h2 _ _ hte
    refine hp _ (List.mem_of_getElem? hb) _ ?_
    rw [List.mem_append]; left
    have : e.2 ∈ BitsetConc.perThread L e.1 := by
      simp only [BitsetConc.perThread, List.mem_map, List.mem_filter]
      exact ⟨e, ⟨he, by simp⟩, rfl⟩
    rw [ha] at this
    exact List.mem_map_of_mem this
  have hb : (abs b₀)[n]? = some false := by
    rw [abs_getElem?]; rw [test_refines hwf n hn] at hclear; simp [hn]; simpa using hclear
  obtain ⟨hc1, hc2⟩ := setters_outputs _ n false hb L hop _ h1
  have hLne : L ≠ [] := by
    rintro rfl
    have := hperm.length_eq
    simp at this
    exact hne (List.eq_nil_of_length_eq_zero this.symm)
  refine ⟨?_, ?_⟩
  · rw [← hperm.countP_eq, hc1]; simp [hLne]
  · rcases hc2 with hc2 | hc2
    · exact absurd hc2 hLne
    · have hsz : s.shared.bits.size = b₀.size := hinv.size
      rw [abs_getElem?] at hc2
      rw [test_refines hinv.wf n (by rw [hinv.size]; exact hn)]
      have hn' : n < (Conc.run step (init b₀ programs) sched).shared.bits.size := by rw [hinv.size]; exact hn
      simpa [hn'] using hc2

example : let s := Conc.run BitsetConc.step (BitsetConc.init (create (2 ^ 5) 40)
      [[.set 33 true], [.set 33 true, .set 33 true]]) [1, 0, 1]
    s.threads.map (fun t => t.done.map (·.2)) = [[.bit true], [.bit false, .bit true]] ∧
    test s.shared.bits 33 = some true ∧ test (create (2 ^ 5) 40) 33 = some false := by decide

end Stdgpu.Props
