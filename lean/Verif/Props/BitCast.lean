import Verif.Spec.BitCast
/-
C99: `bit_cast` and what is built on it (`hash<float>`, `hash<double>`, `numeric_limits::infinity()`).
-/
namespace Stdgpu.Props
open Stdgpu.Spec Stdgpu.BitCast

section
variable {From To : Type} {F : Rep From} {T : Rep To}

theorem copyBytes_eq (n : Nat) (src dst : Nat → BitVec 8) (j : Nat) : copyBytes n src dst j = if j < n then src j else dst j := by
  unfold copyBytes
  induction n with
  | zero => simp
  | succ n ih =>
    rw [List.range_succ, List.foldl_append]
    simp only [List.foldl_cons, List.foldl_nil, ih]
    by_cases h : j = n
    · subst h; simp
    · by_cases h' : j < n
      · simp [h, h', Nat.lt_succ_of_lt h']
      · have : ¬ j < n + 1 := by omega
        simp [h, h', this]

/-- **C99**. `bit_cast` does not depend on the contents of the uninitialised object it fills. -/
theorem C99_initialised (hT : TriviallyCopyable T) (g g' : Nat → BitVec 8) (x : From) : bitCast F T g x = bitCast F T g' x :=
  hT.own _ _ fun i hi => by rw [copyBytes_eq, copyBytes_eq, if_pos hi, if_pos hi]

/-- **C99**. The result is the value of type `To` with the bytes of the argument: it has these bytes, if the type has no padding; and
every value with these bytes is the result. -/
theorem C99_bytes (hT : TriviallyCopyable T) (g : Nat → BitVec 8) (x : From) :
    (NoPadding T → ∀ i, i < T.size → T.bytes (bitCast F T g x) i = F.bytes x i) ∧
    (∀ y, (∀ i, i < T.size → T.bytes y i = F.bytes x i) → bitCast F T g x = y) := by
  refine ⟨fun hp i hi => ?_, fun y hy => ?_⟩
  · unfold bitCast; rw [hp _ i hi, copyBytes_eq, if_pos hi]
  · rw [← hT.copied y]
    exact hT.own _ _ fun i hi => by rw [copyBytes_eq, if_pos hi, hy i hi]

/-- **C99**. Converting to a type without padding and back gives the value; so different values stay different. -/
theorem C99_round_trip (hF : TriviallyCopyable F) (hT : TriviallyCopyable T) (hp : NoPadding T) (hs : T.size = F.size)
    (g g' : Nat → BitVec 8) (x : From) : bitCast T F g' (bitCast F T g x) = x :=
  (C99_bytes hF g' _).2 x fun i hi => ((C99_bytes hT g x).1 hp i (by omega)).symm

theorem C99_injective (hF : TriviallyCopyable F) (hT : TriviallyCopyable T) (hp : NoPadding T) (hs : T.size = F.size)
    (g g' : Nat → BitVec 8) (x y : From) : bitCast F T g x = bitCast F T g' y ↔ x = y := by
  constructor
  · intro h
    rw [← C99_round_trip hF hT hp hs g g x, h, C99_round_trip hF hT hp hs g' g y]
  · rintro rfl; exact C99_initialised hT _ _ _

end

/-! ### Integers -/

theorem intRep_value {n : Nat} (o : ByteOrder n) (b : Nat → BitVec 8) (j : Nat) (hj : j < 8 * n) :
    ((intRep o).value b).getLsbD j = (b (o.at' (j / 8))).getLsbD (j % 8) := by
  have := BitVec.iunfoldr_getLsbD (w := 8 * n) (f := fun (j : Fin (8 * n)) (_ : Unit) => ((), (b (o.at' (j.val / 8))).getLsbD (j.val % 8)))
    (fun _ => ()) ⟨j, hj⟩ (fun _ => rfl)
  exact this

/-- **C99**. The unsigned integers are trivially copyable and have no padding, in every byte order. -/
theorem C99_integer_types {n : Nat} (o : ByteOrder n) : TriviallyCopyable (intRep o) ∧ NoPadding (intRep o) := by
  refine ⟨⟨fun x => ?_, fun b b' h => ?_⟩, fun b i hi => ?_⟩
  · apply BitVec.eq_of_getLsbD_eq
    intro j hj
    rw [intRep_value o _ j hj]
    have h1 : j / 8 < n := by omega
    simp only [intRep, BitVec.getLsbD_extractLsb', o.pos_at _ h1]
    have h2 : j % 8 < 8 := by omega
    simp only [h2, decide_true, Bool.true_and]
    congr 1
    omega
  · apply BitVec.eq_of_getLsbD_eq
    intro j hj
    rw [intRep_value o _ j hj, intRep_value o _ j hj, h _ (o.at_lt _ (by omega))]
  · apply BitVec.eq_of_getLsbD_eq
    intro j hj
    have h1 := o.pos_lt i hi
    show (((intRep o).value b).extractLsb' (8 * o.pos i) 8).getLsbD j = _
    rw [BitVec.getLsbD_extractLsb', intRep_value o _ _ (by omega), show (8 * o.pos i + j) / 8 = o.pos i by omega,
      show (8 * o.pos i + j) % 8 = j by omega, o.at_pos i hi]
    simp [hj]

/-- The type of one byte of which one bit belongs to the value (the standard's `bool`, with bytes 0 and 1). -/
def boolRep : Rep Bool := ⟨1, fun b _ => if b then 1 else 0, fun b => (b 0).getLsbD 0⟩

/-- Converting to a type with padding and back need not give the value. -/
theorem C99_counterexample_padding : ∃ x : BitVec (8 * 1), TriviallyCopyable boolRep ∧
    ∀ g g', bitCast boolRep (intRep (littleEndian 1)) g' (bitCast (intRep (littleEndian 1)) boolRep g x) ≠ x := by
  refine ⟨2#8, ⟨by decide, fun b b' h => ?_⟩, fun g g' => ?_⟩
  · simp [boolRep, h 0 (by decide)]
  have h1 : bitCast (intRep (littleEndian 1)) boolRep g (2#8) = false := by
    show (copyBytes 1 _ g 0).getLsbD 0 = false
    rw [copyBytes_eq, if_pos (by decide)]; decide
  have h2 : bitCast boolRep (intRep (littleEndian 1)) g' false = 0#8 :=
    (C99_bytes (C99_integer_types (littleEndian 1)).1 g' false).2 0#8 fun i hi => by
      have : i = 0 := by have : i < 1 := hi; omega
      subst this; decide
  rw [h1, h2]; decide

/-- The hypotheses of `C99_round_trip` and `C99_injective` are met by integers stored in different byte orders, where the conversion is
not the identity. -/
example (x : BitVec (8 * 4)) (g g' : Nat → BitVec 8) :
    bitCast (intRep (bigEndian 4)) (intRep (littleEndian 4)) g' (bitCast (intRep (littleEndian 4)) (intRep (bigEndian 4)) g x) = x :=
  C99_round_trip (C99_integer_types (littleEndian 4)).1 (C99_integer_types (bigEndian 4)).1 (C99_integer_types (bigEndian 4)).2 rfl g g' x

example (g : Nat → BitVec 8) : bitCast (intRep (littleEndian 4)) (intRep (bigEndian 4)) g (0x01020304#32) = 0x04030201#32 :=
  (C99_bytes (C99_integer_types (bigEndian 4)).1 g _).2 _ fun i hi => by
    have : i = 0 ∨ i = 1 ∨ i = 2 ∨ i = 3 := by have : i < 4 := hi; omega
    rcases this with rfl | rfl | rfl | rfl <;> decide

/-! ### Hashes and infinity -/

/-- **C99**. `hash<float>` and `hash<double>` (any type of at most 8 bytes that is converted to the unsigned type of its size): the
hash does not depend on uninitialised memory, and is the same for two keys exactly if they are the same value, that is if they
have the same bytes (so 0.0 and -0.0 differ). -/
theorem C99_hash {From : Type} {F : Rep From} {n : Nat} (hn : n ≤ 8) (o : ByteOrder n) (hF : TriviallyCopyable F) (hs : F.size = n) (g g' : Nat → BitVec 8) (x y : From) :
    hashVia F (intRep o) g x = hashVia F (intRep o) g' y ↔ x = y := by
  have hi := C99_integer_types o
  rw [← C99_injective (F := F) (T := intRep o) hF hi.1 hi.2 (by rw [hs]; rfl) g g' x y]
  constructor
  · intro h
    unfold hashVia Hash.hashInt at h
    simp only [Bool.false_eq_true, if_false] at h
    apply BitVec.eq_of_toNat_eq
    have h1 := congrArg BitVec.toNat h
    simp only [BitVec.toNat_setWidth] at h1
    have h2 : 2 ^ (8 * n) ≤ 2 ^ 64 := Nat.pow_le_pow_right (by omega) (by omega)
    have h3 := (bitCast F (intRep o) g x).isLt
    have h4 := (bitCast F (intRep o) g' y).isLt
    rwa [Nat.mod_eq_of_lt (by omega), Nat.mod_eq_of_lt (by omega)] at h1
  · intro h; unfold hashVia; rw [h]

/-- The hypotheses are met: four bytes, in an order that differs from that of the integers. -/
example (g : Nat → BitVec 8) (x y : BitVec (8 * 4)) :
    hashVia (intRep (bigEndian 4)) (intRep (littleEndian 4)) g x = hashVia (intRep (bigEndian 4)) (intRep (littleEndian 4)) g y ↔ x = y :=
  C99_hash (by decide) (littleEndian 4) (C99_integer_types (bigEndian 4)).1 rfl g g x y

/-- **C99**. If the bits of the floating point values are stored in the byte order of the integers, `hash<float>` is the integer with
these bits (the definition used for C48), and `infinity()` is the value whose bits are given in the code (C88). -/
theorem C99_float_bits (o : ByteOrder 4) (g : Nat → BitVec 8) (x : BitVec 32) :
    hashVia (intRep o) (intRep o) g x = Hash.hashFloat x ∧ bitCast (intRep o) (intRep o) g x = x := by
  have h : bitCast (intRep o) (intRep o) g x = x := (C99_bytes (C99_integer_types o).1 g x).2 x fun _ _ => rfl
  exact ⟨by unfold hashVia Hash.hashFloat; rw [h], h⟩

theorem C99_double_bits (o : ByteOrder 8) (g : Nat → BitVec 8) (x : BitVec 64) :
    hashVia (intRep o) (intRep o) g x = Hash.hashDouble x ∧ bitCast (intRep o) (intRep o) g x = x := by
  have h : bitCast (intRep o) (intRep o) g x = x := (C99_bytes (C99_integer_types o).1 g x).2 x fun _ _ => rfl
  exact ⟨by unfold hashVia Hash.hashDouble; rw [h], h⟩

end Stdgpu.Props
