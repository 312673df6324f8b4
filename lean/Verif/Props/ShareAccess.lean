import Verif.Model.ShareAccess
import Verif.Props.RstAccess

/-!
# C98: what is put into an additive share comes out of it
-/

namespace SyMPC

open FixedPointEncoder

/-- C98: the numbers given to a new share come back by `decode`, up to the precision of the encoder, provided their encodings can be stored
in the type of the ring.  Numbers that are multiples of the precision come back unchanged.  Unlike with replicated shares the scale is that
of the configuration in every ring. -/
theorem C98_round_trip_partial (data : List Val) (c : Config) (hb : 2 ≤ c.encoderBase ∨ c.encoderPrecision = 0)
    (hs : c.encoderBase ^ c.encoderPrecision < 2 ^ 63) (uuid : Option Nat) (ring : Nat) (hr : ring ∈ [2, 67, 2 ^ 8, 2 ^ 16, 2 ^ 32, 2 ^ 64])
    (fits : ∀ v ∈ data, (storable ring).1 ≤ v.num * (c.encoderBase ^ c.encoderPrecision : ℕ) ∧
      v.num * (c.encoderBase ^ c.encoderPrecision : ℕ) ≤ (storable ring).2) :
    ∃ x ds, ShareTensor.init (some data) c uuid ring = .ok x ∧ x.decode = .ok ds ∧ x.ringSize = ring ∧ x.sessionUuid = uuid ∧
      x.config = c ∧
      List.Forall₂ (fun (v : Val) (d : ℚ) => |v.num - d| < 1 / (c.encoderBase ^ c.encoderPrecision : ℕ) ∧
        ∀ k : Int, v.num = k / (c.encoderBase ^ c.encoderPrecision : ℕ) → d = v.num) data ds := by
  obtain ⟨d, hd⟩ : ∃ d, getTypeFromRing ring = .ok d := by
    rcases ring_cases hr with ⟨-, h⟩ | ⟨-, h⟩ | ⟨-, h⟩ | ⟨-, h⟩ | ⟨-, h⟩ | ⟨-, h⟩ <;> exact ⟨_, h⟩
  generalize hS : c.encoderBase ^ c.encoderPrecision = S at *
  have hpos : 0 < S := by
    rw [← hS]
    rcases hb with h | h
    · exact Nat.pow_pos (by omega)
    · rw [h]; norm_num
  have hposQ : (0 : ℚ) < S := by exact_mod_cast hpos
  have elem : ∀ v ∈ data, c.encoder.decode (.long (d.store (c.encoder.encode v))) = .ok ((truncRat (v.num * S) : ℚ) / S) := by
    intro v hv
    obtain ⟨f1, f2⟩ := fits v hv
    have k1 := truncRat_mono f1
    have k2 := truncRat_mono f2
    rw [truncRat_intCast] at k1 k2
    have k3 := store_fits hd hr _ k1 k2
    unfold Config.encoder
    rw [C02_decode_exact _ _ hb (by rw [hS]; exact hs), encode, encodeInt_num, hS]
    simp only [new, hS, k3]
  refine ⟨⟨some (data.map fun v => d.store (c.encoder.encode v)), uuid, c, ring⟩, data.map fun v => (truncRat (v.num * S) : ℚ) / S,
    ?_, ?_, rfl, rfl, rfl, ?_⟩
  · unfold ShareTensor.init
    simp only
    rw [hd, ok_bind]
    rfl
  · unfold ShareTensor.decode
    simp only
    rw [List.mapM_map]
    exact mapM_ok _ _ _ fun v hv => elem v hv
  · rw [List.forall₂_map_right_iff]
    refine List.forall₂_same.mpr fun v _ => ?_
    obtain ⟨-, h2, -⟩ := truncRat_bounds (v.num * S)
    constructor
    · have : v.num - (truncRat (v.num * S) : ℚ) / S = (v.num * S - truncRat (v.num * S)) / S := by field_simp
      rw [this, abs_div, abs_of_pos hposQ]
      exact (div_lt_div_iff_of_pos_right hposQ).mpr h2
    · intro k hk
      have : v.num * S = (k : ℚ) := by rw [hk]; field_simp
      rw [this, truncRat_intCast, hk]

/-- C98: with data a ring that is not supported is refused by a `ValueError`; without data every ring is taken, and `decode` then fails. -/
theorem C98_rings (data : List Val) (c : Config) (uuid : Option Nat) (ring : Nat) :
    ((∃ x, ShareTensor.init (some data) c uuid ring = .ok x) ↔ ring ∈ [2, 67, 2 ^ 8, 2 ^ 16, 2 ^ 32, 2 ^ 64]) ∧
    (∀ e, ShareTensor.init (some data) c uuid ring = .error e → e = .valueError) ∧
    (∃ x, ShareTensor.init none c uuid ring = .ok x ∧ x.ringSize = ring ∧ x.sessionUuid = uuid ∧ x.config = c ∧
      x.decode = .error .attributeError) := by
  have hring : (∃ t, getTypeFromRing ring = .ok t ∧ ring ∈ [2, 67, 2 ^ 8, 2 ^ 16, 2 ^ 32, 2 ^ 64]) ∨
      (getTypeFromRing ring = .error .valueError ∧ ring ∉ [2, 67, 2 ^ 8, 2 ^ 16, 2 ^ 32, 2 ^ 64]) := by
    unfold getTypeFromRing
    split_ifs <;> simp_all
  generalize ([2, 67, 2 ^ 8, 2 ^ 16, 2 ^ 32, 2 ^ 64] : List Nat) = L at hring ⊢
  refine ⟨?_, ?_, ⟨_, rfl, rfl, rfl, rfl, rfl⟩⟩ <;> unfold ShareTensor.init <;> simp only <;>
    rcases hring with ⟨t, h1, h2⟩ | ⟨h1, h2⟩ <;> rw [h1]
  · simp only [ok_bind, pure_eq_ok, h2, iff_true]
    exact ⟨_, rfl⟩
  · simp only [error_bind, h2, iff_false]
    exact fun ⟨x, hx⟩ => by cases hx
  · exact fun e he => by cases he
  · exact fun e he => by cases he; rfl

/-- C98 fails in the ring 2 whenever there is a scale: what comes back is nothing or one quantum, whatever number was given. -/
theorem C98_bit_ring_wrong (v : Val) (c : Config) (hb : 2 ≤ c.encoderBase) (hs : c.encoderBase ^ c.encoderPrecision < 2 ^ 63)
    (uuid : Option Nat) :
    ∃ x d, ShareTensor.init (some [v]) c uuid 2 = .ok x ∧ x.decode = .ok [d] ∧
      (d = 0 ∨ d = 1 / (c.encoderBase ^ c.encoderPrecision : ℕ)) := by
  have key : ∀ t : I64, c.encoder.decode (.long t) = .ok ((t.toInt : ℚ) / (c.encoderBase ^ c.encoderPrecision : ℕ)) := by
    intro t
    unfold Config.encoder
    exact C02_decode_exact _ _ (Or.inl hb) hs t
  refine ⟨_, if c.encoder.encode v = 0 then 0 else 1 / (c.encoderBase ^ c.encoderPrecision : ℕ), rfl, ?_, ?_⟩
  · simp only [ShareTensor.decode, List.map_cons, List.map_nil, List.mapM_cons, List.mapM_nil, DType.store, key, ok_bind, pure_eq_ok]
    split_ifs <;> simp
  · split_ifs <;> simp

/-- C98: so with the default scale a one given to a share of bits comes back as 1/65536, and a five in the ring `2**16` as nothing, while a
replicated share of bits gives back the one. -/
theorem C98_one_in_bit_ring :
    (∃ x, ShareTensor.init (some [.int 1]) {} none 2 = .ok x ∧ x.decode = .ok [1 / 65536]) ∧
    (∃ x, ShareTensor.init (some [.int 5]) {} none (2 ^ 16) = .ok x ∧ x.decode = .ok [0]) ∧
    (∃ x, RST.init (some [[.int 1]]) {} none 2 = .ok x ∧ x.decode = .ok [[1]]) := by
  refine ⟨⟨_, rfl, ?_⟩, ⟨_, rfl, ?_⟩, ⟨_, rfl, ?_⟩⟩ <;> decide +kernel

/-! ## Cases -/

/-- -1.5 and 7 fit into the ring `2**32` -/
example : ∀ v ∈ [Val.float (-3 / 2), Val.int 7], ((storable (2 ^ 32)).1 : ℚ) ≤ v.num * ((2 ^ 16 : ℕ) : ℚ) ∧
    v.num * ((2 ^ 16 : ℕ) : ℚ) ≤ ((storable (2 ^ 32)).2 : ℚ) := by
  intro v hv
  simp only [List.mem_cons, List.not_mem_nil, or_false] at hv
  rcases hv with rfl | rfl <;> norm_num [storable, Val.num]

example : ∃ x, ShareTensor.init (some [.float (-3 / 2), .int 7]) {} (some 5) (2 ^ 32) = .ok x ∧ x.decode = .ok [-3 / 2, 7] :=
  ⟨_, rfl, by decide +kernel⟩

/-- bits without a scale come back -/
example : ∃ x, ShareTensor.init (some [.int 1, .int 0]) { encoderBase := 1, encoderPrecision := 0 } none 2 = .ok x ∧ x.decode = .ok [1, 0] :=
  ⟨_, rfl, by decide +kernel⟩

end SyMPC
