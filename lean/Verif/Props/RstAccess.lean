import Verif.Model.RstAccess
import Verif.Props.Encoder
import Verif.Lemmas.Py

/-!
# C80: what is put into a replicated share comes out of it
-/

namespace SyMPC

open FixedPointEncoder

/-- the least and the greatest number a ring's type can store: a bit for the ring 2, a byte for the prime ring, otherwise a signed number -/
def storable (ring : Nat) : Int × Int :=
  if ring = 2 then (0, 1) else if ring = 67 then (0, 255) else (-(ring / 2 : Nat), (ring / 2 : Nat) - 1)

/-- the number a value stands for -/
def FixedPointEncoder.Val.num : Val → ℚ
  | .float q => q
  | .int z => z
  | .long t => t.toInt

theorem encodeInt_num (e : FixedPointEncoder) (v : Val) : e.encodeInt v = truncRat (v.num * e.scale) := by
  cases v with
  | float q => rfl
  | int z => rw [encodeInt, Val.num, ← truncRat_intCast (z * e.scale)]; push_cast; rfl
  | long t => rw [encodeInt, Val.num, ← truncRat_intCast (t.toInt * e.scale)]; push_cast; rfl

theorem ring_cases {ring : Nat} (h : ring ∈ [2, 67, 2 ^ 8, 2 ^ 16, 2 ^ 32, 2 ^ 64]) :
    (ring = 2 ∧ getTypeFromRing ring = .ok .bool) ∨ (ring = 67 ∧ getTypeFromRing ring = .ok .uint8) ∨
    (ring = 2 ^ 8 ∧ getTypeFromRing ring = .ok .int8) ∨ (ring = 2 ^ 16 ∧ getTypeFromRing ring = .ok .int16) ∨
    (ring = 2 ^ 32 ∧ getTypeFromRing ring = .ok .int32) ∨ (ring = 2 ^ 64 ∧ getTypeFromRing ring = .ok .int64) := by
  simp only [List.mem_cons, List.not_mem_nil, or_false] at h
  rcases h with rfl | rfl | rfl | rfl | rfl | rfl <;> decide

/-- numbers that can be stored are stored unchanged -/
theorem store_fits {ring : Nat} {d : DType} (hd : getTypeFromRing ring = .ok d) (hr : ring ∈ [2, 67, 2 ^ 8, 2 ^ 16, 2 ^ 32, 2 ^ 64]) (z : Int)
    (h1 : (storable ring).1 ≤ z) (h2 : z ≤ (storable ring).2) : (d.store (BitVec.ofInt 64 z)).toInt = z := by
  rcases ring_cases hr with ⟨rfl, h⟩ | ⟨rfl, h⟩ | ⟨rfl, h⟩ | ⟨rfl, h⟩ | ⟨rfl, h⟩ | ⟨rfl, h⟩ <;> rw [h] at hd <;> cases hd <;>
    norm_num [storable] at h1 h2
  · have : z = 0 ∨ z = 1 := by omega
    rcases this with rfl | rfl <;> decide
  · simp only [DType.store]
    rw [BitVec.toInt_setWidth, BitVec.toNat_setWidth, BitVec.toNat_ofInt, Int.bmod_def]
    omega
  · simp only [DType.store]
    rw [BitVec.toInt_signExtend_of_le (by omega), BitVec.toInt_setWidth, BitVec.toNat_ofInt, Int.bmod_def]
    omega
  · simp only [DType.store]
    rw [BitVec.toInt_signExtend_of_le (by omega), BitVec.toInt_setWidth, BitVec.toNat_ofInt, Int.bmod_def]
    omega
  · simp only [DType.store]
    rw [BitVec.toInt_signExtend_of_le (by omega), BitVec.toInt_setWidth, BitVec.toNat_ofInt, Int.bmod_def]
    omega
  · simp only [DType.store]
    exact toInt_ofInt64 (by omega) (by omega)

/-- the scale in use: none in the rings 2 and 67 -/
def scaleIn (ring : Nat) (c : Config) : Nat := if ring = 2 ∨ ring = 67 then 1 else c.encoderBase ^ c.encoderPrecision

/-- C80: the numbers given to a new replicated share come back by `decode`, up to the precision of the encoder, provided their encodings
can be stored in the type of the ring. -/
theorem C80_round_trip (shares : List (List Val)) (c : Config) (hb : 2 ≤ c.encoderBase ∨ c.encoderPrecision = 0)
    (hs : c.encoderBase ^ c.encoderPrecision < 2 ^ 63) (uuid : Option Nat) (ring : Nat) (hr : ring ∈ [2, 67, 2 ^ 8, 2 ^ 16, 2 ^ 32, 2 ^ 64])
    (fits : ∀ share ∈ shares, ∀ v ∈ share, (storable ring).1 ≤ v.num * scaleIn ring c ∧ v.num * scaleIn ring c ≤ (storable ring).2) :
    ∃ x ds, RST.init (some shares) c uuid ring = .ok x ∧ x.decode = .ok ds ∧ x.ringSize = ring ∧ x.sessionUuid = uuid ∧
      List.Forall₂ (List.Forall₂ fun (v : Val) (d : ℚ) => |v.num - d| < 1 / scaleIn ring c ∧ ∀ k : Int, v.num = k / scaleIn ring c → d = v.num)
        shares ds := by
  obtain ⟨d, hd⟩ : ∃ d, getTypeFromRing ring = .ok d := by
    rcases ring_cases hr with ⟨-, h⟩ | ⟨-, h⟩ | ⟨-, h⟩ | ⟨-, h⟩ | ⟨-, h⟩ | ⟨-, h⟩ <;> exact ⟨_, h⟩
  generalize hk : RST.initConfig c ring = kept
  have hkept : kept.encoderBase ^ kept.encoderPrecision = scaleIn ring c ∧ kept.encoderBase ^ kept.encoderPrecision < 2 ^ 63 ∧
      (2 ≤ kept.encoderBase ∨ kept.encoderPrecision = 0) := by
    rw [← hk]
    unfold RST.initConfig scaleIn primeNumber
    split_ifs
    · exact ⟨rfl, by norm_num, Or.inr rfl⟩
    · exact ⟨rfl, hs, hb⟩
  obtain ⟨e1, e2, e3⟩ := hkept
  have hpos : 0 < scaleIn ring c := by
    rw [← e1]
    rcases e3 with h | h
    · exact Nat.pow_pos (by omega)
    · rw [h]; norm_num
  have hposQ : (0 : ℚ) < scaleIn ring c := by exact_mod_cast hpos
  have elem : ∀ share ∈ shares, ∀ v ∈ share, kept.encoder.decode (.long (d.store (kept.encoder.encode v))) =
      .ok ((truncRat (v.num * scaleIn ring c) : ℚ) / scaleIn ring c) := by
    intro share hsh v hv
    obtain ⟨f1, f2⟩ := fits share hsh v hv
    have k1 := truncRat_mono f1
    have k2 := truncRat_mono f2
    rw [truncRat_intCast] at k1 k2
    have k3 := store_fits hd hr _ k1 k2
    unfold Config.encoder
    rw [C02_decode_exact _ _ e3 e2, encode, encodeInt_num, e1]
    simp only [new, e1, k3]
  refine ⟨⟨shares.map fun share => share.map fun v => d.store (kept.encoder.encode v), uuid, kept, ring⟩,
    shares.map fun share => share.map fun v => (truncRat (v.num * scaleIn ring c) : ℚ) / scaleIn ring c, ?_, ?_, rfl, rfl, ?_⟩
  · unfold RST.init
    rw [hd, ok_bind, hk]
    rfl
  · unfold RST.decode
    simp only
    rw [List.mapM_map]
    refine mapM_ok _ _ _ fun share hsh => ?_
    simp only [Function.comp]
    rw [List.mapM_map]
    exact mapM_ok _ _ _ fun v hv => elem share hsh v hv
  · rw [List.forall₂_map_right_iff]
    refine List.forall₂_same.mpr fun share _ => ?_
    rw [List.forall₂_map_right_iff]
    refine List.forall₂_same.mpr fun v _ => ?_
    obtain ⟨-, h2, -⟩ := truncRat_bounds (v.num * scaleIn ring c)
    constructor
    · have : v.num - (truncRat (v.num * scaleIn ring c) : ℚ) / scaleIn ring c
          = (v.num * scaleIn ring c - truncRat (v.num * scaleIn ring c)) / scaleIn ring c := by
        field_simp
      rw [this, abs_div, abs_of_pos hposQ]
      exact (div_lt_div_iff_of_pos_right hposQ).mpr h2
    · intro k hk
      have : v.num * scaleIn ring c = (k : ℚ) := by rw [hk]; field_simp
      rw [this, truncRat_intCast, hk]

/-- C80: a ring that is not supported is refused, a new share without parts decodes to nothing. -/
theorem C80_rings (shares : Option (List (List Val))) (c : Config) (uuid : Option Nat) (ring : Nat) :
    ((∃ x, RST.init shares c uuid ring = .ok x) ↔ ring ∈ [2, 67, 2 ^ 8, 2 ^ 16, 2 ^ 32, 2 ^ 64]) ∧
    (∀ e, RST.init shares c uuid ring = .error e → e = .valueError) ∧
    (∀ x, RST.init none c uuid ring = .ok x → x.decode = .ok []) := by
  have hring : (∃ t, getTypeFromRing ring = .ok t ∧ ring ∈ [2, 67, 2 ^ 8, 2 ^ 16, 2 ^ 32, 2 ^ 64]) ∨
      (getTypeFromRing ring = .error .valueError ∧ ring ∉ [2, 67, 2 ^ 8, 2 ^ 16, 2 ^ 32, 2 ^ 64]) := by
    unfold getTypeFromRing
    split_ifs <;> simp_all
  generalize ([2, 67, 2 ^ 8, 2 ^ 16, 2 ^ 32, 2 ^ 64] : List Nat) = L at hring ⊢
  unfold RST.init
  rcases hring with ⟨t, h1, h2⟩ | ⟨h1, h2⟩
  · rw [h1]
    simp only [ok_bind, pure_eq_ok, h2, iff_true]
    refine ⟨⟨_, rfl⟩, fun e he => (by cases he), fun x hx => ?_⟩
    cases hx
    rfl
  · rw [h1]
    simp only [error_bind, h2, iff_false]
    exact ⟨fun ⟨x, hx⟩ => (by cases hx), fun e he => (by cases he; rfl), fun x hx => (by cases hx)⟩

/-- C80 fails in the small rings for numbers beyond the type: in the ring 2 every even number but 0 becomes 1, in the prime ring numbers are
reduced modulo 256 and not 67, in the ring `2**8` with the default scale every fraction of 1/256 is lost. -/
theorem C80_small_rings :
    (∃ x, RST.init (some [[.int 2]]) {} none 2 = .ok x ∧ x.decode = .ok [[1]]) ∧
    (∃ x, RST.init (some [[.int 300, .int 66, .int (-1)]]) {} none 67 = .ok x ∧ x.decode = .ok [[44, 66, 255]]) ∧
    (∃ x, RST.init (some [[.int 5, .float (1 / 256)]]) {} none (2 ^ 8) = .ok x ∧ x.decode = .ok [[0, 0]]) := by
  refine ⟨⟨_, rfl, ?_⟩, ⟨_, rfl, ?_⟩, ⟨_, rfl, ?_⟩⟩ <;> decide +kernel

variable {E E' : Type}

theorem position_some {l : List E} {i : Nat} (hi : i < l.length) {key : Int} (hk : key = i ∨ key = i - (l.length : Int)) :
    RST.position l key = some i := by
  unfold RST.position
  rcases hk with rfl | rfl
  · rw [if_pos (by omega), if_pos (by omega)]
    simp
  · rw [if_neg (by omega), if_pos (by omega)]
    simp

/-- C80: reading gives what was written last at that place and writing changes nothing else; places are counted from the front or, by
negative indices, from the back. -/
theorem C80_items (x : RST E) (v : E) (i j : Nat) (hi : i < x.shares.length) (hj : j < x.shares.length) (key other : Int)
    (hk : key = i ∨ key = i - (x.shares.length : Int)) (ho : other = j ∨ other = j - (x.shares.length : Int)) :
    x.getItem other = .ok x.shares[j] ∧
    ∃ y, x.setItem key v = .ok y ∧ y.getItem other = (if i = j then .ok v else x.getItem other) ∧ y.shares.length = x.shares.length ∧
      y.config = x.config ∧ y.sessionUuid = x.sessionUuid ∧ y.ringSize = x.ringSize := by
  have hget : x.getItem other = .ok x.shares[j] := by
    unfold RST.getItem
    rw [position_some hj ho]
    exact pyGet_ok hj
  refine ⟨hget, { x with shares := x.shares.set i v }, by unfold RST.setItem; rw [position_some hi hk], ?_, by simp, rfl, rfl, rfl⟩
  rw [hget]
  unfold RST.getItem
  rw [position_some (l := x.shares.set i v) (i := j) (by simpa using hj) (by simpa using ho)]
  simp only
  rw [pyGet_ok (by simpa using hj), List.getElem_set]
  split <;> rfl

/-- C80: there are no other places. -/
theorem C80_no_item (x : RST E) (v : E) (key : Int) (hk : key < -(x.shares.length : Int) ∨ (x.shares.length : Int) ≤ key) :
    x.getItem key = .error .indexError ∧ x.setItem key v = .error .indexError := by
  have : RST.position x.shares key = none := by
    unfold RST.position
    rcases hk with h | h
    · rw [if_neg (by omega), if_neg (by omega)]
    · rw [if_pos (by omega), if_neg (by omega)]
  simp [RST.getItem, RST.setItem, this]

/-- C80: the property `T` acts on every share and keeps the session, the ring and (of a share made by the constructor) the configuration;
`shape` is that of the first share. -/
theorem C80_properties (shares : Option (List (List Val))) (c : Config) (uuid : Option Nat) (ring : Nat) (x : RST (List I64))
    (hx : RST.init shares c uuid ring = .ok x) (f : List I64 → E') (g : List I64 → List Nat) :
    (x.propertyT f).config = x.config ∧ (x.propertyT f).sessionUuid = uuid ∧ (x.propertyT f).ringSize = ring ∧
    (∀ k w, x.getItem k = .ok w → (x.propertyT f).getItem k = .ok (f w)) ∧
    (∀ w, x.getItem 0 = .ok w → x.propertyShape g = .ok (g w)) ∧ (x.shares = [] → x.propertyShape g = .error .indexError) := by
  have hc : x.config = RST.initConfig c ring ∧ x.sessionUuid = uuid ∧ x.ringSize = ring := by
    unfold RST.init at hx
    cases hd : getTypeFromRing ring with
    | error e => rw [hd, error_bind] at hx; cases hx
    | ok d => rw [hd, ok_bind, pure_eq_ok] at hx; cases hx; exact ⟨rfl, rfl, rfl⟩
  obtain ⟨h1, h2, h3⟩ := hc
  refine ⟨?_, h2, h3, fun k w hk => ?_, fun w hw => ?_, fun h => ?_⟩
  · simp only [RST.propertyT, RST.new, h1, h3]
    unfold RST.initConfig
    split_ifs <;> rfl
  · unfold RST.getItem at hk ⊢
    have hp : RST.position (x.propertyT f).shares k = RST.position x.shares k := by
      simp [RST.position, RST.propertyT, RST.new]
    rw [hp]
    cases hpos : RST.position x.shares k with
    | none => rw [hpos] at hk; cases hk
    | some i =>
      rw [hpos] at hk
      simp only [pyGet, RST.propertyT, RST.new, List.getElem?_map] at hk ⊢
      cases hi : x.shares[i]? with
      | none => rw [hi] at hk; cases hk
      | some a => rw [hi] at hk; cases hk; rfl
  · unfold RST.propertyShape
    cases hs : x.shares with
    | nil => simp [RST.getItem, RST.position, hs] at hw
    | cons a l =>
      simp [RST.getItem, RST.position, hs, pyGet] at hw
      rw [hw]
      rfl
  · simp [RST.propertyShape, h, pyGet]

/-! ## Cases -/

/-- two shares in the ring `2**32`: -1.5 and 7 fit -/
example : ∀ v ∈ [Val.float (-3 / 2), Val.int 7], ((storable (2 ^ 32)).1 : ℚ) ≤ v.num * scaleIn (2 ^ 32) {} ∧
    v.num * scaleIn (2 ^ 32) {} ≤ ((storable (2 ^ 32)).2 : ℚ) := by
  intro v hv
  simp only [List.mem_cons, List.not_mem_nil, or_false] at hv
  rcases hv with rfl | rfl <;> norm_num [storable, scaleIn, Val.num]

example : ∃ x, RST.init (some [[.float (-3 / 2)], [.int 7]]) {} (some 5) (2 ^ 32) = .ok x ∧ x.decode = .ok [[-3 / 2], [7]] ∧
    x.getItem (-1) = .ok [7 * 65536] ∧ (∃ y, x.setItem (-2) [1] = .ok y ∧ y.shares = [[1], [7 * 65536]]) ∧
    x.getItem 2 = .error .indexError := ⟨_, rfl, by decide +kernel, by decide +kernel, ⟨_, rfl, by decide +kernel⟩, rfl⟩

end SyMPC
