import Verif.Model.RstLocal
import Verif.Props.RstLinear
import Verif.Props.Wraps
import Verif.Props.Layer

/-!
# C71: local methods of replicated shares
-/

namespace SyMPC

variable {E R : Type} [CommRing R] {I : RingOps E}

/-- A function applied by every party to every share it holds keeps the sharing consistent. -/
theorem mapShares_sharing {E' R' : Type} [CommRing R'] {I' : RingOps E'} {env : Env} {S : RingSem I R} (S' : RingSem I' R') (f : E → E')
    (g : RST E → Py (RST E')) (x : RMPC E) (s : Nat → E) (hx : x.Sharing env S s) (hg : ∀ t ∈ x.shares, g t = .ok (t.mapShares f))
    (hf : ∀ i < x.session.nrParties, S'.Valid (f (s i))) :
    ∃ z, RMPC.each g x = .ok z ∧ z.session = x.session ∧ z.Sharing env S' (fun i => f (s i)) := by
  have htwo := hx.ready.two
  have hne : (spread x.session.nrParties (fun i => f (s i))
      (fun r => x.session.rankToUuid[r]?) x.session.config x.session.ringSize) ≠ [] := by
    simp [spread]; omega
  refine ⟨⟨x.session, spread x.session.nrParties (fun i => f (s i)) (fun r => x.session.rankToUuid[r]?) x.session.config
    x.session.ringSize⟩, ?_, rfl, ⟨hx.ready, hx.ranked, hx.secure, hf, rfl⟩⟩
  have h1 : x.shares.mapM g = .ok (x.shares.map (RST.mapShares f)) := mapM_ok _ _ _ hg
  unfold RMPC.each
  rw [h1, ok_bind]
  have : x.shares.map (RST.mapShares f) = spread x.session.nrParties (fun i => f (s i))
      (fun r => x.session.rankToUuid[r]?) x.session.config x.session.ringSize := by
    rw [hx.shares, List.map_map]
    apply List.map_congr_left
    intro r _
    simp only [Function.comp, RST.mapShares, RST.new, held_map, initConfig_idem]
  rw [this, rofShares_ok _ _ hx.ready.ptrs hne]

/-! ## Quotients and shifts -/

variable {ι : Type}

/-- the integer sum of the `n` shares of element `j` -/
def shareSum (n : Nat) (s : Nat → ι → I64) (j : ι) : Int := ((List.range n).map fun i => (s i j).toInt).sum

/-- `y` divides element `j` by `d j` -/
def Divisor.Is (y : Divisor ι) (d : ι → Int) : Prop :=
  (∃ z, y = .int z ∧ ∀ j, d j = z) ∨ ∃ t, y = .long t ∧ ∀ j, d j = (t j).toInt

theorem total_tensor (n : Nat) (s : Nat → ι → I64) (j : ι) :
    total ((powSem 64).tensor ι) n s j = ((List.range n).map fun i => s i j).sum := by
  unfold total
  induction List.range n with
  | nil => rfl
  | cons a l ih =>
    rw [List.map_cons, List.sum_cons, List.map_cons, List.sum_cons, Pi.add_apply, ih]
    rfl

theorem open_tensor [DecidableEq (ι → I64)] {env : Env} {x : RMPC (ι → I64)} {s : Nat → ι → I64}
    (hx : x.Sharing env ((powSem 64).tensor ι) s) :
    x.reconstruct ((powOps 64).tensor ι) = .ok fun j => ((List.range x.session.nrParties).map fun i => s i j).sum := by
  obtain ⟨v, h1, -, h3⟩ := Sharing.reconstruct hx
  rw [h1]
  congr 1
  funext j
  rw [← total_tensor, ← h3]
  rfl

theorem ofInt_list_sum (l : List Nat) (f : Nat → Int) (g : Nat → I64) (h : ∀ i ∈ l, g i = BitVec.ofInt 64 (f i)) :
    (l.map g).sum = BitVec.ofInt 64 (l.map f).sum := by
  induction l with
  | nil => rfl
  | cons a l ih =>
    rw [List.map_cons, List.sum_cons, List.map_cons, List.sum_cons, BitVec.ofInt_add, h a (by simp), ih fun i hi => h i (by simp [hi])]

theorem sum_ediv_rem (l : List Int) (d : Int) (hd : 0 < d) :
    0 ≤ l.sum - d * (l.map (· / d)).sum ∧ l.sum - d * (l.map (· / d)).sum ≤ l.length * (d - 1) := by
  induction l with
  | nil => simp
  | cons a l ih =>
    have h1 := Int.emod_nonneg a hd.ne'
    have h2 := Int.emod_lt_of_pos a hd
    have h3 := Int.mul_ediv_add_emod a d
    rw [List.sum_cons, List.map_cons, List.sum_cons, List.length_cons]
    push_cast
    constructor <;> linarith [ih.1, ih.2, mul_add d (a / d) (l.map (· / d)).sum, add_mul (l.length : Int) 1 (d - 1)]

/-- a sum of `n` quotients of a number of the ring is in the ring -/
theorem quotient_room (V Q d : Int) (n : Nat) (hd : 0 < d) (hn : n ≤ 2 ^ 61) (h1 : -2 ^ 63 ≤ V) (h2 : V < 2 ^ 63)
    (h : |d * Q - V| ≤ n * (d - 1)) : -2 ^ 63 ≤ Q ∧ Q < 2 ^ 63 := by
  have hn' : (n : Int) ≤ 2 ^ 61 := by exact_mod_cast hn
  rw [abs_le] at h
  by_cases h1d : d = 1
  · subst h1d
    constructor <;> linarith [h.1, h.2]
  · have hd2 : 2 ≤ d := by omega
    constructor <;> by_contra hc <;> nlinarith [h.1, h.2]

/-- Dividing replicated shares, any number of parties: the sharing stays consistent.  When the integer sum of the shares is `v + theta * 2^64`,
the result is that number divided by `d` up to `n` quanta; without wrap-around it is the quotient of the secret up to `n` quanta.
Missing: the quotient for shares that wrap around, which is false (`C71_divide_wrap_wrong`). -/
theorem C71_divide_partial [Fintype ι] [DecidableEq (ι → I64)] {env : Env} (x : RMPC (ι → I64)) (s : Nat → ι → I64)
    (hx : x.Sharing env ((powSem 64).tensor ι) s) (hn : x.session.nrParties ≤ 2 ^ 61) (y : Divisor ι) (d : ι → Int) (hy : y.Is d)
    (h0 : ∀ j, 0 < d j) (h1 : ∀ j, d j < 2 ^ 63) (hint : ∀ z, y = .int z → 0 < z ∧ z < 2 ^ 63) :
    ∃ z t v q, RMPC.each (RST.truediv · y) x = .ok z ∧ z.Sharing env ((powSem 64).tensor ι) t ∧ z.session = x.session ∧
      x.reconstruct ((powOps 64).tensor ι) = .ok v ∧ z.reconstruct ((powOps 64).tensor ι) = .ok q ∧
      ∀ j theta, shareSum x.session.nrParties s j = (v j).toInt + theta * 2 ^ 64 →
        (∃ Q, q j = BitVec.ofInt 64 Q ∧ |d j * Q - ((v j).toInt + theta * 2 ^ 64)| ≤ x.session.nrParties * (d j - 1)) ∧
        (theta = 0 → |d j * (q j).toInt - (v j).toInt| ≤ x.session.nrParties * (d j - 1)) := by
  obtain ⟨z, e1, e2, e3⟩ := mapShares_sharing ((powSem 64).tensor ι) (fun s j => floordiv (s j) (BitVec.ofInt 64 (d j)))
    (RST.truediv · y) x s hx (by
      intro t _
      rcases hy with ⟨z, rfl, hz⟩ | ⟨u, rfl, hu⟩
      · have := hint z rfl
        simp only [RST.truediv]
        rw [if_neg (by omega)]
        simp only [hz]
      · simp only [RST.truediv]
        rw [if_neg]
        · simp only [hu, BitVec.ofInt_toInt]
        · rintro ⟨j, hj⟩
          have := h0 j
          rw [hu, hj] at this
          simp at this) (fun i _ j => trivial)
  have hq := open_tensor e3
  rw [e2] at hq
  refine ⟨z, _, _, _, e1, e3, e2, open_tensor hx, hq, ?_⟩
  intro j theta hth
  have key := sum_tdiv_rem ((List.range x.session.nrParties).map fun i => (s i j).toInt) (d j) (h0 j)
  rw [List.map_map, List.length_map, List.length_range] at key
  have hs : ((List.range x.session.nrParties).map fun i => (s i j).toInt).sum = _ := hth
  rw [hs] at key
  have hQ : ((List.range x.session.nrParties).map fun i => floordiv (s i j) (BitVec.ofInt 64 (d j))).sum
      = BitVec.ofInt 64 ((List.range x.session.nrParties).map ((fun v => v.tdiv (d j)) ∘ fun i => (s i j).toInt)).sum := by
    apply ofInt_list_sum
    intro i _
    rw [Function.comp, ← toInt_floordiv _ _ (h0 j) (h1 j), BitVec.ofInt_toInt]
  refine ⟨⟨_, hQ, key⟩, ?_⟩
  rintro rfl
  rw [zero_mul, add_zero] at key
  have hv := toInt_bounds (((List.range x.session.nrParties).map fun i => s i j).sum)
  have hroom := quotient_room _ _ _ _ (h0 j) hn hv.1 hv.2 key
  rw [hQ, toInt_ofInt64 hroom.1 hroom.2]
  exact key

/-- Shifting replicated shares to the right by `y` bits, likewise; without wrap-around the result is at most `n` quanta below the
quotient by `2^y` and never above it.  Missing: shares that wrap around, as above. -/
theorem C71_shift_partial [DecidableEq (ι → I64)] {env : Env} (x : RMPC (ι → I64)) (s : Nat → ι → I64)
    (hx : x.Sharing env ((powSem 64).tensor ι) s) (hn : x.session.nrParties ≤ 2 ^ 61) (hr : x.session.ringSize = 2 ^ 64)
    (y : Nat) (hy : y < 64) :
    ∃ z t v q, RMPC.each (RST.rshift · (some y)) x = .ok z ∧ z.Sharing env ((powSem 64).tensor ι) t ∧ z.session = x.session ∧
      x.reconstruct ((powOps 64).tensor ι) = .ok v ∧ z.reconstruct ((powOps 64).tensor ι) = .ok q ∧
      ∀ j theta, shareSum x.session.nrParties s j = (v j).toInt + theta * 2 ^ 64 →
        (∃ Q, q j = BitVec.ofInt 64 Q ∧ 0 ≤ (v j).toInt + theta * 2 ^ 64 - 2 ^ y * Q ∧
          (v j).toInt + theta * 2 ^ 64 - 2 ^ y * Q ≤ x.session.nrParties * (2 ^ y - 1)) ∧
        (theta = 0 → 0 ≤ (v j).toInt - 2 ^ y * (q j).toInt ∧ (v j).toInt - 2 ^ y * (q j).toInt ≤ x.session.nrParties * (2 ^ y - 1)) := by
  obtain ⟨z, e1, e2, e3⟩ := mapShares_sharing ((powSem 64).tensor ι) (fun s j => (s j).sshiftRight y)
    (RST.rshift · (some (y : Int))) x s hx (by
      intro t ht
      rw [hx.shares] at ht
      obtain ⟨r, -, rfl⟩ := List.mem_map.mp ht
      have h64 : getNrBits (2 ^ 64) = 64 := by decide +kernel
      simp only [RST.rshift, RST.new, hr, h64]
      rw [if_neg (by omega)]
      rfl) (fun i _ j => trivial)
  have hq := open_tensor e3
  rw [e2] at hq
  refine ⟨z, _, _, _, e1, e3, e2, open_tensor hx, hq, ?_⟩
  intro j theta hth
  have hd : (0 : Int) < 2 ^ y := by positivity
  have key := sum_ediv_rem ((List.range x.session.nrParties).map fun i => (s i j).toInt) (2 ^ y) hd
  rw [List.map_map, List.length_map, List.length_range] at key
  have hs : ((List.range x.session.nrParties).map fun i => (s i j).toInt).sum = _ := hth
  rw [hs] at key
  have hQ : ((List.range x.session.nrParties).map fun i => (s i j).sshiftRight y).sum
      = BitVec.ofInt 64 ((List.range x.session.nrParties).map ((fun v => v / 2 ^ y) ∘ fun i => (s i j).toInt)).sum := by
    apply ofInt_list_sum
    intro i _
    apply BitVec.eq_of_toInt_eq
    have e : ((s i j).sshiftRight y).toInt = (s i j).toInt / 2 ^ y := by
      rw [BitVec.toInt_sshiftRight, Int.shiftRight_eq_div_pow]
      norm_num
    have hb := toInt_bounds ((s i j).sshiftRight y)
    rw [e] at hb
    rw [e, Function.comp, toInt_ofInt64 hb.1 hb.2]
  refine ⟨⟨_, hQ, key⟩, ?_⟩
  rintro rfl
  rw [zero_mul, add_zero] at key
  have hv := toInt_bounds (((List.range x.session.nrParties).map fun i => s i j).sum)
  rw [hQ]
  generalize ((List.range x.session.nrParties).map ((fun v => v / 2 ^ y) ∘ fun i => (s i j).toInt)).sum = Q at key
  have hroom := quotient_room _ Q (2 ^ y) _ hd hn hv.1 hv.2 (by rw [abs_le]; constructor <;> linarith [key.1, key.2])
  rw [toInt_ofInt64 hroom.1 hroom.2]
  exact key

/-- Exactly the shifts by 0 to 63 bits are accepted in the ring `2^64`, and no operand that is not an integer. -/
theorem C71_shift_range (x : RST (ι → I64)) (hr : x.ringSize = 2 ^ 64) (y : Option Int) :
    (∃ z, x.rshift y = .ok z) ↔ ∃ k : Nat, k < 64 ∧ y = some (k : Int) := by
  have h64 : getNrBits (2 ^ 64) = 64 := by decide +kernel
  cases y with
  | none => simp [RST.rshift]
  | some y =>
    simp only [RST.rshift, hr, h64]
    by_cases h : y < 0 ∨ y > ((64 : Nat) : Int) - 1
    · rw [if_pos h]
      constructor
      · rintro ⟨z, hz⟩
        cases hz
      · rintro ⟨k, hk, e⟩
        cases e
        omega
    · rw [if_neg h]
      refine ⟨fun _ => ⟨y.toNat, by omega, by congr 1; omega⟩, fun _ => ⟨_, rfl⟩⟩

/-- All other shifts, and all operands that are not integers, raise `ValueError`. -/
theorem C71_shift_refused (x : RST (ι → I64)) (hr : x.ringSize = 2 ^ 64) (y : Option Int) (hy : ∀ k : Nat, k < 64 → y ≠ some (k : Int)) :
    x.rshift y = .error .valueError := by
  have h := (C71_shift_range x hr y).not.mpr fun ⟨k, hk, e⟩ => hy k hk e
  cases y with
  | none => rfl
  | some y =>
    unfold RST.rshift at h ⊢
    dsimp only at h ⊢
    split
    · rfl
    · rename_i hn
      rw [if_neg hn] at h
      exact absurd ⟨_, rfl⟩ h

/-- shifts that are refused: 64 and -1 bits, and by something that is not an integer -/
example : ∀ y ∈ [some 64, some (-1), none], ∀ k : Nat, k < 64 → y ≠ some (k : Int) := by
  intro y hy k hk e
  subst e
  simp only [List.mem_cons, Option.some.injEq, List.not_mem_nil, or_false, reduceCtorEq] at hy
  omega

/-- Exactly the integers of 64 bits other than 0 and the LongTensors without 0 are accepted as divisors. -/
theorem C71_divide_accepts [Fintype ι] (x : RST (ι → I64)) (y : Divisor ι) :
    (∃ z, x.truediv y = .ok z) ↔ (∃ z, y = .int z ∧ z ≠ 0 ∧ -2 ^ 63 ≤ z ∧ z < 2 ^ 63) ∨ ∃ t, y = .long t ∧ ∀ j, t j ≠ 0 := by
  cases y with
  | other => simp [RST.truediv]
  | int z =>
    simp only [RST.truediv]
    by_cases h : z = 0 ∨ z < -2 ^ 63 ∨ 2 ^ 63 ≤ z
    · rw [if_pos h]
      constructor
      · rintro ⟨w, hw⟩
        cases hw
      · rintro (⟨w, hw, h1, h2, h3⟩ | ⟨u, hu, -⟩)
        · cases hw
          omega
        · cases hu
    · rw [if_neg h]
      exact ⟨fun _ => Or.inl ⟨z, rfl, by omega, by omega, by omega⟩, fun _ => ⟨_, rfl⟩⟩
  | long t =>
    by_cases h : ∃ i, t i = 0
    · simp only [RST.truediv, if_pos h]
      constructor
      · rintro ⟨z, hz⟩
        cases hz
      · rintro (⟨z, hz, -⟩ | ⟨u, hu, h2⟩)
        · cases hz
        · cases hu
          exact absurd h.choose_spec (h2 _)
    · simp only [RST.truediv, if_neg h]
      exact ⟨fun _ => Or.inr ⟨t, rfl, fun j hj => h ⟨j, hj⟩⟩, fun _ => ⟨_, rfl⟩⟩

/-- A secret matrix times a public matrix (encoded): any number of parties, before the truncation. -/
theorem C71_public_matmul {env : Env} (k : MatKey) (x : RMPC (MatL k)) (s : Nat → MatL k)
    (hx : x.Sharing env ((powSem 64).tensor (Fin k.1 × Fin k.2.1)) s) (y : MatR k) :
    ∃ z t a, RMPC.each (fun sh => .ok (RST.publicMatmul (matProd k) sh y)) x = .ok z ∧
      z.Sharing env ((powSem 64).tensor (Fin k.1 × Fin k.2.2)) t ∧ z.session = x.session ∧
      x.reconstruct ((powOps 64).tensor (Fin k.1 × Fin k.2.1)) = .ok a ∧
      z.reconstruct ((powOps 64).tensor (Fin k.1 × Fin k.2.2)) = .ok (matProd k a y) := by
  obtain ⟨z, e1, e2, e3⟩ := mapShares_sharing ((powSem 64).tensor (Fin k.1 × Fin k.2.2)) (fun s => matProd k s y)
    (fun sh => .ok (RST.publicMatmul (matProd k) sh y)) x s hx (fun _ _ => rfl) (fun i _ j => trivial)
  have hq := open_tensor e3
  rw [e2] at hq
  refine ⟨z, _, _, e1, e3, e2, open_tensor hx, ?_⟩
  rw [hq]
  congr 1
  funext p
  simp only [matProd]
  induction List.range x.session.nrParties with
  | nil => simp
  | cons a l ih =>
    simp only [List.map_cons, List.sum_cons, add_mul, Finset.sum_add_distrib, ih]

/-- The shares always add up to the secret plus a multiple of `2^64`, so `C71_divide_partial` and `C71_shift_partial` tell every result. -/
theorem shareSum_theta (n : Nat) (s : Nat → ι → I64) (j : ι) :
    ∃ theta, shareSum n s j = (((List.range n).map fun i => s i j).sum).toInt + theta * 2 ^ 64 := by
  rw [ofInt_list_sum (List.range n) (fun i => (s i j).toInt) (fun i => s i j) (fun i _ => (BitVec.ofInt_toInt).symm), BitVec.toInt_ofInt]
  change ∃ theta, shareSum n s j = (shareSum n s j).bmod (2 ^ 64) + theta * 2 ^ 64
  obtain ⟨c, hc⟩ := Int.dvd_self_sub_bmod (x := shareSum n s j) (m := 2 ^ 64)
  refine ⟨c, ?_⟩
  rw [mul_comm] at hc
  have := eq_add_of_sub_eq hc
  rw [add_comm] at this
  exact_mod_cast this

/-! ## Concatenation -/

/-- lists of `L` elements, element by element -/
def listSem (L : Nat) : RingSem listOps (Fin L → I64) where
  Valid a := a.length = L
  den a i := a.getD i 0
  inj a b ha hb h := by
    apply List.ext_getElem (ha.trans hb.symm)
    intro i h1 h2
    have := congrFun h ⟨i, ha ▸ h1⟩
    simpa [List.getD_eq_getElem?_getD, h1, h2] using this
  add a b ha hb := by
    refine ⟨by simp [listOps, ha, hb], funext fun i => ?_⟩
    have h1 : (i : Nat) < a.length := ha ▸ i.2
    have h2 : (i : Nat) < b.length := hb ▸ i.2
    simp [listOps, List.getD_eq_getElem?_getD, h1, h2]
  sub a b ha hb := by
    refine ⟨by simp [listOps, ha, hb], funext fun i => ?_⟩
    have h1 : (i : Nat) < a.length := ha ▸ i.2
    have h2 : (i : Nat) < b.length := hb ▸ i.2
    simp [listOps, List.getD_eq_getElem?_getD, h1, h2]
  mul a b ha hb := by
    refine ⟨by simp [listOps, ha, hb], funext fun i => ?_⟩
    have h1 : (i : Nat) < a.length := ha ▸ i.2
    have h2 : (i : Nat) < b.length := hb ▸ i.2
    simp [listOps, List.getD_eq_getElem?_getD, h1, h2]
  sum := by
    intro l hne hl
    refine reduce1_hom _ _ _ (fun a b ha hb => ?_) l hne hl
    refine ⟨by simp [ha, hb], funext fun i => ?_⟩
    have h1 : (i : Nat) < a.length := ha ▸ i.2
    have h2 : (i : Nat) < b.length := hb ▸ i.2
    simp [List.getD_eq_getElem?_getD, h1, h2]

/-- the lengths and shares of several tensors -/
abbrev CatData := List (Nat × (Nat → List I64))

/-- share `i` of the concatenation -/
def catShare (ds : CatData) (i : Nat) : List I64 := (ds.map fun d => d.2 i).flatten

theorem catLoop_held (n r : Nat) (tag : Option Nat) (c : Config) (ring : Nat) (ds : CatData) (acc : Nat → List I64) :
    catLoop (held n acc r) (ds.map fun d => RST.new (held n d.2 r) tag c ring) = .ok (held n (fun i => acc i ++ catShare ds i) r) := by
  induction ds generalizing acc with
  | nil => simp [catLoop, catShare]
  | cons d ds ih =>
    rw [List.map_cons, catLoop]
    have h : ((List.range (held n acc r).length).mapM fun i => do
        let a ← pyGet (held n acc r) i
        let b ← pyGet (RST.new (held n d.2 r) tag c ring).shares i
        return a ++ b : Py _) = .ok (held n (fun i => acc i ++ d.2 i) r) := by
      rw [mapM_ok _ (fun k => acc ((r + k) % n) ++ d.2 ((r + k) % n))]
      · simp [held]
      · intro k hk
        have hk' : k < n - 1 := by simpa [held] using hk
        rw [pyGet_ok (by simpa [held] using hk'), ok_bind, pyGet_ok (by simpa [held, RST.new] using hk'), ok_bind]
        simp [held, RST.new, pure_eq_ok]
    rw [h, ok_bind, ih]
    simp [catShare]

theorem total_append (n L1 L2 : Nat) (a b : Nat → List I64) (ha : ∀ i < n, (a i).length = L1) (v w : List I64)
    (hv : v.length = L1) (h1 : (listSem L1).den v = total (listSem L1) n a)
    (h2 : (listSem L2).den w = total (listSem L2) n b) :
    (listSem (L1 + L2)).den (v ++ w) = total (listSem (L1 + L2)) n (fun i => a i ++ b i) := by
  have ht : ∀ (L : Nat) (c : Nat → List I64) (k : Fin L), total (listSem L) n c k = ((List.range n).map fun i => (c i).getD k 0).sum := by
    intro L c k
    unfold total
    induction List.range n with
    | nil => rfl
    | cons x l ih =>
      rw [List.map_cons, List.sum_cons, List.map_cons, List.sum_cons, Pi.add_apply, ih]
      rfl
  funext k
  rw [ht]
  by_cases hk : (k : Nat) < L1
  · have e := congrFun h1 ⟨k, hk⟩
    rw [ht] at e
    have e1 : (listSem (L1 + L2)).den (v ++ w) k = v.getD k 0 := by
      change (v ++ w).getD k 0 = _
      simp [List.getD_eq_getElem?_getD, List.getElem?_append, hv, hk]
    rw [e1]
    refine (show v.getD k 0 = _ from e).trans ?_
    congr 1
    apply List.map_congr_left
    intro i hi
    simp [List.getD_eq_getElem?_getD, List.getElem?_append, ha i (List.mem_range.mp hi), hk]
  · have hk2 : (k : Nat) - L1 < L2 := by have := k.2; omega
    have e := congrFun h2 ⟨k - L1, hk2⟩
    rw [ht] at e
    have e1 : (listSem (L1 + L2)).den (v ++ w) k = w.getD (k - L1) 0 := by
      change (v ++ w).getD k 0 = _
      simp [List.getD_eq_getElem?_getD, List.getElem?_append, hv, hk]
    rw [e1]
    refine (show w.getD (k - L1) 0 = _ from e).trans ?_
    congr 1
    apply List.map_congr_left
    intro i hi
    simp [List.getD_eq_getElem?_getD, List.getElem?_append, ha i (List.mem_range.mp hi), hk]

/-- Concatenating replicated secrets of a Falcon session: the result is a consistent sharing that opens to the concatenation of the
secrets.  `ds` are the lengths and shares of the secrets `ts`, `vs` what they open to.
Missing: other rings and protocols, for which it is false (`C71_cat_ring_wrong`, `C71_cat_other_protocol`). -/
theorem C71_cat_partial {env : Env} (s : Session) (hr : s.ringSize = 2 ^ 64) (hname : s.protocol.name = "Falcon")
    (ts : List (RMPC (List I64))) (ds : CatData) (hne : ts ≠ [])
    (hts : List.Forall₂ (fun t d => t.session = s ∧ t.Sharing env (listSem d.1) d.2) ts ds) :
    ∃ z vs, catReplicated env ts = .ok z ∧ z.session = s ∧ z.Sharing env (listSem (ds.map (·.1)).sum) (catShare ds) ∧
      List.Forall₂ (fun t v => RMPC.reconstruct listOps t = .ok v) ts vs ∧ z.reconstruct listOps = .ok vs.flatten := by
  obtain ⟨t0, ts', rfl⟩ := List.exists_cons_of_ne_nil hne
  obtain ⟨d0, ds', hd0, -, hds⟩ := List.forall₂_cons_left_iff.mp hts
  obtain ⟨hs0, hx0⟩ := hd0
  have hready : s.Ready env := hs0 ▸ hx0.ready
  have hranked : s.Ranked env := hs0 ▸ hx0.ranked
  have hsec : s.protocol.security = .malicious → 3 ≤ s.nrParties := hs0 ▸ hx0.secure
  -- the values
  have hvals : ∀ (ts : List (RMPC (List I64))) (ds : CatData),
      List.Forall₂ (fun t d => t.session = s ∧ t.Sharing env (listSem d.1) d.2) ts ds →
      (∀ i < s.nrParties, (catShare ds i).length = (ds.map (·.1)).sum) ∧
      ∃ vs, List.Forall₂ (fun t v => RMPC.reconstruct listOps t = .ok v) ts vs ∧ vs.flatten.length = (ds.map (·.1)).sum ∧
        (listSem (ds.map (·.1)).sum).den vs.flatten = total (listSem (ds.map (·.1)).sum) s.nrParties (catShare ds) := by
    intro ts ds h
    induction h with
    | nil => exact ⟨fun _ _ => rfl, [], .nil, rfl, funext fun k => k.elim0⟩
    | cons hd _ ih =>
      rename_i t d ts ds _
      obtain ⟨hs, hx⟩ := hd
      obtain ⟨i1, vs, i2, i3, i4⟩ := ih
      obtain ⟨v, h1, h2, h3⟩ := Sharing.reconstruct hx
      rw [hs] at h3
      have hval : ∀ i < s.nrParties, (d.2 i).length = d.1 := fun i hi => hx.valid i (hs ▸ hi)
      refine ⟨?_, v :: vs, .cons h1 i2, ?_, ?_⟩
      · intro i hi
        have := i1 i hi
        have h' := hval i hi
        simp only [catShare, List.map_cons, List.flatten_cons, List.length_append, List.sum_cons] at this ⊢
        rw [this, h']
      · have h2' : v.length = d.1 := h2
        simp only [List.flatten_cons, List.length_append, List.map_cons, List.sum_cons, i3, h2']
      · exact total_append s.nrParties d.1 _ d.2 (catShare ds) hval v vs.flatten h2 h3 i4
  obtain ⟨hlen, vs, hvs, hvl, hvd⟩ := hvals _ _ hts
  have htwo := hready.two
  have hz : RMPC.Sharing env (listSem (ds.map (·.1)).sum)
      ⟨s, spread s.nrParties (catShare ds) (fun r => s.rankToUuid[r]?) s.config s.ringSize⟩ (catShare ds) :=
    ⟨hready, hranked, hsec, hlen, rfl⟩
  refine ⟨_, vs, ?_, rfl, hz, hvs, ?_⟩
  · -- the run
    have hlocal : ∀ r < s.nrParties, ∀ u, s.rankToUuid[r]? = some u →
        ((t0 :: ts').mapM fun t => pyGet t.shares r) = .ok (ds.map fun d => RST.new (held s.nrParties d.2 r) (some u) s.config s.ringSize) := by
      intro r hr u hu
      rw [mapM_ok_iff, List.forall₂_map_right_iff]
      refine hts.imp ?_
      rintro t d ⟨hs, hx⟩
      have h := hx.shares
      rw [hs] at h
      rw [h, ← hu]
      exact pyGet_spread (s := d.2) (tag := fun r => s.rankToUuid[r]?) hr
    unfold catReplicated
    rw [pyGet_ok (by simp), ok_bind]
    simp only [List.getElem_cons_zero]
    rw [hs0, if_neg (by simp [hname])]
    have hrl : s.rankToUuid.length = s.nrParties := hready.ranks
    rw [hrl, mapM_ok _ (fun r => RST.new (held s.nrParties (catShare ds) r) s.rankToUuid[r]? s.config s.ringSize)]
    · change RMPC.ofShares s _ = _
      exact rofShares_ok s _ hready.ptrs (by simp; omega)
    · intro r hr'
      have hr1 : r < s.nrParties := List.mem_range.mp hr'
      have hr2 : r < s.rankToUuid.length := by omega
      rw [pyGet_ok hr2, ok_bind, hlocal r hr1 _ (List.getElem?_eq_getElem hr2), ok_bind]
      obtain ⟨p, hp, hc, -⟩ := hready.known _ (List.getElem_mem hr2)
      unfold catReplicatedShare
      rw [hp]
      dsimp only
      rw [hds, List.map_cons, pyGet_ok (by simp), ok_bind]
      have e : List.replicate ((RST.new (held s.nrParties d0.2 r) (some (s.rankToUuid[r])) s.config s.ringSize ::
          List.map (fun d : Nat × (Nat → List I64) => RST.new (held s.nrParties d.2 r) (some (s.rankToUuid[r])) s.config s.ringSize)
            ds')[0]'(by simp)).shares.length ([] : List I64) = held s.nrParties (fun _ => []) r := by
        simp [held, RST.new]
      rw [e]
      have h := catLoop_held s.nrParties r (some (s.rankToUuid[r])) s.config s.ringSize (d0 :: ds') fun _ => []
      rw [List.map_cons] at h
      rw [h, ok_bind, hc, hr, List.getElem?_eq_getElem hr2]
      simp [pure_eq_ok]
  · obtain ⟨v, h1, h2, h3⟩ := Sharing.reconstruct hz
    rw [h1]
    congr 1
    exact (listSem _).inj v _ h2 hvl (h3.trans hvd.symm)

/-! ## Where the code disagrees -/

/-- the sharing of one element among three parties of `exRSession` -/
def exRVec (s : Nat → I64) : RMPC (Fin 1 → I64) :=
  ⟨exRSession, (List.range 3).map fun r => RST.new (held 3 (fun i _ => s i) r) exRSession.rankToUuid[r]? {} (2 ^ 64)⟩

theorem exRVec_sharing (s : Nat → I64) : (exRVec s).Sharing exREnv ((powSem 64).tensor (Fin 1)) (fun i _ => s i) where
  ready := exRReady
  ranked := exRRanked
  secure := fun _ => (by decide : 3 ≤ exRSession.nrParties)
  valid := fun _ _ _ => trivial
  shares := rfl

/-- Division of replicated shares that wrap around is wrong: the shares of 1000 add up to `1000 + 2^64`, and the result of the division by 4
is `250 + 2^62`. -/
theorem C71_divide_wrap_wrong :
    ∃ s : Nat → I64, ((exRVec s).reconstruct ((powOps 64).tensor (Fin 1))).toOption.map (fun v => (v 0).toInt) = some 1000 ∧
      ((RMPC.each (RST.truediv · (.int 4)) (exRVec s)).toOption.bind fun z =>
        (z.reconstruct ((powOps 64).tensor (Fin 1))).toOption.map fun v => (v 0).toInt) = some (250 + 2 ^ 62) := by
  refine ⟨fun i => [0x6000000000000000, 0x6000000000000000, 0x40000000000003e8].getD i 0, ?_, ?_⟩ <;> decide +kernel

/-- bits of `exRSession`'s parties, shared in the ring 2 -/
def exBits (s : Nat → List I64) : RMPC (List I64) :=
  ⟨exRSession, (List.range 3).map fun r => RST.new (held 3 s r) exRSession.rankToUuid[r]? {} 2⟩

/-- Concatenation forgets the ring: the bits 0 and 1, shared as `1 ^ 1 ^ 0` and `1 ^ 1 ^ 1`, are opened as the numbers 2 and 3. -/
theorem C71_cat_ring_wrong :
    ((catReplicated exREnv [exBits fun i => [[1], [1], [0]].getD i [], exBits fun _ => [1]]).toOption.map fun z =>
      (z.shares.map (·.ringSize), (z.reconstruct listOps).toOption)) = some ([2 ^ 64, 2 ^ 64, 2 ^ 64], some [2, 3]) ∧
    (sumByRing 2 [1, 1, 0]).toOption = some 0 ∧ (sumByRing 2 [1, 1, 1]).toOption = some 1 := by
  refine ⟨?_, ?_, ?_⟩ <;> decide +kernel

/-- Concatenation with replicated shares of any protocol but Falcon (ABY3) fails. -/
theorem C71_cat_other_protocol (env : Env) (t : RMPC (List I64)) (ts : List (RMPC (List I64))) (h : t.session.protocol.name ≠ "Falcon") :
    catReplicated env (t :: ts) = .error .unboundLocal := by
  unfold catReplicated
  rw [pyGet_ok (by simp), ok_bind]
  simp only [List.getElem_cons_zero]
  rw [if_pos h]
  rfl

/-! ## Examples -/

/-- C71: 1000 shared as `2000 + 3 - 1003`, divided by 4, and shifted by 2 bits. -/
example :
    ((RMPC.each (RST.truediv · (.int 4)) (exRVec fun i => [2000, 3, BitVec.ofInt 64 (-1003)].getD i 0)).toOption.bind fun z =>
      (z.reconstruct ((powOps 64).tensor (Fin 1))).toOption.map fun v => (v 0).toInt) = some 250 ∧
    ((RMPC.each (RST.rshift · (some 2)) (exRVec fun i => [2000, 3, BitVec.ofInt 64 (-1003)].getD i 0)).toOption.bind fun z =>
      (z.reconstruct ((powOps 64).tensor (Fin 1))).toOption.map fun v => (v 0).toInt) = some 249 ∧
    shareSum 3 (fun i (_ : Fin 1) => [2000, 3, BitVec.ofInt 64 (-1003)].getD i 0) 0 = 1000 := by
  refine ⟨?_, ?_, ?_⟩ <;> decide +kernel

/-- A replicated tensor outside of any session: a public value is added to (or subtracted from) the first of its shares, so their sum
changes by it; a tensor without shares is refused. -/
theorem C71_without_session (S : RingSem I R) (env : Env) (x : RST E) (hx : x.sessionUuid = none) (y : E) (hy : S.Valid y)
    (hv : ∀ s ∈ x.shares, S.Valid s) :
    (x.shares = [] → RST.publicOp I env .add x y = .error .indexError ∧ RST.publicOp I env .sub x y = .error .indexError) ∧
    (x.shares ≠ [] → ∃ z z', RST.publicOp I env .add x y = .ok z ∧ RST.publicOp I env .sub x y = .ok z' ∧
      (z.shares.map S.den).sum = (x.shares.map S.den).sum + S.den y ∧ (z'.shares.map S.den).sum = (x.shares.map S.den).sum - S.den y ∧
      z.shares.tail = x.shares.tail ∧ z'.shares.tail = x.shares.tail ∧ z.ringSize = x.ringSize ∧ z'.ringSize = x.ringSize ∧
      z.sessionUuid = none ∧ z'.sessionUuid = none) := by
  cases h : x.shares with
  | nil => simp [RST.publicOp, RST.sessionOf, hx, h, pyGet, ok_bind]
  | cons s rest =>
    have hs := hv s (by rw [h]; exact List.mem_cons_self)
    refine ⟨fun e => (by cases e), fun _ => ⟨RST.new (I.add s y :: rest) none x.config x.ringSize,
      RST.new (I.sub s y :: rest) none x.config x.ringSize, ?_, ?_, ?_, ?_, rfl, rfl, rfl, rfl, rfl, rfl⟩⟩
    · simp [RST.publicOp, RST.sessionOf, hx, h, pyGet, ok_bind, RST.lin, pure_eq_ok]
    · simp [RST.publicOp, RST.sessionOf, hx, h, pyGet, ok_bind, RST.lin, pure_eq_ok]
    · simp [RST.new, (S.add s y hs hy).2]; abel
    · simp [RST.new, (S.sub s y hs hy).2]; abel

/-- C71: `[5, 7] + 3` outside of a session -/
example : ((RST.publicOp (powOps 64) (fun _ => none) .add ⟨[5, 7], none, {}, 2 ^ 64⟩ 3).toOption.map fun z => z.shares.map (·.toInt)) =
    some [8, 7] := by decide +kernel

/-- the hypotheses of `C71_divide_partial` for this division -/
example : (Divisor.int 4 : Divisor (Fin 1)).Is (fun _ => 4) ∧ ∀ z, (Divisor.int 4 : Divisor (Fin 1)) = .int z → 0 < z ∧ z < 2 ^ 63 := by
  refine ⟨Or.inl ⟨4, rfl, fun _ => rfl⟩, ?_⟩
  intro z h
  cases h
  decide

/-- numbers of `exRSession`'s parties -/
def exRList (s : Nat → List I64) : RMPC (List I64) :=
  ⟨exRSession, (List.range 3).map fun r => RST.new (held 3 s r) exRSession.rankToUuid[r]? {} (2 ^ 64)⟩

/-- the hypothesis of `C71_cat_partial` for lists of `L` elements -/
theorem exRList_sharing (L : Nat) (s : Nat → List I64) (h : ∀ i < 3, (s i).length = L) : (exRList s).Sharing exREnv (listSem L) s where
  ready := exRReady
  ranked := exRRanked
  secure := fun _ => (by decide : 3 ≤ exRSession.nrParties)
  valid := h
  shares := rfl

/-- C71: the secrets `[6, 15]` and `[9]` give `[6, 15, 9]`. -/
example : ((catReplicated exREnv [exRList fun i => [[1, 4], [2, 5], [3, 6]].getD i [], exRList fun _ => [3]]).toOption.bind fun z =>
    (z.reconstruct listOps).toOption) = some [6, 15, 9] := by decide +kernel

end SyMPC
