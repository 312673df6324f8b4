import Verif.Props.Accuracy
import Verif.Props.Robust
import Verif.Props.Aby3

/-!
# Powers and exclusive or of scaled replicated tensors
-/

namespace SyMPC.Scaled

open RProgram (rep val cut masked heldBy near_cut_lt rep_eq rep_is mulEnc_rep publicMul_rep tensorStd)

/-! ## Specification -/

/-- one product of a computation: its number and its operands -/
abbrev Product (T : Type) := Nat × Term T × Term T

/-- the two summands that the truncation of a product divides -/
def summands {ι : Type} [Fintype ι] (env : Env) (s : Session) (rnd : Nat → MulRand (ι → I64) (ι → I64) (ι → I64)) :
    Product (ι → I64) → Option ((ι → I64) × (ι → I64))
  | (k, .mpc a, .mpc b) =>
    match Falcon.mulShares ((powKit 64).tensor ι).ops env ((powKit 64).tensor ι).product (rnd k).mask s a b with
    | .ok [z0, z1, z2] => some (z0, z1 + z2)
    | _ => none
  | (_, .int v, .mpc b) =>
    match heldBy b 0, heldBy b 1 with
    | [b0, b1], [_, b2] =>
      let e := ((powKit 64).tensor ι).enc s.config (.int v)
      some (b0 * e, b1 * e + b2 * e)
    | _, _ => none
  | _ => none

/-- the summands are found, and no element of their sum leaves the range of the numbers of 64 bits -/
def NoWrap {ι : Type} [Fintype ι] (env : Env) (s : Session) (rnd : Nat → MulRand (ι → I64) (ι → I64) (ι → I64))
    (p : Product (ι → I64)) : Prop :=
  ∃ a b, summands env s rnd p = some (a, b) ∧ ∀ i, -2 ^ 63 ≤ (a i).toInt + (b i).toInt ∧ (a i).toInt + (b i).toInt < 2 ^ 63

/-- a product together with the products that its operands are made of -/
def mulLog {T : Type} [DecidableEq T] (K : RingKit T) (env : Env) (rnd : Nat → MulRand T T T) (k : Nat)
    (a b : Term T × List (Product T)) : Py (Term T × List (Product T)) := do
  let z ← Term.mul K env (rnd k) a.1 b.1
  return (z, (k, a.1, b.1) :: (a.2 ++ b.2))

/-- the numbers that a tensor stands for -/
def num {ι : Type} (c : Config) (u : ι → I64) (i : ι) : ℚ := (u i).toInt / c.encoder.scale

/-! ## Steps -/

theorem powLoop_log {T : Type} [DecidableEq T] (K : RingKit T) (env : Env) (rnd : Nat → MulRand T T T) (p : Nat) :
    ∀ (r b : Term T × List (Product T)) (k : Nat) (t : Term T × List (Product T)),
      Term.powLoop (mulLog K env rnd) p r b k = .ok t → Term.powLoop (fun k => Term.mul K env (rnd k)) p r.1 b.1 k = .ok t.1 := by
  induction p using Nat.strongRecOn with
  | ind p ih =>
    intro r b k t h
    unfold Term.powLoop at h ⊢
    by_cases hp : p = 0
    · rw [dif_pos hp] at h ⊢
      cases h
      rfl
    · rw [dif_neg hp] at h ⊢
      have one : ∀ (j : Nat) (x y : Term T × List (Product T)) (F : Term T × List (Product T) → Py (Term T × List (Product T))),
          (mulLog K env rnd j x y >>= F) = .ok t → ∃ z, Term.mul K env (rnd j) x.1 y.1 = .ok z ∧ F (z, (j, x.1, y.1) :: (x.2 ++ y.2)) = .ok t := by
        intro j x y F hF
        unfold mulLog at hF
        cases hz : Term.mul K env (rnd j) x.1 y.1 with
        | error e => rw [hz] at hF; cases hF
        | ok z => rw [hz] at hF; exact ⟨z, rfl, hF⟩
      by_cases ho : p % 2 = 1
      · rw [if_pos ho] at h ⊢
        obtain ⟨z, hz, h⟩ := one _ _ _ _ h
        obtain ⟨w, hw, h⟩ := one _ _ _ _ h
        rw [hz, ok_bind]
        dsimp only
        rw [hw, ok_bind]
        exact ih (p / 2) (by omega) _ _ _ _ h
      · rw [if_neg ho] at h ⊢
        rw [ok_bind] at h ⊢
        obtain ⟨w, hw, h⟩ := one _ _ _ _ h
        dsimp only
        rw [hw, ok_bind]
        exact ih (p / 2) (by omega) _ _ _ _ h

theorem powLoop_round {T : Type} (mul : Nat → T → T → Py T) {p : Nat} (hp : p ≠ 0) (r b : T) (k : Nat) :
    Term.powLoop mul p r b k = (if p % 2 = 1 then mul (2 * k) r b else .ok r) >>= fun r' =>
      mul (2 * k + 1) b b >>= fun b' => Term.powLoop mul (p / 2) r' b' (k + 1) := by
  rw [Term.powLoop, dif_neg hp]
  split <;> rfl

section
variable {ι : Type} [Fintype ι] [Nonempty ι] {env : Env} {s : Session}

omit [Fintype ι] [Nonempty ι] in
/-- a sharing is determined by three tensors -/
theorem is_rep (hs : s.Three env) {x : RMPC (ι → I64)} {q : Nat} {c : Config} {u : ι → I64}
    (hx : x.Is ((powSem 64).tensor ι) s q c u) : ∃ X : Fin 3 → ι → I64, x = rep s q c X ∧ val X = u := by
  obtain ⟨u0, u1, u2, p0, p1, p2, c0, c1, c2, hu, -⟩ := three_unpack hs
  obtain ⟨a, b, d, rfl, -, -, -, h⟩ := is_unpack hu hx
  exact ⟨![a, b, d], by rw [rep_eq hu]; rfl, h⟩

omit [Nonempty ι] in
theorem cut_error (c : Config) (hc : ScaleFits 64 c) (hS : 0 < c.encoder.scale) (z0 z1 z2 : ι → I64) (i : ι)
    (h1 : -2 ^ 63 ≤ (z0 i).toInt + (z1 i + z2 i).toInt) (h2 : (z0 i).toInt + (z1 i + z2 i).toInt < 2 ^ 63) :
    |((shiftPow 64 c (z0 i) + shiftPow 64 c (z1 i + z2 i)).toInt : ℚ) * c.encoder.scale - ((z0 i + z1 i + z2 i).toInt : ℚ)|
      < 2 * c.encoder.scale := by
  have := near_cut_lt c hc hS ![z0, z1, z2] (fun _ => 0) i h1 h2
  have e : val (cut ((powKit 64).tensor ι) c ![z0, z1, z2] (fun _ => 0)) i = shiftPow 64 c (z0 i) + shiftPow 64 c (z1 i + z2 i) := by
    show shiftPow 64 c (z0 i) + (shiftPow 64 c (z1 i + z2 i) - 0) + 0 = _
    ring
  rw [e] at this
  exact this

omit [Nonempty ι] in
/-- a product of two secrets -/
theorem mul_step (hs : s.Three env) {x y : RMPC (ι → I64)} {c : Config} (hc : ScaleFits 64 c) (hS : 0 < c.encoder.scale) {u w : ι → I64}
    (hx : x.Is ((powSem 64).tensor ι) s (2 ^ 64) c u) (hy : y.Is ((powSem 64).tensor ι) s (2 ^ 64) c w)
    (rnd : Nat → MulRand (ι → I64) (ι → I64) (ι → I64)) (k : Nat)
    (hr : (rnd k).Ok ((powSem 64).tensor ι) ((powSem 64).tensor ι) ((powSem 64).tensor ι) AddMonoidHom.mul s (2 ^ 64)) :
    ∃ z e, RMPC.mulPrivate ((powKit 64).tensor ι) env (rnd k) x y = .ok z ∧ z.Is ((powSem 64).tensor ι) s (2 ^ 64) c e ∧
      (NoWrap env s rnd (k, .mpc x, .mpc y) →
        ∀ i, |((e i).toInt : ℚ) * c.encoder.scale - ((u i * w i).toInt : ℚ)| < 2 * c.encoder.scale) := by
  have hK : KitSem ((powKit 64).tensor ι) ((powSem 64).tensor ι) := (powKitSem 64 (by simp)).tensor ι
  obtain ⟨z0, z1, z2, z, h1, -, -, -, h2, h3, h4⟩ := mulMaster3 (KA := (powKit 64).tensor ι) (KB := (powKit 64).tensor ι)
    (KC := (powKit 64).tensor ι) (P := ((powKit 64).tensor ι).product) hs ((powSem 64).tensor ι) hK
    (product_sem (K := (powKit 64).tensor ι) ((powSem 64).tensor ι)) hx hy (by show ¬ (2 ^ 64 = 2 ∨ 2 ^ 64 = 67); decide)
    (k := (getOp (2 ^ 64) .mul).toOption.get rfl) rfl hr
  refine ⟨z, _, h3, h4, ?_⟩
  rintro ⟨a, b, hab, hw⟩ i
  unfold summands at hab
  dsimp only at hab
  rw [h1] at hab
  simp only [Option.some.injEq, Prod.mk.injEq] at hab
  obtain ⟨rfl, rfl⟩ := hab
  have h2' : z0 i + z1 i + z2 i = u i * w i := congrFun h2 i
  have := cut_error c hc hS z0 z1 z2 i (hw i).1 (hw i).2
  rw [h2'] at this
  exact this

/-- a product with a public integer -/
theorem mulInt_step (hs : s.Three env) {x : RMPC (ι → I64)} (hc : ScaleFits 64 s.config) (hS : 0 < s.config.encoder.scale) {u : ι → I64}
    (hx : x.Is ((powSem 64).tensor ι) s (2 ^ 64) s.config u) (rnd : Nat → MulRand (ι → I64) (ι → I64) (ι → I64)) (k : Nat) (v : Int)
    (r : ι → I64) :
    ∃ z e, RMPC.mulPublic ((powKit 64).tensor ι) x (.int v) r = .ok z ∧ z.Is ((powSem 64).tensor ι) s (2 ^ 64) s.config e ∧
      (NoWrap env s rnd (k, .int v, .mpc x) →
        ∀ i, |((e i).toInt : ℚ) * s.config.encoder.scale - ((u i * s.config.encoder.encode (.int v)).toInt : ℚ)| < 2 * s.config.encoder.scale) := by
  obtain ⟨X, rfl, rfl⟩ := is_rep hs hx
  obtain ⟨u0, u1, u2, p0, p1, p2, c0, c1, c2, hu, -⟩ := three_unpack hs
  have := mulEnc_rep (tensorStd ι) hs s.config X (fun c => ((powKit 64).tensor ι).enc c (.int v)) r
  refine ⟨_, _, this, rep_is (tensorStd ι) (2 ^ 64) hu s.config _, ?_⟩
  rintro ⟨a, b, hab, hw⟩ i
  simp only [summands, heldBy, rep, List.getElem?_cons_zero, List.getElem?_cons_succ, Option.map_some, Option.getD_some, Option.some.injEq,
    Prod.mk.injEq] at hab
  obtain ⟨rfl, rfl⟩ := hab
  have h := near_cut_lt s.config hc hS (fun k => X k * ((powKit 64).tensor ι).enc s.config (.int v)) r i (hw i).1 (hw i).2
  have e : val (fun k => X k * ((powKit 64).tensor ι).enc s.config (.int v)) i = val X i * s.config.encoder.encode (.int v) := by
    show X 0 i * s.config.encoder.encode (.int v) + X 1 i * s.config.encoder.encode (.int v) + X 2 i * s.config.encoder.encode (.int v)
      = (X 0 i + X 1 i + X 2 i) * s.config.encoder.encode (.int v)
    ring
  rw [e] at h
  exact h

/-- a product that was divided by the scale, in numbers -/
theorem num_mul (c : Config) (hS : 0 < c.encoder.scale) (e u w : I64) (hB : |(u.toInt : ℚ) * w.toInt| < 2 ^ 63)
    (h : |(e.toInt : ℚ) * c.encoder.scale - ((u * w).toInt : ℚ)| < 2 * c.encoder.scale) :
    |(e.toInt : ℚ) / c.encoder.scale - (u.toInt : ℚ) / c.encoder.scale * (w.toInt / c.encoder.scale)| ≤ 2 / c.encoder.scale := by
  have hS' : (0 : ℚ) < c.encoder.scale := by exact_mod_cast hS
  have hp : ((u * w).toInt : ℚ) = u.toInt * w.toInt := by
    have hm : u * w = BitVec.ofInt 64 (u.toInt * w.toInt) := by rw [BitVec.ofInt_mul, BitVec.ofInt_toInt, BitVec.ofInt_toInt]
    rw [hm, Program.toInt_of_abs (by push_cast; exact hB)]
    push_cast
    rfl
  rw [hp] at h
  have e1 : (e.toInt : ℚ) / c.encoder.scale - (u.toInt : ℚ) / c.encoder.scale * (w.toInt / c.encoder.scale)
      = ((e.toInt : ℚ) * c.encoder.scale - u.toInt * w.toInt) / (c.encoder.scale * c.encoder.scale) := by
    field_simp
  rw [e1, abs_div, abs_of_pos (by positivity : (0 : ℚ) < c.encoder.scale * c.encoder.scale), div_le_div_iff₀ (by positivity) hS']
  nlinarith

/-- no product recorded wraps -/
def Clean (env : Env) (s : Session) (rnd : Nat → MulRand (ι → I64) (ι → I64) (ι → I64)) (l : List (Product (ι → I64))) : Prop :=
  ∀ p ∈ l, NoWrap env s rnd p

/-- what the loop of `pow` knows of its result so far -/
def Powered (env : Env) (s : Session) (rnd : Nat → MulRand (ι → I64) (ι → I64) (ι → I64)) (v : ι → ℚ) (C : ℚ)
    (r : Term (ι → I64) × List (Product (ι → I64))) (k : Nat) : Prop :=
  (r.1 = .int 1 ∧ k = 0) ∨ ∃ y e, r.1 = .mpc y ∧ 1 ≤ k ∧ y.Is ((powSem 64).tensor ι) s (2 ^ 64) s.config e ∧
    (Clean env s rnd r.2 → ∀ i, |num s.config e i - v i ^ k| ≤ C ^ k * ((1 + 2 / s.config.encoder.scale) ^ k - 1))

theorem powLoop_near (hs : s.Three env) (hc : ScaleFits 64 s.config) (hS : 0 < s.config.encoder.scale)
    (rnd : Nat → MulRand (ι → I64) (ι → I64) (ι → I64))
    (hr : ∀ k, (rnd k).Ok ((powSem 64).tensor ι) ((powSem 64).tensor ι) ((powSem 64).tensor ι) AddMonoidHom.mul s (2 ^ 64))
    (v : ι → ℚ) (C : ℚ) (hC : 1 ≤ C) (hv : ∀ i, |v i| ≤ C) (N : Nat)
    (hB : (C * (1 + 2 / s.config.encoder.scale)) ^ (2 * N) * (s.config.encoder.scale * s.config.encoder.scale : ℚ) < 2 ^ 63) (p : Nat) :
    ∀ (r : Term (ι → I64) × List (Product (ι → I64))) (b : RMPC (ι → I64)) (lb : List (Product (ι → I64))) (bv : ι → I64) (k q j : Nat),
      Powered env s rnd v C r k → b.Is ((powSem 64).tensor ι) s (2 ^ 64) s.config bv → 1 ≤ q →
      (Clean env s rnd lb → ∀ i, |num s.config bv i - v i ^ q| ≤ C ^ q * ((1 + 2 / s.config.encoder.scale) ^ (q - 1) - 1)) →
      k + p * q ≤ N →
      ∃ t, Term.powLoop (mulLog ((powKit 64).tensor ι) env rnd) p r (.mpc b, lb) j = .ok t ∧ Powered env s rnd v C t (k + p * q) := by
  have hS' : (0 : ℚ) < s.config.encoder.scale := by exact_mod_cast hS
  obtain ⟨δ, hδ'⟩ : ∃ δ : ℚ, δ = 2 / s.config.encoder.scale := ⟨_, rfl⟩
  have hδ : 0 ≤ δ := by rw [hδ']; positivity
  unfold Powered
  rw [← hδ'] at hB ⊢
  have h1δ : 1 ≤ 1 + δ := by linarith
  have hCδ : 1 ≤ C * (1 + δ) := by nlinarith
  have hvq : ∀ i q, |v i ^ q| ≤ C ^ q := fun i q => by
    rw [abs_pow]
    exact pow_le_pow_left₀ (abs_nonneg _) (hv i) q
  have hCq : ∀ q, (1 : ℚ) ≤ C ^ q := fun q => one_le_pow₀ hC
  have hg : ∀ q, (1 : ℚ) ≤ (1 + δ) ^ q := fun q => one_le_pow₀ h1δ
  have hprod : ∀ s' t : Nat, s' ≤ 2 * N → t ≤ s' →
      C ^ s' * (1 + δ) ^ t * (s.config.encoder.scale * s.config.encoder.scale) < 2 ^ 63 := by
    intro s' t hs' ht
    refine lt_of_le_of_lt (mul_le_mul_of_nonneg_right ?_ (by positivity)) hB
    calc C ^ s' * (1 + δ) ^ t ≤ C ^ s' * (1 + δ) ^ s' :=
          mul_le_mul_of_nonneg_left (pow_le_pow_right₀ h1δ ht) (by linarith [hCq s'])
      _ = (C * (1 + δ)) ^ s' := (mul_pow _ _ _).symm
      _ ≤ _ := pow_le_pow_right₀ hCδ hs'
  have hround : ∀ (s t : Nat) (z w : ℚ), |z - w| ≤ C ^ s * ((1 + δ) ^ t - 1) + δ →
      |z - w| ≤ C ^ s * ((1 + δ) ^ (t + 1) - 1) := by
    intro s t z w h
    refine h.trans ?_
    have e : C ^ s * ((1 + δ) ^ (t + 1) - 1) = C ^ s * ((1 + δ) ^ t - 1) + C ^ s * (1 + δ) ^ t * δ := by ring
    rw [e]
    have : 1 * 1 ≤ C ^ s * (1 + δ) ^ t := mul_le_mul (hCq s) (hg t) zero_le_one (by linarith [hCq s])
    nlinarith
  -- the product of the encoded numbers stays in the range
  have hroom : ∀ (u w : I64) (B : ℚ), |(u.toInt : ℚ) / s.config.encoder.scale * (w.toInt / s.config.encoder.scale)| ≤ B →
      B * (s.config.encoder.scale * s.config.encoder.scale) < 2 ^ 63 → |(u.toInt : ℚ) * w.toInt| < 2 ^ 63 := by
    intro u w B h1 h2
    refine lt_of_le_of_lt ?_ h2
    have e : (u.toInt : ℚ) * w.toInt = (u.toInt : ℚ) / s.config.encoder.scale * (w.toInt / s.config.encoder.scale)
        * (s.config.encoder.scale * s.config.encoder.scale) := by field_simp
    rw [e, abs_mul, abs_of_pos (by positivity : (0 : ℚ) < s.config.encoder.scale * s.config.encoder.scale)]
    exact mul_le_mul_of_nonneg_right h1 (by positivity)
  induction p using Nat.strongRecOn with
  | ind p ih =>
    intro r b lb bv k q j hr' hb hq hbv hN
    by_cases hp : p = 0
    · subst hp
      rw [Term.powLoop, dif_pos rfl]
      exact ⟨r, rfl, by simpa using hr'⟩
    · rw [powLoop_round _ hp]
      have hpq : q ≤ p * q := Nat.le_mul_of_pos_left q (Nat.pos_of_ne_zero hp)
      have hbig : Clean env s rnd lb → ∀ i, |num s.config bv i| ≤ C ^ q * (1 + δ) ^ (q - 1) := by
        intro hl i
        have := abs_add_le (num s.config bv i - v i ^ q) (v i ^ q)
        rw [sub_add_cancel] at this
        have := hbv hl i
        have := hvq i q
        linarith
      -- the result of this round
      have hres : ∃ r', (if p % 2 = 1 then mulLog ((powKit 64).tensor ι) env rnd (2 * j) r (.mpc b, lb) else .ok r) = .ok r' ∧
          ((r'.1 = .int 1 ∧ k + p % 2 * q = 0) ∨ ∃ y e, r'.1 = .mpc y ∧ 1 ≤ k + p % 2 * q ∧ y.Is ((powSem 64).tensor ι) s (2 ^ 64) s.config e ∧
            (Clean env s rnd r'.2 → ∀ i, |num s.config e i - v i ^ (k + p % 2 * q)| ≤ C ^ (k + p % 2 * q) * ((1 + δ) ^ (k + p % 2 * q) - 1))) := by
        by_cases hodd : p % 2 = 1
        · rw [if_pos hodd, hodd, one_mul]
          obtain ⟨r1, lr⟩ := r
          rcases hr' with ⟨h1, rfl⟩ | ⟨y, e, h1, hk, hy, hyv⟩
          · have h1 : r1 = .int 1 := h1
            subst h1
            obtain ⟨z, e, g1, g2, g3⟩ := mulInt_step hs hc hS hb rnd (2 * j) 1 (rnd (2 * j)).trunc
            refine ⟨(.mpc z, (2 * j, .int 1, .mpc b) :: (lr ++ lb)), by simp only [mulLog, Term.mul, Term.mulMpc, g1, ok_bind, pure_eq_ok], Or.inr ⟨z, e, rfl, by omega, g2, fun hl i => ?_⟩⟩
            have hl1 := g3 (hl _ List.mem_cons_self) i
            have hl2 : Clean env s rnd lb := fun p hp => hl p (List.mem_cons_of_mem _ (List.mem_append_right _ hp))
            have hSs : ((s.config.encoder.scale : Int) : ℚ) < 2 ^ 63 := by
              have := hprod 0 0 (by omega) le_rfl
              simp only [pow_zero, one_mul] at this
              have h1 : (1 : ℚ) ≤ s.config.encoder.scale := by exact_mod_cast hS
              push_cast
              nlinarith
            have henc : ((s.config.encoder.encode (.int 1)).toInt : ℚ) = s.config.encoder.scale := by
              have : s.config.encoder.encode (.int 1) = BitVec.ofInt 64 (s.config.encoder.scale : Int) := by
                simp only [FixedPointEncoder.encode, FixedPointEncoder.encodeInt, one_mul]
              rw [this, Program.toInt_of_abs]
              · push_cast; rfl
              · rw [abs_of_nonneg (by positivity)]; exact hSs
            have := num_mul s.config hS (e i) (bv i) _ (hroom _ _ (C ^ q * (1 + δ) ^ (q - 1)) (by
              rw [henc, div_self hS'.ne', mul_one]
              exact hbig hl2 i) (hprod q (q - 1) (by omega) (by omega))) hl1
            rw [henc, div_self hS'.ne', mul_one, ← hδ'] at this
            rw [zero_add]
            have e' : q = q - 1 + 1 := by omega
            rw [show (1 + δ) ^ q = (1 + δ) ^ (q - 1 + 1) by rw [← e']]
            apply hround
            have h3 := abs_sub_le (num s.config e i) (num s.config bv i) (v i ^ q)
            have h4 := hbv hl2 i
            have h5 : |num s.config e i - num s.config bv i| ≤ δ := this
            linarith
          · have h1 : r1 = .mpc y := h1
            subst h1
            obtain ⟨z, e', g1, g2, g3⟩ := mul_step hs hc hS hy hb rnd (2 * j) (hr _)
            refine ⟨(.mpc z, (2 * j, .mpc y, .mpc b) :: (lr ++ lb)), by simp only [mulLog, Term.mul, Term.mulMpc, g1, ok_bind, pure_eq_ok], Or.inr ⟨z, e', rfl, by omega, g2, fun hl i => ?_⟩⟩
            have hl1 := g3 (hl _ List.mem_cons_self) i
            have hl2 : Clean env s rnd lb := fun p hp => hl p (List.mem_cons_of_mem _ (List.mem_append_right _ hp))
            have hl3 : Clean env s rnd lr := fun p hp => hl p (List.mem_cons_of_mem _ (List.mem_append_left _ hp))
            have hpe := product_error (hg k) (hvq i k) (hvq i q) (hyv hl3 i) (hbv hl2 i)
            have h5 := num_mul s.config hS (e' i) (e i) (bv i) (hroom _ _ (C ^ (k + q) * (1 + δ) ^ (k + (q - 1))) (by
              rw [pow_add, pow_add]
              exact hpe.2) (hprod (k + q) (k + (q - 1)) (by omega) (by omega))) hl1
            rw [← hδ'] at h5
            have h5 : |num s.config e' i - num s.config e i * num s.config bv i| ≤ δ := h5
            have e2 : k + q = k + (q - 1) + 1 := by omega
            rw [show (1 + δ) ^ (k + q) = (1 + δ) ^ (k + (q - 1) + 1) by rw [← e2]]
            apply hround
            have h2 := hpe.1
            rw [← pow_add, ← pow_add, ← pow_add] at h2
            have := abs_sub_le (num s.config e' i) (num s.config e i * num s.config bv i) (v i ^ (k + q))
            linarith
        · rw [if_neg hodd, show p % 2 = 0 by omega, zero_mul, add_zero]
          exact ⟨r, rfl, hr'⟩
      obtain ⟨r', e1, hr''⟩ := hres
      rw [e1, ok_bind]
      obtain ⟨z, e, g1, g2, g3⟩ := mul_step hs hc hS hb hb rnd (2 * j + 1) (hr _)
      have e2 : mulLog ((powKit 64).tensor ι) env rnd (2 * j + 1) (.mpc b, lb) (.mpc b, lb)
          = .ok (.mpc z, (2 * j + 1, .mpc b, .mpc b) :: (lb ++ lb)) := by
        simp only [mulLog, Term.mul, Term.mulMpc, g1, ok_bind, pure_eq_ok]
      rw [e2, ok_bind]
      have hdiv := Nat.div_add_mod p 2
      have ecount : k + p % 2 * q + p / 2 * (2 * q) = k + p * q := by
        conv_rhs => rw [← hdiv]
        ring
      rw [← ecount]
      refine ih (p / 2) (Nat.div_lt_self (Nat.pos_of_ne_zero hp) (by decide)) r' z _ e (k + p % 2 * q) (2 * q) (j + 1) hr'' g2 (by omega) ?_ (by omega)
      intro hl i
      have hl1 := g3 (hl _ List.mem_cons_self) i
      have hl2 : Clean env s rnd lb := fun p hp => hl p (List.mem_cons_of_mem _ (List.mem_append_right _ hp))
      have hpe := product_error (hg (q - 1)) (hvq i q) (hvq i q) (hbv hl2 i) (hbv hl2 i)
      have h5 := num_mul s.config hS (e i) (bv i) (bv i) (hroom _ _ (C ^ (q + q) * (1 + δ) ^ (q - 1 + (q - 1))) (by
        rw [pow_add, pow_add]
        exact hpe.2) (hprod (q + q) (q - 1 + (q - 1)) (by omega) (by omega))) hl1
      rw [← hδ'] at h5
      have h5 : |num s.config e i - num s.config bv i * num s.config bv i| ≤ δ := h5
      have e3 : 2 * q - 1 = q - 1 + (q - 1) + 1 := by omega
      rw [e3, two_mul]
      apply hround
      have h2 := hpe.1
      rw [← pow_add, ← pow_add, ← pow_add] at h2
      have := abs_sub_le (num s.config e i) (num s.config bv i * num s.config bv i) (v i ^ (q + q))
      linarith

/-- C42 for replicated sharing with fixed point numbers (three parties, either security type, whatever is drawn): `x ** n` with `n > 0`
succeeds, and if no product that the result is made of wraps, then for `|x| ≤ C` the opened number is off by at most
`C^n ((1 + 2/S)^n - 1)`, where `S` is the scale. -/
theorem C42_replicated_scaled (hs : s.Three env) (hc : ScaleFits 64 s.config) (hS : 0 < s.config.encoder.scale)
    (rnd : Nat → MulRand (ι → I64) (ι → I64) (ι → I64))
    (hr : ∀ k, (rnd k).Ok ((powSem 64).tensor ι) ((powSem 64).tensor ι) ((powSem 64).tensor ι) AddMonoidHom.mul s (2 ^ 64))
    (x : RMPC (ι → I64)) (u : ι → I64) (hx : x.Is ((powSem 64).tensor ι) s (2 ^ 64) s.config u)
    (C : ℚ) (hC : 1 ≤ C) (hv : ∀ i, |num s.config u i| ≤ C) (n : Nat) (hn : 0 < n)
    (hB : (C * (1 + 2 / s.config.encoder.scale)) ^ (2 * n) * (s.config.encoder.scale * s.config.encoder.scale : ℚ) < 2 ^ 63) :
    ∃ z w products, Term.pow ((powKit 64).tensor ι) env rnd x n = .ok (.mpc z) ∧ z.reconstruct ((powKit 64).tensor ι).ops = .ok w ∧
      Term.powLoop (mulLog ((powKit 64).tensor ι) env rnd) n (.int 1, []) (.mpc x, []) 0 = .ok (.mpc z, products) ∧
      ((∀ p ∈ products, NoWrap env s rnd p) →
        ∀ i, |num s.config w i - num s.config u i ^ n| ≤ C ^ n * ((1 + 2 / s.config.encoder.scale) ^ n - 1)) := by
  obtain ⟨⟨t, l⟩, h1, h2⟩ := powLoop_near hs hc hS rnd hr (num s.config u) C hC hv n hB n (.int 1, []) x [] u 0 1 0 (Or.inl ⟨rfl, rfl⟩) hx le_rfl
    (fun _ i => by simp) (by omega)
  rw [zero_add, mul_one] at h2
  rcases h2 with ⟨-, h2⟩ | ⟨z, e, h2, -, h3, h4⟩
  · omega
  have h2 : t = .mpc z := h2
  subst h2
  obtain ⟨w, g1, -, g2⟩ := is_reconstruct hs h3
  have g2 : w = e := g2
  subst g2
  refine ⟨z, w, l, ?_, g1, h1, h4⟩
  have := powLoop_log _ _ _ _ _ _ _ _ h1
  unfold Term.pow
  rw [if_neg (by omega), Int.toNat_natCast]
  exact this

/-- C54 for fixed point numbers: `x ^ y` of two secret tensors whose elements are the bits `a` and `b`, shared with the scale `S` of the
session, opens to the exclusive or up to three quanta, if neither of its two products wraps. -/
theorem C54_scaled_private (hs : s.Three env) (hc : ScaleFits 64 s.config) (hS : 0 < s.config.encoder.scale)
    (hroom : 2 * s.config.encoder.scale * (s.config.encoder.scale + 1) < 2 ^ 63)
    (rnd : MulRand (ι → I64) (ι → I64) (ι → I64)) (r : ι → I64)
    (hr : rnd.Ok ((powSem 64).tensor ι) ((powSem 64).tensor ι) ((powSem 64).tensor ι) AddMonoidHom.mul s (2 ^ 64))
    (x y : RMPC (ι → I64)) (a b : ι → Bool)
    (hx : x.Is ((powSem 64).tensor ι) s (2 ^ 64) s.config fun i => s.config.encoder.encode (.int (if a i then 1 else 0)))
    (hy : y.Is ((powSem 64).tensor ι) s (2 ^ 64) s.config fun i => s.config.encoder.encode (.int (if b i then 1 else 0))) :
    ∃ z w m, RMPC.mulPrivate ((powKit 64).tensor ι) env rnd x y = .ok m ∧
      RMPC.xorPrivate ((powKit 64).tensor ι) env rnd r x y = .ok z ∧ z.reconstruct ((powKit 64).tensor ι).ops = .ok w ∧
      (NoWrap env s (fun _ => rnd) (0, .mpc x, .mpc y) → NoWrap env s (fun _ => rnd) (1, .int 2, .mpc m) →
        ∀ i, |num s.config w i - if (a i ^^ b i) then 1 else 0| ≤ 3 / s.config.encoder.scale) := by
  obtain ⟨u0, u1, u2, p0, p1, p2, c0, c1, c2, hu, -⟩ := three_unpack hs
  obtain ⟨m, e, g1, g2, g3⟩ := mul_step hs hc hS hx hy (fun _ => rnd) 0 hr
  obtain ⟨m2, e2, k1, k2, k3⟩ := mulInt_step hs hc hS g2 (fun _ => rnd) 1 2 r
  obtain ⟨X, rfl, hX⟩ := is_rep hs hx
  obtain ⟨Y, rfl, hY⟩ := is_rep hs hy
  obtain ⟨M, rfl, rfl⟩ := is_rep hs k2
  have l1 := RProgram.lin_rep (tensorStd ι) hs .add s.config X Y
  have l2 := RProgram.lin_rep (tensorStd ι) hs .sub s.config (fun i => LinOp.den .add (X i) (Y i)) M
  have hz := rep_is (tensorStd ι) (2 ^ 64) hu s.config (fun i => LinOp.den .sub (LinOp.den .add (X i) (Y i)) (M i))
  obtain ⟨w, w1, -, w2⟩ := is_reconstruct hs hz
  refine ⟨_, w, m, g1, ?_, w1, ?_⟩
  · unfold RMPC.xorPrivate
    rw [show (rep s (2 ^ 64) s.config X).session = s from rfl, show (rep s (2 ^ 64) s.config Y).session = s from rfl, checkPrivate_self, ok_bind,
      show pyGet (rep s (2 ^ 64) s.config X).shares 0 = .ok ⟨[X 0, X 1], s.rankToUuid[0]?, s.config, 2 ^ 64⟩ from rfl, ok_bind, if_neg (by norm_num)]
    rw [show RMPC.privateLin ((powKit 64).tensor ι).ops .add (rep s (2 ^ 64) s.config X) (rep s (2 ^ 64) s.config Y) = _ from l1, ok_bind, g1, ok_bind,
      k1, ok_bind]
    exact l2
  · intro n1 n2 i
    have hw : w i = val X i + val Y i - val M i := by
      rw [show w = _ from w2]
      simp only [val, LinOp.den, Pi.add_apply, Pi.sub_apply]
      ring
    have q1 := g3 n1 i
    have q2 := k3 n2 i
    have hS' : (0 : Int) < s.config.encoder.scale := by exact_mod_cast hS
    have hroom' : 2 * (s.config.encoder.scale : Int) * (s.config.encoder.scale + 1) < 2 ^ 63 := by exact_mod_cast hroom
    have hXi : val X i = s.config.encoder.encode (.int (if a i then 1 else 0)) := congrFun hX i
    have hYi : val Y i = s.config.encoder.encode (.int (if b i then 1 else 0)) := congrFun hY i
    rw [hXi, hYi] at hw
    unfold num
    rw [hw]
    generalize val M i = M' at q2 ⊢
    generalize e i = e' at q1 q2
    simp only [FixedPointEncoder.encode, FixedPointEncoder.encodeInt] at q1 q2 ⊢
    generalize (s.config.encoder.scale : Nat) = S at hS' hroom' q1 q2 ⊢
    -- the first product
    have small : ∀ z : Int, |z| < 2 ^ 63 → (BitVec.ofInt 64 z).toInt = z := fun z hz => Program.toInt_of_abs (by exact_mod_cast hz)
    have r1 : |e'.toInt - (if (a i && b i) then (S : Int) else 0)| ≤ 1 := by
      have h : (BitVec.ofInt 64 ((if a i then 1 else 0) * (S : Int)) * BitVec.ofInt 64 ((if b i then 1 else 0) * (S : Int))).toInt
          = (if (a i && b i) then (S : Int) else 0) * S := by
        rw [← BitVec.ofInt_mul, small]
        · cases a i <;> cases b i <;> simp
        · cases a i <;> cases b i <;> simp
          nlinarith
      rw [h] at q1
      have q1' : |(e'.toInt - (if (a i && b i) then (S : Int) else 0)) * S| < 2 * S := by
        rw [sub_mul]
        exact_mod_cast q1
      rw [abs_mul, abs_of_pos hS'] at q1'
      have := lt_of_mul_lt_mul_right q1' hS'.le
      omega
    have r2 : |M'.toInt - 2 * e'.toInt| ≤ 1 := by
      have h : (e' * BitVec.ofInt 64 (2 * (S : Int))).toInt = 2 * e'.toInt * S := by
        have : e' * BitVec.ofInt 64 (2 * (S : Int)) = BitVec.ofInt 64 (e'.toInt * (2 * S)) := by rw [BitVec.ofInt_mul e'.toInt, BitVec.ofInt_toInt]
        rw [this, small]
        · ring
        · have : |e'.toInt| ≤ S + 1 := by
            cases h : (a i && b i) <;> simp only [h, if_true, if_false, Bool.false_eq_true] at r1 <;> rw [abs_le] at * <;> constructor <;> omega
          rw [abs_mul, abs_of_pos (by omega : (0 : Int) < 2 * S)]
          nlinarith
      rw [h] at q2
      have q2' : |(M'.toInt - 2 * e'.toInt) * S| < 2 * S := by
        rw [sub_mul]
        exact_mod_cast q2
      rw [abs_mul, abs_of_pos hS'] at q2'
      have := lt_of_mul_lt_mul_right q2' hS'.le
      omega
    have r3 : ∃ d : Int, |d| ≤ 3 ∧ (BitVec.ofInt 64 ((if a i then 1 else 0) * (S : Int)) + BitVec.ofInt 64 ((if b i then 1 else 0) * (S : Int)) - M').toInt
        = (if (a i ^^ b i) then 1 else 0) * S + d := by
      refine ⟨2 * (if (a i && b i) then (S : Int) else 0) - M'.toInt, ?_, ?_⟩
      · rw [abs_le] at *
        omega
      · have : BitVec.ofInt 64 ((if a i then 1 else 0) * (S : Int)) + BitVec.ofInt 64 ((if b i then 1 else 0) * (S : Int)) - M'
            = BitVec.ofInt 64 ((if a i then 1 else 0) * (S : Int) + (if b i then 1 else 0) * (S : Int) - M'.toInt) := by
          rw [sub_eq_iff_eq_add]
          rw [← BitVec.ofInt_add, show ∀ z : Int, BitVec.ofInt 64 (z - M'.toInt) + M' = BitVec.ofInt 64 z from fun z => by
            have := (BitVec.ofInt_add (n := 64) (z - M'.toInt) M'.toInt).symm
            rwa [BitVec.ofInt_toInt, sub_add_cancel] at this]
        rw [this, small]
        · cases a i <;> cases b i <;> simp only [Bool.and_self, Bool.and_true, Bool.and_false, Bool.xor_self, Bool.xor_true, Bool.xor_false, Bool.not_false, if_true, if_false, Bool.false_eq_true] <;> ring
        · have : (S : Int) + 3 < 2 ^ 63 := by
            have : (1 : Int) * 1 ≤ S * S := mul_le_mul hS' hS' (by norm_num) (by omega)
            rw [mul_add, mul_assoc] at hroom'
            omega
          rw [abs_le] at r1 r2
          rw [abs_lt]
          cases h1 : a i <;> cases h2 : b i <;> simp only [h1, h2, Bool.and_self, Bool.and_true, Bool.and_false, if_true, if_false, Bool.false_eq_true, one_mul, zero_mul] at r1 ⊢ <;>
            omega
    obtain ⟨d, d1, d2⟩ := r3
    have hSq : (0 : ℚ) < S := by exact_mod_cast hS'
    rw [d2]
    have : (((if (a i ^^ b i) then 1 else 0) * (S : Int) + d : Int) : ℚ) / S - (if (a i ^^ b i) then 1 else 0) = d / S := by
      push_cast
      field_simp
      ring
    rw [this, abs_div, abs_of_pos hSq]
    refine div_le_div_of_nonneg_right ?_ hSq.le
    exact_mod_cast d1

end

/-- shares of 1.5 and -2 with the default scale -/
def exScaledR : RMPC (Fin 2 → I64) :=
  exRep (2 ^ 64) {} (fun j => if j = 0 then 98304 else -131072) (fun _ => -5) (fun _ => 5)

/-- shares of the bits 1 and 0, and of 1 and 1 -/
def exBits1 : RMPC (Fin 2 → I64) := exRep (2 ^ 64) {} (fun j => if j = 0 then 65536 else 0) (fun _ => -5) (fun _ => 5)
def exBits2 : RMPC (Fin 2 → I64) := exRep (2 ^ 64) {} (fun _ => 65536) (fun _ => 7) (fun _ => -7)

example : exRSession.Three exREnv ∧ ScaleFits 64 exRSession.config ∧ 0 < exRSession.config.encoder.scale ∧
    2 * exRSession.config.encoder.scale * (exRSession.config.encoder.scale + 1) < 2 ^ 63 ∧
    exScaledR.Is ((powSem 64).tensor (Fin 2)) exRSession (2 ^ 64) exRSession.config (fun j => if j = 0 then 98304 else -131072) ∧
    (((2 : ℚ) * (1 + 2 / exRSession.config.encoder.scale)) ^ (2 * 3) * (exRSession.config.encoder.scale * exRSession.config.encoder.scale : ℚ) < 2 ^ 63) ∧
    (exMul ((powKit 64).tensor (Fin 2))).Ok ((powSem 64).tensor (Fin 2)) ((powSem 64).tensor (Fin 2)) ((powSem 64).tensor (Fin 2)) AddMonoidHom.mul
      exRSession (2 ^ 64) := by
  refine ⟨exRThree, Or.inl rfl, by decide, by decide, ?_, ?_, exMul_ok ((powKitSem 64 (by simp)).tensor (Fin 2))⟩
  · have h := exRep_is ((powSem 64).tensor (Fin 2)) (2 ^ 64) {} (fun j => if j = 0 then 98304 else -131072) (fun _ => -5) (fun _ => 5)
      (fun _ => trivial) (fun _ => trivial) (fun _ => trivial)
    have e : ((powSem 64).tensor (Fin 2)).den (fun j => if j = 0 then 98304 else -131072) + ((powSem 64).tensor (Fin 2)).den (fun _ => -5)
        + ((powSem 64).tensor (Fin 2)).den (fun _ => 5) = fun j => if j = 0 then 98304 else -131072 := by
      funext j
      show (if j = 0 then 98304 else -131072 : I64) + -5 + 5 = _
      ring
    rw [e] at h
    exact h
  · norm_num [show exRSession.config.encoder.scale = 65536 from rfl]

/-- 1.5 cubed and (-2) cubed -/
example : ((Term.pow ((powKit 64).tensor (Fin 2)) exREnv (fun _ => exMul ((powKit 64).tensor (Fin 2))) exScaledR 3).toOption.bind fun t =>
    match t with | .int _ => none | .mpc z => (z.reconstruct ((powOps 64).tensor (Fin 2))).toOption.map fun w => (w 0, w 1)) = some (221184, -524288) := by
  decide +kernel

/-- the bits 1 and 0 with the bits 1 and 1 -/
example : ((RMPC.xorPrivate ((powKit 64).tensor (Fin 2)) exREnv (exMul ((powKit 64).tensor (Fin 2))) (fun _ => 3) exBits1 exBits2).toOption.bind fun z =>
    (z.reconstruct ((powOps 64).tensor (Fin 2))).toOption.map fun w => (w 0, w 1)) = some (0, 65536) := by decide +kernel

/-- the product does not wrap -/
example : NoWrap exREnv exRSession (fun _ => exMul ((powKit 64).tensor (Fin 2))) (0, .mpc exBits1, .mpc exBits2) :=
  ⟨_, _, rfl, by decide +kernel⟩

end SyMPC.Scaled
