import Verif.Lemmas.Aby3
import Mathlib.Algebra.BigOperators.Intervals
import Mathlib.Data.Nat.Bitwise
import Mathlib.Data.ZMod.Basic
import Mathlib.FieldTheory.Finite.Basic
import Mathlib.Tactic.NormNum.Prime

namespace SyMPC

variable {E R ι : Type} [CommRing R] [Fintype ι]

omit [Fintype ι] in
/-- a drawn random bit tensor -/
theorem random_bits {env : Env} {s : Session} (hs : s.Three env) (draw : Nat → ι → Bool) :
    ∃ c, RMPC.random env s 2 draw = .ok c ∧ c.Bits s (fun j => draw 0 j ^^ draw 1 j ^^ draw 2 j) := by
  obtain ⟨x, c, h1, -, h2, h3⟩ := random3 hs (binSem.tensor ι) 2 draw (fun _ _ => trivial)
  refine ⟨x, h1, c, h2, ?_⟩
  have : (fun j => binDen (draw 0 j ^^ draw 1 j ^^ draw 2 j)) = (binSem.tensor ι).den (draw 0) + (binSem.tensor ι).den (draw 1)
      + (binSem.tensor ι).den (draw 2) := by
    funext j; rw [binDen_xor, binDen_xor]; rfl
  rw [this]
  exact h3

/-- xor of two shared bits in the bit ring needs no randomness -/
theorem xor_bits {env : Env} {s : Session} (hs : s.Three env) {x y : RMPC (ι → Bool)} {v w : ι → Bool}
    (hx : x.Bits s v) (hy : y.Bits s w) (rnd : MulRand (ι → Bool) (ι → Bool) (ι → Bool)) (r : ι → Bool) :
    ∃ z, RMPC.xorPrivate (binKit.tensor ι) env rnd r x y = .ok z ∧ z.Bits s (fun j => v j ^^ w j) := by
  obtain ⟨z, z1, z2⟩ := plain_lin hs .add hx hy
  have hxs : x.session = s := hx.choose_spec.2.choose_spec.1.session
  have hys : y.session = s := hy.choose_spec.2.choose_spec.1.session
  obtain ⟨p, h1, h2, -⟩ := first_share hs hx.choose_spec.2
  refine ⟨z, ?_, ?_⟩
  · unfold RMPC.xorPrivate
    rw [hxs, hys, checkPrivate_self, ok_bind, h1, ok_bind, h2, if_pos rfl]
    exact z1
  · have : (fun j => binDen (v j ^^ w j)) = LinOp.den .add (fun j => binDen (v j)) (fun j => binDen (w j)) := by
      funext j; simp [LinOp.den, binDen_xor]
    unfold RMPC.Bits
    rw [this]
    exact z2

omit [Fintype ι] in
/-- public int64 tensors with values 0 and 1 -/
theorem pub_long {K : RingKit E} {S : RingSem K.ops R} (hK : KitSem K S) {t : ι → I64} {b : ι → Bool}
    (ht : ∀ j, t j = if b j then 1 else 0) :
    PubIs (S.tensor ι) K.size (Falcon.encLong K t) (fun j => if b j then 1 else 0) := by
  intro c hc
  have key : ∀ j, S.Valid (K.enc c (.long (t j))) ∧ S.den (K.enc c (.long (t j))) = if b j then 1 else 0 := by
    intro j
    have hti : (t j).toInt = if b j then 1 else 0 := by rw [ht j]; cases b j <;> decide
    obtain ⟨h1, h2⟩ := hK.encLong c (t j) hc (fun _ => by rw [hti]; cases b j <;> simp)
    refine ⟨h1, ?_⟩
    rw [h2, hti]
    cases b j <;> simp
  exact ⟨fun j => (key j).1, funext fun j => (key j).2⟩

/-- what the randomness of `select_shares` may be -/
structure Falcon.SelectRand.Ok {K : RingKit E} (S : RingSem K.ops R) (s : Session) (rnd : Falcon.SelectRand E ι) : Prop where
  inj1 : rnd.inj1.mul.Ok (S.tensor ι) (S.tensor ι) (S.tensor ι) AddMonoidHom.mul s K.size
  inj1' : (S.tensor ι).Valid rnd.inj1.trunc
  inj2 : rnd.inj2.mul.Ok (S.tensor ι) (S.tensor ι) (S.tensor ι) AddMonoidHom.mul s K.size
  inj2' : (S.tensor ι).Valid rnd.inj2.trunc
  m1 : (S.tensor ι).Valid rnd.m1
  m2 : (S.tensor ι).Valid rnd.m2
  m3 : (S.tensor ι).Valid rnd.m3
  mul : rnd.mul.Ok (S.tensor ι) (S.tensor ι) (S.tensor ι) AddMonoidHom.mul s K.size

theorem select3 [DecidableEq E] {env : Env} {s : Session} (hs : s.Three env) {K : RingKit E} {S : RingSem K.ops R}
    (hK : KitSem K S) (h2 : K.size = 2 → (2 : R) = 0) {rnd : Falcon.SelectRand E ι} (hr : rnd.Ok S s)
    {x y : RMPC (ι → E)} {c c' : Config} {v w : ι → R} (hx : x.Is (S.tensor ι) s K.size c v)
    (hy : y.Is (S.tensor ι) s K.size c' w) {b : RMPC (ι → Bool)} {sel : ι → Bool} (hb : b.Bits s sel) :
    ∃ z, Falcon.selectShares K env rnd x y b = .ok z ∧
      z.Is (S.tensor ι) s K.size (RST.initConfig c K.size) (fun j => if sel j then w j else v j) := by
  have hKt := hK.tensor ι
  have hxs : x.session = s := hx.choose_spec.1.session
  obtain ⟨p, p1, p2, -⟩ := first_share hs hb.choose_spec.2
  obtain ⟨cb, c1, c2⟩ := random_bits hs rnd.bit
  set C : ι → Bool := fun j => rnd.bit 0 j ^^ rnd.bit 1 j ^^ rnd.bit 2 j with hC
  obtain ⟨cr, i1, i2⟩ := injection_bits hs hK h2 c2 hr.inj1 hr.inj1' hr.inj2 hr.inj2'
  obtain ⟨bc, b1, b2⟩ := xor_bits hs hb c2 ⟨fun _ _ => false, fun _ => .error .emptyStore, fun _ => false⟩ (fun _ => false)
  have b3 := bits_reconstruct hs b2
  have hm : PubIs (S.tensor ι) K.size (Falcon.encLong K fun j => if (sel j ^^ C j) = true then (1 : I64) else 0)
      (fun j => if (sel j ^^ C j) = true then 1 else 0) := pub_long hK fun j => rfl
  have hm' : PubIs (S.tensor ι) K.size (Falcon.encLong K fun j => (if (sel j ^^ C j) = true then (1 : I64) else 0) ^^^ 1)
      (fun j => if (!(sel j ^^ C j)) = true then 1 else 0) := pub_long hK fun j => by cases (sel j ^^ C j) <;> rfl
  obtain ⟨z1, e1, f1⟩ := plain_mulEnc (K := K.tensor ι) (S := S.tensor ι) hs hKt i2 hm rnd.m1 hr.m1
  obtain ⟨z2, e2, f2⟩ := plain_rsubEnc (env := env) (K := K.tensor ι) (S := S.tensor ι) hs hKt f1 hm rnd.m2 hr.m2
  obtain ⟨z3, e3, f3⟩ := plain_mulEnc (K := K.tensor ι) (S := S.tensor ι) hs hKt i2 hm' rnd.m3 hr.m3
  obtain ⟨d, e4, f4⟩ := plain_lin hs .add f2 f3
  obtain ⟨yx, e5, f5⟩ := is_privateLin hs (S.tensor ι) .sub hy hx
  obtain ⟨cd, hcd, f4⟩ := f4
  obtain ⟨k, hk⟩ := getOp_ok (op := .mul) hKt.ring (by decide)
  obtain ⟨t, e6, ct, -, f6⟩ := mulMaster_plain (KA := K.tensor ι) (KB := K.tensor ι) (KC := K.tensor ι) (P := (K.tensor ι).product) (env := env) hs hKt
    (product_sem (K := K.tensor ι) (S.tensor ι)) f4 f5 hcd hk hr.mul
  obtain ⟨z, e7, f7⟩ := is_privateLin hs (S.tensor ι) .add hx f6
  refine ⟨z, ?_, ?_⟩
  · unfold Falcon.selectShares
    rw [p1, ok_bind, p2, if_neg (by simp)]
    dsimp only
    rw [hxs, c1, ok_bind, i1, ok_bind, b1, ok_bind, b3, ok_bind, e1, ok_bind, e2, ok_bind, e3, ok_bind]
    refine (congrArg (· >>= _) e4).trans ?_
    rw [ok_bind]
    refine (congrArg (· >>= _) e5).trans ?_
    rw [ok_bind]
    refine (congrArg (· >>= _) e6).trans ?_
    rw [ok_bind]
    exact e7
  · convert f7 using 1
    funext j
    show _ = v j + ((if (sel j ^^ C j) = true then (1 : R) else 0) - (if C j then 1 else 0) * (if (sel j ^^ C j) = true then 1 else 0)
      + (if C j then 1 else 0) * (if (!(sel j ^^ C j)) = true then 1 else 0)) * (w j - v j)
    cases sel j <;> cases C j <;> simp

/-! ## The random multiplier -/

instance : Fact (Nat.Prime 67) := ⟨by norm_num⟩

/-- what the randomness of an attempt may be -/
structure Falcon.GroupRand.Ok (s : Session) (g : Falcon.GroupRand (BitVec 8) ι) : Prop where
  draw : ∀ i, primeSem.Valid (g.draw i)
  pow : ∀ k, (g.pow k).Ok (primeSem.tensor ι) (primeSem.tensor ι) (primeSem.tensor ι) AddMonoidHom.mul s 67

/-- the scalar drawn in an attempt -/
def Falcon.GroupRand.value (g : Falcon.GroupRand (BitVec 8) ι) : ZMod 67 :=
  primeSem.den (g.draw 0) + primeSem.den (g.draw 1) + primeSem.den (g.draw 2)

theorem group3 {env : Env} {s : Session} (hs : s.Three env) :
    ∀ gs : List (Falcon.GroupRand (BitVec 8) ι), (∀ g ∈ gs, g.Ok s) → (∃ g ∈ gs, g.value ≠ 0) →
      ∃ m μ, Falcon.randomPrimeGroup primeKit env s gs = .ok m ∧ m.Plain (primeSem.tensor ι) s 67 (fun _ => μ) ∧
        ∀ _ : ι, μ ≠ 0
  | [], _, h => by obtain ⟨g, hg, _⟩ := h; simp at hg
  | g :: gs, hok, hne => by
    have hg := hok g (by simp)
    obtain ⟨m, c, m1, -, m2, m3⟩ := random3 hs (primeSem.tensor ι) 67 (fun r _ => g.draw r) (fun i _ => hg.draw i)
    have m3 : m.Is (primeSem.tensor ι) s 67 c (fun _ => g.value) := m3
    obtain ⟨t, t1, -, t2⟩ := term_pow (env := env) (K := primeKit.tensor ι) (S := primeSem.tensor ι) hs
      (primeKitSem.tensor ι) ⟨c, m2, m3⟩ hg.pow 66
    obtain ⟨me, rfl, me2⟩ := t2 (by omega)
    obtain ⟨e, e1, e2, e3⟩ := plain_reconstruct hs me2
    have hrun : Falcon.randomPrimeGroup primeKit env s (g :: gs)
        = if e = fun _ => primeKit.ofBool true then .ok m else Falcon.randomPrimeGroup primeKit env s gs := by
      rw [Falcon.randomPrimeGroup]
      rw [show (primeNumber : Nat) = 67 from rfl, m1, ok_bind]
      rw [show (((67 : Nat) : Int) - 1) = ((66 : Nat) : Int) from rfl, t1, ok_bind]
      dsimp only
      rw [e1, ok_bind]
      rfl
    have hone : ∀ j : ι, (primeSem.tensor ι).den (fun _ => primeKit.ofBool true) j = 1 := by
      intro j
      show primeSem.den (primeKit.ofBool true) = 1
      rw [(primeKitSem.ofBool true).2]; rfl
    rw [hrun]
    by_cases he : e = fun _ => primeKit.ofBool true
    · rw [if_pos he]
      refine ⟨m, g.value, rfl, ⟨c, m2, m3⟩, ?_⟩
      intro j h0
      have := congrFun e3 j
      rw [he, hone j] at this
      simp [h0] at this
    · rw [if_neg he]
      apply group3 hs gs (fun g hg => hok g (by simp [hg]))
      obtain ⟨g', hg', hv⟩ := hne
      rcases List.mem_cons.mp hg' with rfl | hg'
      · exfalso
        apply he
        apply (primeSem.tensor ι).inj _ _ e2 (fun _ => (primeKitSem.ofBool true).1)
        rw [e3]
        funext j
        rw [hone j]
        exact ZMod.pow_card_sub_one_eq_one hv
      · exact ⟨g', hg', hv⟩

/-! ## Private comparison -/

/-- the differing bits from `i` on -/
def diffs (n : Nat) (x r : Nat → Bool) (i : Nat) : Nat := ∑ k ∈ Finset.Ico i n, if x k ^^ r k then 1 else 0

/-- the factor `c[k]` as an integer -/
def factor (n : Nat) (β : Bool) (x r : Nat → Bool) (k : Nat) : Int :=
  (1 - 2 * (if β then 1 else 0)) * ((if x k then 1 else 0) - (if r k then 1 else 0)) + 1 + diffs n x r (k + 1)

theorem diffs_step {n : Nat} (x r : Nat → Bool) {i : Nat} (h : i < n) :
    diffs n x r i = diffs n x r (i + 1) + if x i ^^ r i then 1 else 0 := by
  unfold diffs
  rw [Finset.sum_eq_sum_Ico_succ_bot h, add_comm]

theorem diffs_top (n : Nat) (x r : Nat → Bool) : diffs n x r n = 0 := by simp [diffs]

theorem diffs_le (n : Nat) (x r : Nat → Bool) (i : Nat) : diffs n x r i ≤ n - i := by
  unfold diffs
  calc _ ≤ ∑ _k ∈ Finset.Ico i n, 1 := Finset.sum_le_sum fun k _ => by split <;> omega
    _ = n - i := by simp

theorem diffs_zero {n : Nat} {x r : Nat → Bool} {i : Nat} : diffs n x r i = 0 ↔ ∀ k, i ≤ k → k < n → x k = r k := by
  unfold diffs
  rw [Finset.sum_eq_zero_iff]
  constructor
  · intro h k h1 h2
    have := h k (Finset.mem_Ico.mpr ⟨h1, h2⟩)
    revert this; cases x k <;> cases r k <;> simp
  · intro h k hk
    obtain ⟨h1, h2⟩ := Finset.mem_Ico.mp hk
    rw [h k h1 h2]; simp

theorem factor_bounds {n : Nat} {β : Bool} {x r : Nat → Bool} {k : Nat} (hk : k < n) :
    0 ≤ factor n β x r k ∧ factor n β x r k ≤ n + 1 := by
  have := diffs_le n x r (k + 1)
  unfold factor
  cases β <;> cases x k <;> cases r k <;> simp <;> omega

theorem factor_zero {n : Nat} {β : Bool} {x r : Nat → Bool} {k : Nat} :
    factor n β x r k = 0 ↔ (x k = β ∧ r k = !β) ∧ ∀ l, k < l → l < n → x l = r l := by
  have h : diffs n x r (k + 1) = 0 ↔ ∀ l, k < l → l < n → x l = r l := diffs_zero
  rw [← h]
  unfold factor
  cases β <;> cases x k <;> cases r k <;> simp <;> omega

theorem testBit_lt_iff {n X Y : Nat} (hX : X < 2 ^ n) (hY : Y < 2 ^ n) :
    X < Y ↔ ∃ k < n, (X.testBit k = false ∧ Y.testBit k = true) ∧ ∀ l, k < l → l < n → X.testBit l = Y.testBit l := by
  have hhigh : ∀ {Z l}, Z < 2 ^ n → n ≤ l → Nat.testBit Z l = false := fun {Z l} hZ hl =>
    Nat.testBit_lt_two_pow (lt_of_lt_of_le hZ (Nat.pow_le_pow_right (by omega) hl))
  constructor
  · intro hlt
    have hne : X ^^^ Y ≠ 0 := by
      intro h
      have : X = Y := by
        apply Nat.eq_of_testBit_eq
        intro i
        have := congrArg (fun t => Nat.testBit t i) h
        rw [Nat.zero_testBit, Nat.testBit_xor] at this
        revert this; cases X.testBit i <;> cases Y.testBit i <;> simp
      omega
    obtain ⟨k, h1, h2⟩ := Nat.exists_most_significant_bit hne
    rw [Nat.testBit_xor] at h1
    have h3 : ∀ l, k < l → X.testBit l = Y.testBit l := by
      intro l hl
      have := h2 l hl
      rw [Nat.testBit_xor] at this
      revert this; cases X.testBit l <;> cases Y.testBit l <;> simp
    have hkn : k < n := by
      by_contra hk
      rw [hhigh hX (by omega), hhigh hY (by omega)] at h1
      simp at h1
    refine ⟨k, hkn, ?_, fun l hl _ => h3 l hl⟩
    cases hx : X.testBit k <;> cases hy : Y.testBit k <;> rw [hx, hy] at h1 <;> simp at h1 ⊢
    have := Nat.lt_of_testBit k hy hx (fun l hl => (h3 l hl).symm)
    omega
  · rintro ⟨k, hk, ⟨h1, h2⟩, h3⟩
    apply Nat.lt_of_testBit k h1 h2
    intro l hl
    by_cases hln : l < n
    · exact h3 l hl hln
    · rw [hhigh hX (by omega), hhigh hY (by omega)]

/-- some factor is zero exactly if the comparison fails -/
theorem factor_exists {n X Y : Nat} (hX : X < 2 ^ n) (hY : Y < 2 ^ n) (β : Bool) :
    (∃ k < n, factor n β X.testBit Y.testBit k = 0) ↔ if β then Y < X else X < Y := by
  simp only [factor_zero]
  cases β
  · simp only [Bool.not_false, Bool.false_eq_true, if_false]
    rw [testBit_lt_iff hX hY]
  · simp only [Bool.not_true, if_true]
    rw [testBit_lt_iff hY hX]
    constructor
    · rintro ⟨k, h1, ⟨h2, h3⟩, h4⟩; exact ⟨k, h1, ⟨h3, h2⟩, fun l a b => (h4 l a b).symm⟩
    · rintro ⟨k, h1, ⟨h2, h3⟩, h4⟩; exact ⟨k, h1, ⟨h3, h2⟩, fun l a b => (h4 l a b).symm⟩

theorem mathProd_spec [DecidableEq E] {env : Env} {s : Session} (hs : s.Three env) {K : RingKit E} {S : RingSem K.ops R}
    (hK : KitSem K S) {rnd : Nat → MulRand E E E} (hr : ∀ k, (rnd k).Ok S S S AddMonoidHom.mul s K.size) :
    ∀ (cs : List (Term E)) (f : Nat → R) (k : Nat) (acc : Term E) (a : R),
      (∀ i < cs.length, ∃ t, cs[i]? = some t ∧ t.Is S s (f i)) → acc.Is S s a →
      ∃ t, Falcon.mathProd K env rnd cs k acc = .ok t ∧ t.Is S s (a * ((List.range cs.length).map f).prod)
  | [], f, k, acc, a, _, h => ⟨acc, rfl, by simpa using h⟩
  | c :: cs, f, k, acc, a, hc, h => by
    obtain ⟨t, t1, t2⟩ := hc 0 (by simp)
    obtain rfl : c = t := by simpa using t1
    obtain ⟨u, u1, u2⟩ := term_mul (env := env) hs hK h t2 (hr k)
    obtain ⟨v, v1, v2⟩ := mathProd_spec hs hK hr cs (fun i => f (i + 1)) (k + 1) u (a * f 0)
      (fun i hi => by simpa using hc (i + 1) (by simpa using hi)) u2
    refine ⟨v, by rw [Falcon.mathProd, u1, ok_bind, v1], ?_⟩
    rw [List.length_cons, List.range_succ_eq_map, List.map_cons, List.map_map, List.prod_cons, ← mul_assoc]
    exact v2

/-- what the randomness of a round may be -/
structure Falcon.RoundRand.Ok {K : RingKit E} (S : RingSem K.ops R) (s : Session) (r : Falcon.RoundRand E) : Prop where
  dbl : S.Valid r.dbl
  one : S.Valid r.one
  u : r.u.Ok S S S AddMonoidHom.mul s K.size
  prod : ∀ k, (r.prod k).Ok S S S AddMonoidHom.mul s K.size
  last : r.last.Ok S S S AddMonoidHom.mul s K.size

theorem bit_of_int64 (t : I64) {i : Nat} (hi : i < 64) : t.sshiftRight i &&& 1 = if t.getLsbD i then 1 else 0 := by
  apply BitVec.eq_of_getLsbD_eq
  intro k hk
  rw [BitVec.getLsbD_and, BitVec.getLsbD_sshiftRight]
  have h1 : (1 : I64).getLsbD k = decide (k = 0) := by
    show (1#64).getLsbD k = _
    rw [BitVec.getLsbD_one]; simp
  rw [h1]
  by_cases hk0 : k = 0
  · subst hk0
    have : ¬ (64 ≤ i) := by omega
    cases hb : t.getLsbD i <;> simp [hi]
  · have h0 : (if t.getLsbD i = true then (1 : I64) else 0).getLsbD k = false := by
      split
      · rw [h1]; simp [hk0]
      · exact BitVec.getLsbD_zero
    rw [h0]; simp [hk0]

theorem RMPC.Plain.congr {I : RingOps E} {S : RingSem I R} {s : Session} {x : RMPC E} {q : Nat} {v v' : R}
    (h : x.Plain S s q v) (e : v = v') : x.Plain S s q v' := e ▸ h

/-- the state of the loop when the bits from `i` on are done -/
structure LoopState {K : RingKit E} (S : RingSem K.ops R) (s : Session) (n : Nat) (β : ι → Bool) (x r : ι → Nat → Bool)
    (i : Nat) (st : Falcon.CompareState (ι → E)) : Prop where
  length : st.c.length = n
  c : ∀ k < n, ∃ t, st.c[k]? = some t ∧ Term.Is (K := K.tensor ι) (S.tensor ι) s t
    (fun j => if i ≤ k then ((factor n (β j) (x j) (r j) k : Int) : R) else 0)
  w : Term.Is (K := K.tensor ι) (S.tensor ι) s st.w (fun j => ((diffs n (x j) (r j) i : Nat) : R))

theorem round3 [DecidableEq E] {env : Env} {s : Session} (hs : s.Three env) {K : RingKit E} {S : RingSem K.ops R}
    (hK : KitSem K S) (hq : K.size ≠ 2) {rnd : Falcon.RoundRand (ι → E)}
    (hr : Falcon.RoundRand.Ok (K := K.tensor ι) (S.tensor ι) s rnd)
    {n : Nat} (hn : n ≤ 64) {xs : List (RMPC (ι → E))} {x : ι → Nat → Bool} {r : ι → I64}
    (hx : ∀ k < n, ∃ t, xs[k]? = some t ∧ t.Plain (S.tensor ι) s K.size (fun j => if x j k then 1 else 0))
    {betaP m : RMPC (ι → E)} {β : ι → Bool} {μ : ι → R}
    (hb : betaP.Plain (S.tensor ι) s K.size (fun j => if β j then 1 else 0)) (hm : m.Plain (S.tensor ι) s K.size μ)
    {i : Nat} (hi : i < n) {st : Falcon.CompareState (ι → E)}
    (hst : LoopState S s n β x (fun j => (r j).getLsbD) (i + 1) st) :
    ∃ st' d, Falcon.compareRound K env rnd xs r betaP m i st = .ok st' ∧ st'.d = some d ∧
      LoopState S s n β x (fun j => (r j).getLsbD) i st' ∧
      d.Plain (S.tensor ι) s K.size (fun j => μ j * ((List.range n).map fun k =>
        if i ≤ k then ((factor n (β j) (x j) (r j).getLsbD k : Int) : R) else 0).prod) := by
  have hKt := hK.tensor ι
  have hri : PubIs (S.tensor ι) K.size (Falcon.encLong K fun j => (r j).sshiftRight i &&& 1)
      (fun j => if (r j).getLsbD i then 1 else 0) := pub_long hK fun j => bit_of_int64 (r j) (by omega)
  obtain ⟨xi, x1, x2⟩ := hx i hi
  obtain ⟨dbl, a1, a2⟩ := plain_mulPublic (env := env) (K := K.tensor ι) (S := S.tensor ι) hs hKt hb (p := .int 2) (k := 2)
    ⟨.inl rfl, fun h => absurd h hq⟩ _ hr.dbl
  obtain ⟨sgn, b1, b2⟩ := plain_rsub (env := env) (K := K.tensor ι) (S := S.tensor ι) hs hKt a2 (p := .int 1) (k := 1)
    ⟨.inl rfl, fun h => absurd h hq⟩ _ hr.one
  obtain ⟨dif, c1, c2⟩ := plain_linEnc (env := env) hs .sub x2 hri
  obtain ⟨u, d1, d2⟩ := plain_mul (env := env) (K := K.tensor ι) (S := S.tensor ι) hs hKt b2 c2 hr.u
  obtain ⟨u1, e1, e2⟩ := plain_linPublic (env := env) (K := K.tensor ι) (S := S.tensor ι) hs hKt .add d2 (p := .int 1) (k := 1)
    ⟨.inl rfl, fun h => absurd h hq⟩
  obtain ⟨ci, f1, f2⟩ := term_addMpc (env := env) (K := K.tensor ι) (S := S.tensor ι) hs hKt e2 hst.w
  obtain ⟨xr, g1, g2⟩ := plain_xorEnc (env := env) (K := K.tensor ι) (S := S.tensor ι) hs hKt x2 hri
  obtain ⟨w, k1, k2⟩ := term_add_right (env := env) (K := K.tensor ι) (S := S.tensor ι) hs hKt g2 hst.w
  have hci : ci.Plain (S.tensor ι) s K.size (fun j => ((factor n (β j) (x j) (r j).getLsbD i : Int) : R)) := by
    refine (f2 : ci.Plain (S.tensor ι) s K.size _).congr ?_
    funext j
    simp only [factor, LinOp.den]
    push_cast
    simp only [Pi.add_apply, Pi.mul_apply, Pi.sub_apply, Pi.ofNat_apply]
    cases β j <;> cases x j i <;> cases (r j).getLsbD i <;> simp
  have hw : w.Plain (S.tensor ι) s K.size (fun j => ((diffs n (x j) (r j).getLsbD i : Nat) : R)) := by
    refine (k2 : w.Plain (S.tensor ι) s K.size _).congr ?_
    funext j
    symm
    show _ = ((diffs n (x j) (r j).getLsbD (i + 1) : Nat) : R) + (xorVal K.size (fun j => if x j i then (1 : R) else 0)
      (fun j => if (r j).getLsbD i then 1 else 0)) j
    have : (xorVal K.size (fun j => if x j i then (1 : R) else 0) (fun j => if (r j).getLsbD i then 1 else 0)) j
        = xorVal K.size (if x j i then (1 : R) else 0) (if (r j).getLsbD i then 1 else 0) := by
      unfold xorVal; rw [if_neg hq, if_neg hq]; rfl
    rw [this, xorVal_bits (fun h => absurd h hq), diffs_step _ _ hi]
    push_cast
    cases (x j i ^^ (r j).getLsbD i) <;> simp
  have hst' : LoopState S s n β x (fun j => (r j).getLsbD) i ⟨st.c.set i (.mpc ci), .mpc w, none⟩ := by
    refine ⟨by simp [hst.length], ?_, hw⟩
    intro k hk
    by_cases hki : k = i
    · subst hki
      refine ⟨.mpc ci, by simp [hst.length, hk], ?_⟩
      simp only [le_refl, if_true]
      exact hci
    · obtain ⟨t, t1, t2⟩ := hst.c k hk
      refine ⟨t, by simp [List.getElem?_set_ne (Ne.symm hki), t1], ?_⟩
      have : (i ≤ k) ↔ (i + 1 ≤ k) := by omega
      simp only [this]
      exact t2
  obtain ⟨p, p1, p2⟩ := mathProd_spec (env := env) (K := K.tensor ι) (S := S.tensor ι) hs hKt hr.prod (st.c.set i (.mpc ci))
    (fun k j => if i ≤ k then ((factor n (β j) (x j) (r j).getLsbD k : Int) : R) else 0) 0 (.int 1) 1
    (by rw [hst'.length]; exact hst'.c) ⟨fun _ => .inr (.inr rfl), by simp⟩
  obtain ⟨d, q1, q2⟩ := term_mulMpc (env := env) (K := K.tensor ι) (S := S.tensor ι) hs hKt hm p2 hr.last
  refine ⟨⟨st.c.set i (.mpc ci), .mpc w, some d⟩, d, ?_, rfl, ⟨hst'.length, hst'.c, hst'.w⟩, ?_⟩
  · unfold Falcon.compareRound
    dsimp only
    rw [a1, ok_bind, b1, ok_bind, show pyGet xs i = .ok xi by simp [pyGet, x1], ok_bind]
    refine (congrArg (· >>= _) c1).trans ?_
    rw [ok_bind, d1, ok_bind, e1, ok_bind, f1, ok_bind, g1, ok_bind, k1, ok_bind, p1, ok_bind, q1, ok_bind]
    rfl
  · refine (q2 : d.Plain (S.tensor ι) s K.size _).congr ?_
    funext j
    symm
    rw [one_mul, hst'.length]
    show _ = μ j * (((List.range n).map _).prod : ι → R) j
    congr 1
    have : ∀ l : List Nat, ((l.map fun k => if i ≤ k then ((factor n (β j) (x j) (r j).getLsbD k : Int) : R) else 0).prod)
        = ((l.map fun k (j : ι) => if i ≤ k then ((factor n (β j) (x j) (r j).getLsbD k : Int) : R) else 0).prod : ι → R) j := by
      intro l
      induction l with
      | nil => rfl
      | cons a l ih => simp only [List.map_cons, List.prod_cons, Pi.mul_apply, ih]
    exact this _

theorem loop3 [DecidableEq E] {env : Env} {s : Session} (hs : s.Three env) {K : RingKit E} {S : RingSem K.ops R}
    (hK : KitSem K S) (hq : K.size ≠ 2) {n : Nat} {rnd : Nat → Falcon.RoundRand (ι → E)}
    (hr : ∀ k < n, Falcon.RoundRand.Ok (K := K.tensor ι) (S.tensor ι) s (rnd k))
    (hn : n ≤ 64) {xs : List (RMPC (ι → E))} {x : ι → Nat → Bool} {r : ι → I64}
    (hx : ∀ k < n, ∃ t, xs[k]? = some t ∧ t.Plain (S.tensor ι) s K.size (fun j => if x j k then 1 else 0))
    {betaP m : RMPC (ι → E)} {β : ι → Bool} {μ : ι → R}
    (hb : betaP.Plain (S.tensor ι) s K.size (fun j => if β j then 1 else 0)) (hm : m.Plain (S.tensor ι) s K.size μ) :
    ∀ (i : Nat), i ≤ n → ∀ st, LoopState S s n β x (fun j => (r j).getLsbD) i st →
      ∃ st', Falcon.compareLoop K env rnd xs r betaP m i st = .ok st' ∧ LoopState S s n β x (fun j => (r j).getLsbD) 0 st' ∧
        (0 < i → ∃ d, st'.d = some d ∧ d.Plain (S.tensor ι) s K.size (fun j => μ j * ((List.range n).map fun k =>
          ((factor n (β j) (x j) (r j).getLsbD k : Int) : R)).prod)) := by
  intro i
  induction i with
  | zero => intro _ st hst; exact ⟨st, rfl, hst, fun h => absurd h (lt_irrefl 0)⟩
  | succ i ih =>
    intro hi st hst
    obtain ⟨st1, d, h1, h2, h3, h4⟩ := round3 (env := env) hs hK hq (hr i (by omega)) hn hx hb hm (by omega : i < n) hst
    obtain ⟨st2, k1, k2, k3⟩ := ih (by omega) st1 h3
    refine ⟨st2, by rw [Falcon.compareLoop, h1, ok_bind, k1], k2, fun _ => ?_⟩
    by_cases h0 : 0 < i
    · exact k3 h0
    · obtain rfl : i = 0 := by omega
      rw [Falcon.compareLoop] at k1
      obtain rfl : st1 = st2 := by simpa using k1
      exact ⟨d, h2, by simpa using h4⟩

/-- what the randomness of a comparison may be: the draws are in the range of their ring and the masks sum to zero -/
structure Falcon.CompareRand.Ok (s : Session) (n : Nat) (rnd : Falcon.CompareRand (BitVec 8) ι) : Prop where
  inj1 : rnd.inj1.mul.Ok (primeSem.tensor ι) (primeSem.tensor ι) (primeSem.tensor ι) AddMonoidHom.mul s 67
  inj1' : (primeSem.tensor ι).Valid rnd.inj1.trunc
  inj2 : rnd.inj2.mul.Ok (primeSem.tensor ι) (primeSem.tensor ι) (primeSem.tensor ι) AddMonoidHom.mul s 67
  inj2' : (primeSem.tensor ι).Valid rnd.inj2.trunc
  group : ∀ g ∈ rnd.group, g.Ok s
  nonzero : ∃ g ∈ rnd.group, g.value ≠ 0
  round : ∀ k < n, Falcon.RoundRand.Ok (K := primeKit.tensor ι) (primeSem.tensor ι) s (rnd.round k)

/-- the random bit drawn in a comparison -/
def Falcon.CompareRand.beta (rnd : Falcon.CompareRand (BitVec 8) ι) (j : ι) : Bool :=
  rnd.bit 0 j ^^ rnd.bit 1 j ^^ rnd.bit 2 j

theorem prod_zero_iff {n : Nat} (hn : n ≤ 64) (f : Nat → Int) (hf : ∀ k < n, 0 ≤ f k ∧ f k ≤ n + 1) :
    (((List.range n).map fun k => ((f k : Int) : ZMod 67)).prod = 0) ↔ ∃ k < n, f k = 0 := by
  rw [List.prod_eq_zero_iff]
  simp only [List.mem_map, List.mem_range]
  constructor
  · rintro ⟨k, hk, h⟩
    refine ⟨k, hk, ?_⟩
    have h := (ZMod.intCast_zmod_eq_zero_iff_dvd (f k) 67).mp h
    have := hf k hk
    push_cast at h
    omega
  · rintro ⟨k, hk, h⟩
    exact ⟨k, hk, by rw [h]; simp⟩

theorem compare3 {env : Env} {s : Session} (hs : s.Three env) {xs : List (RMPC (ι → BitVec 8))}
    (hn0 : 0 < xs.length) (hn : xs.length ≤ 64) {rnd : Falcon.CompareRand (BitVec 8) ι} (hr : rnd.Ok s xs.length)
    {X : ι → Nat} (hX : ∀ j, X j < 2 ^ xs.length) (r : ι → I64)
    (hx : ∀ k < xs.length, ∃ t, xs[k]? = some t ∧
      t.Plain (primeSem.tensor ι) s 67 (fun j => if (X j).testBit k then 1 else 0)) :
    ∃ z, Falcon.privateCompare primeKit env rnd xs r = .ok z ∧
      z.Bits s (fun j => if rnd.beta j then decide ((r j).toNat % 2 ^ xs.length < X j)
        else decide ((r j).toNat % 2 ^ xs.length ≤ X j)) := by
  obtain ⟨x0, a1, a2⟩ := hx 0 hn0
  have hx0 : x0.session = s := a2.choose_spec.2.choose_spec.1.session
  obtain ⟨beta2, b1, b2⟩ := random_bits hs rnd.bit
  have b2 : beta2.Bits s rnd.beta := b2
  obtain ⟨betaP, c1, c2⟩ := injection_bits (env := env) (K := primeKit) hs primeKitSem (fun h => absurd h (by decide)) b2
    hr.inj1 hr.inj1' hr.inj2 hr.inj2'
  obtain ⟨m, μ, d1, d2, d3⟩ := group3 hs rnd.group hr.group hr.nonzero
  have hinit : LoopState (K := primeKit) primeSem s xs.length rnd.beta (fun j => (X j).testBit) (fun j => (r j).getLsbD)
      xs.length ⟨List.replicate xs.length (.int 0), .int 0, none⟩ := by
    refine ⟨by simp, ?_, ?_⟩
    · intro k hk
      refine ⟨.int 0, by simp [hk], fun _ => by simp, ?_⟩
      funext j
      simp [show ¬ xs.length ≤ k by omega]
    · refine ⟨fun _ => by simp, ?_⟩
      funext j
      simp [diffs_top]
  obtain ⟨st, e1, -, e2⟩ := loop3 (env := env) hs (K := primeKit) primeKitSem (by decide) hr.round hn
    (x := fun j => (X j).testBit) (r := r) hx c2 d2 xs.length le_rfl _ hinit
  obtain ⟨d, f1, f2⟩ := e2 hn0
  obtain ⟨v, g1, g2, g3⟩ := plain_reconstruct hs f2
  -- the opened value is zero exactly if a factor is
  have hzero : ∀ j, primeKit.isZero (v j) = true ↔
      if rnd.beta j then (r j).toNat % 2 ^ xs.length < X j else X j < (r j).toNat % 2 ^ xs.length := by
    intro j
    have hv : primeSem.den (v j) = _ := congrFun g3 j
    rw [primeKitSem.isZero _ (g2 j), hv, mul_eq_zero, or_iff_right (d3 j),
      prod_zero_iff hn _ (fun k hk => factor_bounds hk)]
    rw [← factor_exists (hX j) (Nat.mod_lt _ (by positivity)) (rnd.beta j)]
    have hbits : ∀ k < xs.length, factor xs.length (rnd.beta j) (X j).testBit (r j).getLsbD k
        = factor xs.length (rnd.beta j) (X j).testBit ((r j).toNat % 2 ^ xs.length).testBit k := by
      intro k hk
      have hb : ∀ l < xs.length, ((r j).toNat % 2 ^ xs.length).testBit l = (r j).getLsbD l := by
        intro l hl
        rw [Nat.testBit_mod_two_pow]
        simp [hl, BitVec.getLsbD]
      have hd : diffs xs.length (X j).testBit (r j).getLsbD (k + 1)
          = diffs xs.length (X j).testBit ((r j).toNat % 2 ^ xs.length).testBit (k + 1) := by
        apply Finset.sum_congr rfl
        intro l hl
        rw [hb l (Finset.mem_Ico.mp hl).2]
      unfold factor
      rw [hd, hb k hk]
    constructor
    · rintro ⟨k, h1, h2⟩; exact ⟨k, h1, by rw [← hbits k h1]; exact h2⟩
    · rintro ⟨k, h1, h2⟩; exact ⟨k, h1, by rw [hbits k h1]; exact h2⟩
  obtain ⟨z, h1, h2⟩ := plain_linEnc (env := env) hs (I := binOps.tensor ι) (S := binSem.tensor ι) .add b2
    (pub_long (ι := ι) (K := binKit) binKitSem (t := fun j => if primeKit.isZero (v j) then 0 else 1)
      (b := fun j => !primeKit.isZero (v j)) (fun j => by cases primeKit.isZero (v j) <;> rfl))
  refine ⟨z, ?_, h2.congr ?_⟩
  · unfold Falcon.privateCompare
    rw [show pyGet xs 0 = .ok x0 by simp [pyGet, a1], ok_bind]
    dsimp only
    rw [hx0, b1, ok_bind, c1, ok_bind, d1, ok_bind, e1, ok_bind, f1]
    dsimp only
    refine (congrArg (· >>= _) g1).trans ?_
    rw [ok_bind]
    exact h1
  · funext j
    show binDen _ + (if (!primeKit.isZero (v j)) = true then 1 else 0) = binDen _
    rw [← binDen_ite, ← binDen_xor]
    congr 1
    have hz := hzero j
    show (rnd.beta j ^^ !primeKit.isZero (v j)) = _
    dsimp only
    generalize rnd.beta j = b at hz ⊢
    generalize primeKit.isZero (v j) = z at hz ⊢
    generalize (r j).toNat % 2 ^ xs.length = y at hz ⊢
    have e1 : ∀ p : Bool, (true ^^ !p) = p := by decide
    have e2 : ∀ p : Bool, (false ^^ !p) = !p := by decide
    cases b
    · rw [e2, if_neg Bool.false_ne_true]
      rw [if_neg Bool.false_ne_true] at hz
      cases z <;> simp at hz ⊢ <;> omega
    · rw [e1, if_pos rfl]
      rw [if_pos rfl] at hz
      cases z <;> simp at hz ⊢ <;> omega

theorem compare_empty (env : Env) (rnd : Falcon.CompareRand (BitVec 8) ι) (r : ι → I64) :
    Falcon.privateCompare primeKit env rnd [] r = .error .indexError := rfl

/-! ## Decomposition by a trusted third party -/

theorem ttp3 {w : Nat} {env : Env} {s : Session} (hs : s.Three env) (hw : s.ringSize = 2 ^ w) (r1 r2 : Nat → ι → Bool)
    {x : RMPC (ι → BitVec w)} {c : Config} {v : ι → BitVec w} (hx : x.Is ((powSem w).tensor ι) s (2 ^ w) c v) :
    ∃ l, ABY3.bitDecompositionTtp r1 r2 x s = .ok l ∧ l.length = w ∧
      ∀ i < w, ∃ z, l[i]? = some z ∧ z.Bits s (fun j => (v j).getLsbD i) := by
  obtain ⟨u0, u1, u2, p0, p1, p2, c0, c1, c2, hu, hc, e0, e1, e2, q0, q1, q2, n0, n1, n2⟩ := three_unpack hs
  obtain ⟨e, h1, h2, h3⟩ := is_reconstruct hs hx
  have he : e = v := h3
  subst he
  let R : Nat → RMPC (ι → Bool) := fun i =>
    let t3 : ι → Bool := fun j => (e j).getLsbD i ^^ r1 i j ^^ r2 i j
    ⟨s, [⟨[r1 i, r2 i], some u0, { encoderBase := 1, encoderPrecision := 0 }, 2⟩,
      ⟨[r2 i, t3], some u1, { encoderBase := 1, encoderPrecision := 0 }, 2⟩,
      ⟨[t3, r1 i], some u2, { encoderBase := 1, encoderPrecision := 0 }, 2⟩]⟩
  refine ⟨(List.range w).map R, ?_, by simp, ?_⟩
  · unfold ABY3.bitDecompositionTtp
    rw [h1, ok_bind, hw, getNrBits_pow]
    apply mapM_ok
    intro i hi
    have hi : i < w := by simpa using hi
    have hsec : (fun j => decide ((e j &&& (1#w <<< i)) ≠ 0)) = fun j => (e j).getLsbD i := by
      funext j; exact mask_bit (e j) hi
    dsimp only
    rw [hsec]
    have hsum : (binOps.tensor ι).sum [fun j => (e j).getLsbD i, r1 i, r2 i]
        = .ok (fun j => (e j).getLsbD i ^^ r1 i j ^^ r2 i j) := rfl
    rw [hsum, ok_bind, distribute3 hs hu, ok_bind, rofShares3 hs]
    rfl
  · intro i hi
    refine ⟨R i, by simp [hi], { encoderBase := 1, encoderPrecision := 0 }, .inr (.inr rfl), ?_⟩
    apply is_of_list (binSem.tensor ι) hu 2 _ _ _ _ (fun _ => trivial) (fun _ => trivial) (fun _ => trivial)
    funext j
    show binDen (r1 i j) + binDen (r2 i j) + binDen ((e j).getLsbD i ^^ r1 i j ^^ r2 i j) = binDen ((e j).getLsbD i)
    rw [← binDen_xor, ← binDen_xor]
    congr 1
    cases r1 i j <;> cases r2 i j <;> cases (e j).getLsbD i <;> rfl

end SyMPC
